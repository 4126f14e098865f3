import Verif.Model.Rand
import Verif.Model.Tensor
import Verif.Model.SparseFl
/-
Model of random tensors and sparse matrices: /repo/include/tensor/detail/tensor_base.hpp:366-427 and
/repo/include/tensor/detail/sparse_base.hpp:254-270, with the generator of 64 bits.
-/
namespace Verif.Rand

open Verif

/-- Tensor::randomize for numbers of type double, tensor_base.hpp:366-371: the elements are drawn in the order in which
they are stored. -/
def randomize : Nat → State 64 → Res (List ℚ × State 64)
  | 0, s => .ok ([], s)
  | n + 1, s => do
    let p ← randDouble s
    let q ← randomize n p.2
    pure (p.1 :: q.1, q.2)

/-- RTensor::random, tensor_base.hpp:373-427. -/
def random (dims : List Nat) (s : State 64) : Res (Tensor ℚ × State 64) := do
  let x ← randomize (Tensor.totalSize dims) s
  pure (⟨dims, x.1⟩, x.2)

/-- `rand<cdouble>()`, rand.cc:123-125: `to_complex(genrand_res53(), genrand_res53())`. Which of the two arguments is
computed first is left to the compiler. -/
def randComplex (realFirst : Bool) (s : State 64) : Res ((ℚ × ℚ) × State 64) := do
  let p ← genrandRes53 s
  let q ← genrandRes53 p.2
  pure (if realFirst then (p.1, q.1) else (q.1, p.1), q.2)

/-- Tensor::randomize for complex numbers, tensor_base.hpp:366-371. -/
def randomizeC (realFirst : Bool) : Nat → State 64 → Res (List (ℚ × ℚ) × State 64)
  | 0, s => .ok ([], s)
  | n + 1, s => do
    let p ← randComplex realFirst s
    let q ← randomizeC realFirst n p.2
    pure (p.1 :: q.1, q.2)

/-- CTensor::random, tensor_base.hpp:373-427. -/
def randomC (realFirst : Bool) (dims : List Nat) (s : State 64) : Res (Tensor (ℚ × ℚ) × State 64) := do
  let x ← randomizeC realFirst (Tensor.totalSize dims) s
  pure (⟨dims, x.1⟩, x.2)

variable [Rounding]

/-- The body of the loop, sparse_base.hpp:264-267. -/
noncomputable def thin (density x : Fl) : Fl := if density < x.abs then 0 else x / density

/-- RSparse::random, sparse_base.hpp:254-270. -/
noncomputable def sparseRandom (rows cols : Nat) (density : Fl) (s : State 64) :
    Res (Sparse Fl × State 64) := do
  let x ← random [rows * cols] s
  let t ← Tensor.reshape ⟨x.1.dims, x.1.data.map fun r : ℚ => thin density (.fin r)⟩ [rows, cols]
  let m ← SparseFl.ofTensor SparseFl.isZero t
  pure (m, x.2)

end Verif.Rand
