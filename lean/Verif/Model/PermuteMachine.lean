import Verif.Model.Permute
import Verif.Model.TensorOps
/-
Model of permute, transpose, adjoint and kron in machine words and with pointers: the functions of
Model/Permute.lean and Model/TensorOps.lean, where every product of `index` (64 bits) is checked, and
so is every pointer which is computed, including those after the last step of a loop.
/repo/src/tensor/tensor_permute.cc, matrix_transpose.cc, matrix_adjoint.cc, tensor_kron.hpp.

By the language a pointer into an array must not leave the array, except for the position after the
last element; what a pointer further on does is a parameter `far`: undefined behaviour (`lang`), or
nothing as long as it is not used (`flat`), as on processors with one address space.

Simplifications: memory is not exhausted; the pointers which are advanced once for each element that
is read or written (`ijk_a++`, `pc++`) are not checked, since they stop after the last one.
-/
namespace Verif.PermuteMachine

open Verif Verif.Tensor

variable {α β : Type}

/-- A product of two numbers of type `index` which are not negative. -/
def mul (a b : Nat) : Res Nat := if a * b < 2 ^ 63 then .ok (a * b) else .ub

/-- `for (...) aux *= d[i]`, tensor_permute.cc:153-160 and indices.cc:43-48. -/
def mulAll : Nat → List Nat → Res Nat
  | aux, [] => .ok aux
  | aux, d :: ds => do
    let aux ← mul aux d
    mulAll aux ds

/-- Indices::total_size, indices.cc:38-55. -/
def total (d : List Nat) : Res Nat := if d = [] then .ok 0 else mulAll 1 d

/-- A pointer beyond the position after the last element is undefined behaviour. -/
def lang (_ : Nat) : Res Nat := .ub

/-- A pointer beyond the position after the last element is a number like others. -/
def flat (x : Nat) : Res Nat := .ok x

/-- `p += s` for a pointer into an array of `len` elements. -/
def move (far : Nat → Res Nat) (len p s : Nat) : Res Nat :=
  if p + s ≤ len then .ok (p + s) else far (p + s)

/-- `for (index i = n; i--; p += stride) { body(p) }`: the pointer is moved after each iteration, the last one
included. -/
def ptrLoop (mv : Nat → Nat → Res Nat) (n stride base : Nat) (body : Nat → Res (List β)) : Res (List β) :=
  match n with
  | 0 => .ok []
  | n + 1 => do
    let xs ← body base
    let next ← mv base stride
    let ys ← ptrLoop mv n stride next body
    pure (xs ++ ys)

/-- permute_12, tensor_permute.cc:26-46. -/
def permute12 (mv : Nat → Nat → Res Nat) (a1 a2 a3 : Nat) : Res (List Nat) := do
  let s ← mul a1 a2
  ptrLoop mv a3 s 0 fun k_b =>
    ptrLoop mv a2 1 k_b fun jk_b =>
      ptrLoop mv a1 a2 jk_b fun ijk_b => .ok [ijk_b]

/-- permute_23, tensor_permute.cc:48-75. -/
def permute23 (mv : Nat → Nat → Res Nat) (a1 a2 a3 a4 : Nat) : Res (List Nat) := do
  let a13 ← mul a1 a3
  let a132 ← mul a13 a2
  ptrLoop mv a4 a132 0 fun l_b =>
    ptrLoop mv a3 a1 l_b fun kl_b =>
      ptrLoop mv a2 a13 kl_b fun kjl_b =>
        ptrLoop mv a1 1 kjl_b fun ikjl_b => .ok [ikjl_b]

/-- permute_24, tensor_permute.cc:77-109. -/
def permute24 (mv : Nat → Nat → Res Nat) (a1 a2 a3 a4 a5 : Nat) : Res (List Nat) := do
  let a14 ← mul a1 a4
  let a143 ← mul a14 a3
  let a1432 ← mul a143 a2
  ptrLoop mv a5 a1432 0 fun m_b =>
    ptrLoop mv a4 a1 m_b fun lm_b =>
      ptrLoop mv a3 a14 lm_b fun lkm_b =>
        ptrLoop mv a2 a143 lkm_b fun lkjm_b =>
          ptrLoop mv a1 1 lkjm_b fun ilkjm_b => .ok [ilkjm_b]

/-- permute_13, tensor_permute.cc:111-139. -/
def permute13 (mv : Nat → Nat → Res Nat) (a1 a2 a3 a4 : Nat) : Res (List Nat) := do
  let a32 ← mul a3 a2
  let a321 ← mul a32 a1
  ptrLoop mv a4 a321 0 fun l_b =>
    ptrLoop mv a3 1 l_b fun kl_b =>
      ptrLoop mv a2 a3 kl_b fun kjl_b =>
        ptrLoop mv a1 a32 kjl_b fun kjil_b => .ok [kjil_b]

/-- `Tensor<n> output(dims); permute_..(output, ...); return output`. -/
def filled (far : Nat → Res Nat) (dims : List Nat) (src : List α)
    (positions : (Nat → Nat → Res Nat) → Res (List Nat)) : Res (Tensor α) := do
  let n ← total dims
  let ps ← positions (move far n)
  Tensor.filled dims src ps

/-- reshape(a, dims), tensor_reshape_d.cc. -/
def reshape (a : Tensor α) (dims : List Nat) : Res (Tensor α) := do
  let _ ← total dims
  a.reshape dims

/-- The part of do_permute after the label NO_A3, tensor_permute.cc:181-193. -/
def permuteNoA3 (far : Nat → Res Nat) (a : Tensor α) (newDims : List Nat) (a1 a2 a4 a5 : Nat) : Res (Tensor α) :=
  if a4 > 1 ∨ a2 > 1 then
    if a1 > 1 then filled far newDims a.data (permute23 · a1 a2 a4 a5)
    else filled far newDims a.data (permute12 · a2 a4 a5)
  else reshape a newDims

/-- do_permute after the test for equal indices, with `n1 < n2`, tensor_permute.cc:151-193. -/
def permuteSorted (far : Nat → Res Nat) (a : Tensor α) (n1 n2 : Nat) : Res (Tensor α) := do
  let a1 ← mulAll 1 (a.dims.take n1)
  let a2 ← Res.ofOption a.dims[n1]?
  let a3 ← mulAll 1 ((a.dims.take n2).drop (n1 + 1))
  let a4 ← Res.ofOption a.dims[n2]?
  let a5 ← mulAll 1 (a.dims.drop (n2 + 1))
  let newDims := (a.dims.set n1 a4).set n2 a2
  if a.size ≠ 0 then
    if a2 = 1 then permuteNoA3 far a newDims a1 a3 a4 a5
    else if a4 = 1 then permuteNoA3 far a newDims a1 a2 a3 a5
    else if a3 > 1 then
      if a1 > 1 then filled far newDims a.data (permute24 · a1 a2 a3 a4 a5)
      else filled far newDims a.data (permute13 · a2 a3 a4 a5)
    else permuteNoA3 far a newDims a1 a2 a4 a5
  else reshape a newDims

/-- permute(a, ndx1, ndx2), tensor_permute.cc:141-150. -/
def permute (far : Nat → Res Nat) (a : Tensor α) (ndx1 ndx2 : Int) : Res (Tensor α) := do
  let n1 ← normalizeIndex ndx1 a.rank
  let n2 ← normalizeIndex ndx2 a.rank
  if n2 < n1 then permuteSorted far a n2.toNat n1.toNat
  else if n2 = n1 then pure a
  else permuteSorted far a n1.toNat n2.toNat

/-- transpose, matrix_transpose.cc:25-35; the constructor multiplies the dimensions, tensor_base.hpp:68-72. -/
def transpose (far : Nat → Res Nat) (a : Tensor α) : Res (Tensor α) :=
  match a.dims with
  | [rows, cols] => do
    let n ← mul cols rows
    let ps ← if cols ≠ 0 ∧ rows ≠ 0 then permute12 (move far n) rows cols 1 else .ok []
    Tensor.filled [cols, rows] a.data ps
  | _ => .abort

/-- adjoint, matrix_adjoint.cc:25-45. -/
def adjoint (far : Nat → Res Nat) (conj : α → α) (a : Tensor α) : Res (Tensor α) :=
  match a.dims with
  | [rows, cols] => do
    let n ← mul cols rows
    let ps ← if cols ≠ 0 ∧ rows ≠ 0 then
        ptrLoop (move far n) cols 1 0 fun j_b =>
          ptrLoop (move far n) rows cols j_b fun ji_b => .ok [ji_b]
      else .ok []
    Tensor.filled [cols, rows] (a.data.map conj) ps
  | _ => .abort

/-- Positions `(b, a)` read by the loops of do_kron, tensor_kron.hpp:58-78, for arrays of `nb` and `na`
elements. -/
def kronSteps (far : Nat → Res Nat) (nb na iLen jLen kLen lLen : Nat) : Res (List (Nat × Nat)) :=
  ptrLoop (move far nb) lLen jLen 0 fun pb =>
    ptrLoop (move far na) kLen iLen 0 fun pa =>
      ptrLoop (move far nb) jLen 1 pb fun pb2 =>
        ptrLoop (move far na) iLen 1 pa fun pa2 => .ok [(pb2, pa2)]

/-- do_kron for two matrices, tensor_kron.hpp:47-79 (the version without CBLAS). -/
def kronMat [Mul α] (far : Nat → Res Nat) (b a : Tensor α) : Res (Tensor α) := do
  let iLen ← a.dimension 0
  let jLen ← b.dimension 0
  let kLen ← a.dimension 1
  let lLen ← b.dimension 1
  let ij ← mul iLen jLen
  let kl ← mul kLen lLen
  let n ← mul ij kl
  if ij = 0 ∨ kl = 0 then
    let data ← runWrites n []
    pure ⟨[ij, kl], data⟩
  else
    let ps ← kronSteps far b.data.length a.data.length iLen jLen kLen lLen
    let vals := ps.map fun (pb2, pa2) => do
      let v ← b.data[pb2]?
      let x ← a.data[pa2]?
      pure (v * x)
    let data ← runWrites n (seqFrom 0 vals)
    pure ⟨[ij, kl], data⟩

/-- kron(b, a) = do_kron(b, a), tensor_kron.hpp:34-80. -/
def kron [Mul α] (far : Nat → Res Nat) (b a : Tensor α) : Res (Tensor α) := do
  Res.assert (b.rank = a.rank)
  Res.assert (b.rank ≤ 2)
  if a.rank = 1 then do
    let b' ← b.reshape [b.size, 1]
    let a' ← a.reshape [a.size, 1]
    let c ← kronMat far b' a'
    let n ← mul a.size b.size
    c.reshape [n]
  else kronMat far b a

end Verif.PermuteMachine
