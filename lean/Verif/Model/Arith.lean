import Verif.Core.Res
import Verif.Model.Tensor
/-
Model of elementwise arithmetic.
/repo/src/tensor/tensor_t_op_t.cc, tensor_t_op_n.cc, tensor_unop.cc, tensor_conj.cc,
tensor_to_complex.cc (instantiated in /repo/src/generated), /repo/src/generated/tensor_plus_t1_*.cc,
tensor_minus_t1_*.cc and /repo/include/tensor/detail/tensor_ops.hpp.
-/
namespace Verif.Tensor

open Verif

variable {α β γ : Type}

/-- The writes `*dest = (*ita) OP (*itb)` for i = n, ..., 1, tensor_t_op_t.cc:30-32. -/
def zipLoop (f : α → β → γ) (a : List α) (b : List β) (n : Nat) : List (Nat × Option γ) :=
  (List.range n).map fun i => (i, do
    let x ← a[i]?
    let y ← b[i]?
    pure (f x y))

/-- The writes `*dest = OP(*ita)` for i = n, ..., 1, tensor_t_op_n.cc:28-30. -/
def mapLoop (f : α → γ) (a : List α) (n : Nat) : List (Nat × Option γ) :=
  (List.range n).map fun i => (i, (a[i]?).map f)

/-- Tensor OP Tensor, tensor_t_op_t.cc:24-34: only the sizes are compared. -/
def binopTT (f : α → β → γ) (a : Tensor α) (b : Tensor β) : Res (Tensor γ) := do
  Res.assert (a.size = b.size)
  let c ← runWrites (totalSize a.dims) (zipLoop f a.data b.data a.size)
  pure ⟨a.dims, c⟩

/-- Tensor OP Tensor for operands of different type, tensor_ops.hpp:49-83: the dimensions are
compared (tensor_common.cc:26-35). -/
def binopMixed (f : α → β → γ) (a : Tensor α) (b : Tensor β) : Res (Tensor γ) := do
  Res.assert (a.dims = b.dims)
  let c ← runWrites (totalSize a.dims) (zipLoop f a.data b.data a.size)
  pure ⟨a.dims, c⟩

/-- Unary operation on a tensor: tensor_unop.cc:25-33, conj in tensor_conj.cc:27-37, to_complex in
tensor_to_complex.cc, operator- in tensor_ops.hpp:34-39. -/
def unop (f : α → γ) (a : Tensor α) : Res (Tensor γ) := do
  let c ← runWrites (totalSize a.dims) (mapLoop f a.data a.size)
  pure ⟨a.dims, c⟩

/-- Tensor OP number, tensor_t_op_n.cc:24-32. -/
def binopTN (f : α → β → γ) (a : Tensor α) (b : β) : Res (Tensor γ) := unop (fun x => f x b) a

/-- number OP Tensor, tensor_t_op_n.cc:34-42. -/
def binopNT (f : α → β → γ) (a : α) (b : Tensor β) : Res (Tensor γ) := unop (fun x => f a x) b

/-- The loop of the in-place operators, tensor_plus_t1_double.cc:28-34, tensor_ops.hpp:146-171, from
position `i` for `n` more elements: `*ita = *ita OP *itb`. The second operand is read from the
buffer which is being modified when `b = none`. -/
def inplaceLoop (f : α → α → α) (b : Option (List α)) (buf : List α) (i : Nat) : Nat → Res (List α)
  | 0 => .ok buf
  | n + 1 => do
    let x ← Res.ofOption buf[i]?
    let y ← Res.ofOption ((b.getD buf)[i]?)
    inplaceLoop f b (buf.set i (f x y)) (i + 1) n

/-- a OP= b, tensor_plus_t1_double.cc:25-43, tensor_minus_t1_double.cc; `same` tells whether both
operands are the same variable. -/
def inplaceTT (f : α → α → α) (a : Tensor α) (same : Bool) (b : Tensor α) : Res (Tensor α) := do
  Res.assert (a.size = b.size)
  let c ← inplaceLoop f (if same then none else some b.data) a.data 0 a.size
  pure ⟨a.dims, c⟩

/-- A number passed by reference: a location outside of the tensor with a value, or the element at a
position of the tensor which is modified. -/
inductive NumRef (α : Type) where
  | val (x : α)
  | elt (p : Nat)

/-- `value` in plus_constant and others, functional.h:84-118, which keep a reference. -/
def NumRef.read (buf : List α) : NumRef α → Option α
  | .val x => some x
  | .elt p => buf[p]?

/-- std::transform(a.begin(), a.end(), a.begin(), ..._constant(b)), tensor_ops.hpp:176-195. -/
def inplaceTNLoop (f : α → α → α) (v : NumRef α) (buf : List α) (i : Nat) : Nat → Res (List α)
  | 0 => .ok buf
  | n + 1 => do
    let x ← Res.ofOption buf[i]?
    let y ← Res.ofOption (v.read buf)
    inplaceTNLoop f v (buf.set i (f x y)) (i + 1) n

/-- a OP= number, tensor_ops.hpp:176-195, when no other tensor shares the data of `a`. (Otherwise
`a.begin()` makes a copy first, and the reference remains bound to the original data.) -/
def inplaceTN (f : α → α → α) (a : Tensor α) (v : NumRef α) : Res (Tensor α) := do
  let c ← inplaceTNLoop f v a.data 0 a.size
  pure ⟨a.dims, c⟩

end Verif.Tensor
