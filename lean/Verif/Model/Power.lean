import Verif.Model.Cgs
/-
Model of the power method, /repo/src/linalg/eig_power.hpp, and of its wrappers for matrices,
eig_power_d.cc, eig_power_z.cc, eig_power_map_d.cc, eig_power_map_z.cc. Numbers are the elements of a
field, rounding is not modelled. The counter of iterations is not bounded (in C++ it is a size_t).
-/
namespace Verif.Power

open Verif Tensor

variable {α β : Type}

/-- The functions over numbers: `conj` and `re` are the identity for RTensor, `up` makes an element
from a real number. -/
structure Num (α β : Type) where
  conj : α → α
  abs : α → β
  re : α → β
  sqrt : β → β
  up : β → α

/-- What eig_power_loop has at its end: the value that it returns, the vector, and how many times the
map was used. -/
structure Out (α : Type) where
  eig : α
  v : Tensor α
  used : Nat
  deriving DecidableEq

section
variable [Zero α] [Add α] [Sub α] [Mul α] [Div α] [DecidableEq α] [Zero β] [Mul β] [LT β] [DecidableLT β]

/-- `v /= norm2(v)`, eig_power.hpp:44, 57. What is not a number is not in the model. -/
def unit (N : Num α β) (v : Tensor α) : Res (Tensor α) := do
  let s ← norm2 N.conj N.re N.sqrt v
  if N.up s = 0 ∧ v.data ≠ [] then .ub else inplaceTN (· / ·) v (.val (N.up s))

/-- `i && (std::abs(eig - old_eig) < tol * std::abs(eig))`, eig_power.hpp:62; `none` is the first
iteration. -/
def stopped (N : Num α β) (tol : β) (eig : α) : Option α → Prop
  | none => False
  | some old => N.abs (eig - old) < tol * N.abs eig

instance (N : Num α β) (tol : β) (eig : α) : (old : Option α) → Decidable (stopped N tol eig old)
  | none => inferInstanceAs (Decidable False)
  | some old => inferInstanceAs (Decidable (N.abs (eig - old) < tol * N.abs eig))

/-- The loop, eig_power.hpp:53-65, for at most `k` iterations. Without iterations, `eig` would not have
been set. -/
def loop (N : Num α β) (A : Tensor α → Res (Tensor α)) (tol : β) : Nat → Option α → Tensor α → Nat →
    Res (Out α)
  | 0, none, _, _ => .ub
  | 0, some eig, v, used => .ok ⟨eig, v, used⟩
  | k + 1, old, v, used => do
    let w ← A v
    let eig ← scprod N.conj v w
    let t ← binopNT (· * ·) eig v
    let t ← binopTT (· - ·) w t
    let v ← unit N w
    if norm0 N.abs t < tol * N.abs eig then .ok ⟨eig, v, used + 1⟩
    else if stopped N tol eig old then .ok ⟨eig, v, used + 1⟩
    else loop N A tol k (some eig) v (used + 1)

/-- eig_power_loop, eig_power.hpp:29-68. `vector = none` is the null pointer, `deftol` is 1e-11,
`start` is 0.5 - Tensor::random(dims). -/
def power [LE β] [DecidableLE β] (N : Num α β) (deftol : β) (A : Tensor α → Res (Tensor α)) (dims : Nat)
    (vector : Option (Tensor α)) (start : Tensor α) (iter : Nat) (tol : β) : Res (Out α) := do
  let tol := if tol ≤ 0 then deftol else tol
  let v ← (match vector with
    | none => .abort
    | some v => .ok v)
  let v := if v.size ≠ dims then start else v
  let iter := if iter = 0 then max 20 v.size else iter
  let v ← unit N v
  loop N A tol (iter + 1) none v 0

/-- eig_power_right and eig_power_left (`left`), eig_power_d.cc:31-52, eig_power_z.cc:31-52. -/
def eigPower [LE β] [DecidableLE β] (N : Num α β) (deftol : β) (left : Bool) (m : Tensor α)
    (vector : Option (Tensor α)) (start : Tensor α) (iter : Nat) (tol : β) : Res (Out α) := do
  let r ← m.dimension 0
  let c ← m.dimension 1
  Res.assert (r = c)
  power N deftol (Cgs.matrixMap m left) c vector start iter tol

end

end Verif.Power
