import Verif.Core.Float
import Verif.Model.Arith
import Verif.Model.Reduce
/-
Model of the power method, /repo/src/linalg/eig_power.hpp, for tensors of doubles: the same program as Model/Power.lean,
with the operations of IEEE 754, which give infinities and NaN where exact numbers have no quotient.
-/
namespace Verif.PowerFl

open Verif Tensor

/-- Why the loop ended: one of the two tests, or all of the iterations were used. -/
inductive Stop
  | residual
  | value
  | limit
  deriving DecidableEq

/-- What eig_power_loop has at its end: the value that it returns, the vector, how many times the map was used, and (not
visible to the program) why it ended and the vector to which the map was applied last. -/
structure Out where
  eig : Fl
  v : Tensor Fl
  used : Nat
  why : Stop
  last : Tensor Fl

section
variable [Rounding]

/-- `v /= norm2(v)`, eig_power.hpp:44, 57. -/
noncomputable def unit (v : Tensor Fl) : Res (Tensor Fl) := do
  let s ← norm2 id id Fl.sqrt v
  inplaceTN (· / ·) v (.val s)

/-- The loop, eig_power.hpp:53-65, for at most `k` iterations; `old = none` in the first one. Without iterations, `eig` would
not have been set. -/
noncomputable def loop (A : Tensor Fl → Res (Tensor Fl)) (tol : Fl) : Nat → Option (Fl × Tensor Fl) → Tensor Fl → Nat →
    Res Out
  | 0, none, _, _ => .ub
  | 0, some old, v, used => .ok ⟨old.1, v, used, .limit, old.2⟩
  | k + 1, old, v, used => do
    let w ← A v
    let eig ← scprod id v w
    let t ← binopNT (· * ·) eig v
    let t ← binopTT (· - ·) w t
    let err := norm0 Fl.abs t
    let u ← unit w
    if err < tol * Fl.abs eig then .ok ⟨eig, u, used + 1, .residual, v⟩
    else match old with
      | none => loop A tol k (some (eig, v)) u (used + 1)
      | some o =>
        if Fl.abs (eig - o.1) < tol * Fl.abs eig then .ok ⟨eig, u, used + 1, .value, v⟩
        else loop A tol k (some (eig, v)) u (used + 1)

/-- eig_power_loop, eig_power.hpp:29-68. `vector = none` is the null pointer, `deftol` is 1e-11,
`start` is 0.5 - Tensor::random(dims). -/
noncomputable def power (deftol : Fl) (A : Tensor Fl → Res (Tensor Fl)) (dims : Nat)
    (vector : Option (Tensor Fl)) (start : Tensor Fl) (iter : Nat) (tol : Fl) : Res Out := do
  let tol := if tol ≤ 0 then deftol else tol
  let v ← (match vector with
    | none => .abort
    | some v => .ok v)
  let v := if v.size ≠ dims then start else v
  let iter := if iter = 0 then max 20 v.size else iter
  let v ← unit v
  loop A tol (iter + 1) none v 0

end

end Verif.PowerFl
