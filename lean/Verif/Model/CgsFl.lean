import Verif.Core.Float
import Verif.Model.Arith
import Verif.Model.Reduce
/-
Model of the conjugate gradient method, /repo/src/linalg/cgs.cc, for tensors of doubles: the same program as Model/Cgs.lean,
with the operations of IEEE 754, which give infinities and NaN where exact numbers have no quotient. The counter `maxiter`
is not bounded.
-/
namespace Verif.CgsFl

open Verif Tensor

/-- What solve has at its end: the solution, and, not visible to the program, the vector `r`, how often the map was used,
whether the test of cgs.cc:56 ended the loop, and all of the pairs (x, r), the last one first. -/
structure Out where
  x : Tensor Fl
  r : Tensor Fl
  used : Nat
  conv : Bool
  hist : List (Tensor Fl × Tensor Fl)

section
variable [Rounding]

/-- The loop, cgs.cc:43-60, for at most `k` iterations. `c15` is the constant 1e-15. -/
noncomputable def loop (c15 : Fl) (A : Tensor Fl → Res (Tensor Fl)) (tol : Fl) : Nat → Tensor Fl → Tensor Fl → Tensor Fl →
    Fl → Nat → List (Tensor Fl × Tensor Fl) → Res Out
  | 0, x, r, _, _, used, hist => .ok ⟨x, r, used, false, hist⟩
  | k + 1, x, r, p, rsold, used, hist => do
    let Ap ← A p
    let beta ← scprod id p Ap
    if Fl.abs beta < c15 * Fl.abs rsold then .abort
    else do
      let beta ← scprod id p Ap
      let alpha := rsold / beta
      let t ← binopNT (· * ·) alpha p
      let x ← inplaceTT (· + ·) x false t
      let t ← binopNT (· * ·) alpha Ap
      let r ← inplaceTT (· - ·) r false t
      let rsnew ← scprod id r r
      if Fl.sqrt (Fl.abs rsnew) < tol then .ok ⟨x, r, used + 1, true, (x, r) :: hist⟩
      else do
        let t ← binopNT (· * ·) (rsnew / rsold) p
        let p ← binopTT (· + ·) r t
        loop c15 A tol k x r p rsnew (used + 1) ((x, r) :: hist)

/-- `if (maxiter == 0) maxiter = b.rows()`, cgs.cc:31-33. -/
def limit (b : Tensor Fl) (maxiter : Int) : Res Int :=
  if maxiter = 0 then do
    let n ← b.dimension 0
    pure (n : Int)
  else pure maxiter

/-- solve, cgs.cc:27-64. The loop `while (maxiter-- >= 0)` has maxiter + 1 iterations. `deftol` is 1e-10,
`start` is the vector b + 0.05 * random(b.dimensions()). -/
noncomputable def solve (c15 deftol : Fl) (A : Tensor Fl → Res (Tensor Fl)) (b : Tensor Fl) (xstart : Option (Tensor Fl))
    (start : Tensor Fl) (maxiter : Int) (tol : Fl) : Res Out := do
  let maxiter ← limit b maxiter
  let tol := if tol ≤ 0 then deftol else tol
  let x := xstart.getD start
  let Ax ← A x
  let r ← binopTT (· - ·) b Ax
  let rsold ← scprod id r r
  if tol < Fl.sqrt (Fl.abs rsold) then loop c15 A tol (maxiter + 1).toNat x r r rsold 1 [(x, r)]
  else .ok ⟨x, r, 1, false, [(x, r)]⟩

end

end Verif.CgsFl
