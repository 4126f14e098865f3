import Verif.Model.Arith
import Verif.Model.Reduce
import Verif.Model.Fold
/-
Model of the conjugate gradient method, /repo/src/linalg/cgs.cc, and of the maps that it admits,
/repo/src/tools/map.cc. Numbers are the elements of a field, rounding is not modelled. The counter
`maxiter` is not bounded.
-/
namespace Verif.Cgs

open Verif Tensor

variable {α β : Type}

/-- The functions over numbers: `conj` is the identity for RTensor, `tiny x` is 1e-15 * x. -/
structure Num (α β : Type) where
  conj : α → α
  abs : α → β
  sqrt : β → β
  tiny : β → β

/-- A quotient of numbers; infinities are not numbers of the model. -/
def quot [Zero α] [Div α] [DecidableEq α] (x y : α) : Res α := if y = 0 then .ub else .ok (x / y)

/-- What solve has at its end: the solution, the vector `r` and how many times the map was used. Only
the solution is returned. -/
structure Out (α : Type) where
  x : Tensor α
  r : Tensor α
  used : Nat
  deriving DecidableEq

section
variable [Zero α] [Add α] [Sub α] [Mul α] [Div α] [DecidableEq α] [LT β] [DecidableLT β]

/-- The loop, cgs.cc:43-60, for at most `k` iterations. -/
def loop (N : Num α β) (A : Tensor α → Res (Tensor α)) (tol : β) : Nat → Tensor α → Tensor α → Tensor α →
    α → Nat → Res (Out α)
  | 0, x, r, _, _, used => .ok ⟨x, r, used⟩
  | k + 1, x, r, p, rsold, used => do
    let Ap ← A p
    let beta ← scprod N.conj p Ap
    if N.abs beta < N.tiny (N.abs rsold) then .abort
    else do
      let alpha ← quot rsold beta
      let t ← binopNT (· * ·) alpha p
      let x ← inplaceTT (· + ·) x false t
      let t ← binopNT (· * ·) alpha Ap
      let r ← inplaceTT (· - ·) r false t
      let rsnew ← scprod N.conj r r
      if N.sqrt (N.abs rsnew) < tol then .ok ⟨x, r, used + 1⟩
      else do
        let gamma ← quot rsnew rsold
        let t ← binopNT (· * ·) gamma p
        let p ← binopTT (· + ·) r t
        loop N A tol k x r p rsnew (used + 1)

/-- `if (maxiter == 0) maxiter = b.rows()`, cgs.cc:31-33. -/
def limit (b : Tensor α) (maxiter : Int) : Res Int :=
  if maxiter = 0 then do
    let n ← b.dimension 0
    pure (n : Int)
  else pure maxiter

/-- solve, cgs.cc:27-64. The loop `while (maxiter-- >= 0)` has maxiter + 1 iterations. `deftol` is 1e-10,
`start` is the vector b + 0.05 * random(b.dimensions()). -/
def solve [Zero β] [LE β] [DecidableLE β] (N : Num α β) (deftol : β) (A : Tensor α → Res (Tensor α))
    (b : Tensor α) (xstart : Option (Tensor α)) (start : Tensor α) (maxiter : Int) (tol : β) :
    Res (Out α) := do
  let maxiter ← limit b maxiter
  let tol := if tol ≤ 0 then deftol else tol
  let x := xstart.getD start
  let Ax ← A x
  let r ← binopTT (· - ·) b Ax
  let rsold ← scprod N.conj r r
  if tol < N.sqrt (N.abs rsold) then loop N A tol (maxiter + 1).toNat x r r rsold 1
  else .ok ⟨x, r, 1⟩

end

/-- MatrixMap::operator(), map.cc:33-35, for tensors. -/
def matrixMap [Zero α] [Add α] [Mul α] (m : Tensor α) (transpose : Bool) (arg : Tensor α) :
    Res (Tensor α) :=
  if transpose then mmult arg m else mmult m arg

end Verif.Cgs
