import Verif.Model.View
import Verif.Model.Fold
import Verif.Model.TensorOps
/-
Model of the singular value decomposition, /repo/src/linalg/svd_d.cc, svd_z.cc, and of the solution of
equations with it, solve_with_svd_d.cc, solve_with_svd_z.cc. The routine gesvd of LAPACK is a
parameter. Rounding is not modelled.
-/
namespace Verif.Svd

open Verif Tensor View

variable {α β : Type}

/-- 'N', 'S', 'A'. -/
inductive Job where
  | none
  | small
  | all
  deriving DecidableEq

/-- What gesvd leaves in info and in the arrays s, u, v. -/
structure Out (α β : Type) where
  info : Int
  s : List β
  u : List α
  v : List α

/-- gesvd(jobu, jobv, m, n, a, lda, ..., ldu, ..., ldv, ...). -/
abbrev Gesvd (α β : Type) := Job → Job → Nat → Nat → List α → Nat → Nat → Nat → Out α β

/-- jobu and jobv, svd_d.cc:74, 77, 84, 87. -/
def job (wanted economic : Bool) : Job :=
  if wanted then (if economic then .small else .all) else .none

/-- svd, svd_d.cc:49-106, svd_z.cc:44-104. The tensors U and VT are only set if they are wanted. -/
def svd (g : Gesvd α β) (A : Tensor α) (wantU wantV economic : Bool) :
    Res (Tensor β × Option (Tensor α) × Option (Tensor α)) := do
  let rows ← A.dimension 0
  Res.assert (rows > 0)
  let columns ← A.dimension 1
  Res.assert (columns > 0)
  Res.assert (A.rank = 2)
  let m := rows
  let n := columns
  let k := min m n
  let ldu := if wantU then m else 1
  let ldv := if wantV then (if economic then k else n) else 1
  let o := g (job wantU economic) (job wantV economic) m n A.data m ldu ldv
  .ok (⟨[k], o.s⟩,
    if wantU then some ⟨[m, if economic then k else m], o.u⟩ else none,
    if wantV then some ⟨[if economic then k else n, n], o.v⟩ else none)

/-- `t = t(r1, ..., rn)`. -/
def sliceT (fuel : Nat) (t : Tensor α) (rs : List View.Spec) : Run (Tensor α) := do
  let r ← slice fuel t rs
  pure ⟨r.1.map Int.toNat, r.2⟩

/-- The body of the loop, solve_with_svd_d.cc:45-49. -/
def cut [LE β] [DecidableLE β] (fuel : Nat) (tol : β) (i : Nat) (U : Tensor α) (s : Tensor β)
    (VT : Tensor α) : Run (Tensor α × Tensor β × Tensor α) := do
  let x ← Run.done (s.dataAt i)
  if x ≤ tol then do
    let U ← sliceT fuel U [.all, .step 0 ((i : Int) - 1) 1]
    let s ← sliceT fuel s [.step 0 ((i : Int) - 1) 1]
    let VT ← sliceT fuel VT [.step 0 ((i : Int) - 1) 1, .all]
    pure (U, s, VT)
  else pure (U, s, VT)

/-- The loop, solve_with_svd_d.cc:44-50, from `i` on. It makes at most as many steps as there are
singular values. -/
def cutLoop [LE β] [DecidableLE β] (fuel : Nat) (tol : β) :
    Nat → Nat → Tensor α × Tensor β × Tensor α → Run (Tensor α × Tensor β × Tensor α)
  | 0, _, x => pure x
  | k + 1, i, x =>
    if i < x.2.1.size then do
      let y ← cut fuel tol i x.1 x.2.1 x.2.2
      cutLoop fuel tol k (i + 1) y
    else pure x

/-- solve_with_svd, solve_with_svd_d.cc:36-54, solve_with_svd_z.cc:36-54; `conj` is the identity for
RTensor, `up` makes an element from a real number, `eps` is DBL_EPSILON. -/
def solveWithSvd [Zero α] [Add α] [Mul α] [Zero β] [One β] [Div β] [LE β] [DecidableLE β] (fuel : Nat)
    (g : Gesvd α β) (conj : α → α) (up : β → α) (eps : β) (A B : Tensor α) (tol : β) :
    Run (Tensor α) := do
  let r ← Run.done (svd g A true true true)
  let U ← Run.done (Res.ofOption r.2.1)
  let VT ← Run.done (Res.ofOption r.2.2)
  let tol := if tol ≤ 0 then eps else tol
  let y ← cutLoop fuel tol r.1.size 0 (U, r.1, VT)
  let X ← Run.done (foldc conj y.1 0 B 0)
  let q ← Run.done (binopNT (· / ·) 1 y.2.1)
  let X ← Run.done (scaleInplace (fun x y => x * up y) X 0 q)
  Run.done (foldc conj y.2.2 0 X 0)

end Verif.Svd
