import Mathlib.Algebra.Order.Field.Basic
import Verif.Core.Res
/-
Model of the choice of Ritz values in ARPACK, which is compiled into the library:
/repo/src/arpack-ng/dsortr.f, dsortc.f, zsortc.f, dsgets.f, dngets.f, zngets.f, dsconv.f and the part of
dsaup2.f and znaup2.f between the eigenvalues of the small matrix and the end of the iteration. The files in
/repo/src/arpack-f2c are translations of them. Exact arithmetic; the eigenvalues of the small matrix and
their error estimates are the input. Arrays which are always permuted together are one list, so that
`apply` is always true, as it is in all calls. Output of messages and times is left out.
-/
namespace Verif.ArpackSort

open Verif

/-- The inner loop of all sorting routines, dsortr.f:97-115: `m` is j+igap. The loop ends after at most m
steps, so that the first argument, m+1 in the calls, is never used up. -/
def inner {E : Type} (gt : E → E → Bool) (gap : Nat) : Nat → List E → Nat → Res (List E)
  | 0, _, _ => .ub
  | f + 1, l, m =>
    if gap ≤ m then
      match l[m - gap]?, l[m]? with
      | some a, some b =>
        if gt a b then inner gt gap f ((l.set (m - gap) b).set m a) (m - gap) else .ok l
      | _, _ => .ub
    else .ok l

/-- The loop over i, dsortr.f:96-116; the first argument is the number of values of i which remain. -/
def pass {E : Type} (gt : E → E → Bool) (gap : Nat) : Nat → Nat → List E → Res (List E)
  | 0, _, l => .ok l
  | k + 1, i, l => do
    let l ← inner gt gap (i + 1) l i
    pass gt gap k (i + 1) l

/-- The loop over igap, dsortr.f:94-118; the first argument is never used up. -/
def shell {E : Type} (gt : E → E → Bool) (n : Nat) : Nat → Nat → List E → Res (List E)
  | 0, _, _ => .ub
  | f + 1, gap, l =>
    if gap = 0 then .ok l
    else do
      let l ← pass gt gap (n - gap) gap l
      shell gt n f (gap / 2) l

/-- A sorting routine with the test `gt` for elements in the wrong order, on the first n elements,
dsortr.f:88-212, dsortc.f:103-338, zsortc.f:105-316. -/
def sort {E : Type} (gt : E → E → Bool) (n : Nat) (l : List E) : Res (List E) :=
  shell gt n (n + 1) (n / 2) l

/-- The values of `which` (the library does not use BE, arpack_t.cc:28-30). -/
inductive Which
  | LM | SM | LA | SA | LR | SR | LI | SI
deriving DecidableEq, Repr

/-! ### Real symmetric problems -/

section
variable {K : Type} [Field K] [LinearOrder K]

/-- A Ritz value and its error estimate. -/
structure Ritz (K : Type) where
  x : K
  bound : K
deriving DecidableEq, Repr

/-- The tests of dsortr.f:102, 132, 162, 192; nothing is sorted for other values. -/
def gtR (w : Which) (a b : K) : Bool :=
  match w with
  | .SA => decide (a < b)
  | .SM => decide (|a| < |b|)
  | .LA => decide (b < a)
  | .LM => decide (|b| < |a|)
  | _ => false

/-- dsortr(which, .true., n, ritz, bounds). -/
def dsortr (w : Which) (n : Nat) (l : List (Ritz K)) : Res (List (Ritz K)) :=
  sort (fun a b => gtR w a.x b.x) n l

/-- dsortr(which, .true., n, bounds, ritz). -/
def dsortrB (w : Which) (n : Nat) (l : List (Ritz K)) : Res (List (Ritz K)) :=
  sort (fun a b => gtR w a.bound b.bound) n l

/-- dsgets, dsgets.f:174-199, with ishift = 1; which is not BE. -/
def dsgets (w : Which) (kev np : Nat) (l : List (Ritz K)) : Res (List (Ritz K)) := do
  let l ← dsortr w (kev + np) l
  if 0 < np then dsortrB .SM np l else pure l

/-- The test of dsconv.f:115-117. -/
def small (eps23 tol : K) (r : Ritz K) : Bool := decide (r.bound ≤ tol * max eps23 |r.x|)

/-- dsconv, dsconv.f:112-119: the number of values which have converged. -/
def dsconv (eps23 tol : K) (l : List (Ritz K)) : Nat := (l.filter (small eps23 tol)).length

/-- The opposite order, dsaup2.f:569-572. -/
def opposite : Which → Which
  | .LM => .SM
  | .SM => .LM
  | .LA => .SA
  | .SA => .LA
  | .LR => .SR
  | .SR => .LR
  | .LI => .SI
  | .SI => .LI

/-- The loops of dsaup2.f:583-586 and 603-606: the first n estimates are divided by or multiplied with the
size of the value. -/
def scale (eps23 : K) (up : Bool) (n : Nat) (l : List (Ritz K)) : List (Ritz K) :=
  l.mapIdx fun i r =>
    if i < n then
      { r with bound := if up then r.bound * max eps23 |r.x| else r.bound / max eps23 |r.x| }
    else r

/-- The end of the iteration, dsaup2.f:538-636, for which = LM, SM, LA or SA. -/
def finish (eps23 : K) (w : Which) (kplusp nev0 nconv : Nat) (l : List (Ritz K)) : Res (List (Ritz K)) := do
  let l ← dsortr (opposite w) kplusp l
  let l := scale eps23 false nev0 l
  let l ← dsortrB .LA nev0 l
  let l := scale eps23 true nev0 l
  dsortr w nconv l

/-- The result of a step: the iteration goes on or ends with the value of info and the first nconv Ritz
values. -/
inductive Step (E : Type)
  | more
  | stop (info : Nat) (values : List E)
deriving DecidableEq, Repr

/-- One step, dsaup2.f:482-666, for which = LM, SM, LA or SA. `last` is iter > mxiter. -/
def saup2 (eps23 tol : K) (w : Which) (nev0 np0 : Nat) (last : Bool) (l : List (Ritz K)) : Res (Step (Ritz K)) := do
  let l ← dsgets w nev0 np0 l
  let nconv := dsconv eps23 tol (l.drop np0)
  let z := ((l.take np0).filter fun r => decide (r.bound = 0)).length
  let np := np0 - z
  let nev := nev0 + z
  if nev0 ≤ nconv ∨ last ∨ np = 0 then do
    let l ← finish eps23 w (nev0 + np0) nev0 nconv l
    let info := if last ∧ nconv < nev then 1 else 0
    let info := if np = 0 ∧ nconv < nev0 then 2 else info
    pure (.stop info (l.take nconv))
  else pure .more

end

/-! ### Complex problems and real problems which are not symmetric -/

section
variable {K : Type} [LinearOrder K]

/-- A complex Ritz value and its error estimate. -/
structure CRitz (K B : Type) where
  re : K
  im : K
  bound : B
deriving DecidableEq, Repr

/-- The tests of zsortc.f, lines 125, 162, 196, 229, 262, 295; `mag` is dlapy2. -/
def gtZ (mag : K → K → K) (w : Which) (ar ai br bi : K) : Bool :=
  match w with
  | .LM => decide (mag br bi < mag ar ai)
  | .SM => decide (mag ar ai < mag br bi)
  | .LR => decide (br < ar)
  | .SR => decide (ar < br)
  | .LI => decide (bi < ai)
  | .SI => decide (ai < bi)
  | _ => false

/-- zsortc(which, .true., n, ritz, bounds). -/
def zsortc (mag : K → K → K) (w : Which) (n : Nat) (l : List (CRitz K (K × K))) :
    Res (List (CRitz K (K × K))) :=
  sort (fun a b => gtZ mag w a.re a.im b.re b.im) n l

/-- zsortc(which, .true., n, bounds, ritz). -/
def zsortcB (mag : K → K → K) (w : Which) (n : Nat) (l : List (CRitz K (K × K))) :
    Res (List (CRitz K (K × K))) :=
  sort (fun a b => gtZ mag w a.bound.1 a.bound.2 b.bound.1 b.bound.2) n l

/-- zngets, zngets.f:138-158, with ishift = 1. -/
def zngets (mag : K → K → K) (w : Which) (kev np : Nat) (l : List (CRitz K (K × K))) :
    Res (List (CRitz K (K × K))) := do
  let l ← zsortc mag w (kev + np) l
  zsortcB mag .SM np l

variable [AddCommGroup K]

/-- The tests of dsortc.f, lines 123, 164, 202, 239, 276, 313. -/
def gtC (mag : K → K → K) (w : Which) (ar ai br bi : K) : Bool :=
  match w with
  | .LM => decide (mag br bi < mag ar ai)
  | .SM => decide (mag ar ai < mag br bi)
  | .LR => decide (br < ar)
  | .SR => decide (ar < br)
  | .LI => decide (|bi| < |ai|)
  | .SI => decide (|ai| < |bi|)
  | _ => false

/-- dsortc(which, .true., n, ritzr, ritzi, bounds). -/
def dsortc (mag : K → K → K) (w : Which) (n : Nat) (l : List (CRitz K K)) : Res (List (CRitz K K)) :=
  sort (fun a b => gtC mag w a.re a.im b.re b.im) n l

/-- dsortc(which, .true., n, bounds, ritzr, ritzi). -/
def dsortcB (mag : K → K → K) (w : Which) (n : Nat) (l : List (CRitz K K)) : Res (List (CRitz K K)) :=
  sort (fun a b => gtC mag w a.bound a.re b.bound b.re) n l

/-- The order of the first sort, dngets.f:168-180. -/
def first : Which → Option Which
  | .LM => some .LR
  | .SM => some .SR
  | .LR => some .LM
  | .SR => some .SM
  | .LI => some .LM
  | .SI => some .SM
  | _ => none

/-- The first sort, with its argument. -/
def presort (mag : K → K → K) (w : Which) (n : Nat) (l : List (CRitz K K)) : Res (List (CRitz K K)) :=
  match first w with
  | some w' => dsortc mag w' n l
  | none => .ok l

/-- The results of dngets: kev, np and the arrays. -/
structure Gets (K : Type) where
  kev : Nat
  np : Nat
  l : List (CRitz K K)
deriving DecidableEq, Repr

/-- dngets, dngets.f:168-208, with ishift = 1. ritzr(0) does not exist. -/
def dngets (mag : K → K → K) (w : Which) (kev np : Nat) (l : List (CRitz K K)) : Res (Gets K) := do
  let l ← presort mag w (kev + np) l
  let l ← dsortc mag w (kev + np) l
  if np = 0 then .ub
  else
    match l[np]?, l[np - 1]? with
    | some a, some b =>
      if a.re - b.re = 0 ∧ a.im + b.im = 0 then do
        let l ← dsortcB mag .SR (np - 1) l
        pure ⟨kev + 1, np - 1, l⟩
      else do
        let l ← dsortcB mag .SR np l
        pure ⟨kev, np, l⟩
    | _, _ => .ub

end

/-! ### The end of the iteration for complex problems -/

section
variable {K : Type} [Field K] [LinearOrder K]

/-- The test of znaup2.f:491-494. -/
def smallZ (mag : K → K → K) (eps23 tol : K) (r : CRitz K (K × K)) : Bool :=
  decide (mag r.bound.1 r.bound.2 ≤ tol * max eps23 (mag r.re r.im))

/-- The loops of znaup2.f:576-580 and 597-601. -/
def scaleZ (mag : K → K → K) (eps23 : K) (up : Bool) (n : Nat) (l : List (CRitz K (K × K))) :
    List (CRitz K (K × K)) :=
  l.mapIdx fun i r =>
    if i < n then
      let t := max eps23 (mag r.re r.im)
      { r with bound := if up then (r.bound.1 * t, r.bound.2 * t) else (r.bound.1 / t, r.bound.2 / t) }
    else r

/-- The end of the iteration, znaup2.f:562-609. -/
def finishZ (mag : K → K → K) (eps23 : K) (w : Which) (kplusp nev0 nconv : Nat) (l : List (CRitz K (K × K))) :
    Res (List (CRitz K (K × K))) := do
  let l ← zsortc mag (opposite w) kplusp l
  let l := scaleZ mag eps23 false nev0 l
  let l ← zsortcB mag .LM nev0 l
  let l := scaleZ mag eps23 true nev0 l
  zsortc mag w nconv l

/-- One step, znaup2.f:458-631. `last` is iter > mxiter. -/
def naup2 (mag : K → K → K) (eps23 tol : K) (w : Which) (nev0 np0 : Nat) (last : Bool) (l : List (CRitz K (K × K))) :
    Res (Step (CRitz K (K × K))) := do
  let l ← zngets mag w nev0 np0 l
  let nconv := ((l.drop np0).filter (smallZ mag eps23 tol)).length
  let z := ((l.take np0).filter fun r => decide (r.bound = (0, 0))).length
  let np := np0 - z
  if nev0 ≤ nconv ∨ last ∨ np = 0 then do
    let l ← finishZ mag eps23 w (nev0 + np0) nev0 nconv l
    let info := if last ∧ nconv < nev0 then 1 else 0
    let info := if np = 0 ∧ nconv < nev0 then 2 else info
    pure (.stop info (l.take nconv))
  else pure .more

end

end Verif.ArpackSort
