import Verif.Model.Arpack
import Verif.Spec.Eigs
/-
What the manual of ARPACK says of dsaupd, dseupd, znaupd and zneupd: the comments at the beginning of
dsaupd.f, dseupd.f, znaupd.f and zneupd.f in /repo/src/arpack-ng. `α` are the elements of the vectors.
-/
namespace Verif.Spec

open Arpack

variable {L α β : Type}

/-- The values of WHICH, dsaupd.f:108-118, znaupd.f:92-98. -/
def whichOf (complex : Bool) (which : String) : Prop :=
  if complex then which ∈ ["LM", "SM", "LR", "SR", "LI", "SI"] else which ∈ ["LM", "SM", "LA", "SA", "BE"]

/-- The meaning of WHICH, as one of the types of linalg.h:142-151: 0, LargestMagnitude; 1,
SmallestMagnitude; 2, LargestReal; 3, SmallestReal; 4, LargestImaginary; 5, SmallestImaginary. -/
def meaning : String → Option Int
  | "LM" => some 0
  | "SM" => some 1
  | "LR" => some 2
  | "LA" => some 2
  | "SR" => some 3
  | "SA" => some 3
  | "LI" => some 4
  | "SI" => some 5
  | _ => none

/-- The arguments of the first call for a standard problem with exact shifts, which the routines check,
dsaupd.f:500-532, znaupd.f:474-497, and the sizes of the arrays. -/
structure FirstCall (complex : Bool) (a : Args) (w : Work α β) : Prop where
  ido : w.ido = 0
  nev_pos : 0 < a.nev
  nev_ncv : a.nev < a.ncv
  ncv_n : a.ncv ≤ a.n
  which : whichOf complex a.which
  lworkl : (if complex then 3 * a.ncv ^ 2 + 5 * a.ncv else a.ncv ^ 2 + 8 * a.ncv) ≤ a.lworkl
  shifts : w.iparam[0]? = some 1
  maxiter : ∃ m : Int, 0 < m ∧ w.iparam[2]? = some m
  block : w.iparam[3]? = some 1
  mode : w.iparam[6]? = some 1
  resid_size : w.resid.length = a.n
  V_size : w.V.length = a.n * a.ncv
  iparam_size : 11 ≤ w.iparam.length
  ipntr_size : (if complex then 14 else 11) ≤ w.ipntr.length
  workd_size : w.workd.length = 3 * a.n
  workl_size : w.workl.length = a.lworkl

/-- `w'` is `w` after the caller has put, in the n elements of workd that begin at ipntr(2), an answer to
the n elements that begin at ipntr(1). `ans x y` says which answers y to x may be given. Nothing else is
changed. -/
def Answered (a : Args) (ans : List α → List α → Prop) (w w' : Work α β) : Prop :=
  ∃ (p q : Nat) (x y : List α), w.ipntr[0]? = some ((p : Int) + 1) ∧ w.ipntr[1]? = some ((q : Int) + 1) ∧
    x.length = a.n ∧ y.length = a.n ∧ (∀ i < a.n, w.workd[p + i]? = x[i]?) ∧ ans x y ∧
    (∀ i < a.n, w'.workd[q + i]? = y[i]?) ∧
    (∀ j, j < q ∨ q + a.n ≤ j → w'.workd[j]? = w.workd[j]?) ∧ w' = { w with workd := w'.workd }

/-- The reverse communication, dsaupd.f:68-97, znaupd.f:51-81: the routine is called with the variables
`l0` and the arguments `w0`; while it asks for a product it is given an answer, and called again.
`Dialogue … k l w`: after k calls it has left the variables l and the arguments w. -/
inductive Dialogue (lib : Lib L α β) (a : Args) (ans : List α → List α → Prop) (l0 : L) (w0 : Work α β) :
    Nat → L → Work α β → Prop
  | first : Dialogue lib a ans l0 w0 1 (lib.aupd l0 a w0).1 (lib.aupd l0 a w0).2
  | next {k : Nat} {l : L} {w w' : Work α β} : Dialogue lib a ans l0 w0 k l w → w.ido = 1 ∨ w.ido = -1 →
      Answered a ans w w' → Dialogue lib a ans l0 w0 (k + 1) (lib.aupd l a w').1 (lib.aupd l a w').2

/-- What the manual says of the calls of such a dialogue. -/
structure Obeys (complex : Bool) (lib : Lib L α β) (ans : List α → List α → Prop) (a : Args) (l0 : L)
    (w0 : Work α β) : Prop where
  /-- Only products are asked for, because bmat is 'I' and the shifts are exact. -/
  ido : ∀ k l w, Dialogue lib a ans l0 w0 k l w → w.ido = 1 ∨ w.ido = -1 ∨ w.ido = 99
  /-- The array workd has 3 n elements, whatever the routine writes in it. -/
  workd_size : ∀ k l w, Dialogue lib a ans l0 w0 k l w → w.workd.length = 3 * a.n
  /-- The vectors that the pointers show are in workd, and are different. -/
  pointers : ∀ k l w, Dialogue lib a ans l0 w0 k l w → w.ido = 1 ∨ w.ido = -1 → ∃ p q : Nat,
    w.ipntr[0]? = some ((p : Int) + 1) ∧ w.ipntr[1]? = some ((q : Int) + 1) ∧
    p + a.n ≤ 3 * a.n ∧ q + a.n ≤ 3 * a.n ∧ (p + a.n ≤ q ∨ q + a.n ≤ p)
  /-- The number of iterations is limited. -/
  ends : ∃ K, ∀ k l w, Dialogue lib a ans l0 w0 k l w → k ≤ K
  /-- The arrays d and z that dseupd or zneupd fill. -/
  d_size : ∀ k l w rvec, Dialogue lib a ans l0 w0 k l w → w.ido = 99 →
    (lib.eupd l rvec a w).2.2.1.length = a.nev + 1
  z_size : ∀ k l w, Dialogue lib a ans l0 w0 k l w → w.ido = 99 →
    (lib.eupd l true a w).2.2.2.length = a.n * a.nev

/-- The library does what its manual says if the answers to x are those of `ans`. -/
def Manual (complex : Bool) (lib : Lib L α β) (ans : List α → List α → Prop) : Prop :=
  ∀ a l0 w0, FirstCall complex a w0 → Obeys complex lib ans a l0 w0

/-- What it computes, when both routines say that there was no error, satisfies `Good`. The arguments of
`Good` are those of the first call, if vectors are wanted, and the arrays d and z. -/
def Computes (complex : Bool) (lib : Lib L α β) (ans : List α → List α → Prop)
    (Good : Args → Work α β → Bool → List α → List α → Prop) : Prop :=
  ∀ a l0 w0, FirstCall complex a w0 → ∀ k l w, Dialogue lib a ans l0 w0 k l w → w.ido = 99 → w.info = 0 →
    ∀ rvec, (lib.eupd l rvec a w).2.1.info = 0 →
      Good a w0 rvec (lib.eupd l rvec a w).2.2.1 (lib.eupd l rvec a w).2.2.2

/-- A starting vector that is zero is an error, dsaupd.f:268, znaupd.f:256. -/
def RefusesZero [Zero α] (complex : Bool) (lib : Lib L α β) (ans : List α → List α → Prop) : Prop :=
  ∀ a l0 w0, FirstCall complex a w0 → w0.info ≠ 0 → (∀ x ∈ w0.resid, x = 0) →
    ∀ k l w, Dialogue lib a ans l0 w0 k l w → w.ido = 99 → w.info = -9

/-- y = a x, for the n x n matrix a. -/
def Product {α : Type} [Semiring α] (n : Nat) (a : Nat → Nat → α) (x y : List α) : Prop :=
  ∀ f : Nat → α, (∀ j < n, x[j]? = some (f j)) →
    ∀ i < n, y[i]? = some (∑ j ∈ Finset.range n, a i j * f j)

/-- What zneupd leaves in exact arithmetic, zneupd.f:20-30, 69-79, if the products were those of a: the
eigenvalues of the type that was asked for, in any order, and eigenvectors of them. -/
def ZneupdAnswer (a : Nat → Nat → ℂ) (A : Args) (_ : Work ℂ ℝ) (rvec : Bool) (d z : List ℂ) : Prop :=
  ∀ t, meaning A.which = some t → ∃ (ev : Nat → ℂ) (e : Nat → Nat), IsSpectrum A.n a ev ∧
    Chosen t A.n ev A.nev e ∧ (∀ l < A.nev, d[l]? = some (ev (e l))) ∧
    (rvec → ∃ V, Stores z A.n A.n A.nev V ∧ ∀ l < A.nev, IsRight A.n a (ev (e l)) fun i => V i l)

/-- What dseupd leaves in exact arithmetic, dseupd.f:22-36, 68-83, if the products were those of a, which
must be symmetric: the eigenvalues of the type that was asked for, in increasing order, and orthonormal
eigenvectors of them. -/
def DseupdAnswer (a : Nat → Nat → ℝ) (A : Args) (_ : Work ℝ ℝ) (rvec : Bool) (d z : List ℝ) : Prop :=
  (∀ i < A.n, ∀ j < A.n, a i j = a j i) →
  ∀ t, meaning A.which = some t → ∃ (w : Nat → ℝ) (e : Nat → Nat),
    IsSpectrum A.n (fun i j => (a i j : ℂ)) (fun j => (w j : ℂ)) ∧ Chosen t A.n (fun j => (w j : ℂ)) A.nev e ∧
    (∀ l m, l ≤ m → m < A.nev → w (e l) ≤ w (e m)) ∧ (∀ l < A.nev, d[l]? = some (w (e l))) ∧
    (rvec → ∃ V, Stores z A.n A.n A.nev V ∧
      (∀ l < A.nev, ∀ i < A.n, ∑ j ∈ Finset.range A.n, a i j * V j l = w (e l) * V i l) ∧
      ∀ l < A.nev, ∀ m < A.nev, ∑ i ∈ Finset.range A.n, V i l * V i m = if l = m then 1 else 0)

/-- The component of largest modulus of each of the n columns is real, as the manual of zgeev says of the
arrays VL and VR. -/
def LargestReal (n : Nat) (V : Nat → Nat → ℂ) : Prop :=
  ∀ j < n, ∃ i < n, (V i j).im = 0 ∧ ∀ k < n, ‖V k j‖ ≤ ‖V i j‖

end Verif.Spec
