import Verif.Model.Eig
import Verif.Spec.Svd
import Mathlib.LinearAlgebra.Matrix.Charpoly.Basic
import Mathlib.Analysis.Complex.Basic
/-
Specification of eigenvalue decompositions and equations, and of what the manual of LAPACK says about
geev, syev, heev and gesv.
-/
namespace Verif.Spec

open Finset

/-- The numbers ev(0), ..., ev(n-1) are the eigenvalues of the n x n matrix a, with their
multiplicities. -/
def IsSpectrum (n : Nat) (a : Nat → Nat → ℂ) (ev : Nat → ℂ) : Prop :=
  (Matrix.of fun i j : Fin n => a i j).charpoly = ∏ j : Fin n, (Polynomial.X - Polynomial.C (ev j))

/-- a v = ev v, v ≠ 0. -/
def IsRight (n : Nat) (a : Nat → Nat → ℂ) (ev : ℂ) (v : Nat → ℂ) : Prop :=
  (∃ i < n, v i ≠ 0) ∧ ∀ i < n, ∑ j ∈ range n, a i j * v j = ev * v i

/-- uᴴ a = ev uᴴ, u ≠ 0. -/
def IsLeft (n : Nat) (a : Nat → Nat → ℂ) (ev : ℂ) (u : Nat → ℂ) : Prop :=
  (∃ i < n, u i ≠ 0) ∧ ∀ j < n, ∑ i ∈ range n, starRingEnd ℂ (u i) * a i j = ev * starRingEnd ℂ (u j)

/-- Conjugate pairs of eigenvalues are consecutive, the one with positive imaginary part first. -/
def ConjPairs (n : Nat) (wr wi : Nat → ℝ) : Prop :=
  (∀ j < n, 0 < wi j → j + 1 < n ∧ wr (j + 1) = wr j ∧ wi (j + 1) = - wi j) ∧
    ∀ j < n, wi j < 0 → ∃ i, j = i + 1 ∧ 0 < wi i

/-- The j-th eigenvector that dgeev stores in the matrix V: V(:,j) if the eigenvalue is real, and
V(:,j) ± i V(:,j+1) for a pair j, j+1. -/
noncomputable def packed (wi : Nat → ℝ) (V : Nat → Nat → ℝ) (i j : Nat) : ℂ :=
  if 0 < wi j then ⟨V i j, V i (j + 1)⟩
  else if wi j < 0 then ⟨V i (j - 1), - V i j⟩
  else ⟨V i j, 0⟩

/-- The manual of dgeev. -/
def DgeevAnswer (wantL wantR : Bool) (n : Nat) (a : List ℝ) (lda ldvl ldvr : Nat) (o : Eig.OutD ℝ) :
    Prop :=
  0 < n → n ≤ lda → a.length = lda * n → n ≤ ldvl → n ≤ ldvr →
    o.wr.length = n ∧ o.wi.length = n ∧ (wantL → o.vl.length = ldvl * n) ∧
      (wantR → o.vr.length = ldvr * n) ∧
      (o.info = 0 → ∀ A, Stores a lda n n A → ∃ wr wi : Nat → ℝ,
        (∀ j < n, o.wr[j]? = some (wr j) ∧ o.wi[j]? = some (wi j)) ∧ ConjPairs n wr wi ∧
        IsSpectrum n (fun i j => (A i j : ℂ)) (fun j => ⟨wr j, wi j⟩) ∧
        (wantL → ∃ V, Stores o.vl ldvl n n V ∧
          ∀ j < n, IsLeft n (fun i j => (A i j : ℂ)) ⟨wr j, wi j⟩ fun i => packed wi V i j) ∧
        (wantR → ∃ V, Stores o.vr ldvr n n V ∧
          ∀ j < n, IsRight n (fun i j => (A i j : ℂ)) ⟨wr j, wi j⟩ fun i => packed wi V i j))

/-- The manual of zgeev. -/
def ZgeevAnswer (wantL wantR : Bool) (n : Nat) (a : List ℂ) (lda ldvl ldvr : Nat) (o : Eig.OutZ ℂ) :
    Prop :=
  0 < n → n ≤ lda → a.length = lda * n → n ≤ ldvl → n ≤ ldvr →
    o.w.length = n ∧ (wantL → o.vl.length = ldvl * n) ∧ (wantR → o.vr.length = ldvr * n) ∧
      (o.info = 0 → ∀ A, Stores a lda n n A → ∃ ev : Nat → ℂ, (∀ j < n, o.w[j]? = some (ev j)) ∧
        IsSpectrum n A ev ∧
        (wantL → ∃ V, Stores o.vl ldvl n n V ∧ ∀ j < n, IsLeft n A (ev j) fun i => V i j) ∧
        (wantR → ∃ V, Stores o.vr ldvr n n V ∧ ∀ j < n, IsRight n A (ev j) fun i => V i j))

variable {𝕜 : Type} [RCLike 𝕜]

/-- The Hermitian matrix with the upper triangle of a. -/
noncomputable def upper (a : Nat → Nat → 𝕜) (i j : Nat) : 𝕜 :=
  if i < j then a i j else if j < i then starRingEnd 𝕜 (a j i) else (RCLike.re (a i i) : 𝕜)

/-- a V = V D for a unitary matrix V and the real numbers w(j) in the diagonal of D, which increase. -/
structure IsEigSym (n : Nat) (a V : Nat → Nat → 𝕜) (w : Nat → ℝ) : Prop where
  unitary : IsUnitary n V
  incr : ∀ k l, k ≤ l → l < n → w k ≤ w l
  eq : ∀ i j, i < n → j < n → ∑ k ∈ range n, a i k * V k j = V i j * (w j : 𝕜)

/-- The manual of dsyev and zheev, called with 'U'. -/
def SyevAnswer (want : Bool) (n : Nat) (a : List 𝕜) (lda : Nat) (o : Eig.OutS 𝕜 ℝ) : Prop :=
  0 < n → n ≤ lda → a.length = lda * n →
    o.w.length = n ∧ o.a.length = a.length ∧
      (o.info = 0 → ∀ A, Stores a lda n n A → ∃ V w, IsEigSym n (upper A) V w ∧
        (∀ j < n, o.w[j]? = some (w j)) ∧ (want → Stores o.a lda n n V))

variable {α : Type} [Field α]

/-- a x = 0 only for x = 0. -/
def Regular (n : Nat) (a : Nat → Nat → α) : Prop :=
  ∀ x : Nat → α, (∀ i < n, ∑ j ∈ range n, a i j * x j = 0) → ∀ j < n, x j = 0

/-- The manual of dgesv and zgesv. -/
def GesvAnswer (n nrhs : Nat) (a : List α) (lda : Nat) (b : List α) (ldb : Nat) (o : Eig.OutG α) : Prop :=
  0 < n → n ≤ lda → n ≤ ldb → lda * n ≤ a.length → ldb * nrhs ≤ b.length →
    o.b.length = b.length ∧ ∀ A B, Stores a lda n n A → Stores b ldb n nrhs B →
      (o.info = 0 → Regular n A ∧ ∃ X, Stores o.b ldb n nrhs X ∧
        ∀ i c, i < n → c < nrhs → ∑ j ∈ range n, A i j * X j c = B i c) ∧
      (o.info ≠ 0 → ¬ Regular n A)

end Verif.Spec
