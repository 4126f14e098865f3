import Verif.Model.Svd
import Mathlib.Analysis.RCLike.Basic
import Mathlib.Algebra.BigOperators.Group.Finset.Basic
/-
Specification of the singular value decomposition, and of what the manual of LAPACK says about gesvd.
-/
namespace Verif.Spec

open Finset

variable {𝕜 : Type} [RCLike 𝕜]

/-- The n x n matrix U is unitary. -/
def IsUnitary (n : Nat) (U : Nat → Nat → 𝕜) : Prop :=
  (∀ k l, k < n → l < n → ∑ i ∈ range n, starRingEnd 𝕜 (U i k) * U i l = if k = l then 1 else 0) ∧
    ∀ k l, k < n → l < n → ∑ i ∈ range n, U k i * starRingEnd 𝕜 (U l i) = if k = l then 1 else 0

/-- A = U S V for the m x n matrix A, with U and V unitary and S diagonal, with non-negative elements in
decreasing order. -/
structure IsSvd (m n : Nat) (A U V : Nat → Nat → 𝕜) (σ : Nat → ℝ) : Prop where
  left : IsUnitary m U
  right : IsUnitary n V
  nonneg : ∀ l < min m n, 0 ≤ σ l
  decr : ∀ k l, k ≤ l → l < min m n → σ l ≤ σ k
  eq : ∀ i j, i < m → j < n → A i j = ∑ l ∈ range (min m n), U i l * (σ l : 𝕜) * V l j

/-- A = U S V for the m x n matrix A, where U has min(m,n) columns and V has min(m,n) rows, they are
orthogonal, and those which do not belong to the singular value 0 have norm 1. The others have norm 1 or
are zero. -/
structure IsThin (m n : Nat) (A U V : Nat → Nat → 𝕜) (σ : Nat → ℝ) : Prop where
  left : ∀ k l, k < min m n → l < min m n → k ≠ l → ∑ i ∈ range m, starRingEnd 𝕜 (U i k) * U i l = 0
  right : ∀ k l, k < min m n → l < min m n → k ≠ l → ∑ j ∈ range n, V k j * starRingEnd 𝕜 (V l j) = 0
  leftUnit : ∀ l < min m n, ∑ i ∈ range m, starRingEnd 𝕜 (U i l) * U i l = 1 ∨
    σ l = 0 ∧ ∀ i < m, U i l = 0
  rightUnit : ∀ l < min m n, ∑ j ∈ range n, V l j * starRingEnd 𝕜 (V l j) = 1 ∨
    σ l = 0 ∧ ∀ j < n, V l j = 0
  nonneg : ∀ l < min m n, 0 ≤ σ l
  decr : ∀ k l, k ≤ l → l < min m n → σ l ≤ σ k
  eq : ∀ i j, i < m → j < n → A i j = ∑ l ∈ range (min m n), U i l * (σ l : 𝕜) * V l j

/-- The number of columns of U and of rows of VT that gesvd writes. -/
def jobSize (job : Svd.Job) (k full : Nat) : Nat :=
  match job with
  | .none => 0
  | .small => k
  | .all => full

/-- The array has the r x c matrix f with leading dimension ld. -/
def Stores {α : Type} (buf : List α) (ld r c : Nat) (f : Nat → Nat → α) : Prop :=
  ∀ i j, i < r → j < c → buf[i + ld * j]? = some (f i j)

/-- The manual of gesvd, for a call with admissible arguments: if info is zero, the arrays have the
decomposition. The arrays keep their sizes. -/
def GesvdAnswer (jobu jobv : Svd.Job) (m n : Nat) (a : List 𝕜) (lda ldu ldv : Nat)
    (o : Svd.Out 𝕜 ℝ) : Prop :=
  0 < m → 0 < n → m ≤ lda → a.length = lda * n → (jobu ≠ .none → m ≤ ldu) →
    jobSize jobv (min m n) n ≤ ldv →
    o.s.length = min m n ∧ (jobu ≠ .none → o.u.length = ldu * jobSize jobu (min m n) m) ∧
      (jobv ≠ .none → o.v.length = ldv * n) ∧
      (o.info = 0 → ∀ A, Stores a lda m n A → ∃ U V σ, IsSvd m n A U V σ ∧
        (∀ l < min m n, o.s[l]? = some (σ l)) ∧
        Stores o.u ldu m (jobSize jobu (min m n) m) U ∧
        Stores o.v ldv (jobSize jobv (min m n) n) n V)

end Verif.Spec
