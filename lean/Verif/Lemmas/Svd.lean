import Verif.Spec.Svd
import Mathlib.Algebra.BigOperators.Ring.Finset
import Mathlib.Algebra.BigOperators.Intervals
import Mathlib.Algebra.Order.BigOperators.Group.Finset
import Mathlib.Tactic.Ring
import Mathlib.Tactic.Linarith
import Mathlib.Tactic.FieldSimp
/-
Unitary matrices and least squares with a singular value decomposition.
-/
namespace Verif.Svd

open Finset Spec

variable {𝕜 : Type} [RCLike 𝕜]

/-- The adjoint of a unitary matrix is unitary. -/
theorem isUnitary_adjoint {n : Nat} {U : Nat → Nat → 𝕜} (h : IsUnitary n U) :
    IsUnitary n fun i j => starRingEnd 𝕜 (U j i) := by
  refine ⟨fun k l hk hl => ?_, fun k l hk hl => ?_⟩
  · rw [← h.2 k l hk hl]
    exact sum_congr rfl fun i _ => by simp
  · rw [← h.1 k l hk hl]
    exact sum_congr rfl fun i _ => by simp

/-- U (Uᴴ b) = b. -/
theorem unitary_adjoint_apply {n : Nat} {U : Nat → Nat → 𝕜} (h : IsUnitary n U) (b : Nat → 𝕜) {i : Nat}
    (hi : i < n) :
    ∑ l ∈ range n, U i l * ∑ k ∈ range n, starRingEnd 𝕜 (U k l) * b k = b i := by
  simp only [mul_sum]
  rw [sum_comm]
  rw [sum_eq_single_of_mem i (mem_range.2 hi)]
  · simp only [← mul_assoc]
    rw [← sum_mul, h.2 i i hi hi, if_pos rfl, one_mul]
  · intro k hk hne
    simp only [← mul_assoc]
    rw [← sum_mul, h.2 i k hi (mem_range.1 hk), if_neg (Ne.symm hne), zero_mul]

/-- Uᴴ (U b) = b. -/
theorem adjoint_unitary_apply {n : Nat} {U : Nat → Nat → 𝕜} (h : IsUnitary n U) (b : Nat → 𝕜) {i : Nat}
    (hi : i < n) :
    ∑ l ∈ range n, starRingEnd 𝕜 (U l i) * ∑ k ∈ range n, U l k * b k = b i := by
  have := unitary_adjoint_apply (isUnitary_adjoint h) b hi
  simpa only [RCLike.conj_conj] using this

/-- A unitary matrix preserves the norm. -/
theorem unitary_norm {n : Nat} {U : Nat → Nat → 𝕜} (h : IsUnitary n U) (c : Nat → 𝕜) :
    ∑ i ∈ range n, ‖∑ l ∈ range n, U i l * c l‖ ^ 2 = ∑ l ∈ range n, ‖c l‖ ^ 2 := by
  have e : ((∑ i ∈ range n, ‖∑ l ∈ range n, U i l * c l‖ ^ 2 : ℝ) : 𝕜)
      = ((∑ l ∈ range n, ‖c l‖ ^ 2 : ℝ) : 𝕜) := by
    push_cast
    have e1 : ∀ z : 𝕜, ((‖z‖ : 𝕜)) ^ 2 = starRingEnd 𝕜 z * z := fun z => (RCLike.conj_mul z).symm
    simp only [e1]
    have e2 : ∀ i ∈ range n, starRingEnd 𝕜 (∑ l ∈ range n, U i l * c l) * (∑ l ∈ range n, U i l * c l)
        = ∑ l ∈ range n, starRingEnd 𝕜 (c l) * (starRingEnd 𝕜 (U i l) * ∑ k ∈ range n, U i k * c k) := by
      intro i _
      rw [map_sum, sum_mul]
      refine sum_congr rfl fun l _ => ?_
      rw [map_mul]
      ring
    rw [sum_congr rfl e2, sum_comm]
    refine sum_congr rfl fun l hl => ?_
    rw [← mul_sum, adjoint_unitary_apply h c (mem_range.1 hl)]
  exact_mod_cast e

theorem adjoint_norm {n : Nat} {U : Nat → Nat → 𝕜} (h : IsUnitary n U) (c : Nat → 𝕜) :
    ∑ i ∈ range n, ‖∑ l ∈ range n, starRingEnd 𝕜 (U l i) * c l‖ ^ 2 = ∑ l ∈ range n, ‖c l‖ ^ 2 :=
  unitary_norm (isUnitary_adjoint h) c

/-- The singular values, and zeros after them. -/
def ext (k : Nat) (σ : Nat → ℝ) (l : Nat) : ℝ := if l < k then σ l else 0

/-- A y = U S (V y). -/
theorem svd_apply {m n : Nat} {A U V : Nat → Nat → 𝕜} {σ : Nat → ℝ} (h : IsSvd m n A U V σ)
    (y : Nat → 𝕜) {i : Nat} (hi : i < m) :
    ∑ j ∈ range n, A i j * y j
      = ∑ l ∈ range m, U i l * ((ext (min m n) σ l : 𝕜) * ∑ j ∈ range n, V l j * y j) := by
  have e1 : ∀ j ∈ range n, A i j * y j
      = ∑ l ∈ range (min m n), U i l * ((σ l : 𝕜) * (V l j * y j)) := by
    intro j hj
    rw [h.eq i j hi (mem_range.1 hj), sum_mul]
    exact sum_congr rfl fun l _ => by ring
  rw [sum_congr rfl e1, sum_comm]
  have hs : range (min m n) ⊆ range m := by
    intro l
    simp only [mem_range]
    omega
  rw [← sum_subset hs]
  · refine sum_congr rfl fun l hl => ?_
    rw [mul_sum, mul_sum, ext, if_pos (mem_range.1 hl)]
  · intro l _ hl
    rw [ext, if_neg (by simpa using hl)]
    simp

/-- ‖A y - b‖² in the bases of the decomposition. -/
theorem svd_residual {m n : Nat} {A U V : Nat → Nat → 𝕜} {σ : Nat → ℝ} (h : IsSvd m n A U V σ)
    (y b : Nat → 𝕜) :
    ∑ i ∈ range m, ‖∑ j ∈ range n, A i j * y j - b i‖ ^ 2
      = ∑ l ∈ range m, ‖(ext (min m n) σ l : 𝕜) * (∑ j ∈ range n, V l j * y j)
          - ∑ i ∈ range m, starRingEnd 𝕜 (U i l) * b i‖ ^ 2 := by
  refine Eq.trans ?_ (unitary_norm h.left _)
  refine sum_congr rfl fun i hi => ?_
  rw [svd_apply h y (mem_range.1 hi)]
  conv_lhs => rw [← unitary_adjoint_apply h.left b (mem_range.1 hi)]
  rw [← sum_sub_distrib]
  congr 2
  exact sum_congr rfl fun l _ => by ring

/-- ‖A y‖². -/
theorem svd_norm {m n : Nat} {A U V : Nat → Nat → 𝕜} {σ : Nat → ℝ} (h : IsSvd m n A U V σ)
    (y : Nat → 𝕜) :
    ∑ i ∈ range m, ‖∑ j ∈ range n, A i j * y j‖ ^ 2
      = ∑ l ∈ range m, (ext (min m n) σ l) ^ 2 * ‖∑ j ∈ range n, V l j * y j‖ ^ 2 := by
  have := svd_residual h y fun _ => 0
  simp only [mul_zero, sum_const_zero, sub_zero, norm_mul, mul_pow, RCLike.norm_ofReal, sq_abs] at this
  exact this

/-- The coordinates of the kernel. -/
theorem svd_kernel {m n : Nat} {A U V : Nat → Nat → 𝕜} {σ : Nat → ℝ} (h : IsSvd m n A U V σ)
    {y : Nat → 𝕜} (hy : ∀ i < m, ∑ j ∈ range n, A i j * y j = 0) {l : Nat} (hl : l < min m n)
    (hs : σ l ≠ 0) : ∑ j ∈ range n, V l j * y j = 0 := by
  have e := svd_norm h y
  rw [sum_eq_zero (fun i hi => by rw [hy i (mem_range.1 hi)]; simp)] at e
  have := (sum_eq_zero_iff_of_nonneg (fun l _ => by positivity)).1 e.symm l (mem_range.2 (by omega))
  rw [ext, if_pos hl] at this
  have h2 : ‖∑ j ∈ range n, V l j * y j‖ ^ 2 = 0 := by
    rcases mul_eq_zero.1 this with h | h
    · exact absurd (pow_eq_zero_iff (by norm_num) |>.1 h) hs
    · exact h
  simpa using h2

/-- The coordinates of the vector with which a row of V is made. -/
theorem row_coords {n : Nat} {V : Nat → Nat → 𝕜} (h : IsUnitary n V) {k l : Nat} (hk : k < n)
    (hl : l < n) : ∑ j ∈ range n, V k j * starRingEnd 𝕜 (V l j) = if k = l then 1 else 0 :=
  h.2 k l hk hl

/-- The vector with a singular value. -/
theorem row_norm {m n : Nat} {A U V : Nat → Nat → 𝕜} {σ : Nat → ℝ} (h : IsSvd m n A U V σ)
    {l : Nat} (hl : l < min m n) :
    ∑ j ∈ range n, ‖starRingEnd 𝕜 (V l j)‖ ^ 2 = 1 ∧
    ∑ i ∈ range m, ‖∑ j ∈ range n, A i j * starRingEnd 𝕜 (V l j)‖ ^ 2 = σ l ^ 2 := by
  have hc : ∀ k < n, ∑ j ∈ range n, V k j * starRingEnd 𝕜 (V l j) = if k = l then 1 else 0 :=
    fun k hk => row_coords h.right hk (by omega)
  constructor
  · rw [← unitary_norm h.right, sum_congr rfl (fun k hk => by rw [hc k (mem_range.1 hk)])]
    rw [sum_eq_single_of_mem l (mem_range.2 (by omega))]
    · simp
    · intro k _ hk
      simp [hk]
  · rw [svd_norm h, sum_eq_single_of_mem l (mem_range.2 (by omega))]
    · rw [hc l (by omega), ext, if_pos hl]
      simp
    · intro k hk hne
      rw [ext]
      split
      · rw [hc k (by omega)]
        simp [hne]
      · simp

/-- The vector which solve_with_svd computes with the first r singular values. -/
noncomputable def pinv (m r : Nat) (U V : Nat → Nat → 𝕜) (σ : Nat → ℝ) (b : Nat → 𝕜) (j : Nat) : 𝕜 :=
  ∑ l ∈ range r, starRingEnd 𝕜 (V l j) *
    ((∑ i ∈ range m, starRingEnd 𝕜 (U i l) * b i) * ((1 / σ l : ℝ) : 𝕜))

/-- Its coordinates. -/
theorem pinv_coords {m n r : Nat} {V : Nat → Nat → 𝕜} (hV : IsUnitary n V) (U : Nat → Nat → 𝕜)
    (σ : Nat → ℝ) (b : Nat → 𝕜) (hr : r ≤ n) {k : Nat} (hk : k < n) :
    ∑ j ∈ range n, V k j * pinv m r U V σ b j = if k < r
      then (∑ i ∈ range m, starRingEnd 𝕜 (U i k) * b i) * ((1 / σ k : ℝ) : 𝕜) else 0 := by
  simp only [pinv, mul_sum]
  rw [sum_comm]
  simp only [← mul_assoc]
  simp only [← sum_mul]
  split
  · rename_i h
    rw [sum_eq_single_of_mem k (mem_range.2 h)]
    · rw [row_coords hV hk hk, if_pos rfl, one_mul]
    · intro l hl hne
      rw [row_coords hV hk (by have := mem_range.1 hl; omega), if_neg (Ne.symm hne)]
      simp
  · rename_i h
    refine sum_eq_zero fun l hl => ?_
    have := mem_range.1 hl
    rw [row_coords hV hk (by omega), if_neg (by omega)]
    simp

/-- The vector minimizes ‖A y - b‖, and has the smallest norm among those which do, if only zeros are
discarded. -/
theorem pinv_least {m n r : Nat} {A U V : Nat → Nat → 𝕜} {σ : Nat → ℝ} (h : IsSvd m n A U V σ)
    (hr : r ≤ min m n) (hp : ∀ l < r, σ l ≠ 0) (hz : ∀ l, r ≤ l → l < min m n → σ l = 0)
    (b y : Nat → 𝕜) :
    ∑ i ∈ range m, ‖∑ j ∈ range n, A i j * pinv m r U V σ b j - b i‖ ^ 2
        ≤ ∑ i ∈ range m, ‖∑ j ∈ range n, A i j * y j - b i‖ ^ 2 ∧
      (∑ i ∈ range m, ‖∑ j ∈ range n, A i j * y j - b i‖ ^ 2
        ≤ ∑ i ∈ range m, ‖∑ j ∈ range n, A i j * pinv m r U V σ b j - b i‖ ^ 2 →
        ∑ j ∈ range n, ‖pinv m r U V σ b j‖ ^ 2 ≤ ∑ j ∈ range n, ‖y j‖ ^ 2) := by
  set β : Nat → 𝕜 := fun l => ∑ i ∈ range m, starRingEnd 𝕜 (U i l) * b i with hβ
  have hx : ∀ l < r, (ext (min m n) σ l : 𝕜) * (∑ j ∈ range n, V l j * pinv m r U V σ b j) - β l = 0 := by
    intro l hl
    rw [pinv_coords h.right U σ b (by omega) (by omega), if_pos hl, ext, if_pos (by omega)]
    have : (σ l : 𝕜) ≠ 0 := by exact_mod_cast hp l hl
    push_cast
    field_simp
    exact sub_self _
  have hout : ∀ (w : Nat → 𝕜) l, l < m → ¬ l < r →
      (ext (min m n) σ l : 𝕜) * (∑ j ∈ range n, V l j * w j) - β l = - β l := by
    intro w l hl hlr
    have : ext (min m n) σ l = 0 := by
      rw [ext]
      split
      · exact hz l (by omega) (by assumption)
      · rfl
    rw [this]
    simp
  have hle : ∀ l ∈ range m,
      ‖(ext (min m n) σ l : 𝕜) * (∑ j ∈ range n, V l j * pinv m r U V σ b j) - β l‖ ^ 2
        ≤ ‖(ext (min m n) σ l : 𝕜) * (∑ j ∈ range n, V l j * y j) - β l‖ ^ 2 := by
    intro l hl
    by_cases hlr : l < r
    · rw [hx l hlr]
      simp
    · rw [hout _ l (mem_range.1 hl) hlr, hout _ l (mem_range.1 hl) hlr]
  rw [svd_residual h, svd_residual h]
  refine ⟨sum_le_sum hle, fun hge => ?_⟩
  have heq := (sum_eq_sum_iff_of_le hle).1 (le_antisymm (sum_le_sum hle) hge)
  rw [← unitary_norm h.right (pinv m r U V σ b), ← unitary_norm h.right y]
  refine sum_le_sum fun l hl => ?_
  by_cases hlr : l < r
  · have e := heq l (mem_range.2 (by omega))
    rw [hx l hlr] at e
    have e2 : (ext (min m n) σ l : 𝕜) * (∑ j ∈ range n, V l j * y j) - β l = 0 := by
      simpa using e.symm
    have e3 := (hx l hlr).trans e2.symm
    have hne : (ext (min m n) σ l : 𝕜) ≠ 0 := by
      rw [ext, if_pos (by omega)]
      exact_mod_cast hp l hlr
    rw [mul_left_cancel₀ hne (sub_left_injective e3)]
  · rw [pinv_coords h.right U σ b (by omega) (mem_range.1 hl), if_neg hlr]
    simp

end Verif.Svd
