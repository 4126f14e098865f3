import Verif.Props.Expm
import Verif.Props.PadeError
import Mathlib.Analysis.Normed.Algebra.MatrixExponential
import Mathlib.Data.Int.Log
/-
C58: the function expm over real and complex numbers.
-/
namespace Verif.Expm

open Verif Spec Tensor Polynomial

section
variable {𝕜 : Type} [RCLike 𝕜] {m : Nat}

open scoped Matrix.Norms.Operator

theorem norm_le_rows {F : Matrix (Fin m) (Fin m) 𝕜} {M : ℝ} (hM : 0 ≤ M) : ‖F‖ ≤ M ↔ ∀ i, ∑ l, ‖F i l‖ ≤ M := by
  lift M to NNReal using hM
  rw [Matrix.linfty_opNorm_def, NNReal.coe_le_coe, Finset.sup_le_iff]
  refine ⟨fun h i => ?_, fun h i _ => ?_⟩
  · have := NNReal.coe_le_coe.2 (h i (Finset.mem_univ i))
    simpa using this
  · rw [← NNReal.coe_le_coe]
    simpa using h i

set_option backward.isDefEq.respectTransparency false in
theorem isUnit_den (hm : m ≠ 0) (q : Nat) (B : Matrix (Fin m) (Fin m) 𝕜) (hB : ∀ i, ∑ l, ‖B i l‖ ≤ 1) :
    IsUnit (aeval B (padeD 𝕜 q)) := by
  have : Nonempty (Fin m) := ⟨⟨0, by omega⟩⟩
  rw [aeval_padeD]
  exact isUnit_pD (𝕜 := 𝕜) (𝔸 := Matrix (Fin m) (Fin m) 𝕜) q ((norm_le_rows zero_le_one).2 hB)

set_option backward.isDefEq.respectTransparency false in
theorem matrix_error (hm : m ≠ 0) (q : Nat) (hq : 0 < q) (B Y : Matrix (Fin m) (Fin m) 𝕜) (hB : ∀ i, ∑ l, ‖B i l‖ ≤ 1)
    (hY : aeval B (padeD 𝕜 q) * Y = aeval B (padeN 𝕜 q)) (j : Nat) (M : ℝ)
    (hM : ∀ i, ∑ l, ‖NormedSpace.exp ((2 : 𝕜) ^ j • B) i l‖ ≤ M) (i : Fin m) :
    ∑ l, ‖(Y ^ 2 ^ j) i l - NormedSpace.exp ((2 : 𝕜) ^ j • B) i l‖ ≤ M * ((1 + 27 * padeDelta q) ^ 2 ^ j - 1) := by
  have : Nonempty (Fin m) := ⟨⟨0, by omega⟩⟩
  have hM0 : 0 ≤ M := (Finset.sum_nonneg fun l _ => norm_nonneg _).trans (hM i)
  have hd : 0 ≤ (1 + 27 * padeDelta q) ^ 2 ^ j - 1 := by
    have := one_le_pow₀ (n := 2 ^ j) (by have := padeDelta_nonneg q; linarith : 1 ≤ 1 + 27 * padeDelta q)
    linarith
  rw [aeval_padeD, aeval_padeN] at hY
  have h := pade_square_error (𝕜 := 𝕜) (𝔸 := Matrix (Fin m) (Fin m) 𝕜) q hq ((norm_le_rows zero_le_one).2 hB) hY j
  have h2 := h.trans (mul_le_mul_of_nonneg_right ((norm_le_rows hM0).2 hM) hd)
  exact (norm_le_rows (mul_nonneg hM0 hd)).1 h2 i

end

section
variable {𝕜 : Type} [RCLike 𝕜] {m : Nat}

/-- The scaling by a power of two. -/
theorem scaling {ilog : ℝ → Option Int} (hlog : IsLog2 ilog) {n : ℝ} (h0 : 0 < n) :
    ∃ e, ilog n = some e ∧ n < 2 ^ (max 0 (e + 1)).toNat ∧
      ((max 0 (e + 1)).toNat = 0 ∨ (2 : ℝ) ^ (max 0 (e + 1)).toNat ≤ 2 * n) := by
  obtain ⟨e, he, h1, h2⟩ := (hlog n).2 h0
  refine ⟨e, he, ?_⟩
  rcases le_or_gt 0 (e + 1) with h | h
  · have e1 : ((max 0 (e + 1)).toNat : Int) = e + 1 := by omega
    have e2 : (2 : ℝ) ^ (max 0 (e + 1)).toNat = 2 ^ (e + 1) := by rw [← zpow_natCast, e1]
    rw [e2]
    refine ⟨h2, .inr ?_⟩
    rw [zpow_add₀ two_ne_zero, zpow_one]
    linarith
  · have e1 : (max 0 (e + 1)).toNat = 0 := by omega
    rw [e1, pow_zero]
    refine ⟨h2.trans_le ?_, .inl rfl⟩
    exact zpow_le_one_of_nonpos₀ (by norm_num) (by omega)

theorem scaled_rows {F : Matrix (Fin m) (Fin m) 𝕜} {n : ℝ} (hn : ∀ i, ∑ l, ‖F i l‖ ≤ n) {j : Nat} (hj : n < 2 ^ j) :
    ∀ i, ∑ l, ‖(((2 : 𝕜) ^ j)⁻¹ • F) i l‖ < 1 := by
  intro i
  have e : ∀ l, ‖(((2 : 𝕜) ^ j)⁻¹ • F) i l‖ = ((2 : ℝ) ^ j)⁻¹ * ‖F i l‖ := fun l => by
    rw [Matrix.smul_apply, smul_eq_mul, norm_mul, norm_inv, norm_pow, RCLike.norm_ofNat]
  simp only [e]
  rw [← Finset.mul_sum, inv_mul_lt_iff₀ (by positivity), mul_one]
  exact (hn i).trans_lt hj

/-- The result of expm for a matrix which is not zero. -/
theorem expm_ok (ilog : ℝ → Option Int) (hlog : IsLog2 ilog) (sol : Tensor 𝕜 → Tensor 𝕜 → Res (Tensor 𝕜))
    (hsol : Solves sol) (A : Tensor 𝕜) (F : Matrix (Fin m) (Fin m) 𝕜) (hA : IsSq A F) (hF : F ≠ 0) (order : Nat) :
    ∃ (x : Tensor 𝕜) (X Y : Matrix (Fin m) (Fin m) 𝕜) (j : Nat), expm Norm.norm ilog sol A order = .ok x ∧ IsSq x X ∧
      (∀ i, ∑ l, ‖F i l‖ < 2 ^ j) ∧ (j = 0 ∨ ∃ i, 2 ^ j ≤ 2 * ∑ l, ‖F i l‖) ∧
      IsUnit (aeval (((2 : 𝕜) ^ j)⁻¹ • F) (padeD 𝕜 (max 1 order))) ∧
      aeval (((2 : 𝕜) ^ j)⁻¹ • F) (padeD 𝕜 (max 1 order)) * Y = aeval (((2 : 𝕜) ^ j)⁻¹ • F) (padeN 𝕜 (max 1 order)) ∧
      X = Y ^ 2 ^ j := by
  have hm : m ≠ 0 := by
    rintro rfl
    exact hF (funext fun i => i.elim0)
  obtain ⟨n, h1, ⟨i0, h2⟩, -, h3⟩ := expm_eq Norm.norm norm_nonneg ilog sol hsol A F hA hm order
  have hn : 0 < n := by
    by_contra h
    refine hF (funext fun i => funext fun l => ?_)
    have := Finset.single_le_sum (f := fun l => ‖F i l‖) (fun l _ => norm_nonneg _) (Finset.mem_univ l)
    have h4 : ‖F i l‖ ≤ 0 := this.trans ((h1 i).trans (not_lt.1 h))
    exact norm_le_zero_iff.1 h4
  obtain ⟨e, he, h4, h5⟩ := scaling hlog hn
  obtain ⟨-, h6⟩ := h3 e he _ rfl
  have hB := scaled_rows h1 h4
  have hu := isUnit_den hm (max 1 order) _ fun i => (hB i).le
  obtain ⟨x, Y, ex, hx, hY⟩ := h6 hu
  refine ⟨x, _, Y, _, ex, hx, fun i => (h1 i).trans_lt h4, h5.imp_right fun h => ⟨i0, ?_⟩, hu, hY, rfl⟩
  rwa [← h2]

/-- C58: for a real or complex matrix F which is not zero and an order from 1 on, expm returns the power
2^j of the Pade approximant of the order of F / 2^j, where j is the least number such that the rows of
F / 2^j are smaller than one; the denominator is never singular. -/
theorem c58_expm_partial (ilog : ℝ → Option Int) (hlog : IsLog2 ilog) (sol : Tensor 𝕜 → Tensor 𝕜 → Res (Tensor 𝕜))
    (hsol : Solves sol) (A : Tensor 𝕜) (F : Matrix (Fin m) (Fin m) 𝕜) (hA : IsSq A F) (hF : F ≠ 0) (order : Nat)
    (ho : 0 < order) :
    ∃ (x : Tensor 𝕜) (X Y : Matrix (Fin m) (Fin m) 𝕜) (j : Nat) (N D : 𝕜[X]), expm Norm.norm ilog sol A order = .ok x ∧
      IsSq x X ∧ IsPade order N D ∧
      (∀ i, ∑ l, ‖F i l‖ < 2 ^ j) ∧ (j = 0 ∨ ∃ i, 2 ^ j ≤ 2 * ∑ l, ‖F i l‖) ∧
      IsUnit (aeval (((2 : 𝕜) ^ j)⁻¹ • F) D) ∧
      aeval (((2 : 𝕜) ^ j)⁻¹ • F) D * Y = aeval (((2 : 𝕜) ^ j)⁻¹ • F) N ∧ X = Y ^ 2 ^ j := by
  obtain ⟨x, X, Y, j, h⟩ := expm_ok ilog hlog sol hsol A F hA hF order
  rw [show max 1 order = order by omega] at h
  exact ⟨x, X, Y, j, padeN 𝕜 order, padeD 𝕜 order, h.1, h.2.1, isPade order ho, h.2.2⟩

set_option backward.isDefEq.respectTransparency false in
/-- C58: the distance from the result of expm to the exponential, if nothing is rounded. -/
theorem c58_error_partial (ilog : ℝ → Option Int) (hlog : IsLog2 ilog) (sol : Tensor 𝕜 → Tensor 𝕜 → Res (Tensor 𝕜))
    (hsol : Solves sol) (A : Tensor 𝕜) (F : Matrix (Fin m) (Fin m) 𝕜) (hA : IsSq A F) (hF : F ≠ 0) (q : Nat)
    (hq : 0 < q) :
    ∃ (x : Tensor 𝕜) (X : Matrix (Fin m) (Fin m) 𝕜) (j : Nat), expm Norm.norm ilog sol A q = .ok x ∧ IsSq x X ∧
      (j = 0 ∨ ∃ i, 2 ^ j ≤ 2 * ∑ l, ‖F i l‖) ∧
      ∀ M : ℝ, (∀ i, ∑ l, ‖NormedSpace.exp F i l‖ ≤ M) → ∀ i, ∑ l, ‖X i l - NormedSpace.exp F i l‖ ≤
        M * ((1 + 27 * ((q.factorial * q.factorial : ℝ) / ((2 * q).factorial * (2 * q + 1).factorial))) ^ 2 ^ j - 1) := by
  have hm : m ≠ 0 := by
    rintro rfl
    exact hF (funext fun i => i.elim0)
  obtain ⟨x, X, Y, j, h1, h2, h3, h4, h5, h6, rfl⟩ := expm_ok ilog hlog sol hsol A F hA hF q
  rw [show max 1 q = q by omega] at h5 h6
  refine ⟨x, _, j, h1, h2, h4, fun M hM i => ?_⟩
  obtain ⟨n, hn, hn'⟩ : ∃ n : ℝ, (∀ i, ∑ l, ‖F i l‖ ≤ n) ∧ n < 2 ^ j := by
    have : Nonempty (Fin m) := ⟨⟨0, by omega⟩⟩
    obtain ⟨i0, h0⟩ := Finite.exists_max fun i => ∑ l, ‖F i l‖
    exact ⟨_, h0, h3 i0⟩
  have hB := scaled_rows hn hn'
  have eF : (2 : 𝕜) ^ j • (((2 : 𝕜) ^ j)⁻¹ • F) = F := smul_inv_smul₀ (pow_ne_zero _ two_ne_zero) F
  have h := matrix_error hm q hq _ Y (fun i => (hB i).le) h6 j M (by rw [eF]; exact hM) i
  rw [eF, padeDelta] at h
  push_cast at h
  exact h

theorem padeDelta_le (q : Nat) : padeDelta q ≤ ((q : ℝ) + 1)⁻¹ := by
  rw [padeDelta, div_le_iff₀ (Nat.cast_pos.2 (by positivity)), inv_mul_eq_div, le_div_iff₀ (by positivity)]
  have h1 : q.factorial * q.factorial ≤ (2 * q).factorial := by
    rw [two_mul]; exact Nat.factorial_mul_factorial_dvd_factorial_add q q |> Nat.le_of_dvd (by positivity)
  have h2 : q + 1 ≤ (2 * q + 1).factorial := le_trans (by omega) (Nat.self_le_factorial _)
  exact_mod_cast Nat.mul_le_mul h1 h2

/-- C58: the result of expm is as close as required to the exponential if the order is large enough and nothing
is rounded. -/
theorem c58_converges_partial (ilog : ℝ → Option Int) (hlog : IsLog2 ilog) (sol : Tensor 𝕜 → Tensor 𝕜 → Res (Tensor 𝕜))
    (hsol : Solves sol) (A : Tensor 𝕜) (F : Matrix (Fin m) (Fin m) 𝕜) (hA : IsSq A F) (hF : F ≠ 0) (ε : ℝ)
    (hε : 0 < ε) :
    ∃ q0, ∀ q ≥ q0, ∃ (x : Tensor 𝕜) (X : Matrix (Fin m) (Fin m) 𝕜), expm Norm.norm ilog sol A q = .ok x ∧ IsSq x X ∧
      ∀ i l, ‖X i l - NormedSpace.exp F i l‖ < ε := by
  have hm : m ≠ 0 := by
    rintro rfl
    exact hF (funext fun i => i.elim0)
  have : Nonempty (Fin m) := ⟨⟨0, by omega⟩⟩
  obtain ⟨i1, hM⟩ := Finite.exists_max fun i => ∑ l, ‖NormedSpace.exp F i l‖
  obtain ⟨i0, h0⟩ := Finite.exists_max fun i => ∑ l, ‖F i l‖
  generalize (∑ l, ‖NormedSpace.exp F i1 l‖) = M at hM
  obtain ⟨J, hJ⟩ := exists_nat_gt (2 * ∑ l, ‖F i0 l‖)
  have hJ0 : 0 < J := by
    have : (0 : ℝ) ≤ 2 * ∑ l, ‖F i0 l‖ := by positivity
    exact_mod_cast this.trans_lt hJ
  have hc : Filter.Tendsto (fun q : Nat => M * ((1 + 27 * ((q : ℝ) + 1)⁻¹) ^ J - 1)) Filter.atTop (nhds 0) := by
    have h1 : Filter.Tendsto (fun q : Nat => ((q : ℝ) + 1)⁻¹) Filter.atTop (nhds 0) := by
      simpa using tendsto_one_div_add_atTop_nhds_zero_nat (𝕜 := ℝ)
    have := (((h1.const_mul 27).const_add 1).pow J |>.sub_const 1).const_mul M
    simpa using this
  obtain ⟨q0, hq0⟩ := Filter.eventually_atTop.1 (hc.eventually_lt_const hε)
  refine ⟨q0 + 1, fun q hq => ?_⟩
  obtain ⟨x, X, j, h1, h2, h3, h4⟩ := c58_error_partial ilog hlog sol hsol A F hA hF q (by omega)
  refine ⟨x, X, h1, h2, fun i l => ?_⟩
  have h5 := h4 M hM i
  have hM0 : 0 ≤ M := (Finset.sum_nonneg fun l _ => norm_nonneg _).trans (hM i)
  have hj : 2 ^ j ≤ J := by
    rcases h3 with rfl | ⟨i2, h3⟩
    · rw [pow_zero]; exact hJ0
    · have h6 : ((2 ^ j : Nat) : ℝ) ≤ J := by
        push_cast
        have := h0 i2
        linarith
      exact_mod_cast h6
  have hd : 0 ≤ padeDelta q := padeDelta_nonneg q
  have e : (q.factorial * q.factorial : ℝ) / ((2 * q).factorial * (2 * q + 1).factorial) = padeDelta q := by
    rw [padeDelta]; push_cast; rfl
  rw [e] at h5
  calc ‖X i l - NormedSpace.exp F i l‖ ≤ ∑ l, ‖X i l - NormedSpace.exp F i l‖ :=
        Finset.single_le_sum (f := fun l => ‖X i l - NormedSpace.exp F i l‖) (fun l _ => norm_nonneg _)
          (Finset.mem_univ l)
    _ ≤ M * ((1 + 27 * padeDelta q) ^ 2 ^ j - 1) := h5
    _ ≤ M * ((1 + 27 * ((q : ℝ) + 1)⁻¹) ^ J - 1) := by
      refine mul_le_mul_of_nonneg_left (sub_le_sub_right ?_ _) hM0
      calc (1 + 27 * padeDelta q) ^ 2 ^ j ≤ (1 + 27 * padeDelta q) ^ J := pow_le_pow_right₀ (by linarith) hj
        _ ≤ _ := pow_le_pow_left₀ (by linarith) (by have := padeDelta_le q; linarith) _
    _ < ε := hq0 q (by omega)

/-- C58 is false for zero matrices: the logarithm of zero is converted to an integer. -/
theorem c58_zero (ilog : ℝ → Option Int) (hlog : IsLog2 ilog) (sol : Tensor 𝕜 → Tensor 𝕜 → Res (Tensor 𝕜))
    (A : Tensor 𝕜) (hA : IsSq A (0 : Matrix (Fin m) (Fin m) 𝕜)) (order : Nat) : expm Norm.norm ilog sol A order = .ub := by
  have hn : matrixNormInf Norm.norm A = .ok 0 := by
    obtain ⟨n, en, -, h1, h2⟩ := c61_norminf_partial (fun x : 𝕜 => ‖x‖) A m m _ hA.isMat
      (by by_cases h : m = 0 <;> simp [h]) norm_nonneg
    rw [en]
    by_cases hm : m = 0
    · rw [h1 hm]
    · obtain ⟨i, -, e⟩ := h2 hm
      rw [e, Finset.sum_eq_zero]
      intro l _
      rw [Tensor.ext]
      split <;> simp
  have a0 := dimension_nat A 0 m (by rw [hA.1]; rfl)
  have a1 := dimension_nat A 1 m (by rw [hA.1]; rfl)
  simp only [Nat.cast_zero, Nat.cast_one] at a0 a1
  have hr : A.rank = 2 := by simp [rank, hA.1]
  rw [expm, Res.assert_pos hr, Res.ok_bind, a0, Res.ok_bind, a1, Res.ok_bind, Res.assert_pos rfl, Res.ok_bind, hn,
    Res.ok_bind, (hlog 0).1 le_rfl]
  rfl

/-- C58: tensors which are not square matrices are refused. -/
theorem c58_refused (ilog : ℝ → Option Int) (sol : Tensor 𝕜 → Tensor 𝕜 → Res (Tensor 𝕜)) (A : Tensor 𝕜)
    (h : ¬ ∃ m, A.dims = [m, m]) (order : Nat) : expm Norm.norm ilog sol A order = .abort := by
  by_cases hr : A.rank = 2
  · obtain ⟨r, c, e⟩ := List.length_eq_two.1 hr
    have hrc : ¬ c = r := fun hh => h ⟨r, by rw [e, hh]⟩
    have a0 := dimension_nat A 0 r (by rw [e]; rfl)
    have a1 := dimension_nat A 1 c (by rw [e]; rfl)
    simp only [Nat.cast_zero, Nat.cast_one] at a0 a1
    rw [expm, Res.assert_pos hr, Res.ok_bind, a0, Res.ok_bind, a1, Res.ok_bind, Res.assert_neg hrc]
    rfl
  · rw [expm, Res.assert_neg hr]
    rfl

/-- C58: the order 0 is the same as the order 1. -/
theorem c58_order_zero {α β : Type} [Field α] [Zero β] [Add β] [LT β] [DecidableLT β] (abs : α → β)
    (ilog : β → Option Int) (sol : Tensor α → Tensor α → Res (Tensor α)) (A : Tensor α) :
    expm abs ilog sol A 0 = expm abs ilog sol A 1 := rfl

theorem pade_zero {α : Type} [Field α] [CharZero α] {N D : α[X]} (h : IsPade 0 N D) : N = 1 ∧ D = 1 := by
  obtain ⟨h1, h2, h3, h4⟩ := h
  have hD : D = 1 := by rw [eq_C_of_natDegree_le_zero h2, h3, C_1]
  have hN := h4 0 (by omega)
  rw [hD] at hN
  simp at hN
  exact ⟨by rw [eq_C_of_natDegree_le_zero h1, ← hN, C_1], hD⟩

/-- C58 is false for the order 0: the result for the matrix with a single 1 is not a Pade approximant. -/
theorem c58_order_zero_wrong (ilog : ℝ → Option Int) (hlog : IsLog2 ilog) (sol : Tensor ℝ → Tensor ℝ → Res (Tensor ℝ))
    (hsol : Solves sol) :
    ∃ (x : Tensor ℝ) (X : Matrix (Fin 1) (Fin 1) ℝ), expm Norm.norm ilog sol ⟨[1, 1], [1]⟩ 0 = .ok x ∧ IsSq x X ∧
      ∀ N D : ℝ[X], IsPade 0 N D → ∀ (j : Nat) (Y : Matrix (Fin 1) (Fin 1) ℝ),
        aeval (((2 : ℝ) ^ j)⁻¹ • (1 : Matrix (Fin 1) (Fin 1) ℝ)) D * Y =
          aeval (((2 : ℝ) ^ j)⁻¹ • (1 : Matrix (Fin 1) (Fin 1) ℝ)) N → X ≠ Y ^ 2 ^ j := by
  have hA : IsSq (⟨[1, 1], [1]⟩ : Tensor ℝ) (1 : Matrix (Fin 1) (Fin 1) ℝ) := by
    refine ⟨rfl, rfl, fun i j => ?_⟩
    rw [Subsingleton.elim i 0, Subsingleton.elim j 0]
    rfl
  obtain ⟨x, X, Y, j, h1, h2, h3, h4, -, h6, h7⟩ := expm_ok ilog hlog sol hsol _ 1 hA one_ne_zero 0
  refine ⟨x, X, h1, h2, ?_⟩
  intro N D hND j' Y' hY' hX
  obtain ⟨rfl, rfl⟩ := pade_zero hND
  rw [map_one, one_mul] at hY'
  rw [hY', one_pow] at hX
  have hj : j = 1 := by
    have h3 := h3 0
    have h4 : j = 0 ∨ (2 : ℝ) ^ j ≤ 2 := by simpa using h4
    simp at h3
    rcases h4 with h4 | h4
    · rw [h4, pow_zero] at h3
      exact absurd h3 (lt_irrefl _)
    · have h5 : (2 : ℝ) ^ j ≤ 2 ^ 1 := by simpa using h4
      have h6 : (2 : ℝ) ^ 0 < 2 ^ j := by simpa using h3
      have h5 := (pow_le_pow_iff_right₀ (by norm_num : (1 : ℝ) < 2)).1 h5
      have h6 := (pow_lt_pow_iff_right₀ (by norm_num : (1 : ℝ) < 2)).1 h6
      omega
  subst hj
  rw [aeval_padeD, aeval_padeN] at h6
  have h8 := congrFun (congrFun h6 0) 0
  have h9 := congrFun (congrFun (h7.symm.trans hX) 0) 0
  simp [Finset.sum_range_succ, padeC, pow_two, Matrix.mul_apply] at h8 h9
  nlinarith

/-- The logarithm and the solution of equations which are assumed exist. -/
theorem exists_isLog2 : ∃ ilog, IsLog2 ilog := by
  refine ⟨fun x => if 0 < x then some (Int.log 2 x) else none, fun x => ⟨fun h => ?_, fun h => ?_⟩⟩
  · simp only [if_neg (not_lt.2 h)]
  · refine ⟨Int.log 2 x, by simp only [if_pos h], ?_, ?_⟩
    · have := Int.zpow_log_le_self (b := 2) (by norm_num) h
      simpa using this
    · have := Int.lt_zpow_succ_log_self (b := 2) (by norm_num) x
      simpa using this

theorem exists_tensor {α : Type} [Zero α] (X : Matrix (Fin m) (Fin m) α) : ∃ x : Tensor α, IsSq x X := by
  refine ⟨⟨[m, m], (List.range (m * m)).map fun p => Tensor.ext X (p % m) (p / m)⟩, rfl, by simp, fun i j => ?_⟩
  have hp : (i : Nat) + m * j < m * m := by
    have h1 : m * (j : Nat) + m ≤ m * m := by
      rw [← Nat.mul_succ]; exact Nat.mul_le_mul_left _ j.2
    have := i.2
    omega
  have hm : 0 < m := by have := i.2; omega
  have e1 : ((i : Nat) + m * j) % m = i := by rw [Nat.add_mul_mod_self_left, Nat.mod_eq_of_lt i.2]
  have e2 : ((i : Nat) + m * j) / m = j := by
    rw [Nat.add_mul_div_left _ _ hm, Nat.div_eq_of_lt i.2, Nat.zero_add]
  simp only [elem, colPos, InB, i.2, j.2, and_self, if_true, Nat.mul_zero, Nat.add_zero]
  rw [List.getElem?_map, List.getElem?_range hp, Option.map_some, e1, e2, ext_fin]

theorem exists_solves (α : Type) [Field α] : ∃ sol : Tensor α → Tensor α → Res (Tensor α), Solves sol := by
  classical
  have key : ∀ a b : Tensor α, ∃ r : Res (Tensor α), ∀ (m : Nat) (A B : Matrix (Fin m) (Fin m) α), IsSq a A → IsSq b B →
    (IsUnit A → ∃ x X, r = .ok x ∧ IsSq x X ∧ A * X = B) ∧ (¬ IsUnit A → r = .abort) := by
    intro a b
    by_cases h : ∃ (m : Nat) (A B : Matrix (Fin m) (Fin m) α), IsSq a A ∧ IsSq b B ∧ IsUnit A
    · obtain ⟨m, A, B, hA, hB, hu⟩ := h
      obtain ⟨u, hu⟩ := hu
      obtain ⟨x, hx⟩ := exists_tensor ((↑u⁻¹ : Matrix (Fin m) (Fin m) α) * B)
      refine ⟨.ok x, fun m' A' B' hA' hB' => ?_⟩
      have hm : m' = m := by
        have := hA'.1.symm.trans hA.1
        simpa using this
      subst hm
      rw [hA'.unique hA, hB'.unique hB]
      refine ⟨fun _ => ⟨x, _, rfl, hx, ?_⟩, fun hn => absurd ⟨u, hu⟩ hn⟩
      rw [← hu, Units.mul_inv_cancel_left]
    · exact ⟨.abort, fun m A B hA hB => ⟨fun hu => absurd ⟨m, A, B, hA, hB, hu⟩ h, fun _ => rfl⟩⟩
  choose sol hsol using key
  exact ⟨sol, fun m a b A B hA hB => hsol a b m A B hA hB⟩

example : ∃ ilog, IsLog2 ilog := exists_isLog2
example : ∃ sol : Tensor ℂ → Tensor ℂ → Res (Tensor ℂ), Solves sol := exists_solves ℂ
example : IsSq (⟨[2, 2], [0, 1, 2, 3]⟩ : Tensor ℝ) (!![0, 2; 1, 3] : Matrix (Fin 2) (Fin 2) ℝ) := by
  refine ⟨rfl, rfl, fun i j => ?_⟩
  fin_cases i <;> fin_cases j <;> rfl
example : ∃ N D : ℝ[X], IsPade 7 N D := ⟨_, _, isPade 7 (by norm_num)⟩

end

end Verif.Expm
