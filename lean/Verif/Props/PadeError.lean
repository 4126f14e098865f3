import Verif.Props.Pade
import Mathlib.Algebra.Group.ForwardDiff
import Mathlib.Analysis.Normed.Algebra.Exponential
import Mathlib.Analysis.Complex.ExponentialBounds
import Mathlib.Tactic.LinearCombination
import Mathlib.Tactic.Linarith
import Mathlib.Analysis.Normed.Ring.Units
import Mathlib.Analysis.SpecificLimits.Basic
import Mathlib.Analysis.RCLike.Basic
/-
The error of the diagonal Pade approximants of the exponential.
-/
namespace Verif.Expm

open Verif Spec Polynomial

section
variable {α : Type} [Field α] [CharZero α]

/-- The coefficients of D exp. -/
def padeE (α : Type) [Field α] (q n : Nat) : α :=
  ∑ k ∈ Finset.range (q + 1), if k ≤ n then (-1) ^ k * padeC α q k * ((n - k).factorial : α)⁻¹ else 0

theorem padeE_low {q n : Nat} (hq : 0 < q) (hn : n ≤ 2 * q) : padeE α q n = if n ≤ q then padeC α q n else 0 := by
  have h := (isPade (α := α) q hq).2.2.2 n hn
  rw [padeN, coeff_sum] at h
  rw [← h, PowerSeries.coeff_mul, Finset.Nat.sum_antidiagonal_eq_sum_range_succ
      (fun i j => PowerSeries.coeff i (padeD α q : PowerSeries α) * PowerSeries.coeff j (PowerSeries.exp α)),
    padeE, ← Finset.sum_filter]
  have : (Finset.range (q + 1)).filter (· ≤ n) = (Finset.range (n + 1)).filter (· ≤ q) := by
    ext k; simp only [Finset.mem_filter, Finset.mem_range]; omega
  rw [this, Finset.sum_filter]
  refine Finset.sum_congr rfl fun k _ => ?_
  rw [Polynomial.coeff_coe, PowerSeries.coeff_exp, padeD, coeff_sum, ite_mul, zero_mul]
  simp

/-- The differences of the quotients of factorials. -/
theorem diff_fact (l : Nat) (hl : 0 < l) (q x : Nat) :
    (fwdDiff 1)^[q] (fun x : Nat => (x.factorial : α) / (x + l).factorial) x =
      (-1) ^ q * (l + q - 1).factorial / (l - 1).factorial * (x.factorial / (x + l + q).factorial) := by
  have hf : ∀ i : Nat, (i.factorial : α) ≠ 0 := fun i => Nat.cast_ne_zero.2 (Nat.factorial_ne_zero _)
  induction q generalizing x with
  | zero =>
    have := hf (l - 1)
    simp only [Function.iterate_zero, id_eq, pow_zero, add_zero, one_mul]
    rw [div_self this, one_mul]
  | succ q ih =>
    rw [Function.iterate_succ_apply', fwdDiff, ih, ih]
    obtain ⟨p, rfl⟩ : ∃ p, l = p + 1 := ⟨l - 1, by omega⟩
    have e1 : p + 1 + (q + 1) - 1 = (p + q) + 1 := by omega
    have e2 : p + 1 + q - 1 = p + q := by omega
    have e3 : x + 1 + (p + 1) + q = (x + (p + 1) + q) + 1 := by omega
    have e4 : x + (p + 1) + (q + 1) = (x + (p + 1) + q) + 1 := by omega
    rw [e1, e2, e3, e4, Nat.factorial_succ (x + (p + 1) + q), Nat.factorial_succ x, Nat.factorial_succ (p + q),
      Nat.add_sub_cancel]
    have h1 := hf p
    have h2 := hf (x + (p + 1) + q)
    have h3 : ((x + (p + 1) + q + 1 : Nat) : α) ≠ 0 := Nat.cast_ne_zero.2 (by omega)
    simp only [Nat.cast_mul]
    field_simp
    push_cast
    ring

theorem padeE_high {q n : Nat} (hq : 0 < q) (hn : 2 * q < n) :
    padeE α q n = (-1) ^ q * ((q.factorial * (n - q - 1).factorial : Nat) : α) /
      ((2 * q).factorial * n.factorial * (n - 2 * q - 1).factorial : Nat) := by
  have hf : ∀ i : Nat, (i.factorial : α) ≠ 0 := fun i => Nat.cast_ne_zero.2 (Nat.factorial_ne_zero _)
  have h1 := diff_fact (α := α) (n - 2 * q) (by omega) q q
  rw [fwdDiff_iter_eq_sum_shift] at h1
  have h2 : padeE α q n = ((2 * q).factorial : α)⁻¹ *
      ∑ k ∈ Finset.range (q + 1), ((-1 : ℤ) ^ (q - k) * q.choose k) •
        ((((q + k • 1 : Nat)).factorial : α) / (q + k • 1 + (n - 2 * q)).factorial) := by
    rw [padeE, ← Finset.sum_range_reflect, Finset.mul_sum]
    refine Finset.sum_congr rfl fun k hk => ?_
    have hk := Finset.mem_range.1 hk
    rw [if_pos (by omega), show q + 1 - 1 - k = q - k by omega, padeC_choose hq (by omega : q - k ≤ q),
      Nat.choose_symm (by omega), smul_eq_mul, mul_one, show 2 * q - (q - k) = q + k by omega,
      show q + k + (n - 2 * q) = n - (q - k) by omega, zsmul_eq_mul]
    push_cast
    ring
  rw [h2, h1]
  have e1 : n - 2 * q + q - 1 = n - q - 1 := by omega
  have e2 : q + (n - 2 * q) + q = n := by omega
  rw [e1, e2]
  have := hf (2 * q)
  have := hf n
  have := hf (n - 2 * q - 1)
  push_cast
  field_simp

end

section
variable {𝕜 : Type} [RCLike 𝕜]

/-- The size of the error: (q!)^2 / ((2 q)! (2 q + 1)!). -/
noncomputable def padeDelta (q : Nat) : ℝ :=
  ((q.factorial * q.factorial : Nat) : ℝ) / ((2 * q).factorial * (2 * q + 1).factorial : Nat)

theorem padeDelta_nonneg (q : Nat) : 0 ≤ padeDelta q := by unfold padeDelta; positivity

theorem fact_le (q i : Nat) :
    (q + i).factorial * (2 * q + 1).factorial ≤ q.factorial * (2 * q + 1 + i).factorial := by
  induction i with
  | zero => simp
  | succ i ih =>
    have e1 : (q + (i + 1)).factorial = (q + i + 1) * (q + i).factorial := Nat.factorial_succ _
    have e2 : (2 * q + 1 + (i + 1)).factorial = (2 * q + 1 + i + 1) * (2 * q + 1 + i).factorial :=
      Nat.factorial_succ _
    rw [e1, e2]
    calc (q + i + 1) * (q + i).factorial * (2 * q + 1).factorial
        = (q + i + 1) * ((q + i).factorial * (2 * q + 1).factorial) := by ring
      _ ≤ (2 * q + 1 + i + 1) * (q.factorial * (2 * q + 1 + i).factorial) :=
        Nat.mul_le_mul (by omega) ih
      _ = _ := by ring

theorem norm_padeE (q i : Nat) (hq : 0 < q) :
    ‖padeE 𝕜 q (i + (2 * q + 1))‖ ≤ padeDelta q * (i.factorial : ℝ)⁻¹ := by
  rw [padeE_high hq (by omega), norm_div, norm_mul, norm_pow, norm_neg, norm_one, one_pow, one_mul,
    RCLike.norm_natCast, RCLike.norm_natCast, padeDelta, ← div_eq_mul_inv, div_div,
    show i + (2 * q + 1) - q - 1 = q + i by omega, show i + (2 * q + 1) - 2 * q - 1 = i by omega,
    show i + (2 * q + 1) = 2 * q + 1 + i by omega, ← Nat.cast_mul,
    div_le_div_iff₀ (Nat.cast_pos.2 (by positivity)) (Nat.cast_pos.2 (by positivity)), ← Nat.cast_mul,
    ← Nat.cast_mul]
  refine Nat.cast_le.2 ?_
  calc q.factorial * (q + i).factorial * ((2 * q).factorial * (2 * q + 1).factorial * i.factorial)
      = q.factorial * (2 * q).factorial * i.factorial * ((q + i).factorial * (2 * q + 1).factorial) := by ring
    _ ≤ q.factorial * (2 * q).factorial * i.factorial * (q.factorial * (2 * q + 1 + i).factorial) :=
      Nat.mul_le_mul_left _ (fact_le q i)
    _ = _ := by ring

theorem norm_padeC (q : Nat) : ∀ k, k + 1 ≤ q → ‖padeC 𝕜 q (k + 1)‖ ≤ 1 / 2 * (1 / 4) ^ k
  | 0, _ => by
    rw [padeC, norm_div, norm_one, RCLike.norm_ofNat]
    simp
  | k + 1, h => by
    have ih := norm_padeC q k (by omega)
    rw [padeC, norm_div, norm_mul, RCLike.norm_natCast, RCLike.norm_natCast, pow_succ, ← mul_assoc, mul_div_assoc]
    refine mul_le_mul ih ?_ (by positivity) (by positivity)
    rw [div_le_div_iff₀ (Nat.cast_pos.2 (Nat.mul_pos (by omega) (by omega))) (by norm_num)]
    have : (q - (k + 2) + 1) * 4 ≤ 1 * ((k + 2) * (2 * q - (k + 2) + 1)) := by
      calc (q - (k + 2) + 1) * 4 = 2 * (2 * (q - (k + 2) + 1)) := by ring
        _ ≤ (k + 2) * (2 * q - (k + 2) + 1) := Nat.mul_le_mul (by omega) (by omega)
        _ = _ := by ring
    exact_mod_cast this

variable {𝔸 : Type} [NormedRing 𝔸] [NormedAlgebra 𝕜 𝔸]

/-- The polynomials over an algebra. -/
def pN (𝕜 : Type) [RCLike 𝕜] {𝔸 : Type} [NormedRing 𝔸] [NormedAlgebra 𝕜 𝔸] (q : Nat) (b : 𝔸) : 𝔸 :=
  ∑ k ∈ Finset.range (q + 1), padeC 𝕜 q k • b ^ k

def pD (𝕜 : Type) [RCLike 𝕜] {𝔸 : Type} [NormedRing 𝔸] [NormedAlgebra 𝕜 𝔸] (q : Nat) (b : 𝔸) : 𝔸 :=
  ∑ k ∈ Finset.range (q + 1), ((-1) ^ k * padeC 𝕜 q k) • b ^ k

theorem norm_pow_le_one' [NormOneClass 𝔸] {b : 𝔸} (hb : ‖b‖ ≤ 1) (k : Nat) : ‖b ^ k‖ ≤ 1 :=
  (norm_pow_le b k).trans (pow_le_one₀ (norm_nonneg _) hb)

/-- The denominator is close to one. -/
theorem norm_one_sub_pD [NormOneClass 𝔸] (q : Nat) {b : 𝔸} (hb : ‖b‖ ≤ 1) : ‖1 - pD 𝕜 q b‖ ≤ 2 / 3 := by
  have e : 1 - pD 𝕜 q b = - ∑ k ∈ Finset.range q, ((-1) ^ (k + 1) * padeC 𝕜 q (k + 1)) • b ^ (k + 1) := by
    rw [pD, Finset.sum_range_succ']
    simp [padeC]
  rw [e, norm_neg]
  calc ‖∑ k ∈ Finset.range q, ((-1) ^ (k + 1) * padeC 𝕜 q (k + 1)) • b ^ (k + 1)‖
      ≤ ∑ k ∈ Finset.range q, ‖((-1) ^ (k + 1) * padeC 𝕜 q (k + 1)) • b ^ (k + 1)‖ := norm_sum_le _ _
    _ ≤ ∑ k ∈ Finset.range q, 1 / 2 * (1 / 4 : ℝ) ^ k := by
      refine Finset.sum_le_sum fun k hk => ?_
      have hk := Finset.mem_range.1 hk
      refine (norm_smul_le _ _).trans ?_
      rw [norm_mul, norm_pow, norm_neg, norm_one, one_pow, one_mul]
      calc _ ≤ (1 / 2 * (1 / 4 : ℝ) ^ k) * 1 :=
            mul_le_mul (norm_padeC q k hk) (norm_pow_le_one' hb _) (norm_nonneg _) (by positivity)
        _ = _ := mul_one _
    _ ≤ ∑' k, 1 / 2 * (1 / 4 : ℝ) ^ k :=
      Summable.sum_le_tsum _ (fun k _ => by positivity)
        ((summable_geometric_of_lt_one (by norm_num) (by norm_num)).mul_left _)
    _ = 2 / 3 := by
      rw [tsum_mul_left, tsum_geometric_of_lt_one (by norm_num) (by norm_num)]
      norm_num

variable [CompleteSpace 𝔸]

theorem isUnit_pD [NormOneClass 𝔸] (q : Nat) {b : 𝔸} (hb : ‖b‖ ≤ 1) : IsUnit (pD 𝕜 q b) := by
  have h := norm_one_sub_pD (𝕜 := 𝕜) q hb
  have := (Units.oneSub (1 - pD 𝕜 q b) (by linarith)).isUnit
  rwa [Units.val_oneSub, sub_sub_cancel] at this

theorem hasSum_pD (q : Nat) (b : 𝔸) :
    HasSum (fun n => padeE 𝕜 q n • b ^ n) (pD 𝕜 q b * NormedSpace.exp b) := by
  have h : ∀ k, HasSum (fun n => (if k ≤ n then (-1) ^ k * padeC 𝕜 q k * ((n - k).factorial : 𝕜)⁻¹ else 0) • b ^ n)
      ((((-1) ^ k * padeC 𝕜 q k) • b ^ k) * NormedSpace.exp b) := by
    intro k
    rw [← hasSum_nat_add_iff' k, Finset.sum_eq_zero (fun i hi => by
      rw [if_neg (by have := Finset.mem_range.1 hi; omega), zero_smul]), sub_zero]
    have := (NormedSpace.exp_series_hasSum_exp' (𝕂 := 𝕜) b).mul_left (((-1) ^ k * padeC 𝕜 q k) • b ^ k)
    have e : (fun n => (if k ≤ n + k then (-1) ^ k * padeC 𝕜 q k * ((n + k - k).factorial : 𝕜)⁻¹ else 0) •
        b ^ (n + k)) = fun n => (((-1) ^ k * padeC 𝕜 q k) • b ^ k) * ((n.factorial : 𝕜)⁻¹ • b ^ n) := by
      funext n
      rw [if_pos (by omega), Nat.add_sub_cancel, smul_mul_smul_comm, ← pow_add, Nat.add_comm]
    rw [e]
    exact this
  have := hasSum_sum (s := Finset.range (q + 1)) fun k _ => h k
  rw [← Finset.sum_mul] at this
  simp only [← Finset.sum_smul] at this
  exact this

/-- The error of the equation. -/
theorem pade_residual [NormOneClass 𝔸] (q : Nat) (hq : 0 < q) {b : 𝔸} (hb : ‖b‖ ≤ 1) :
    ‖pD 𝕜 q b * NormedSpace.exp b - pN 𝕜 q b‖ ≤ 3 * padeDelta q * ‖b‖ ^ (2 * q + 1) := by
  have h := hasSum_pD (𝕜 := 𝕜) q b
  rw [← hasSum_nat_add_iff' (2 * q + 1)] at h
  have e : ∑ i ∈ Finset.range (2 * q + 1), padeE 𝕜 q i • b ^ i = pN 𝕜 q b := by
    rw [pN, Finset.range_eq_Ico, Finset.range_eq_Ico, ← Finset.sum_Ico_consecutive _ (Nat.zero_le (q + 1))
      (by omega : q + 1 ≤ 2 * q + 1), Finset.sum_eq_zero (s := Finset.Ico (q + 1) (2 * q + 1)), add_zero]
    · refine Finset.sum_congr rfl fun i hi => ?_
      have hi := Finset.mem_Ico.1 hi
      rw [padeE_low hq (by omega), if_pos (by omega)]
    · intro i hi
      have hi := Finset.mem_Ico.1 hi
      rw [padeE_low hq (by omega), if_neg (by omega), zero_smul]
  rw [e] at h
  have hg : HasSum (fun i : Nat => padeDelta q * ‖b‖ ^ (2 * q + 1) * ((i.factorial : ℝ)⁻¹ • (1 : ℝ) ^ i))
      (padeDelta q * ‖b‖ ^ (2 * q + 1) * NormedSpace.exp (1 : ℝ)) :=
    (NormedSpace.exp_series_hasSum_exp' (𝕂 := ℝ) (1 : ℝ)).mul_left _
  refine (h.norm_le_of_bounded hg fun i => ?_).trans ?_
  · refine (norm_smul_le _ _).trans ?_
    rw [one_pow, smul_eq_mul, mul_one]
    calc ‖padeE 𝕜 q (i + (2 * q + 1))‖ * ‖b ^ (i + (2 * q + 1))‖
        ≤ (padeDelta q * (i.factorial : ℝ)⁻¹) * ‖b‖ ^ (2 * q + 1) := by
          refine mul_le_mul (norm_padeE q i hq) ?_ (norm_nonneg _)
            (mul_nonneg (padeDelta_nonneg q) (by positivity))
          refine (norm_pow_le b _).trans ?_
          exact pow_le_pow_of_le_one (norm_nonneg _) hb (by omega)
      _ = _ := by ring
  · rw [← Real.exp_eq_exp_ℝ]
    have h3 : Real.exp 1 ≤ 3 := by have := Real.exp_one_lt_d9; norm_num at this ⊢; linarith
    calc _ ≤ padeDelta q * ‖b‖ ^ (2 * q + 1) * 3 :=
          mul_le_mul_of_nonneg_left h3 (mul_nonneg (padeDelta_nonneg q) (by positivity))
      _ = _ := by ring

/-- The error of the solution. -/
theorem pade_error [NormOneClass 𝔸] (q : Nat) (hq : 0 < q) {b Y : 𝔸} (hb : ‖b‖ ≤ 1)
    (hY : pD 𝕜 q b * Y = pN 𝕜 q b) :
    ‖Y - NormedSpace.exp b‖ ≤ 9 * padeDelta q * ‖b‖ ^ (2 * q + 1) := by
  have h1 := pade_residual (𝕜 := 𝕜) q hq hb
  have h2 := norm_one_sub_pD (𝕜 := 𝕜) q hb
  have e : Y - NormedSpace.exp b = -(pD 𝕜 q b * NormedSpace.exp b - pN 𝕜 q b) +
      (1 - pD 𝕜 q b) * (Y - NormedSpace.exp b) := by
    rw [← hY]; noncomm_ring
  have h3 : ‖Y - NormedSpace.exp b‖ ≤ 3 * padeDelta q * ‖b‖ ^ (2 * q + 1) + 2 / 3 * ‖Y - NormedSpace.exp b‖ := by
    conv_lhs => rw [e]
    refine (norm_add_le _ _).trans (add_le_add (by rw [norm_neg]; exact h1) ?_)
    exact (norm_mul_le _ _).trans (mul_le_mul_of_nonneg_right h2 (norm_nonneg _))
  linarith

omit [CompleteSpace 𝔸] in
theorem norm_one_add_pow [NormOneClass 𝔸] (x : 𝔸) (p : Nat) : ‖(1 + x) ^ p - 1‖ ≤ (1 + ‖x‖) ^ p - 1 := by
  induction p with
  | zero => simp
  | succ p ih =>
    have e : (1 + x) ^ (p + 1) - 1 = ((1 + x) ^ p - 1) * (1 + x) + x := by rw [pow_succ]; noncomm_ring
    rw [e]
    calc _ ≤ ‖((1 + x) ^ p - 1) * (1 + x)‖ + ‖x‖ := norm_add_le _ _
      _ ≤ ((1 + ‖x‖) ^ p - 1) * (1 + ‖x‖) + ‖x‖ := by
        refine add_le_add ((norm_mul_le _ _).trans ?_) le_rfl
        refine mul_le_mul ih ?_ (norm_nonneg _) ((norm_nonneg _).trans ih)
        exact (norm_add_le _ _).trans (by rw [norm_one])
      _ = _ := by ring

include 𝕜 in
theorem exp_add' {x y : 𝔸} (h : Commute x y) :
    NormedSpace.exp (x + y) = NormedSpace.exp x * NormedSpace.exp y :=
  NormedSpace.exp_add_of_commute_of_mem_ball (𝕂 := 𝕜) h
    ((NormedSpace.expSeries_radius_eq_top 𝕜 𝔸).symm ▸ edist_lt_top _ _)
    ((NormedSpace.expSeries_radius_eq_top 𝕜 𝔸).symm ▸ edist_lt_top _ _)

theorem exp_two_pow (b : 𝔸) (j : Nat) : NormedSpace.exp ((2 : 𝕜) ^ j • b) = NormedSpace.exp b ^ 2 ^ j := by
  induction j with
  | zero => simp
  | succ j ih =>
    rw [pow_succ, mul_comm, mul_smul, two_smul, exp_add' (𝕜 := 𝕜) (Commute.refl _), ih, ← pow_two, ← pow_mul,
      ← pow_succ]

include 𝕜 in
theorem norm_exp_le [NormOneClass 𝔸] {b : 𝔸} (hb : ‖b‖ ≤ 1) : ‖NormedSpace.exp b‖ ≤ 3 := by
  have h := NormedSpace.exp_series_hasSum_exp' (𝕂 := 𝕜) b
  have hg := NormedSpace.exp_series_hasSum_exp' (𝕂 := ℝ) (1 : ℝ)
  refine (h.norm_le_of_bounded hg fun i => ?_).trans ?_
  · refine (norm_smul_le _ _).trans ?_
    rw [norm_inv, RCLike.norm_natCast, smul_eq_mul, one_pow]
    exact mul_le_mul_of_nonneg_left (norm_pow_le_one' hb i) (by positivity)
  · rw [← Real.exp_eq_exp_ℝ]
    have := Real.exp_one_lt_d9; norm_num at this ⊢; linarith

/-- The error after the squares. -/
theorem pade_square_error [NormOneClass 𝔸] (q : Nat) (hq : 0 < q) {b Y : 𝔸} (hb : ‖b‖ ≤ 1)
    (hY : pD 𝕜 q b * Y = pN 𝕜 q b) (j : Nat) :
    ‖Y ^ 2 ^ j - NormedSpace.exp ((2 : 𝕜) ^ j • b)‖ ≤
      ‖NormedSpace.exp ((2 : 𝕜) ^ j • b)‖ * ((1 + 27 * padeDelta q) ^ 2 ^ j - 1) := by
  rw [exp_two_pow]
  have hz : NormedSpace.exp b * NormedSpace.exp (-b) = 1 := by
    rw [← exp_add' (𝕜 := 𝕜) (Commute.neg_right (Commute.refl b)), add_neg_cancel, NormedSpace.exp_zero]
  have hz' : NormedSpace.exp (-b) * NormedSpace.exp b = 1 := by
    rw [← exp_add' (𝕜 := 𝕜) (Commute.neg_left (Commute.refl b)), neg_add_cancel, NormedSpace.exp_zero]
  have cD : Commute b (pD 𝕜 q b) :=
    Commute.sum_right _ _ _ fun k _ => ((Commute.refl b).pow_right k).smul_right _
  have cN : Commute b (pN 𝕜 q b) :=
    Commute.sum_right _ _ _ fun k _ => ((Commute.refl b).pow_right k).smul_right _
  have cY : Commute b Y := by
    obtain ⟨u, hu⟩ := isUnit_pD (𝕜 := 𝕜) q hb
    have : Y = ↑u⁻¹ * pN 𝕜 q b := by rw [← hY, ← hu, Units.inv_mul_cancel_left]
    rw [this]
    refine Commute.mul_right ?_ cN
    rw [← hu] at cD
    exact cD.units_inv_right
  have cE : Commute (NormedSpace.exp b) (NormedSpace.exp (-b) * Y) :=
    Commute.mul_right (Commute.exp ((Commute.refl b).neg_right)) (Commute.exp_left cY)
  have eY : Y = NormedSpace.exp b * (NormedSpace.exp (-b) * Y) := by rw [← mul_assoc, hz, one_mul]
  have h1 : ‖NormedSpace.exp (-b) * Y - 1‖ ≤ 27 * padeDelta q := by
    have : NormedSpace.exp (-b) * Y - 1 = NormedSpace.exp (-b) * (Y - NormedSpace.exp b) := by
      rw [mul_sub, hz']
    rw [this]
    have h2 := pade_error q hq hb hY
    have h3 := norm_exp_le (𝕜 := 𝕜) (b := -b) (by rwa [norm_neg])
    calc _ ≤ ‖NormedSpace.exp (-b)‖ * ‖Y - NormedSpace.exp b‖ := norm_mul_le _ _
      _ ≤ 3 * (9 * padeDelta q * 1) := by
        refine mul_le_mul h3 (h2.trans ?_) (norm_nonneg _) (by norm_num)
        exact mul_le_mul_of_nonneg_left (pow_le_one₀ (norm_nonneg _) hb)
          (mul_nonneg (by norm_num) (padeDelta_nonneg q))
      _ = _ := by ring
  have h4 := norm_one_add_pow (NormedSpace.exp (-b) * Y - 1) (2 ^ j)
  rw [add_sub_cancel] at h4
  have e2 : Y ^ 2 ^ j - NormedSpace.exp b ^ 2 ^ j =
      NormedSpace.exp b ^ 2 ^ j * ((NormedSpace.exp (-b) * Y) ^ 2 ^ j - 1) := by
    conv_lhs => rw [eY, cE.mul_pow]
    rw [mul_sub, mul_one]
  rw [e2]
  refine (norm_mul_le _ _).trans (mul_le_mul_of_nonneg_left (h4.trans ?_) (norm_nonneg _))
  exact sub_le_sub_right (pow_le_pow_left₀ (by positivity) (by linarith) _) _

end

end Verif.Expm
