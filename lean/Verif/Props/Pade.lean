import Verif.Spec.Expm
import Mathlib.Data.Nat.Choose.Cast
import Mathlib.Algebra.Polynomial.Eval.Degree
import Mathlib.Tactic.FieldSimp
import Mathlib.Tactic.LinearCombination
import Mathlib.Data.Nat.Choose.Sum
/-
The diagonal Pade approximants of the exponential.
-/
namespace Verif.Expm

open Verif Spec Polynomial

variable {α : Type} [Field α] [CharZero α]

/-- The coefficients of the numerator, by the recurrence of the program. -/
def padeC (α : Type) [Field α] (q : Nat) : Nat → α
  | 0 => 1
  | 1 => 1 / 2
  | k + 2 => padeC α q (k + 1) * ((q - (k + 2) + 1 : Nat) : α) / (((k + 2) * (2 * q - (k + 2) + 1) : Nat) : α)

/-- The coefficients in closed form. -/
theorem padeC_eq (q : Nat) : ∀ k, k ≤ q → (0 < q) →
    padeC α q k = ((2 * q - k).factorial * q.factorial : Nat) /
      (((2 * q).factorial * k.factorial * (q - k).factorial : Nat) : α)
  | 0, _, _ => by
    rw [padeC, eq_comm, div_eq_one_iff_eq]
    · simp
    · exact Nat.cast_ne_zero.2 (by positivity)
  | 1, h, h0 => by
    obtain ⟨p, rfl⟩ : ∃ p, q = p + 1 := ⟨q - 1, by omega⟩
    rw [padeC]
    have e1 : 2 * (p + 1) - 1 = 2 * p + 1 := by omega
    have e2 : 2 * (p + 1) = (2 * p + 1) + 1 := by omega
    rw [e1, e2, Nat.factorial_succ (2 * p + 1), Nat.factorial_succ p, Nat.add_sub_cancel]
    have h1 : ((2 * p + 1).factorial : α) ≠ 0 := Nat.cast_ne_zero.2 (Nat.factorial_ne_zero _)
    have h2 : (p.factorial : α) ≠ 0 := Nat.cast_ne_zero.2 (Nat.factorial_ne_zero _)
    have h3 : ((p : α) + 1) ≠ 0 := Nat.cast_add_one_ne_zero p
    push_cast
    have h4 : (2 * (p : α) + 1 + 1) ≠ 0 := by
      have : (2 * (p : α) + 1 + 1) = 2 * ((p : α) + 1) := by ring
      rw [this]; exact mul_ne_zero two_ne_zero h3
    field_simp
    simp
    ring
  | k + 2, h, h0 => by
    obtain ⟨p, rfl⟩ : ∃ p, q = p + (k + 2) := ⟨q - (k + 2), by omega⟩
    rw [padeC, padeC_eq (p + (k + 2)) (k + 1) (by omega) h0]
    have e1 : p + (k + 2) - (k + 2) = p := by omega
    have e2 : p + (k + 2) - (k + 1) = p + 1 := by omega
    have e3 : 2 * (p + (k + 2)) - (k + 1) = (2 * p + k + 2) + 1 := by omega
    have e4 : 2 * (p + (k + 2)) - (k + 2) = 2 * p + k + 2 := by omega
    rw [e1, e2, e3, e4, Nat.factorial_succ (2 * p + k + 2), Nat.factorial_succ p, Nat.factorial_succ (k + 1)]
    have h1 : ((2 * (p + (k + 2))).factorial : α) ≠ 0 := Nat.cast_ne_zero.2 (Nat.factorial_ne_zero _)
    have h2 : (p.factorial : α) ≠ 0 := Nat.cast_ne_zero.2 (Nat.factorial_ne_zero _)
    have h3 : ((p + 1 : Nat) : α) ≠ 0 := Nat.cast_ne_zero.2 (by omega)
    have h4 : ((k + 1).factorial : α) ≠ 0 := Nat.cast_ne_zero.2 (Nat.factorial_ne_zero _)
    have h5 : ((k + 2 : Nat) : α) ≠ 0 := Nat.cast_ne_zero.2 (by omega)
    have h6 : ((2 * p + k + 2 + 1 : Nat) : α) ≠ 0 := Nat.cast_ne_zero.2 (by omega)
    simp only [Nat.cast_mul]
    have e5 : ((k + 1 + 1 : Nat) : α) = ((k + 2 : Nat) : α) := rfl
    rw [e5]
    field_simp

/-- An identity of binomial coefficients. -/
theorem choose_sum (q n : Nat) :
    ∑ k ∈ Finset.range (q + 1), (-1 : ℤ) ^ k * (q.choose k) * (if k ≤ n then ((2 * q - k).choose (n - k) : ℤ) else 0)
      = q.choose n := by
  have key : (∑ k ∈ Finset.range (q + 1), (-X) ^ k * (1 + X) ^ (2 * q - k) * ((q.choose k : ℕ) : ℤ[X])) =
      (1 + X) ^ q := by
    have h1 : ((-X) + (1 + X)) ^ q = (1 : ℤ[X]) := by ring
    rw [add_pow] at h1
    have : ∀ k ∈ Finset.range (q + 1), (-X) ^ k * (1 + X) ^ (2 * q - k) * ((q.choose k : ℕ) : ℤ[X]) =
        (1 + X) ^ q * ((-X) ^ k * (1 + X) ^ (q - k) * ((q.choose k : ℕ) : ℤ[X])) := by
      intro k hk
      have : 2 * q - k = q + (q - k) := by have := Finset.mem_range.1 hk; omega
      rw [this, pow_add]; ring
    rw [Finset.sum_congr rfl this, ← Finset.mul_sum, h1, mul_one]
  have := congrArg (fun p => p.coeff n) key
  simp only [finsetSum_coeff, coeff_one_add_X_pow] at this
  rw [Nat.cast_inj.2 rfl] at this
  rw [← this]
  refine Finset.sum_congr rfl fun k _ => ?_
  have e : (-X) ^ k * (1 + X) ^ (2 * q - k) * ((q.choose k : ℕ) : ℤ[X]) =
      C ((-1 : ℤ) ^ k * (q.choose k)) * ((1 + X) ^ (2 * q - k) * X ^ k) := by
    rw [neg_pow, map_mul, map_pow, map_neg, map_one, ← C_eq_natCast]
    ring
  rw [e, coeff_C_mul, coeff_mul_X_pow', coeff_one_add_X_pow]

/-- The numerator. -/
noncomputable def padeN (α : Type) [Field α] (q : Nat) : α[X] :=
  ∑ k ∈ Finset.range (q + 1), C (padeC α q k) * X ^ k

/-- The denominator. -/
noncomputable def padeD (α : Type) [Field α] (q : Nat) : α[X] :=
  ∑ k ∈ Finset.range (q + 1), C ((-1) ^ k * padeC α q k) * X ^ k

omit [CharZero α] in
theorem coeff_sum (f : Nat → α) (q n : Nat) :
    (∑ k ∈ Finset.range (q + 1), C (f k) * X ^ k).coeff n = if n ≤ q then f n else 0 := by
  rw [finsetSum_coeff]
  simp only [coeff_C_mul, coeff_X_pow, mul_ite, mul_one, mul_zero]
  rw [Finset.sum_ite_eq]
  simp

omit [CharZero α] in
theorem natDegree_sum (f : Nat → α) (q : Nat) :
    (∑ k ∈ Finset.range (q + 1), C (f k) * X ^ k).natDegree ≤ q := by
  rw [natDegree_le_iff_coeff_eq_zero]
  intro n hn
  rw [coeff_sum, if_neg (by omega)]

theorem pade_term {q n k : Nat} (hq : 0 < q) (hk : k ≤ q) (hn : n ≤ 2 * q) (hkn : k ≤ n) :
    padeC α q k * ((n - k).factorial : α)⁻¹ =
      ((2 * q - n).factorial : α) / (2 * q).factorial * ((q.choose k : α) * ((2 * q - k).choose (n - k) : α)) := by
  rw [padeC_eq q k hk hq, Nat.cast_choose α hk, Nat.cast_choose α (by omega : n - k ≤ 2 * q - k)]
  have e : 2 * q - k - (n - k) = 2 * q - n := by omega
  rw [e]
  simp only [Nat.cast_mul]
  have hf : ∀ i : Nat, (i.factorial : α) ≠ 0 := fun i => Nat.cast_ne_zero.2 (Nat.factorial_ne_zero _)
  have h1 := hf (2 * q)
  have h2 := hf k
  have h3 := hf (q - k)
  have h4 := hf (n - k)
  have h5 := hf (2 * q - n)
  field_simp

theorem padeC_choose {q n : Nat} (hq : 0 < q) (hn : n ≤ q) :
    padeC α q n = ((2 * q - n).factorial : α) / (2 * q).factorial * (q.choose n : α) := by
  have := pade_term (α := α) hq hn (by omega : n ≤ 2 * q) le_rfl
  simpa using this

/-- The polynomials of the program are the Pade approximant. -/
theorem isPade (q : Nat) (hq : 0 < q) : IsPade q (padeN α q) (padeD α q) := by
  refine ⟨natDegree_sum _ q, natDegree_sum _ q, ?_, ?_⟩
  · rw [padeD, coeff_sum, if_pos (by omega)]
    simp [padeC]
  intro n hn
  have e1 : PowerSeries.coeff n ((padeD α q : PowerSeries α) * PowerSeries.exp α) =
      ∑ k ∈ Finset.range (n + 1), (padeD α q).coeff k * ((n - k).factorial : α)⁻¹ := by
    rw [PowerSeries.coeff_mul, Finset.Nat.sum_antidiagonal_eq_sum_range_succ
      (fun i j => PowerSeries.coeff i (padeD α q : PowerSeries α) * PowerSeries.coeff j (PowerSeries.exp α))]
    refine Finset.sum_congr rfl fun k _ => ?_
    rw [Polynomial.coeff_coe, PowerSeries.coeff_exp]
    simp
  have e2 : ∑ k ∈ Finset.range (n + 1), (padeD α q).coeff k * ((n - k).factorial : α)⁻¹ =
      ∑ k ∈ Finset.range (q + 1), if k ≤ n then (-1) ^ k * padeC α q k * ((n - k).factorial : α)⁻¹ else 0 := by
    rw [← Finset.sum_filter]
    have : (Finset.range (q + 1)).filter (· ≤ n) = (Finset.range (n + 1)).filter (· ≤ q) := by
      ext k; simp only [Finset.mem_filter, Finset.mem_range]; omega
    rw [this, Finset.sum_filter]
    refine Finset.sum_congr rfl fun k _ => ?_
    rw [padeD, coeff_sum, ite_mul, zero_mul]
  have e3 : ∑ k ∈ Finset.range (q + 1), (if k ≤ n then (-1) ^ k * padeC α q k * ((n - k).factorial : α)⁻¹ else 0) =
      ((2 * q - n).factorial : α) / (2 * q).factorial * (q.choose n : α) := by
    have := congrArg (Int.cast (R := α)) (choose_sum q n)
    push_cast at this
    rw [← this, Finset.mul_sum]
    refine Finset.sum_congr rfl fun k hk => ?_
    by_cases hkn : k ≤ n
    · rw [if_pos hkn, if_pos hkn, mul_assoc,
        pade_term hq (by have := Finset.mem_range.1 hk; omega) hn hkn]
      ring
    · rw [if_neg hkn, if_neg hkn, mul_zero, mul_zero]
  rw [e1, e2, e3, padeN, coeff_sum]
  by_cases hnq : n ≤ q
  · rw [if_pos hnq, padeC_choose hq hnq]
  · rw [if_neg hnq, Nat.choose_eq_zero_of_lt (by omega), Nat.cast_zero, mul_zero]

/-- C58, the specification: there is only one quotient of polynomials which is a Pade approximant. -/
theorem c58_pade_unique (q : Nat) (N D N' D' : α[X]) (h : IsPade q N D) (h' : IsPade q N' D') :
    N * D' = N' * D := by
  obtain ⟨h1, h2, _, h4⟩ := h
  obtain ⟨h1', h2', _, h4'⟩ := h'
  ext n
  by_cases hn : n ≤ 2 * q
  · have key : ∀ (P Q R : α[X]), (∀ n ≤ 2 * q, PowerSeries.coeff n ((Q : PowerSeries α) * PowerSeries.exp α) =
        P.coeff n) → (P * R).coeff n = PowerSeries.coeff n ((Q : PowerSeries α) * PowerSeries.exp α * (R : PowerSeries α)) := by
      intro P Q R hPQ
      rw [Polynomial.coeff_mul, PowerSeries.coeff_mul]
      refine Finset.sum_congr rfl fun x hx => ?_
      have := Finset.mem_antidiagonal.1 hx
      rw [hPQ x.1 (by omega), Polynomial.coeff_coe]
    rw [key N D D' h4, key N' D' D h4']
    congr 1
    ring
  · have hd : ∀ P Q : α[X], P.natDegree ≤ q → Q.natDegree ≤ q → (P * Q).coeff n = 0 := by
      intro P Q hP hQ
      refine coeff_eq_zero_of_natDegree_lt (lt_of_le_of_lt natDegree_mul_le ?_)
      omega
    rw [hd N D' h1 h2', hd N' D h1' h2]

end Verif.Expm
