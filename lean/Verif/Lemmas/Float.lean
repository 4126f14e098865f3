import Verif.Core.Float
import Mathlib.Data.Int.Log
import Mathlib.Algebra.Order.Round
import Mathlib.Tactic.FieldSimp
import Mathlib.Tactic.NormNum
/-
Lemmas on numbers with 53 binary digits and on rounding.
-/
namespace Verif

open Rounding

theorem two_zpow_pos (e : ℤ) : (0 : ℝ) < 2 ^ e := zpow_pos (by norm_num) e

theorem isTarget_of {m e : ℤ} (hm : |m| ≤ 2 ^ 53) (h1 : -1074 ≤ e) (h2 : e ≤ 971) :
    IsTarget (m * (2 : ℝ) ^ e) := by
  rcases lt_or_eq_of_le hm with h | h
  · exact Or.inl ⟨m, e, h, h1, h2, rfl⟩
  · rcases lt_or_eq_of_le h2 with h3 | h3
    · left
      have hs : (2 : ℝ) ^ (e + 1) = 2 ^ e * 2 := zpow_add_one₀ (by norm_num) e
      rcases abs_eq (by norm_num : (0 : ℤ) ≤ 2 ^ 53) |>.1 h with h4 | h4
      · exact ⟨2 ^ 52, e + 1, by norm_num, by omega, by omega, by rw [h4, hs]; push_cast; ring⟩
      · exact ⟨-2 ^ 52, e + 1, by norm_num, by omega, by omega, by rw [h4, hs]; push_cast; ring⟩
    · right
      rw [abs_mul, abs_of_pos (two_zpow_pos e), ← Int.cast_abs, h, h3]
      push_cast
      rw [show ((2 : ℝ) ^ (971 : ℤ)) = 2 ^ (971 : ℕ) from zpow_natCast 2 971,
        show (9007199254740992 : ℝ) = 2 ^ 53 by norm_num, ← pow_add]

/-- All the numbers are multiples of the smallest one. -/
theorem IsDouble.grid {x : ℝ} (h : IsDouble x) : ∃ k : ℤ, x = k * (2 : ℝ) ^ (-1074 : ℤ) := by
  obtain ⟨m, e, h1, h2, h3, rfl⟩ := h
  obtain ⟨k, hk⟩ := Int.eq_ofNat_of_zero_le (show 0 ≤ e + 1074 by omega)
  refine ⟨m * 2 ^ k, ?_⟩
  push_cast
  rw [mul_assoc, ← zpow_natCast (2 : ℝ) k, ← zpow_add₀ (by norm_num)]
  congr 2
  omega

theorem isDouble_grid {k : ℤ} (h : |(k : ℝ) * (2 : ℝ) ^ (-1074 : ℤ)| < 2 ^ (-1021 : ℤ)) :
    IsDouble (k * (2 : ℝ) ^ (-1074 : ℤ)) := by
  refine ⟨k, -1074, ?_, le_refl _, by norm_num, rfl⟩
  rw [abs_mul, abs_of_pos (two_zpow_pos _)] at h
  have : (2 : ℝ) ^ (-1021 : ℤ) = 2 ^ 53 * 2 ^ (-1074 : ℤ) := by
    rw [← zpow_natCast, ← zpow_add₀ (by norm_num)]; norm_num
  rw [this] at h
  have := lt_of_mul_lt_mul_right h (two_zpow_pos _).le
  exact_mod_cast this

/-- There is a number of the format nearby. -/
theorem near_target {x : ℝ} (h1 : (2 : ℝ) ^ (-1022 : ℤ) ≤ |x|) (h2 : |x| < 2 ^ 1024) :
    ∃ y, IsTarget y ∧ |x - y| ≤ 2 ^ (-53 : ℤ) * |x| := by
  have hx : 0 < |x| := lt_of_lt_of_le (two_zpow_pos _) h1
  set l := Int.log 2 |x| with hl
  have h3 : (2 : ℝ) ^ l ≤ |x| := by
    have := Int.zpow_log_le_self (b := 2) (by decide) hx
    exact_mod_cast this
  have h4 : |x| < (2 : ℝ) ^ (l + 1) := by
    have := Int.lt_zpow_succ_log_self (b := 2) (by decide) |x|
    exact_mod_cast this
  have hl1 : -1022 ≤ l := by
    by_contra hc
    have : (2 : ℝ) ^ (l + 1) ≤ 2 ^ (-1022 : ℤ) := zpow_le_zpow_right₀ (by norm_num) (by omega)
    linarith
  have hl2 : l ≤ 1023 := by
    by_contra hc
    have : (2 : ℝ) ^ (1024 : ℤ) ≤ 2 ^ l := zpow_le_zpow_right₀ (by norm_num) (by omega)
    rw [show ((2 : ℝ) ^ (1024 : ℤ)) = 2 ^ (1024 : ℕ) from zpow_natCast 2 1024] at this
    linarith
  set e := l - 52 with he
  have hpos := two_zpow_pos e
  have hp2 : (2 : ℝ) ^ 53 * 2 ^ e = 2 ^ (l + 1) := by
    rw [← zpow_natCast, ← zpow_add₀ (by norm_num)]; congr 1; omega
  have hp1 : (2 : ℝ) ^ e = 2 ^ (-52 : ℤ) * 2 ^ l := by
    rw [← zpow_add₀ (by norm_num)]; congr 1; omega
  set m := round (x / 2 ^ e) with hm
  have h7 := abs_sub_round (x / 2 ^ e)
  rw [← hm] at h7
  refine ⟨m * 2 ^ e, isTarget_of ?_ (by omega) (by omega), ?_⟩
  · have h5 : |x / 2 ^ e| < 2 ^ 53 := by
      rw [abs_div, abs_of_pos hpos, div_lt_iff₀ hpos, hp2]
      exact h4
    obtain ⟨h5, h6⟩ := abs_lt.1 h5
    have h7 := abs_le.1 h7
    rw [abs_le]
    constructor
    · have : ((-2 ^ 53 - 1 : ℤ) : ℝ) < m := by push_cast; linarith
      have := Int.cast_lt.1 this
      omega
    · have : (m : ℝ) < ((2 ^ 53 + 1 : ℤ) : ℝ) := by push_cast; linarith
      have := Int.cast_lt.1 this
      omega
  · have : x - m * 2 ^ e = (x / 2 ^ e - m) * 2 ^ e := by
      rw [sub_mul, div_mul_cancel₀ _ hpos.ne']
    rw [this, abs_mul, abs_of_pos hpos]
    calc |x / 2 ^ e - m| * 2 ^ e ≤ 1 / 2 * 2 ^ e := mul_le_mul_of_nonneg_right h7 hpos.le
      _ = 2 ^ (-53 : ℤ) * 2 ^ l := by
          rw [hp1, ← mul_assoc]; congr 1; norm_num
      _ ≤ 2 ^ (-53 : ℤ) * |x| := mul_le_mul_of_nonneg_left h3 (two_zpow_pos _).le

variable [Rounding]

/-- The relative error of a result which is not too small. -/
theorem rnd_rel {x : ℝ} (h1 : (2 : ℝ) ^ (-1022 : ℤ) ≤ |x|) (h2 : |x| < 2 ^ 1024) :
    |rnd x - x| ≤ 2 ^ (-53 : ℤ) * |x| := by
  obtain ⟨y, hy, h⟩ := near_target h1 h2
  rw [abs_sub_comm]
  exact (nearest x y hy).trans h

/-- The absolute error of a small result. -/
theorem rnd_small {x : ℝ} (h : |x| ≤ 2 ^ (-1022 : ℤ)) : |rnd x - x| ≤ 2 ^ (-1075 : ℤ) := by
  have hpos := two_zpow_pos (-1074)
  have h7 := abs_sub_round (x / 2 ^ (-1074 : ℤ))
  set m := round (x / 2 ^ (-1074 : ℤ)) with hm
  have h5 : |x / 2 ^ (-1074 : ℤ)| ≤ 2 ^ 52 := by
    rw [abs_div, abs_of_pos hpos, div_le_iff₀ hpos]
    refine h.trans (le_of_eq ?_)
    rw [← zpow_natCast, ← zpow_add₀ (by norm_num)]; norm_num
  have ht : IsTarget (m * (2 : ℝ) ^ (-1074 : ℤ)) := by
    refine isTarget_of ?_ (le_refl _) (by norm_num)
    obtain ⟨h5, h6⟩ := abs_le.1 h5
    have h7 := abs_le.1 h7
    rw [abs_le]
    constructor
    · have : ((-2 ^ 53 : ℤ) : ℝ) < m := by push_cast; linarith
      exact (Int.cast_lt.1 this).le
    · have : (m : ℝ) < ((2 ^ 53 : ℤ) : ℝ) := by push_cast; linarith
      exact (Int.cast_lt.1 this).le
  rw [abs_sub_comm]
  refine (nearest x _ ht).trans ?_
  have : x - m * 2 ^ (-1074 : ℤ) = (x / 2 ^ (-1074 : ℤ) - m) * 2 ^ (-1074 : ℤ) := by
    rw [sub_mul, div_mul_cancel₀ _ hpos.ne']
  rw [this, abs_mul, abs_of_pos hpos]
  calc |x / 2 ^ (-1074 : ℤ) - m| * 2 ^ (-1074 : ℤ) ≤ 1 / 2 * 2 ^ (-1074 : ℤ) :=
        mul_le_mul_of_nonneg_right h7 hpos.le
    _ = 2 ^ (-1075 : ℤ) := by
        rw [show (-1075 : ℤ) = -1074 - 1 by norm_num, zpow_sub_one₀ (by norm_num)]; ring

/-- The error of any result without overflow. -/
theorem rnd_err {x : ℝ} (h : |x| < 2 ^ 1024) : |rnd x - x| ≤ 2 ^ (-53 : ℤ) * |x| + 2 ^ (-1075 : ℤ) := by
  rcases le_total ((2 : ℝ) ^ (-1022 : ℤ)) |x| with h1 | h1
  · linarith [rnd_rel h1 h, two_zpow_pos (-1075)]
  · have := mul_nonneg (two_zpow_pos (-53)).le (abs_nonneg x)
    linarith [rnd_small h1]

/-- Sums have no other error than the relative one. -/
theorem rnd_add {x y : ℝ} (hx : IsDouble x) (hy : IsDouble y) (h : |x + y| < 2 ^ 1024) :
    |rnd (x + y) - (x + y)| ≤ 2 ^ (-53 : ℤ) * |x + y| := by
  rcases le_total ((2 : ℝ) ^ (-1022 : ℤ)) |x + y| with h1 | h1
  · exact rnd_rel h1 h
  · obtain ⟨k, rfl⟩ := hx.grid
    obtain ⟨k', rfl⟩ := hy.grid
    have e : (k : ℝ) * 2 ^ (-1074 : ℤ) + k' * 2 ^ (-1074 : ℤ) = ((k + k' : ℤ) : ℝ) * 2 ^ (-1074 : ℤ) := by
      push_cast; ring
    have hl : (2 : ℝ) ^ (-1022 : ℤ) < 2 ^ (-1021 : ℤ) := zpow_lt_zpow_right₀ (by norm_num) (by norm_num)
    rw [e] at h1 ⊢
    rw [rnd_exact (Or.inl (isDouble_grid (h1.trans_lt hl))), sub_self, abs_zero]
    exact mul_nonneg (two_zpow_pos (-53)).le (abs_nonneg _)

omit [Rounding] in
/-- The distance between a number with 53 digits, the first of which is one, and the others. -/
theorem gap {m e : ℤ} (h1 : 2 ^ 52 < m) (h2 : m < 2 ^ 53) (he : e ≤ 971) {z : ℝ} (hz : IsTarget z)
    (hne : z ≠ m * (2 : ℝ) ^ e) : (2 : ℝ) ^ e ≤ |z - m * 2 ^ e| := by
  have hm1 : ((2 ^ 52 + 1 : ℤ) : ℝ) ≤ m := by exact_mod_cast h1
  have hm2 : (m : ℝ) ≤ ((2 ^ 53 - 1 : ℤ) : ℝ) := by
    rw [Int.cast_le]; omega
  push_cast at hm1 hm2
  have hpos := two_zpow_pos e
  -- multiples of 2^e
  have key : ∀ k : ℤ, z = k * (2 : ℝ) ^ e → (2 : ℝ) ^ e ≤ |z - m * 2 ^ e| := by
    rintro k rfl
    have hk : k ≠ m := fun h => hne (by rw [h])
    rw [← sub_mul, abs_mul, abs_of_pos hpos]
    have : (1 : ℝ) ≤ |(k : ℝ) - m| := by
      have : (1 : ℤ) ≤ |k - m| := Int.one_le_abs (sub_ne_zero.2 hk)
      exact_mod_cast this
    nlinarith
  have hbig : (2 : ℝ) ^ 1024 = 2 ^ (1024 - e) * 2 ^ e := by
    rw [← zpow_add₀ (by norm_num), show 1024 - e + e = ((1024 : ℕ) : ℤ) by omega, zpow_natCast]
  obtain ⟨k, hk⟩ := Int.eq_ofNat_of_zero_le (show 0 ≤ 1024 - e by omega)
  rcases hz with ⟨m', e', h3, h4, h5, rfl⟩ | hz
  · by_cases hc : e ≤ e'
    · obtain ⟨k, hk⟩ := Int.eq_ofNat_of_zero_le (show 0 ≤ e' - e by omega)
      refine key (m' * 2 ^ k) ?_
      push_cast
      rw [mul_assoc, ← zpow_natCast (2 : ℝ) k, ← zpow_add₀ (by norm_num)]
      congr 2
      omega
    · have h6 : |(m' : ℝ)| ≤ 2 ^ 53 := by
        have := h3.le
        exact_mod_cast this
      have h7 : (m' : ℝ) * 2 ^ e' ≤ 2 ^ 52 * 2 ^ e := by
        calc (m' : ℝ) * 2 ^ e' ≤ 2 ^ 53 * 2 ^ e' :=
              mul_le_mul_of_nonneg_right ((le_abs_self _).trans h6) (two_zpow_pos _).le
          _ ≤ 2 ^ 53 * 2 ^ (e - 1) := mul_le_mul_of_nonneg_left
              (zpow_le_zpow_right₀ (by norm_num) (by omega)) (by positivity)
          _ = 2 ^ 52 * 2 ^ e := by rw [zpow_sub_one₀ (by norm_num)]; ring
      rw [abs_sub_comm]
      refine le_trans ?_ (le_abs_self _)
      nlinarith
  · have h6 : (2 : ℝ) ^ (1024 - e) = ((2 ^ k : ℤ) : ℝ) := by
      rw [hk]; push_cast; exact zpow_natCast _ _
    rcases abs_eq (by positivity : (0 : ℝ) ≤ 2 ^ 1024) |>.1 hz with h7 | h7
    · exact key (2 ^ k) (by rw [h7, hbig, h6])
    · exact key (-2 ^ k) (by rw [h7, hbig, h6]; push_cast; ring)

/-- Rounding to a number with 53 digits. -/
theorem rnd_eq_of {x : ℝ} {m e : ℤ} (h1 : 2 ^ 52 < m) (h2 : m < 2 ^ 53) (he1 : -1074 ≤ e) (he : e ≤ 971)
    (h : |x - m * (2 : ℝ) ^ e| < 2 ^ e / 2) : rnd x = m * 2 ^ e :=
  rnd_eq (isTarget_of (by rw [abs_of_pos (by omega)]; omega) he1 he) (fun _ hz hne => gap h1 h2 he hz hne) h

/-- The product of a normal number, but for the smallest, and a number below one is smaller. -/
theorem rnd_mul_lt {x u : ℝ} (hx : IsDouble x) (h : (2 : ℝ) ^ (-1022 : ℤ) < x) (hu : u ≤ 1 - 2 ^ (-53 : ℤ)) :
    rnd (x * u) < x := by
  have hx0 : 0 < x := (two_zpow_pos _).trans h
  have hm : rnd (x * u) ≤ rnd (x - x * 2 ^ (-53 : ℤ)) := rnd_mono (by nlinarith)
  refine lt_of_le_of_lt hm ?_
  clear hm hu
  set l := Int.log 2 x with hl
  have h3 : (2 : ℝ) ^ l ≤ x := by
    have := Int.zpow_log_le_self (b := 2) (by decide) hx0
    exact_mod_cast this
  have h4 : x < (2 : ℝ) ^ (l + 1) := by
    have := Int.lt_zpow_succ_log_self (b := 2) (by decide) x
    exact_mod_cast this
  have hxb := hx.lt
  rw [abs_of_pos hx0] at hxb
  have hl1 : -1022 ≤ l := by
    by_contra hc
    have : (2 : ℝ) ^ (l + 1) ≤ 2 ^ (-1022 : ℤ) := zpow_le_zpow_right₀ (by norm_num) (by omega)
    linarith
  have hl2 : l ≤ 1023 := by
    by_contra hc
    have : (2 : ℝ) ^ (1024 : ℤ) ≤ 2 ^ l := zpow_le_zpow_right₀ (by norm_num) (by omega)
    rw [show ((2 : ℝ) ^ (1024 : ℤ)) = 2 ^ (1024 : ℕ) from zpow_natCast 2 1024] at this
    linarith
  have hp53 := two_zpow_pos (-53)
  rcases eq_or_lt_of_le h3 with h5 | h5
  · -- a power of two: the difference is in the format
    have hl3 : -1022 < l := by
      by_contra hc
      have : l = -1022 := by omega
      rw [this] at h5
      linarith
    have e1 : x - x * 2 ^ (-53 : ℤ) = ((2 ^ 53 - 1 : ℤ) : ℝ) * 2 ^ (l - 53) := by
      rw [← h5, zpow_sub₀ (by norm_num)]
      push_cast
      have : (2 : ℝ) ^ (-53 : ℤ) = 1 / 2 ^ 53 := by norm_num
      rw [this, show (2 : ℝ) ^ (53 : ℤ) = 2 ^ 53 from zpow_natCast 2 53]
      field_simp
      norm_num
    have ht : IsTarget (x - x * 2 ^ (-53 : ℤ)) := by
      rw [e1]
      exact isTarget_of (by norm_num) (by omega) (by omega)
    rw [rnd_exact ht]
    nlinarith
  · -- otherwise the previous number is nearer
    obtain ⟨m, e, h6, h7, h8, rfl⟩ := hx
    -- x is a multiple of 2^(l-52)
    have hmul : ∃ k : ℤ, (m : ℝ) * 2 ^ e = k * 2 ^ (l - 52) := by
      have hle : l - 52 ≤ e := by
        by_contra hc
        have : (m : ℝ) * 2 ^ e < 2 ^ l := by
          have hm : (m : ℝ) < 2 ^ 53 := by
            have := (le_abs_self _).trans_lt h6
            exact_mod_cast this
          calc (m : ℝ) * 2 ^ e < 2 ^ 53 * 2 ^ e := mul_lt_mul_of_pos_right hm (two_zpow_pos _)
            _ ≤ 2 ^ 53 * 2 ^ (l - 53) := mul_le_mul_of_nonneg_left
              (zpow_le_zpow_right₀ (by norm_num) (by omega)) (by positivity)
            _ = 2 ^ l := by
              rw [← zpow_natCast, ← zpow_add₀ (by norm_num)]; congr 1; omega
        linarith
      obtain ⟨k, hk⟩ := Int.eq_ofNat_of_zero_le (show 0 ≤ e - (l - 52) by omega)
      refine ⟨m * 2 ^ k, ?_⟩
      push_cast
      rw [mul_assoc, ← zpow_natCast (2 : ℝ) k, ← zpow_add₀ (by norm_num)]
      congr 2
      omega
    obtain ⟨k, hk⟩ := hmul
    rw [hk] at h3 h4 h5 ⊢
    set f := l - 52 with hf
    have hpos := two_zpow_pos f
    have hp0 : (2 : ℝ) ^ l = 2 ^ 52 * 2 ^ f := by
      rw [← zpow_natCast, ← zpow_add₀ (by norm_num)]; congr 1; omega
    have hp1 : (2 : ℝ) ^ (l + 1) = 2 ^ 53 * 2 ^ f := by
      rw [← zpow_natCast, ← zpow_add₀ (by norm_num)]; congr 1; omega
    rw [hp0] at h5
    rw [hp1] at h4
    have hk1 : 2 ^ 52 < k := by
      have := lt_of_mul_lt_mul_right h5 hpos.le
      exact_mod_cast this
    have hk2 : k < 2 ^ 53 := by
      have := lt_of_mul_lt_mul_right h4 hpos.le
      exact_mod_cast this
    have ht : IsTarget (((k - 1 : ℤ) : ℝ) * 2 ^ f) :=
      isTarget_of (by rw [abs_of_pos (by omega)]; omega) (by omega) (by omega)
    have hn := nearest ((k : ℝ) * 2 ^ f - k * 2 ^ f * 2 ^ (-53 : ℤ)) _ ht
    by_contra hc
    rw [not_lt] at hc
    have hk1' : (2 : ℝ) ^ 52 + 1 ≤ k := by exact_mod_cast hk1
    have e53 : (2 : ℝ) ^ (-53 : ℤ) = 1 / 2 ^ 53 := by norm_num
    have hq1 : (k : ℝ) * 2 ^ (-53 : ℤ) > 1 / 2 := by
      rw [e53]; norm_num at hk1' ⊢; linarith
    have hk2' : (k : ℝ) < 2 ^ 53 := by exact_mod_cast hk2
    have hq2 : (k : ℝ) * 2 ^ (-53 : ℤ) < 1 := by
      rw [e53]; norm_num at hk2' ⊢; linarith
    have e2 : (k : ℝ) * 2 ^ f - k * 2 ^ f * 2 ^ (-53 : ℤ) - ((k - 1 : ℤ) : ℝ) * 2 ^ f
        = (1 - k * 2 ^ (-53 : ℤ)) * 2 ^ f := by push_cast; ring
    rw [e2, abs_of_nonneg (mul_nonneg (by linarith) hpos.le), abs_sub_comm,
      abs_of_nonneg (by nlinarith)] at hn
    have h9 := mul_lt_mul_of_pos_right hq1 hpos
    generalize (2 : ℝ) ^ (-53 : ℤ) = w at *
    generalize (2 : ℝ) ^ f = v at *
    generalize rnd ((k : ℝ) * v - k * v * w) = r at *
    have e3 : (k : ℝ) * v * w = k * w * v := by ring
    rw [e3] at hn
    linarith

/-! ### The results of operations on finite numbers -/

namespace Fl

omit [Rounding] in
theorem Finite.val_double {a : Fl} (h : a.Finite) : IsDouble a.val := by
  cases a with
  | fin x => exact h
  | nzero => exact isDouble_zero
  | _ => exact h.elim

omit [Rounding] in
theorem Finite.wf {a : Fl} (h : a.Finite) : a.WF := by
  cases a with
  | fin x => exact h
  | _ => trivial

omit [Rounding] in
theorem Finite.ne_nan {a : Fl} (h : a.Finite) : a ≠ nan := fun e => by rw [e] at h; exact h

omit [Rounding] in
theorem Finite.not_inf {a : Fl} (h : a.Finite) : a.isInf = false := by
  cases a with
  | pinf => exact h.elim
  | ninf => exact h.elim
  | _ => rfl

omit [Rounding] in
theorem finite_zero : (0 : Fl).Finite := isDouble_zero

omit [Rounding] in
theorem zeroS_finite (s : Bool) : (zeroS s).Finite ∧ (zeroS s).val = 0 := by
  cases s
  · exact ⟨isDouble_zero, rfl⟩
  · exact ⟨trivial, rfl⟩

/-- Without overflow the value of a result is the rounded one. -/
theorem round_finite {x : ℝ} (h : |rnd x| < 2 ^ 1024) : (round x).Finite ∧ (round x).val = rnd x := by
  obtain ⟨h1, h2⟩ := abs_lt.1 h
  rw [round, if_neg (not_le.2 h2), if_neg (not_le.2 h1)]
  split
  · rename_i h3
    rw [h3]
    exact zeroS_finite _
  · exact ⟨(target x).double h, rfl⟩

theorem round_wf (x : ℝ) : (round x).WF := by
  by_cases h : |rnd x| < 2 ^ 1024
  · exact (round_finite h).1.wf
  · rw [round]
    rw [abs_lt, not_and_or, not_lt, not_lt] at h
    split
    · trivial
    · rename_i h1
      rw [if_pos (h.resolve_right h1)]
      trivial

theorem round_ne_nan (x : ℝ) : round x ≠ nan := by
  rw [round]
  repeat' split
  all_goals first
    | exact fun h => by cases h
    | (rw [zeroS]; split <;> exact fun h => by cases h)

theorem add_def {a b : Fl} (ha : a.Finite) (hb : b.Finite) (hz : a ≠ nzero ∨ b ≠ nzero) :
    a + b = if a.val + b.val = 0 then fin 0 else round (a.val + b.val) := by
  show add a b = _
  cases a with
  | fin x => cases b with
    | fin y => rfl
    | nzero => rfl
    | _ => exact hb.elim
  | nzero => cases b with
    | fin y => rfl
    | nzero => simp at hz
    | _ => exact hb.elim
  | _ => exact ha.elim

theorem add_finite {a b : Fl} (ha : a.Finite) (hb : b.Finite) (h : |rnd (a.val + b.val)| < 2 ^ 1024) :
    (a + b).Finite ∧ (a + b).val = rnd (a.val + b.val) := by
  by_cases hz : a ≠ nzero ∨ b ≠ nzero
  · rw [add_def ha hb hz]
    split
    · rename_i h0
      rw [h0, rnd_zero]
      exact ⟨isDouble_zero, rfl⟩
    · exact round_finite h
  · rw [not_or, not_not, not_not] at hz
    obtain ⟨rfl, rfl⟩ := hz
    refine ⟨trivial, ?_⟩
    show (0 : ℝ) = rnd (0 + 0)
    rw [add_zero, rnd_zero]

omit [Rounding] in
theorem negate_finite {a : Fl} (ha : a.Finite) : (-a).Finite ∧ (-a).val = -a.val := by
  show (negate a).Finite ∧ (negate a).val = _
  cases a with
  | fin x =>
    rw [negate]
    split
    · rename_i h
      rw [h]
      exact ⟨trivial, by simp [val]⟩
    · exact ⟨IsDouble.neg ha, rfl⟩
  | nzero => exact ⟨isDouble_zero, by simp [negate, val]⟩
  | _ => exact ha.elim

theorem sub_finite {a b : Fl} (ha : a.Finite) (hb : b.Finite) (h : |rnd (a.val - b.val)| < 2 ^ 1024) :
    (a - b).Finite ∧ (a - b).val = rnd (a.val - b.val) := by
  obtain ⟨h1, h2⟩ := negate_finite hb
  have := add_finite ha h1 (by rw [h2, ← sub_eq_add_neg]; exact h)
  rw [h2, ← sub_eq_add_neg] at this
  exact this

theorem mul_finite {a b : Fl} (ha : a.Finite) (hb : b.Finite) (h : |rnd (a.val * b.val)| < 2 ^ 1024) :
    (a * b).Finite ∧ (a * b).val = rnd (a.val * b.val) := by
  show (mul a b).Finite ∧ (mul a b).val = _
  rw [mul, if_neg (by simp [ha.ne_nan, hb.ne_nan]), if_neg (by simp [ha.not_inf, hb.not_inf])]
  split
  · rename_i h0
    rw [h0, rnd_zero]
    exact zeroS_finite _
  · exact round_finite h

theorem div_finite {a b : Fl} (ha : a.Finite) (hb : b.Finite) (h0 : b.val ≠ 0)
    (h : |rnd (a.val / b.val)| < 2 ^ 1024) :
    (a / b).Finite ∧ (a / b).val = rnd (a.val / b.val) := by
  show (div a b).Finite ∧ (div a b).val = _
  rw [div, if_neg (by simp [ha.ne_nan, hb.ne_nan]), if_neg (by simp [ha.not_inf]),
    if_neg (by simp [hb.not_inf]), if_neg h0]
  split
  · rename_i h1
    rw [h1, zero_div, rnd_zero]
    exact zeroS_finite _
  · exact round_finite h

theorem ofNat_finite {n : ℕ} (h : |rnd (n : ℝ)| < 2 ^ 1024) : (n : Fl).Finite ∧ (n : Fl).val = rnd n := by
  show (ofInt n).Finite ∧ (ofInt n).val = _
  rw [ofInt]
  split
  · rename_i h0
    have : n = 0 := by exact_mod_cast h0
    subst this
    rw [Nat.cast_zero, rnd_zero]
    exact ⟨isDouble_zero, rfl⟩
  · exact round_finite (x := ((n : ℤ) : ℝ)) (by exact_mod_cast h)

/-- Numbers of elements are exact. -/
theorem ofNat_exact {n : ℕ} (h : n < 2 ^ 53) : (n : Fl).Finite ∧ (n : Fl).val = n := by
  have h1 : IsDouble (n : ℝ) := by
    have := isDouble_int (n := n) (by rw [abs_of_nonneg (by omega)]; exact_mod_cast h)
    exact_mod_cast this
  have h2 := rnd_exact (Or.inl h1)
  have h3 := h1.lt
  rw [← h2] at h3
  have := ofNat_finite h3
  rwa [h2] at this

theorem sqrt_finite {a : Fl} (ha : a.Finite) (h0 : 0 ≤ a.val) (h : |rnd (Real.sqrt a.val)| < 2 ^ 1024) :
    (sqrt a).Finite ∧ (sqrt a).val = rnd (Real.sqrt a.val) := by
  cases a with
  | fin x =>
    have h0 : 0 ≤ x := h0
    rw [sqrt, if_neg (not_lt.2 h0)]
    split
    · rename_i h1
      subst h1
      refine ⟨isDouble_zero, ?_⟩
      show (0 : ℝ) = rnd (Real.sqrt 0)
      rw [Real.sqrt_zero, rnd_zero]
    · exact round_finite h
  | nzero =>
    refine ⟨trivial, ?_⟩
    show (0 : ℝ) = rnd (Real.sqrt 0)
    rw [Real.sqrt_zero, rnd_zero]
  | _ => exact ha.elim

omit [Rounding] in
theorem lt_finite {a b : Fl} (ha : a.Finite) (hb : b.Finite) : a < b ↔ a.val < b.val := by
  show lt a b ↔ _
  cases a with
  | fin x => cases b with
    | fin y => exact Iff.rfl
    | nzero => exact Iff.rfl
    | _ => exact hb.elim
  | nzero => cases b with
    | fin y => exact Iff.rfl
    | nzero => exact Iff.rfl
    | _ => exact hb.elim
  | _ => exact ha.elim

omit [Rounding] in
theorem le_finite {a b : Fl} (ha : a.Finite) (hb : b.Finite) : a ≤ b ↔ a.val ≤ b.val := by
  show (_ ∧ _ ∧ ¬ _) ↔ _
  rw [lt_finite hb ha, not_lt]
  exact ⟨fun h => h.2.2, fun h => ⟨ha.ne_nan, hb.ne_nan, h⟩⟩

omit [Rounding] in
theorem abs_finite {a : Fl} (ha : a.Finite) : (abs a).Finite ∧ (abs a).val = |a.val| := by
  cases a with
  | fin x =>
    refine ⟨?_, rfl⟩
    show IsDouble |x|
    rcases abs_choice x with h | h
    · rw [h]; exact ha
    · rw [h]; exact IsDouble.neg ha
  | nzero => exact ⟨isDouble_zero, by simp [abs, val]⟩
  | _ => exact ha.elim

/-! ### NaN -/

theorem nan_add (a : Fl) : nan + a = nan := rfl
theorem add_nan (a : Fl) : a + nan = nan := by cases a <;> rfl
theorem nan_mul (a : Fl) : nan * a = nan := if_pos (Or.inl rfl)
theorem mul_nan (a : Fl) : a * nan = nan := if_pos (Or.inr rfl)
theorem nan_div (a : Fl) : nan / a = nan := if_pos (Or.inl rfl)
omit [Rounding] in
theorem not_nan_lt (a : Fl) : ¬ nan < a := fun h => h
omit [Rounding] in
theorem not_lt_nan (a : Fl) : ¬ a < nan := fun h => by cases a <;> exact h

end Fl

end Verif
