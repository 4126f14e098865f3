import Verif.Model.RandFloat
import Verif.Props.RandRange
import Verif.Props.FloatLinspace
/-
C54: random numbers of type double between limits.
-/
namespace Verif.Rand

open Verif Spec Fl Rounding

variable [Rounding]

omit [Rounding] in
/-- The numbers of rand<double>() have 53 digits after the point. -/
theorem randDouble_grid {s : State 64} (h : Ready mt64 s) :
    ∃ (k : ℕ) (s' : State 64), randDouble s = .ok ((k : ℚ) * (1 / 9007199254740992), s') ∧ k < 2 ^ 53 ∧
      Ready mt64 s' := by
  obtain ⟨x, s', e, hr⟩ := genrand_ready mt64_ok h
  refine ⟨(x >>> 11).toNat, s', ?_, ?_, hr⟩
  · rw [randDouble, genrandRes53, e]; rfl
  · rw [BitVec.toNat_ushiftRight, Nat.shiftRight_eq_div_pow]
    have := x.isLt
    omega

omit [Rounding] in
theorem unit_double {k : ℕ} (hk : k < 2 ^ 53) :
    (fin ((k : ℚ) * (1 / 9007199254740992) : ℚ)).Finite ∧
    0 ≤ (((k : ℚ) * (1 / 9007199254740992) : ℚ) : ℝ) ∧
    (((k : ℚ) * (1 / 9007199254740992) : ℚ) : ℝ) ≤ 1 - 2 ^ (-53 : ℤ) := by
  have e : (((k : ℚ) * (1 / 9007199254740992) : ℚ) : ℝ) = (k : ℤ) * (2 : ℝ) ^ (-53 : ℤ) := by
    push_cast
    congr 1
    norm_num
  refine ⟨?_, ?_, ?_⟩
  · show IsDouble _
    rw [e]
    exact ⟨k, -53, by rw [abs_of_nonneg (by omega)]; exact_mod_cast hk, by norm_num, by norm_num, rfl⟩
  · rw [e]; positivity
  · rw [e]
    have : (k : ℝ) ≤ 2 ^ 53 - 1 := by
      have : (k : ℝ) + 1 ≤ 2 ^ 53 := by exact_mod_cast hk
      linarith
    have e53 : (2 : ℝ) ^ (-53 : ℤ) = 1 / 2 ^ 53 := by norm_num
    rw [e53, Int.cast_natCast, mul_one_div, div_le_iff₀ (by norm_num)]
    linarith

/-- The product of a limit and a number below one. -/
theorem scaled {a : Fl} (ha : a.Finite) (h0 : 0 ≤ a.val) {u : ℝ} (hf : (fin u).Finite) (hu0 : 0 ≤ u) (hu1 : u ≤ 1) :
    (a * fin u).Finite ∧ (a * fin u).val = rnd (a.val * u) ∧ 0 ≤ rnd (a.val * u) ∧ rnd (a.val * u) ≤ a.val := by
  have h1 : rnd (a.val * u) ≤ a.val := rnd_le (Or.inl ha.val_double) (mul_le_of_le_one_right h0 hu1)
  have h2 : 0 ≤ rnd (a.val * u) := rnd_nonneg (mul_nonneg h0 hu0)
  have hb := ha.val_double.lt
  rw [abs_of_nonneg h0] at hb
  obtain ⟨m1, m2⟩ := mul_finite ha hf (by
    show |rnd (a.val * u)| < _
    rw [abs_of_nonneg h2]
    exact h1.trans_lt hb)
  exact ⟨m1, m2, h2, h1⟩

/-- C54: rand<double>(upper) is in [0, upper), if the limit is larger than the smallest normal number. -/
theorem c54_double_to_partial {upper : Fl} (hf : upper.Finite) (hu : 2 ^ (-1022 : ℤ) < upper.val) {s : State 64}
    (h : Ready mt64 s) :
    ∃ x s', randDoubleTo upper s = .ok (x, s') ∧ x.Finite ∧ 0 ≤ x.val ∧ x < upper ∧ Ready mt64 s' := by
  obtain ⟨k, s', e, hk, hr⟩ := randDouble_grid h
  obtain ⟨u1, u2, u3⟩ := unit_double hk
  have h0 : 0 ≤ upper.val := ((two_zpow_pos _).trans hu).le
  have hlt : (0 : ℝ) < 2 ^ (-53 : ℤ) := two_zpow_pos _
  obtain ⟨m1, m2, m3, m4⟩ := scaled hf h0 u1 u2 (by linarith)
  refine ⟨_, s', by rw [randDoubleTo, e]; rfl, m1, ?_, ?_, hr⟩
  · rw [m2]; exact m3
  · rw [lt_finite m1 hf, m2]
    exact rnd_mul_lt hf.val_double hu u3

/-- C54: rand<double>(lower, upper) is in [lower, upper], if the difference of the limits does not overflow. -/
theorem c54_double_in_partial {lower upper : Fl} (hl : lower.Finite) (hu : upper.Finite) (hle : lower ≤ upper)
    (hov : rnd (upper.val - lower.val) < 2 ^ 1024) {s : State 64} (h : Ready mt64 s) :
    ∃ x s', randDoubleIn lower upper s = .ok (x, s') ∧ lower ≤ x ∧ x ≤ upper ∧ Ready mt64 s' := by
  obtain ⟨k, s', e, hk, hr⟩ := randDouble_grid h
  obtain ⟨u1, u2, u3⟩ := unit_double hk
  rw [le_finite hl hu] at hle
  have hd0 : 0 ≤ rnd (upper.val - lower.val) := rnd_nonneg (by linarith)
  obtain ⟨d1, d2⟩ := sub_finite hu hl (by rw [abs_of_nonneg hd0]; exact hov)
  have hlt : (0 : ℝ) < 2 ^ (-53 : ℤ) := two_zpow_pos _
  obtain ⟨m1, m2, m3, m4⟩ := scaled d1 (by rw [d2]; exact hd0) u1 u2 (by linarith)
  set u : ℝ := (((k : ℚ) * (1 / 9007199254740992) : ℚ) : ℝ)
  -- the product is not larger than the exact difference
  have hp : rnd ((upper - lower).val * u) ≤ upper.val - lower.val := by
    rcases le_or_gt (upper - lower).val (upper.val - lower.val) with h1 | h1
    · exact m4.trans h1
    · -- rounded up: the difference is large
      have hbig : (2 : ℝ) ^ (-1022 : ℤ) < (upper - lower).val := by
        by_contra hc
        rw [not_lt] at hc
        obtain ⟨i, hi⟩ := hu.val_double.grid
        obtain ⟨j, hj⟩ := hl.val_double.grid
        have e1 : upper.val - lower.val = ((i - j : ℤ) : ℝ) * 2 ^ (-1074 : ℤ) := by
          rw [hi, hj]; push_cast; ring
        have hl2 : (2 : ℝ) ^ (-1022 : ℤ) < 2 ^ (-1021 : ℤ) := zpow_lt_zpow_right₀ (by norm_num) (by norm_num)
        have e2 : IsDouble (upper.val - lower.val) := by
          rw [e1]
          refine isDouble_grid ?_
          rw [← e1, abs_of_nonneg (by linarith)]
          linarith
        have e3 := rnd_exact (Or.inl e2)
        rw [← d2] at e3
        linarith
      have hless : rnd ((upper - lower).val * u) < (upper - lower).val := rnd_mul_lt d1.val_double hbig u3
      by_contra hc
      rw [not_le] at hc
      have hn := nearest (upper.val - lower.val) _ (target ((upper - lower).val * u))
      rw [← d2, abs_sub_comm, abs_of_pos (by linarith), abs_sub_comm, abs_of_pos (by linarith)] at hn
      linarith
  have hsum1 : lower.val ≤ rnd (rnd ((upper - lower).val * u) + lower.val) :=
    le_rnd (Or.inl hl.val_double) (by linarith)
  have hsum2 : rnd (rnd ((upper - lower).val * u) + lower.val) ≤ upper.val :=
    rnd_le (Or.inl hu.val_double) (by linarith)
  obtain ⟨a1, a2⟩ := add_finite m1 hl (by
    rw [m2]
    have b1 := (abs_lt.1 hl.val_double.lt).1
    have b2 := (abs_lt.1 hu.val_double.lt).2
    exact abs_lt.2 ⟨b1.trans_le hsum1, hsum2.trans_lt b2⟩)
  rw [m2] at a2
  refine ⟨_, s', by rw [randDoubleIn, randDoubleTo, e]; rfl, ?_, ?_, hr⟩
  · rw [le_finite hl a1, a2]; exact hsum1
  · rw [le_finite a1 hu, a2]; exact hsum2

/-- The hypotheses can be met. -/
example : (fin 1).Finite ∧ (fin 3).Finite ∧ (fin 1 : Fl) ≤ fin 3 ∧ rnd ((fin 3).val - (fin 1).val) < 2 ^ 1024 ∧
    2 ^ (-1022 : ℤ) < (fin 3).val := by
  have f1 : (fin 1).Finite := ⟨1, 0, by norm_num, by norm_num, by norm_num, by norm_num⟩
  have f2 : IsDouble 2 := ⟨2, 0, by norm_num, by norm_num, by norm_num, by norm_num⟩
  have f3 : (fin 3).Finite := ⟨3, 0, by norm_num, by norm_num, by norm_num, by norm_num⟩
  have e : (fin 3).val - (fin 1).val = 2 := by norm_num [val]
  refine ⟨f1, f3, (le_finite f1 f3).2 (by norm_num [val]), ?_, ?_⟩
  · rw [e, rnd_exact (Or.inl f2)]
    exact (le_abs_self _).trans_lt f2.lt
  · have h2 : (2 : ℝ) ^ (-1022 : ℤ) ≤ 2 ^ (0 : ℤ) := zpow_le_zpow_right₀ (by norm_num) (by norm_num)
    refine h2.trans_lt ?_
    norm_num [val]

/-- The number of rand<double>() after set_seed(3138459). -/
theorem draw_large {s : State 64} (hs : s.mt.length = 312) :
    ∃ s0 s', setSeed s 3138459#64 = .ok s0 ∧ randDouble s0 = .ok ((9007199050491992 : ℕ) * (1 / 9007199254740992), s') := by
  obtain ⟨s0, s', e, h⟩ := first_draw hs 3138459#64
  refine ⟨s0, s', e, ?_⟩
  have : temper64 (seedWord mt64.mult mt64.shift 3138459#64 156 ^^^ mixWord mt64.um mt64.lm mt64.matrixA
        (seedWord mt64.mult mt64.shift 3138459#64 0) (seedWord mt64.mult mt64.shift 3138459#64 1))
      = 0xffffff9e9b42c29f#64 := by decide +kernel
  rw [randDouble, genrandRes53, h, this]
  simp only [Res.ok_bind, Res.pure_eq]
  rw [show (0xffffff9e9b42c29f#64 >>> 11).toNat = 9007199050491992 by decide]

/-- C54 is false for the smallest limits: after set_seed(3138459), rand<double>(2^-1074) is the limit. -/
theorem c54_negation_double_to {s : State 64} (hs : s.mt.length = 312) :
    ∃ s0 s' x, setSeed s 3138459#64 = .ok s0 ∧ (fin (2 ^ (-1074 : ℤ))).Finite ∧
      randDoubleTo (fin (2 ^ (-1074 : ℤ))) s0 = .ok (x, s') ∧ x.Finite ∧ x.val = 2 ^ (-1074 : ℤ) := by
  obtain ⟨s0, s', e, h⟩ := draw_large hs
  have hf : (fin (2 ^ (-1074 : ℤ))).Finite := ⟨1, -1074, by norm_num, by norm_num, by norm_num, by rw [Int.cast_one, one_mul]⟩
  obtain ⟨u1, u2, u3⟩ := unit_double (k := 9007199050491992) (by norm_num)
  have hlt : (0 : ℝ) < 2 ^ (-53 : ℤ) := two_zpow_pos _
  obtain ⟨m1, m2, m3, m4⟩ := scaled hf (two_zpow_pos _).le u1 u2 (by linarith)
  refine ⟨s0, s', _, e, hf, by rw [randDoubleTo, h]; rfl, m1, ?_⟩
  rw [m2]
  refine rnd_eq (d := 2 ^ (-1074 : ℤ)) (Or.inl hf) (fun z hz hne => ?_) ?_
  · rcases hz with hz | hz
    · obtain ⟨k, rfl⟩ := hz.grid
      have hk : k ≠ 1 := fun e => hne (by rw [e]; simp)
      have e1 : (k : ℝ) * 2 ^ (-1074 : ℤ) - 2 ^ (-1074 : ℤ) = ((k - 1 : ℤ) : ℝ) * 2 ^ (-1074 : ℤ) := by push_cast; ring
      rw [e1, abs_mul, abs_of_pos (two_zpow_pos _)]
      have : (1 : ℝ) ≤ |((k - 1 : ℤ) : ℝ)| := by
        have := Int.one_le_abs (sub_ne_zero.2 hk)
        exact_mod_cast this
      exact le_mul_of_one_le_left (two_zpow_pos _).le this
    · have h1 : (2 : ℝ) ^ (-1074 : ℤ) ≤ 2 ^ (0 : ℤ) := zpow_le_zpow_right₀ (by norm_num) (by norm_num)
      rw [zpow_zero] at h1
      have h2 : (2 : ℝ) ≤ 2 ^ 1024 := le_self_pow₀ (by norm_num) (by norm_num)
      have h3 := abs_sub_abs_le_abs_sub z (2 ^ (-1074 : ℤ))
      rw [hz, abs_of_pos (two_zpow_pos _)] at h3
      generalize (2 : ℝ) ^ 1024 = B at h2 h3
      linarith
  · have hv : (fin ((2 : ℝ) ^ (-1074 : ℤ))).val = 2 ^ (-1074 : ℤ) := rfl
    have hp := two_zpow_pos (-1074)
    rw [hv]
    generalize (2 : ℝ) ^ (-1074 : ℤ) = B at *
    have e1 : B * (((9007199050491992 : ℕ) : ℚ) * (1 / 9007199254740992) : ℚ) - B = -(B * (204249000 / 9007199254740992)) := by
      push_cast; ring
    rw [e1, abs_neg, abs_of_pos (by positivity)]
    linarith

/-- C54: the upper limit of rand<double>(lower, upper) can be reached: after set_seed(3138459),
rand<double>(1, 1 + 2^-52) is the limit. -/
theorem c54_negation_double_in {s : State 64} (hs : s.mt.length = 312) :
    ∃ s0 s' x, setSeed s 3138459#64 = .ok s0 ∧ (fin (1 + 2 ^ (-52 : ℤ))).Finite ∧
      randDoubleIn (fin 1) (fin (1 + 2 ^ (-52 : ℤ))) s0 = .ok (x, s') ∧ x.Finite ∧ x.val = 1 + 2 ^ (-52 : ℤ) := by
  obtain ⟨s0, s', e, h⟩ := draw_large hs
  have f1 : (fin 1).Finite := ⟨1, 0, by norm_num, by norm_num, by norm_num, by norm_num⟩
  have hf : (fin (1 + 2 ^ (-52 : ℤ))).Finite :=
    ⟨2 ^ 52 + 1, -52, by norm_num, by norm_num, by norm_num, by norm_num⟩
  have hd : IsDouble ((2 : ℝ) ^ (-52 : ℤ)) := ⟨1, -52, by norm_num, by norm_num, by norm_num, by norm_num⟩
  have hr : rnd ((fin (1 + 2 ^ (-52 : ℤ))).val - (fin 1).val) = 2 ^ (-52 : ℤ) := by
    have e1 : (fin (1 + 2 ^ (-52 : ℤ))).val - (fin 1).val = 2 ^ (-52 : ℤ) := by simp [val]
    rw [e1, rnd_exact (Or.inl hd)]
  obtain ⟨d1, d2⟩ := sub_finite hf f1 (by rw [hr]; exact hd.lt)
  rw [hr] at d2
  obtain ⟨u1, u2, u3⟩ := unit_double (k := 9007199050491992) (by norm_num)
  have hlt : (0 : ℝ) < 2 ^ (-53 : ℤ) := two_zpow_pos _
  obtain ⟨m1, m2, m3, m4⟩ := scaled d1 (by rw [d2]; exact (two_zpow_pos _).le) u1 u2 (by linarith)
  have hp : rnd ((2 : ℝ) ^ (-52 : ℤ) * (((9007199050491992 : ℕ) : ℚ) * (1 / 9007199254740992) : ℚ)) =
      (9007199050491992 : ℤ) * 2 ^ (-105 : ℤ) := by
    have : (2 : ℝ) ^ (-52 : ℤ) * (((9007199050491992 : ℕ) : ℚ) * (1 / 9007199254740992) : ℚ) =
        ((9007199050491992 : ℤ) : ℝ) * 2 ^ (-105 : ℤ) := by push_cast; norm_num
    rw [this]
    exact rnd_exact (isTarget_of (by norm_num) (by norm_num) (by norm_num))
  rw [d2, hp] at m2
  have hv : (fin 1).val = 1 := rfl
  have hsum : rnd (((9007199050491992 : ℤ) : ℝ) * 2 ^ (-105 : ℤ) + 1) = (2 ^ 52 + 1 : ℤ) * 2 ^ (-52 : ℤ) := by
    refine rnd_eq_of (by norm_num) (by norm_num) (by norm_num) (by norm_num) ?_
    rw [abs_lt]; constructor <;> norm_num
  have hval : (((2 ^ 52 + 1 : ℤ) : ℝ)) * 2 ^ (-52 : ℤ) = 1 + 2 ^ (-52 : ℤ) := by norm_num
  obtain ⟨a1, a2⟩ := add_finite m1 f1 (by rw [m2, hv, hsum, hval]; exact hf.val_double.lt)
  rw [m2, hv, hsum, hval] at a2
  exact ⟨s0, s', _, e, hf, by rw [randDoubleIn, randDoubleTo, h]; rfl, a1, a2⟩

/-- C54: if the difference of the limits overflows, then rand<double>(lower, upper) is infinite or NaN. -/
theorem c54_negation_double_overflow {lower upper : Fl} (hl : lower.Finite) (hu : upper.Finite)
    (h : 2 ^ 1024 ≤ upper.val - lower.val) {s : State 64} (hr : Ready mt64 s) :
    ∃ x s', randDoubleIn lower upper s = .ok (x, s') ∧ (x = pinf ∨ x = nan) := by
  obtain ⟨k, s', e, hk, -⟩ := randDouble_grid hr
  obtain ⟨u1, u2, u3⟩ := unit_double hk
  have hsub := sub_overflow hl hu h
  refine ⟨_, s', by rw [randDoubleIn, randDoubleTo, e]; rfl, ?_⟩
  show (upper - lower) * fin _ + lower = pinf ∨ (upper - lower) * fin _ + lower = nan
  rw [hsub]
  set u : ℝ := (((k : ℚ) * (1 / 9007199254740992) : ℚ) : ℝ)
  rcases eq_or_lt_of_le u2 with h0 | h0
  · right
    have : (pinf : Fl) * fin u = nan := by
      show mul pinf (fin u) = nan
      simp [mul, isInf, val, ← h0]
    rw [this, nan_add]
  · left
    have : (pinf : Fl) * fin u = pinf := by
      show mul pinf (fin u) = pinf
      simp [mul, isInf, val, h0.ne', infS, neg, h0.le]
    rw [this]
    cases lower <;> first | rfl | exact hl.elim

end Verif.Rand
