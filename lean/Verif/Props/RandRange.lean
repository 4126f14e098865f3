import Verif.Props.Rand
import Mathlib.Tactic.Linarith
import Mathlib.Tactic.Positivity
import Mathlib.Tactic.FieldSimp
import Mathlib.Tactic.Ring
import Mathlib.Tactic.NormNum
import Mathlib.Data.Nat.Log
import Mathlib.Data.Int.Log
import Mathlib.Algebra.Order.Round
/-
C54: ranges of the random numbers.
-/
namespace Verif.Rand

open Verif Spec

variable {w : Nat}

/-- A state of the generator in which it can be used: with or without seed. -/
def Ready (g : Gen w) (s : State w) : Prop := s.mt.length = g.n ∧ s.mti ≤ g.n + 1

theorem genrand_ready {g : Gen w} (hg : g.Ok) {s : State w} (h : Ready g s) :
    ∃ x s', genrand g s = .ok (x, s') ∧ Ready g s' := by
  obtain ⟨h1, h2⟩ := h
  have fin : ∀ s : State w, s.mt.length = g.n → s.mti ≤ g.n →
      ∃ x s', genrand g s = .ok (x, s') ∧ Ready g s' := by
    intro s h1 h2
    obtain ⟨f, hf⟩ := eq_tab h1
    obtain ⟨s', e, b, hb, hm, _⟩ := genrand_at hg (seq_twister g hg f) (p := s.mti) (s := s)
      ⟨0, by rw [hf]; exact tab_congr fun j hj => by rw [Nat.zero_add, seq_first g hg _ hj], h2, by simp⟩
    exact ⟨_, s', e, by rw [hb]; simp [tab], by omega⟩
  by_cases h : s.mti = g.n + 1
  · obtain ⟨s0, e, hd⟩ := c55_default hg h1 h 0
    rw [initGenrand_eq hg h1] at e
    cases e
    obtain ⟨x, s', e, hr⟩ := fin ⟨tab g.n (seedWord g.mult g.shift (BitVec.ofNat w 5489)), g.n⟩
      (by simp [tab]) (by simp)
    refine ⟨x, s', ?_, hr⟩
    rw [draws, draws, e, Res.ok_bind] at hd
    cases hh : genrand g s with
    | ok p =>
      rw [hh] at hd
      simp only [Res.ok_bind, draws, Res.pure_eq] at hd
      injection hd with hd
      injection hd with h3 h4
      injection h3 with h3
      rw [← h3, ← h4]
    | abort => rw [hh] at hd; simp [draws] at hd
    | ub => rw [hh] at hd; simp [draws] at hd
  · exact fin s h1 (by omega)

/-- Numbers with `p` binary digits. -/
def Digits (p : Nat) (q : ℚ) : Prop := ∃ m e : ℤ, |m| < 2 ^ p ∧ q = m * 2 ^ e

/-- `rnd` rounds to a nearest number with `p` binary digits. -/
def Nearest (p : Nat) (rnd : ℚ → ℚ) : Prop :=
  ∀ q, Digits p (rnd q) ∧ ∀ y, Digits p y → |rnd q - q| ≤ |y - q|

/-- There are roundings to a nearest number. -/
theorem nearest_exists {p : Nat} (hp : 0 < p) : ∃ rnd, Nearest p rnd := by
  suffices h : ∀ q : ℚ, ∃ r, Digits p r ∧ ∀ y, Digits p y → |r - q| ≤ |y - q| by
    choose rnd h using h
    exact ⟨rnd, h⟩
  intro q
  by_cases hq : q = 0
  · subst hq
    exact ⟨0, ⟨0, 0, by simp, by simp⟩, fun y _ => by simp⟩
  set l := Int.log 2 |q| with hl
  have hq' : 0 < |q| := abs_pos.2 hq
  have h1 : (2 : ℚ) ^ l ≤ |q| := by
    have := Int.zpow_log_le_self (b := 2) (by decide) hq'
    exact_mod_cast this
  have h2 : |q| < (2 : ℚ) ^ (l + 1) := by
    have := Int.lt_zpow_succ_log_self (b := 2) (by decide) |q|
    exact_mod_cast this
  set e : ℤ := l - (p - 1) with he
  have hpos : ∀ k : ℤ, (0 : ℚ) < 2 ^ k := fun k => zpow_pos (by norm_num) k
  have hp2 : (2 : ℚ) ^ p * 2 ^ e = 2 ^ (l + 1) := by
    rw [← zpow_natCast, ← zpow_add₀ (by norm_num)]; congr 1; omega
  have hp1 : (2 : ℚ) ^ (p - 1) * 2 ^ e = 2 ^ l := by
    rw [← zpow_natCast, ← zpow_add₀ (by norm_num)]; congr 1; omega
  set m := round (q / 2 ^ e) with hm
  -- the multiples of 2^e are not closer
  have near : ∀ z : ℤ, |(m : ℚ) * 2 ^ e - q| ≤ |(z : ℚ) * 2 ^ e - q| := by
    intro z
    have e1 : ∀ z : ℤ, |(z : ℚ) * 2 ^ e - q| = |q / 2 ^ e - z| * 2 ^ e := by
      intro z
      rw [← abs_of_pos (hpos e), ← abs_mul, abs_of_pos (hpos e), sub_mul, div_mul_cancel₀ _ (hpos e).ne',
        abs_sub_comm]
    rw [e1, e1]
    exact mul_le_mul_of_nonneg_right (round_le _ _) (hpos e).le
  refine ⟨m * 2 ^ e, ?_, ?_⟩
  · have h3 : |q / 2 ^ e| < 2 ^ p := by
      rw [abs_div, abs_of_pos (hpos e), div_lt_iff₀ (hpos e), hp2]
      exact h2
    have h4 : |m| ≤ 2 ^ p := by
      obtain ⟨h5, h6⟩ := abs_lt.1 h3
      have h7 := abs_le.1 (abs_sub_round (q / 2 ^ e))
      rw [← hm] at h7
      rw [abs_le]
      constructor
      · have : ((-2 ^ p - 1 : ℤ) : ℚ) < m := by push_cast; linarith
        have := Int.cast_lt.1 this
        omega
      · have : (m : ℚ) < ((2 ^ p + 1 : ℤ) : ℚ) := by push_cast; linarith
        have := Int.cast_lt.1 this
        omega
    rcases lt_or_eq_of_le h4 with h5 | h5
    · exact ⟨m, e, h5, rfl⟩
    · have h8 : (1 : ℤ) < 2 ^ p := one_lt_pow₀ (by norm_num) (by omega)
      have h9 : (2 : ℚ) ^ p * 2 ^ e = 2 ^ (e + p) := by
        rw [zpow_add₀ (by norm_num), zpow_natCast, mul_comm]
      rcases abs_eq (by positivity : (0 : ℤ) ≤ 2 ^ p) |>.1 h5 with h6 | h6
      · refine ⟨1, e + p, by simpa using h8, ?_⟩
        rw [h6]; push_cast; rw [h9]; simp
      · refine ⟨-1, e + p, by simpa using h8, ?_⟩
        rw [h6]; push_cast; rw [neg_mul, h9]; simp
  · rintro y ⟨m', e', hm', rfl⟩
    by_cases hc : e ≤ e'
    · obtain ⟨k, hk⟩ := Int.eq_ofNat_of_zero_le (show 0 ≤ e' - e by omega)
      have : (m' : ℚ) * 2 ^ e' = ((m' * 2 ^ k : ℤ) : ℚ) * 2 ^ e := by
        push_cast
        rw [mul_assoc, ← zpow_natCast (2 : ℚ) k, ← zpow_add₀ (by norm_num)]
        congr 2
        omega
      rw [this]
      exact near _
    · have h3 : |(m' : ℚ) * 2 ^ e'| ≤ 2 ^ l := by
        rw [abs_mul, abs_of_pos (hpos e')]
        have h4 : |(m' : ℚ)| ≤ 2 ^ p := by
          have : |m'| ≤ 2 ^ p := hm'.le
          exact_mod_cast this
        calc |(m' : ℚ)| * 2 ^ e' ≤ 2 ^ p * 2 ^ e' := mul_le_mul_of_nonneg_right h4 (hpos e').le
          _ ≤ 2 ^ p * 2 ^ (e - 1) := mul_le_mul_of_nonneg_left
              (zpow_le_zpow_right₀ (by norm_num) (by omega)) (by positivity)
          _ = 2 ^ l := by
            rw [← zpow_natCast, ← zpow_add₀ (by norm_num)]; congr 1; omega
      have h5 : |q| - |(m' : ℚ) * 2 ^ e'| ≤ |(m' : ℚ) * 2 ^ e' - q| := by
        rw [abs_sub_comm]; exact abs_sub_abs_le_abs_sub _ _
      rcases lt_or_gt_of_ne hq with h6 | h6
      · have := near (-2 ^ (p - 1))
        push_cast at this
        rw [neg_mul, hp1] at this
        rw [abs_of_neg h6] at h1 h5
        rw [abs_of_nonneg (a := -2 ^ l - q) (by linarith)] at this
        linarith
      · have := near (2 ^ (p - 1))
        push_cast at this
        rw [hp1] at this
        rw [abs_of_pos h6] at h1 h5
        rw [abs_of_nonpos (a := 2 ^ l - q) (by linarith)] at this
        linarith

/-- C54: rand<double>() is in [0,1). -/
theorem c54_double {s : State 64} (h : Ready mt64 s) :
    ∃ r s', randDouble s = .ok (r, s') ∧ 0 ≤ r ∧ r < 1 ∧ Ready mt64 s' := by
  obtain ⟨x, s', e, hr⟩ := genrand_ready mt64_ok h
  refine ⟨((x >>> 11).toNat : ℚ) * (1 / 9007199254740992), s', ?_, ?_, ?_, hr⟩
  · rw [randDouble, genrandRes53, e]; rfl
  · positivity
  · have : (x >>> 11).toNat < 9007199254740992 := by
      rw [BitVec.toNat_ushiftRight, Nat.shiftRight_eq_div_pow]
      have := x.isLt
      omega
    have h2 : ((x >>> 11).toNat : ℚ) < 9007199254740992 := by exact_mod_cast this
    linarith

/-- C54: the same for the generator with 32 bits. -/
theorem c54_double32 {s : State 32} (h : Ready mt32 s) :
    ∃ r s', genrandRes53' s = .ok (r, s') ∧ 0 ≤ r ∧ r < 1 ∧ Ready mt32 s' := by
  obtain ⟨x, s1, e1, hr1⟩ := genrand_ready mt32_ok h
  obtain ⟨y, s2, e2, hr2⟩ := genrand_ready mt32_ok hr1
  refine ⟨(((x >>> 5).toNat : ℚ) * 67108864 + (y >>> 6).toNat) * (1 / 9007199254740992), s2, ?_, ?_, ?_,
    hr2⟩
  · rw [genrandRes53', e1, Res.ok_bind, e2]; rfl
  · positivity
  · have h1 : (x >>> 5).toNat ≤ 134217727 := by
      rw [BitVec.toNat_ushiftRight, Nat.shiftRight_eq_div_pow]
      have := x.isLt
      omega
    have h2 : (y >>> 6).toNat ≤ 67108863 := by
      rw [BitVec.toNat_ushiftRight, Nat.shiftRight_eq_div_pow]
      have := y.isLt
      omega
    have h3 : ((x >>> 5).toNat : ℚ) ≤ 134217727 := by exact_mod_cast h1
    have h4 : ((y >>> 6).toNat : ℚ) ≤ 67108863 := by exact_mod_cast h2
    linarith

/-- Rounding `u r` does not reach `u`, for integers with 53 digits and `r` the largest number below 1. -/
theorem nearest_lt {rnd : ℚ → ℚ} (hr : Nearest 53 rnd) {u : Nat} (hu : 0 < u) (hu2 : u < 2 ^ 53) {r : ℚ}
    (h1 : r ≤ 1 - 1 / 2 ^ 53) : rnd (u * r) < u := by
  by_contra hc
  rw [not_lt] at hc
  have hu' : (0 : ℚ) < u := by exact_mod_cast hu
  have hq : (u : ℚ) * r ≤ u - u / 2 ^ 53 := by
    calc (u : ℚ) * r ≤ u * (1 - 1 / 2 ^ 53) := mul_le_mul_of_nonneg_left h1 hu'.le
      _ = u - u / 2 ^ 53 := by ring
  have hqu : (u : ℚ) * r < u := by
    have : (0 : ℚ) < u / 2 ^ 53 := by positivity
    linarith
  -- it is enough to find a number of 53 digits which is closer
  have key : ∀ y : ℚ, Digits 53 y → y < u → 2 * (u * r) < u + y → False := by
    intro y hy hyu h2
    have h3 := (hr (u * r)).2 y hy
    rw [abs_of_nonneg (by linarith : 0 ≤ rnd (u * r) - u * r)] at h3
    rcases abs_cases (y - u * r) with ⟨h4, _⟩ | ⟨h4, _⟩ <;> rw [h4] at h3 <;> linarith
  set e := Nat.log 2 u with he
  have hlo : 2 ^ e ≤ u := Nat.pow_log_le_self 2 (by omega)
  have hhi : u < 2 ^ (e + 1) := Nat.lt_pow_succ_log_self (by decide) u
  have he52 : e ≤ 52 := by
    by_contra h
    have : 2 ^ 53 ≤ 2 ^ e := Nat.pow_le_pow_right (by decide) (by omega)
    omega
  have hz : ∀ k : ℤ, (0 : ℚ) < 2 ^ k := fun k => zpow_pos (by norm_num) k
  by_cases hp : u = 2 ^ e
  · -- a power of two
    refine key (u - u / 2 ^ 53) ⟨2 ^ 53 - 1, (e : ℤ) - 53, by norm_num, ?_⟩ ?_ ?_
    · have : (u : ℚ) = 2 ^ e := by rw [hp]; push_cast; rfl
      rw [this, zpow_sub₀ (by norm_num), zpow_natCast]
      push_cast
      norm_num
      ring
    · have : (0 : ℚ) < u / 2 ^ 53 := by positivity
      linarith
    · have : (0 : ℚ) < u / 2 ^ 53 := by positivity
      linarith
  · have hlt : 2 ^ e < u := by omega
    have hlt' : (2 : ℚ) ^ e < u := by exact_mod_cast hlt
    refine key (u - 2 ^ e / 2 ^ 52) ⟨u * 2 ^ (52 - e) - 1, (e : ℤ) - 52, ?_, ?_⟩ ?_ ?_
    · have h3 : u * 2 ^ (52 - e) < 2 ^ 53 := by
        calc u * 2 ^ (52 - e) < 2 ^ (e + 1) * 2 ^ (52 - e) :=
              Nat.mul_lt_mul_of_pos_right hhi (by positivity)
          _ = 2 ^ 53 := by rw [← Nat.pow_add]; congr 1; omega
      have h4 : 0 < u * 2 ^ (52 - e) := by positivity
      have h5 : ((u * 2 ^ (52 - e) : Nat) : ℤ) < 2 ^ 53 := by exact_mod_cast h3
      have h6 : (0 : ℤ) < ((u * 2 ^ (52 - e) : Nat) : ℤ) := by exact_mod_cast h4
      push_cast at h5 h6
      rw [abs_of_nonneg (by omega)]
      omega
    · have h7 : (2 : ℚ) ^ (52 - e) * 2 ^ e = 2 ^ 52 := by
        rw [← pow_add]; congr 1; omega
      rw [zpow_sub₀ (by norm_num), zpow_natCast]
      push_cast
      rw [show (4503599627370496 : ℚ) = 2 ^ 52 by norm_num, ← mul_div_assoc, sub_mul, mul_assoc, h7, sub_div,
        mul_div_assoc, div_self (by norm_num)]
      ring
    · have : (0 : ℚ) < 2 ^ e / 2 ^ 52 := by positivity
      linarith
    · have : (2 : ℚ) ^ e / 2 ^ 52 < u / 2 ^ 52 := by gcongr
      have h8 : (u : ℚ) / 2 ^ 52 = 2 * (u / 2 ^ 53) := by ring
      linarith

theorem nearest_nonneg {p : Nat} {rnd : ℚ → ℚ} (hr : Nearest p rnd) {q : ℚ} (hq : 0 ≤ q) : 0 ≤ rnd q := by
  by_contra hc
  rw [not_le] at hc
  have := (hr q).2 0 ⟨0, 0, by simp, by simp⟩
  rw [abs_of_neg (by linarith : rnd q - q < 0), zero_sub, abs_neg, abs_of_nonneg hq] at this
  linarith

/-- C54: rand<unsigned int>(upper) is in [0,upper), whatever the doubles round to, as long as it is one of
the nearest numbers. -/
theorem c54_uint {rnd : ℚ → ℚ} (hr : Nearest 53 rnd) {upper : BitVec 32} (hu : upper ≠ 0#32)
    {s : State 64} (h : Ready mt64 s) :
    ∃ x s', randUIntTo rnd upper s = .ok (x, s') ∧ x.toNat < upper.toNat ∧ Ready mt64 s' := by
  obtain ⟨x, s', e, hs⟩ := genrand_ready mt64_ok h
  have hu0 : 0 < upper.toNat := by
    rcases Nat.eq_zero_or_pos upper.toNat with h | h
    · exact absurd (BitVec.eq_of_toNat_eq (by simpa using h)) hu
    · exact h
  set r : ℚ := ((x >>> 11).toNat : ℚ) * (1 / 9007199254740992) with hrdef
  have h0 : 0 ≤ r := by positivity
  have h1 : r ≤ 1 - 1 / 2 ^ 53 := by
    have : (x >>> 11).toNat ≤ 9007199254740991 := by
      rw [BitVec.toNat_ushiftRight, Nat.shiftRight_eq_div_pow]
      have := x.isLt
      omega
    have h2 : ((x >>> 11).toNat : ℚ) ≤ 9007199254740991 := by exact_mod_cast this
    rw [hrdef]
    linarith
  have hlt := nearest_lt hr hu0 (lt_of_lt_of_le upper.isLt (by decide)) h1
  have hnn := nearest_nonneg hr (q := upper.toNat * r) (by positivity)
  have hu32 : (upper.toNat : ℚ) < 2 ^ 32 := by exact_mod_cast upper.isLt
  have hfl : ⌊rnd (upper.toNat * r)⌋ < upper.toNat := by
    rw [Int.floor_lt]
    exact_mod_cast hlt
  have hfn : 0 ≤ ⌊rnd (upper.toNat * r)⌋ := Int.floor_nonneg.2 hnn
  refine ⟨BitVec.ofInt 32 ⌊rnd (upper.toNat * r)⌋, s', ?_, ?_, hs⟩
  · rw [randUIntTo, randDouble, genrandRes53, e]
    simp only [Res.ok_bind, Res.pure_eq]
    rw [if_neg]
    rintro (h | h) <;> linarith
  · rw [BitVec.toNat_ofInt]
    have := upper.isLt
    rw [Int.emod_eq_of_lt hfn (by omega)]
    omega

/-- C54: rand<unsigned int>(lower, upper) is in [lower,upper). -/
theorem c54_uint_in {rnd : ℚ → ℚ} (hr : Nearest 53 rnd) {lower upper : BitVec 32}
    (hu : lower.toNat < upper.toNat) {s : State 64} (h : Ready mt64 s) :
    ∃ x s', randUIntIn rnd lower upper s = .ok (x, s') ∧ lower.toNat ≤ x.toNat ∧
      x.toNat < upper.toNat ∧ Ready mt64 s' := by
  have hd : (upper - lower).toNat = upper.toNat - lower.toNat := by
    rw [BitVec.toNat_sub]
    have := upper.isLt
    have := lower.isLt
    omega
  obtain ⟨x, s', e, hx, hs⟩ := c54_uint hr (upper := upper - lower)
    (fun h => by rw [h] at hd; simp at hd; omega) h
  rw [hd] at hx
  have hadd : (x + lower).toNat = x.toNat + lower.toNat := by
    rw [BitVec.toNat_add]
    have := upper.isLt
    omega
  exact ⟨x + lower, s', by rw [randUIntIn, e]; rfl, by omega, by omega, hs⟩

/-- C54: rand<unsigned long>(upper) is in [0,upper). -/
theorem c54_ulong {upper : BitVec 64} (hu : upper ≠ 0#64) {s : State 64} (h : Ready mt64 s) :
    ∃ x s', randULongTo upper s = .ok (x, s') ∧ x.toNat < upper.toNat ∧ Ready mt64 s' := by
  obtain ⟨x, s', e, hs⟩ := genrand_ready mt64_ok h
  refine ⟨x % upper, s', by rw [randULongTo, if_pos hu, randULong, e]; rfl, ?_, hs⟩
  rw [BitVec.toNat_umod]
  apply Nat.mod_lt
  rcases Nat.eq_zero_or_pos upper.toNat with h | h
  · exact absurd (BitVec.eq_of_toNat_eq (by simpa using h)) hu
  · exact h

/-- C54: rand<unsigned long>(lower, upper) is in [lower,upper). -/
theorem c54_ulong_in {lower upper : BitVec 64}
    (hu : lower.toNat < upper.toNat) {s : State 64} (h : Ready mt64 s) :
    ∃ x s', randULongIn lower upper s = .ok (x, s') ∧ lower.toNat ≤ x.toNat ∧
      x.toNat < upper.toNat ∧ Ready mt64 s' := by
  have hd : (upper - lower).toNat = upper.toNat - lower.toNat := by
    rw [BitVec.toNat_sub]
    have := upper.isLt
    have := lower.isLt
    omega
  obtain ⟨x, s', e, hx, hs⟩ := c54_ulong (upper := upper - lower)
    (fun h => by rw [h] at hd; simp at hd; omega) h
  rw [hd] at hx
  have hadd : (x + lower).toNat = x.toNat + lower.toNat := by
    rw [BitVec.toNat_add]
    have := upper.isLt
    omega
  exact ⟨x + lower, s', by rw [randULongIn, e]; rfl, by omega, by omega, hs⟩

/-- C54: rand<int>(upper) is in [0,upper). -/
theorem c54_int {upper : BitVec 32} (hu : 0 < upper.toInt) {s : State 64} (h : Ready mt64 s) :
    ∃ x s', randIntTo upper s = .ok (x, s') ∧ 0 ≤ x.toInt ∧ x.toInt < upper.toInt ∧ Ready mt64 s' := by
  obtain ⟨x, s', e, hs⟩ := genrand_ready mt64_ok h
  have hne : upper ≠ 0#32 := by rintro rfl; simp at hu
  refine ⟨x.setWidth 32 % upper, s', by rw [randIntTo, if_pos hne, randUInt, e]; rfl, ?_⟩
  have h1 : upper.toInt = upper.toNat := by
    rw [BitVec.toInt_eq_toNat_cond] at hu ⊢
    have := upper.isLt
    split at hu <;> split <;> omega
  have h2 : (x.setWidth 32 % upper).toNat < upper.toNat := by
    rw [BitVec.toNat_umod]
    exact Nat.mod_lt _ (by omega)
  have h3 : upper.toNat < 2 ^ 31 := by
    rw [BitVec.toInt_eq_toNat_cond] at hu
    have := upper.isLt
    split at hu <;> omega
  have h4 : (x.setWidth 32 % upper).toInt = (x.setWidth 32 % upper).toNat := by
    rw [BitVec.toInt_eq_toNat_cond, if_pos (by omega)]
  exact ⟨by omega, by omega, hs⟩

/-- C54: rand<int>(lower, upper) is in [lower,upper), if the difference of the limits is an int. -/
theorem c54_int_in_partial {lower upper : BitVec 32} (hu : lower.toInt < upper.toInt)
    (hd : upper.toInt - lower.toInt < 2 ^ 31) {s : State 64} (h : Ready mt64 s) :
    ∃ x s', randIntIn lower upper s = .ok (x, s') ∧ lower.toInt ≤ x.toInt ∧
      x.toInt < upper.toInt ∧ Ready mt64 s' := by
  have hl := lower.toInt_lt
  have hl' := lower.le_toInt
  have hup := upper.toInt_lt
  have hdi : (upper - lower).toInt = upper.toInt - lower.toInt := by
    rw [BitVec.toInt_sub, Int.bmod_eq_of_le] <;> omega
  obtain ⟨x, s', e, h1, h2, hs⟩ := c54_int (upper := upper - lower) (by omega) h
  have ha : (x + lower).toInt = x.toInt + lower.toInt := by
    rw [BitVec.toInt_add, Int.bmod_eq_of_le] <;> omega
  refine ⟨x + lower, s', ?_, by omega, by omega, hs⟩
  rw [randIntIn, if_neg, e, Res.ok_bind, if_neg]
  · rfl
  · simp [BitVec.saddOverflow]; omega
  · simp [BitVec.ssubOverflow]; omega

/-- C54 is false for int limits which are far from each other: the difference overflows. -/
theorem c54_int_overflow (s : State 64) :
    randIntIn (BitVec.intMin 32) (BitVec.intMax 32) s = .ub := by
  rw [randIntIn, if_pos (by decide)]

/-- C54 for rand<long>(upper): only the absolute value is limited by `upper`. -/
theorem c54_long_partial {upper : BitVec 64} (hu : 0 < upper.toInt) {s : State 64} (h : Ready mt64 s) :
    ∃ x s', randLongTo upper s = .ok (x, s') ∧ |x.toInt| < upper.toInt ∧ Ready mt64 s' := by
  obtain ⟨x, s', e, hs⟩ := genrand_ready mt64_ok h
  have hne : upper ≠ 0#64 := by rintro rfl; simp at hu
  refine ⟨x.srem upper, s', ?_, ?_, hs⟩
  · rw [randLongTo, if_pos hne, randULong, e, Res.ok_bind, if_neg]
    · rfl
    · rintro ⟨_, rfl⟩
      revert hu
      decide
  · rw [BitVec.toInt_srem]
    exact abs_lt.2 ⟨Int.lt_tmod_of_pos x.toInt hu, Int.tmod_lt_of_pos x.toInt hu⟩

/-- The first number after set_seed. -/
theorem first_draw {s : State 64} (hs : s.mt.length = 312) (seed : BitVec 64) :
    ∃ s0 s', setSeed s seed = .ok s0 ∧ genrand mt64 s0 = .ok (temper64
      (seedWord mt64.mult mt64.shift seed 156 ^^^ mixWord mt64.um mt64.lm mt64.matrixA
        (seedWord mt64.mult mt64.shift seed 0) (seedWord mt64.mult mt64.shift seed 1)), s') := by
  obtain ⟨x, hx, hf, s0, e, h⟩ := c55_sequence mt64_ok hs seed
  obtain ⟨s', _, e'⟩ := h 1
  have hx0 : x 312 = x 156 ^^^ mixWord mt64.um mt64.lm mt64.matrixA (x 0) (x 1) := hx 0
  rw [hf 156 (by decide), hf 0 (by decide), hf 1 (by decide)] at hx0
  refine ⟨s0, s', e, ?_⟩
  rw [← hx0]
  cases hh : genrand mt64 s0 with
  | ok p =>
    rw [draws, hh] at e'
    simp only [Res.ok_bind, draws, Res.pure_eq] at e'
    injection e' with e'
    injection e' with h3 h4
    injection h3 with h3
    obtain ⟨p1, p2⟩ := p
    simp only at h3 h4
    rw [h3, h4]
    rfl
  | abort => rw [draws, hh] at e'; simp at e'
  | ub => rw [draws, hh] at e'; simp at e'

/-- C54 is false for long: after set_seed(2), rand<long>(10) is -8. -/
theorem c54_long_negative {s : State 64} (hs : s.mt.length = 312) :
    ∃ s0 s', setSeed s 2#64 = .ok s0 ∧ randLongTo 10#64 s0 = .ok (BitVec.ofInt 64 (-8), s') := by
  obtain ⟨s0, s', e, h⟩ := first_draw hs 2#64
  refine ⟨s0, s', e, ?_⟩
  rw [randLongTo, if_pos (by decide), randULong, h]
  have : temper64 (seedWord mt64.mult mt64.shift 2#64 156 ^^^ mixWord mt64.um mt64.lm mt64.matrixA
        (seedWord mt64.mult mt64.shift 2#64 0) (seedWord mt64.mult mt64.shift 2#64 1))
      = 16668552215174154828#64 := by decide +kernel
  rw [this, Res.ok_bind]
  simp only
  rw [if_neg (by decide)]
  rfl

theorem round_one {rnd : ℚ → ℚ} (hr : Nearest 24 rnd) {q : ℚ} (h1 : 1 - 1 / 2 ^ 25 < q) (h2 : q < 1) :
    rnd q = 1 := by
  obtain ⟨⟨m, e, hm, he⟩, hn⟩ := hr q
  have h3 := hn 1 ⟨1, 0, by norm_num, by norm_num⟩
  rw [abs_of_pos (by linarith : 0 < 1 - q)] at h3
  obtain ⟨h4, h5⟩ := abs_le.1 h3
  by_contra hc
  have h6 : rnd q < 1 := lt_of_le_of_ne (by linarith) hc
  have h7 : 1 - 1 / 2 ^ 24 < rnd q := by
    have : (1 : ℚ) / 2 ^ 24 = 2 * (1 / 2 ^ 25) := by norm_num
    linarith
  have hm' : (m : ℚ) < 2 ^ 24 := by exact_mod_cast (abs_lt.1 hm).2
  by_cases h8 : -24 ≤ e
  · obtain ⟨k, hk⟩ := Int.eq_ofNat_of_zero_le (show 0 ≤ e + 24 by omega)
    have h9 : rnd q * 2 ^ 24 = ((m * 2 ^ k : ℤ) : ℚ) := by
      rw [he, mul_assoc]
      push_cast
      rw [← zpow_natCast (2 : ℚ) k, ← hk, zpow_add₀ (by norm_num)]
      norm_num
    have h10 : ((m * 2 ^ k : ℤ) : ℚ) < ((2 ^ 24 : ℤ) : ℚ) := by
      rw [← h9]; push_cast; linarith
    have h11 : ((2 ^ 24 - 1 : ℤ) : ℚ) < ((m * 2 ^ k : ℤ) : ℚ) := by
      rw [← h9]; push_cast; linarith
    have h12 := Int.cast_lt.1 h10
    have h13 := Int.cast_lt.1 h11
    omega
  · have h9 : (2 : ℚ) ^ e ≤ 2 ^ (-25 : ℤ) := zpow_le_zpow_right₀ (by norm_num) (by omega)
    have h10 : (0 : ℚ) < 2 ^ e := zpow_pos (by norm_num) e
    have h11 : rnd q ≤ 2 ^ 24 * 2 ^ (-25 : ℤ) := by
      rw [he]
      calc (m : ℚ) * 2 ^ e ≤ 2 ^ 24 * 2 ^ e := mul_le_mul_of_nonneg_right hm'.le h10.le
        _ ≤ 2 ^ 24 * 2 ^ (-25 : ℤ) := mul_le_mul_of_nonneg_left h9 (by norm_num)
    norm_num at h11 h7
    linarith

/-- rand<float>() is not less than 1 as promised: after set_seed(3138459) it is 1, if doubles are
rounded to the nearest float. -/
theorem c54_float_one {rnd : ℚ → ℚ} (hr : Nearest 24 rnd) {s : State 64} (hs : s.mt.length = 312) :
    ∃ s0 s', setSeed s 3138459#64 = .ok s0 ∧ randFloat rnd s0 = .ok (1, s') := by
  obtain ⟨s0, s', e, h⟩ := first_draw hs 3138459#64
  refine ⟨s0, s', e, ?_⟩
  have : temper64 (seedWord mt64.mult mt64.shift 3138459#64 156 ^^^ mixWord mt64.um mt64.lm mt64.matrixA
        (seedWord mt64.mult mt64.shift 3138459#64 0) (seedWord mt64.mult mt64.shift 3138459#64 1))
      = 0xffffff9e9b42c29f#64 := by decide +kernel
  rw [randFloat, genrandRes53, h, this]
  simp only [Res.ok_bind, Res.pure_eq]
  rw [show (0xffffff9e9b42c29f#64 >>> 11).toNat = 9007199050491992 by decide]
  rw [round_one hr (by norm_num) (by norm_num)]

/-- The hypotheses of these theorems can be met. -/
example : (∃ rnd, Nearest 53 rnd) ∧ (∃ rnd, Nearest 24 rnd) ∧
    Ready mt64 ⟨List.replicate 312 0#64, 313⟩ ∧ Ready mt32 ⟨List.replicate 624 0#32, 624⟩ ∧
    (5#64).toNat < (9#64).toNat ∧ (0 : Int) < (BitVec.ofInt 32 7).toInt ∧
    (BitVec.ofInt 32 (-7)).toInt < (BitVec.ofInt 32 7).toInt :=
  ⟨nearest_exists (by decide), nearest_exists (by decide), ⟨List.length_replicate, by decide⟩, 
    ⟨List.length_replicate, by decide⟩, by decide, by decide, by decide⟩

end Verif.Rand
