import Verif.Model.Round
import Verif.Lemmas.Arith
import Verif.Lemmas.Float
import Mathlib.Algebra.Order.Round
/-
C110: round() of tensors.
-/
namespace Verif.Round

open Verif Fl

/-! ### Specification -/

/-- An integer nearest to a number, of two such integers the one further from zero. -/
def Spec.Nearest (x : ℝ) (n : ℤ) : Prop := |x - n| ≤ 1 / 2 ∧ (|x - n| = 1 / 2 → |x| < |(n : ℝ)|)

/-- The double with this value and the sign of the argument. NaN, infinities and zeros stay what they are. -/
def Spec.Rounded : Fl → Fl → Prop
  | fin x, y => ∃ n : ℤ, Spec.Nearest x n ∧ y.Finite ∧ y.val = n ∧ y.neg = decide (x < 0)
  | x, y => y = x

theorem Spec.Nearest.unique {x : ℝ} {n m : ℤ} (hn : Spec.Nearest x n) (hm : Spec.Nearest x m) : n = m := by
  wlog h : n ≤ m generalizing n m
  · exact (this hm hn (by omega)).symm
  by_contra hne
  have h1 : n + 1 ≤ m := by omega
  have h1' : (n : ℝ) + 1 ≤ m := by exact_mod_cast h1
  obtain ⟨a1, a2⟩ := abs_le.1 hn.1
  obtain ⟨b1, b2⟩ := abs_le.1 hm.1
  have e1 : x = n + 1 / 2 := by linarith
  have e2 : (m : ℝ) = n + 1 := by linarith
  have k1 := hn.2 (by rw [e1]; norm_num)
  have k2 := hm.2 (by rw [e1, e2]; norm_num [abs_of_neg])
  rw [e1] at k1 k2
  rw [e2] at k2
  rcases le_or_gt 0 n with hs | hs
  · have : (0 : ℝ) ≤ n := by exact_mod_cast hs
    rw [abs_of_nonneg (by linarith), abs_of_nonneg this] at k1
    linarith
  · have : (n : ℝ) + 1 ≤ 0 := by exact_mod_cast hs
    rw [abs_of_neg (by linarith), abs_of_nonpos this] at k2
    linarith

/-- The specification determines the result. -/
theorem Spec.Rounded.unique {x y z : Fl} (hy : Spec.Rounded x y) (hz : Spec.Rounded x z) : y = z := by
  cases x with
  | fin x =>
    obtain ⟨n, h1, h2, h3, h4⟩ := hy
    obtain ⟨m, k1, k2, k3, k4⟩ := hz
    have e := h1.unique k1
    subst e
    rw [← k3] at h3
    rw [← k4] at h4
    cases y with
    | fin a => cases z with
      | fin b => exact congrArg fin h3
      | nzero =>
        have : a = 0 := h3
        subst this
        simp [Fl.neg] at h4
      | _ => exact k2.elim
    | nzero => cases z with
      | fin b =>
        have : 0 = b := h3
        subst this
        simp [Fl.neg] at h4
      | nzero => rfl
      | _ => exact k2.elim
    | _ => exact h2.elim
  | _ => exact hy.trans hz.symm

/-! ### The nearest integer -/

theorem away_nearest (x : ℝ) : Spec.Nearest x (away x) := by
  rw [away]
  split
  · rename_i h
    have h1 := Int.floor_le (-x + 1 / 2)
    have h2 := Int.lt_floor_add_one (-x + 1 / 2)
    have h3 : (0 : ℝ) ≤ ⌊-x + 1 / 2⌋ := by exact_mod_cast Int.floor_nonneg.2 (by linarith)
    refine ⟨abs_le.2 ⟨?_, ?_⟩, fun he => ?_⟩
    · push_cast; linarith
    · push_cast; linarith
    · push_cast at he ⊢
      rw [abs_of_neg h, abs_neg, abs_of_nonneg h3]
      rcases (abs_eq (by norm_num)).1 he with he | he <;> linarith
  · rename_i h
    have h1 := Int.floor_le (x + 1 / 2)
    have h2 := Int.lt_floor_add_one (x + 1 / 2)
    have h3 : (0 : ℝ) ≤ ⌊x + 1 / 2⌋ := by exact_mod_cast Int.floor_nonneg.2 (by linarith)
    refine ⟨abs_le.2 ⟨by linarith, by linarith⟩, fun he => ?_⟩
    rw [abs_of_nonneg (not_lt.1 h), abs_of_nonneg h3]
    rcases (abs_eq (by norm_num)).1 he with he | he <;> linarith

theorem away_int (n : ℤ) : away n = n :=
  (away_nearest n).unique ⟨by simp, fun h => by simp at h⟩

theorem away_neg (x : ℝ) : away (-x) = -away x := by
  refine (away_nearest (-x)).unique ?_
  obtain ⟨h1, h2⟩ := away_nearest x
  have e : |-x - ((-away x : ℤ) : ℝ)| = |x - away x| := by
    push_cast
    rw [← abs_neg]
    congr 1
    ring
  refine ⟨e ▸ h1, fun h => ?_⟩
  rw [e] at h
  push_cast
  rw [abs_neg, abs_neg]
  exact h2 h

theorem away_mono {x y : ℝ} (h : x ≤ y) : away x ≤ away y := by
  by_contra hc
  have h1 : away y + 1 ≤ away x := by omega
  have h1' : (away y : ℝ) + 1 ≤ away x := by exact_mod_cast h1
  obtain ⟨a1, a2⟩ := abs_le.1 (away_nearest x).1
  obtain ⟨b1, b2⟩ := abs_le.1 (away_nearest y).1
  have : x = y := by linarith
  rw [this] at hc
  exact hc le_rfl

theorem away_sign (x : ℝ) : (x < 0 → away x ≤ 0) ∧ (0 ≤ x → 0 ≤ away x) := by
  have e : away 0 = 0 := by exact_mod_cast away_int 0
  exact ⟨fun h => e ▸ away_mono h.le, fun h => e ▸ away_mono h⟩

/-- Large numbers of the format are integers. -/
theorem big_int {x : ℝ} (h : IsDouble x) (hx : 2 ^ 52 ≤ |x|) : ∃ n : ℤ, x = n := by
  obtain ⟨m, e, h1, h2, h3, rfl⟩ := h
  rcases lt_or_ge e 0 with he | he
  · exfalso
    have hm : |(m : ℝ)| < 2 ^ 53 := by exact_mod_cast h1
    have h2' : (0 : ℝ) < 2 ^ e := by positivity
    have h4 : (2 : ℝ) ^ e ≤ 2 ^ (-1 : ℤ) := zpow_le_zpow_right₀ (by norm_num) (by omega)
    rw [abs_mul, abs_of_pos h2'] at hx
    have : |(m : ℝ)| * 2 ^ e < 2 ^ 53 * 2 ^ (-1 : ℤ) := mul_lt_mul'' hm (lt_of_le_of_ne h4 ?_) (abs_nonneg _) h2'.le
    · norm_num at this hx
      linarith
    · intro hq
      rw [hq] at hx
      norm_num at hm hx
      linarith
  · obtain ⟨k, rfl⟩ := Int.eq_ofNat_of_zero_le he
    exact ⟨m * 2 ^ k, by push_cast; rw [zpow_natCast]⟩

theorem away_double {x : ℝ} (h : IsDouble x) : IsDouble (away x) := by
  rcases le_or_gt (2 ^ 52) |x| with hx | hx
  · obtain ⟨n, rfl⟩ := big_int h hx
    rwa [away_int]
  · refine isDouble_int ?_
    have h1 := (away_nearest x).1
    have : |(away x : ℝ)| < 2 ^ 53 := by
      have h2 : |(away x : ℝ)| ≤ |x| + |x - away x| := by
        have := abs_sub_abs_le_abs_sub (away x : ℝ) x
        rw [abs_sub_comm] at this
        linarith
      norm_num at hx ⊢
      linarith
    exact_mod_cast this

theorem libRound_rounded {x : Fl} (hx : x.WF) : Spec.Rounded x (libRound x) := by
  cases x with
  | fin x =>
    refine ⟨away x, away_nearest x, ?_⟩
    rw [libRound]
    split
    · rename_i h
      rw [h, zeroS]
      split
      · rename_i hs
        exact ⟨trivial, by simp [val], by simpa [Fl.neg] using hs⟩
      · rename_i hs
        exact ⟨isDouble_zero, by simp [val], by simpa [Fl.neg] using hs⟩
    · rename_i h
      refine ⟨away_double hx, rfl, ?_⟩
      rw [Fl.neg]
      congr 1
      have h1 := away_sign x
      rw [eq_iff_iff, Int.cast_lt_zero]
      constructor
      · intro hn
        by_contra hc
        exact absurd (h1.2 (not_lt.1 hc)) (by omega)
      · intro hn
        have := h1.1 hn
        omega
  | _ => rfl

theorem libRound_wf {x : Fl} (hx : x.WF) : (libRound x).WF := by
  have h := libRound_rounded hx
  cases x with
  | fin x =>
    obtain ⟨n, -, h, -⟩ := h
    generalize libRound (fin x) = y at h
    cases y with
    | fin y => exact h
    | nzero => trivial
    | _ => exact h.elim
  | _ => trivial

/-! ### Theorems -/

/-- **C110**: round() keeps the dimensions and every element is the nearest integer, halfway cases away from zero, with the sign of the
argument. -/
theorem c110_elements (t : Tensor Fl) (wf : t.WF) (hd : ∀ x ∈ t.data, x.WF) :
    ∃ s, tensor t = .ok s ∧ s.dims = t.dims ∧ s.WF ∧ (∀ x ∈ s.data, x.WF) ∧
      ∀ (k : Nat) x, t.data[k]? = some x → ∃ y, s.data[k]? = some y ∧ Spec.Rounded x y := by
  refine ⟨_, Tensor.unop_ok _ _ wf, rfl, by simpa [Tensor.WF] using wf, ?_, ?_⟩
  · intro y hy
    obtain ⟨x, hx, rfl⟩ := List.mem_map.1 hy
    exact libRound_wf (hd x hx)
  · intro k x hk
    refine ⟨libRound x, by simp [List.getElem?_map, hk], libRound_rounded (hd x (List.mem_of_getElem? hk))⟩

theorem libRound_int (n : ℤ) : libRound (fin n) = fin n := by
  rw [libRound, away_int]
  split
  · rename_i h
    subst h
    simp [zeroS]
  · rfl

/-- **C110**: a tensor of integers, infinities and NaN stays the same, in particular any tensor of doubles of absolute value at least
2^52. -/
theorem c110_integers (t : Tensor Fl) (wf : t.WF)
    (h : ∀ x, fin x ∈ t.data → (∃ n : ℤ, x = n) ∨ (IsDouble x ∧ 2 ^ 52 ≤ |x|)) : tensor t = .ok t := by
  have e : t.data.map libRound = t.data := by
    refine List.map_congr_left (g := id) (fun y hy => ?_) |>.trans (List.map_id _)
    cases y with
    | fin x =>
      obtain ⟨n, rfl⟩ : ∃ n : ℤ, x = n := (h x hy).elim id fun k => big_int k.1 k.2
      exact libRound_int n
    | _ => rfl
  rw [tensor, Tensor.unop_ok _ _ wf, e]

/-- **C110**: rounding again changes nothing. -/
theorem c110_idempotent (t : Tensor Fl) (wf : t.WF) : ∃ s, tensor t = .ok s ∧ tensor s = .ok s := by
  refine ⟨_, Tensor.unop_ok _ _ wf, c110_integers _ (by simpa [Tensor.WF] using wf) ?_⟩
  intro x hx
  obtain ⟨y, -, hy⟩ := List.mem_map.1 hx
  left
  cases y with
  | fin y =>
    rw [libRound] at hy
    split at hy
    · rw [zeroS] at hy
      split at hy
      · cases hy
      · exact ⟨0, by cases hy; simp⟩
    · exact ⟨away y, by cases hy; rfl⟩
  | _ => cases hy

/-- **C110**: round(-t) is -round(t). -/
theorem c110_odd (t : Tensor Fl) (wf : t.WF) :
    ∃ s n m, tensor t = .ok s ∧ Tensor.unop Fl.negate t = .ok n ∧ tensor n = .ok m ∧ Tensor.unop Fl.negate s = .ok m := by
  refine ⟨_, _, _, Tensor.unop_ok _ _ wf, Tensor.unop_ok _ _ wf, Tensor.unop_ok _ _ (by simpa [Tensor.WF] using wf), ?_⟩
  rw [Tensor.unop_ok _ _ (by simpa [Tensor.WF] using wf), List.map_map, List.map_map]
  have : Fl.negate ∘ libRound = libRound ∘ Fl.negate := by
    funext x
    cases x with
    | fin x =>
      show Fl.negate (libRound (fin x)) = libRound (Fl.negate (fin x))
      by_cases h0 : x = 0
      · subst h0
        have : away 0 = 0 := by exact_mod_cast away_int 0
        simp [libRound, this, Fl.negate, zeroS]
      · rw [Fl.negate, if_neg h0, libRound, libRound, away_neg]
        by_cases ha : away x = 0
        · rw [if_pos ha, if_pos (by omega)]
          rcases lt_or_gt_of_ne h0 with h | h
          · simp [zeroS, h, Fl.negate, h.le]
          · simp [zeroS, h, Fl.negate, not_lt.2 h.le]
        · rw [if_neg ha, if_neg (by omega), Fl.negate, if_neg (by exact_mod_cast ha)]
          push_cast
          rfl
    | nzero =>
      have : away 0 = 0 := by exact_mod_cast away_int 0
      simp [libRound, this, Fl.negate, zeroS]
    | _ => rfl
  rw [this]

/-- **C110**: round() is monotone: where one of two numbers is at most the other one, so are the results. -/
theorem c110_monotone (x y : Fl) (hx : x.WF) (hy : y.WF) (h : x ≤ y) : libRound x ≤ libRound y := by
  obtain ⟨n1, n2, h3⟩ := h
  have nn : ∀ z : Fl, z.WF → z ≠ nan → libRound z ≠ nan := by
    intro z hz hne
    have hr := libRound_rounded hz
    cases z with
    | fin z =>
      obtain ⟨n, -, hf, -⟩ := hr
      exact hf.ne_nan
    | nan => exact absurd rfl hne
    | _ => rintro ⟨⟩
  have fv : ∀ z : Fl, z.Finite → (libRound z).Finite ∧ (libRound z).val = away z.val := by
    intro z hz
    cases z with
    | fin z =>
      obtain ⟨n, hn, hf, hv, -⟩ := libRound_rounded (x := fin z) hz
      exact ⟨hf, by rw [hv, hn.unique (away_nearest z)]; rfl⟩
    | nzero =>
      have : away 0 = 0 := by exact_mod_cast away_int 0
      exact ⟨trivial, by simp [libRound, val, this]⟩
    | _ => exact hz.elim
  refine ⟨nn x hx n1, nn y hy n2, fun hlt => ?_⟩
  by_cases fx : x.Finite
  · by_cases fy : y.Finite
    · rw [lt_finite fy fx] at h3
      rw [lt_finite (fv y fy).1 (fv x fx).1, (fv y fy).2, (fv x fx).2] at hlt
      have := away_mono (not_lt.1 h3)
      have : (away x.val : ℝ) ≤ away y.val := by exact_mod_cast this
      linarith
    · have hr := (fv x fx).1
      generalize libRound x = u at hlt hr
      cases y with
      | fin y => exact fy hy
      | nzero => exact fy trivial
      | nan => exact n2 rfl
      | pinf => cases u <;> exact hlt
      | ninf =>
        cases x with
        | fin x => exact h3 trivial
        | nzero => exact h3 trivial
        | _ => exact fx
  · cases x with
    | fin x => exact fx hx
    | nzero => exact fx trivial
    | nan => exact n1 rfl
    | pinf =>
      by_cases fy : y.Finite
      · cases y with
        | fin y => exact h3 trivial
        | nzero => exact h3 trivial
        | _ => exact fy
      · cases y with
        | fin y => exact fy hy
        | nzero => exact fy trivial
        | nan => exact n2 rfl
        | pinf => exact hlt
        | ninf => exact h3 trivial
    | ninf =>
      generalize libRound y = u at hlt
      cases u <;> exact hlt

/-- **C110** for complex numbers: both parts are rounded. -/
theorem c110_complex (z : CFl) (hr : z.re.WF) (hi : z.im.WF) : Spec.Rounded z.re (cround z).re ∧ Spec.Rounded z.im (cround z).im :=
  ⟨libRound_rounded hr, libRound_rounded hi⟩

variable [Rounding]

/-- Sums which are doubles are exact. -/
theorem add_exact {x y : ℝ} (h : IsDouble (x + y)) (h0 : x + y ≠ 0) : fin x + fin y = fin (x + y) := by
  show Fl.add (fin x) (fin y) = _
  obtain ⟨h1, h2⟩ := abs_lt.1 h.lt
  rw [Fl.add]
  · rw [val, val, if_neg h0, Fl.round, rnd_exact (.inl h), if_neg (not_le.2 h2), if_neg (not_le.2 h1), if_neg h0]
  all_goals simp

/-- **C110 (partial)** for the function which replaces `::round` for old compilers: right for numbers from zero on, if the sum with 0.5 is
exact. -/
theorem c110_msvc_partial (x : ℝ) (h0 : 0 ≤ x) (h : IsDouble (x + 1 / 2)) : msvc (fin x) = libRound (fin x) := by
  have hn : ¬ (fin x < (0 : Fl)) := not_lt.2 h0
  rw [msvc, if_neg hn, add_exact h (by linarith), libRound, libFloor, away, if_neg (not_lt.2 h0)]
  split
  · rename_i hz
    rw [hz, zeroS, if_neg (by simpa using h0)]
    simp
  · rfl

/-- **C110, negation**: the function for old compilers is wrong for every negative number which is not halfway between two integers, if the
difference with 0.5 is exact: the result is one less than the nearest integer. round(-1.0) is -2. -/
theorem c110_negation_msvc (x : ℝ) (h0 : x < 0) (h : IsDouble (x - 1 / 2)) (hx : |x - away x| ≠ 1 / 2) :
    msvc (fin x) = fin (away x - 1) ∧ (libRound (fin x)).val = away x := by
  obtain ⟨h1, -⟩ := away_nearest x
  obtain ⟨h2, h3⟩ := abs_lt.1 (lt_of_le_of_ne h1 hx)
  constructor
  · have hn : fin x < (0 : Fl) := h0
    have hs : fin x - fin (1 / 2) = fin (x - 1 / 2) := by
      have e : Fl.negate (fin (1 / 2)) = fin (-(1 / 2)) := by rw [Fl.negate, if_neg (by norm_num)]
      show fin x + Fl.negate (fin (1 / 2)) = _
      rw [e, add_exact (by rwa [← sub_eq_add_neg]) (by linarith), ← sub_eq_add_neg]
    have hf : ⌊x - 1 / 2⌋ = away x - 1 := by
      rw [Int.floor_eq_iff]
      push_cast
      constructor <;> linarith
    rw [msvc, if_pos hn, hs, libFloor, hf]
    push_cast
    rfl
  · rw [libRound]
    split
    · rename_i hz
      rw [hz, zeroS]
      split <;> simp [val]
    · rfl

omit [Rounding] in
theorem half_double (n : ℤ) (h : |n| < 2 ^ 52) : IsDouble (n - 1 / 2) := by
  refine ⟨2 * n - 1, -1, ?_, by norm_num, by norm_num, ?_⟩
  · rw [abs_lt] at h ⊢
    constructor <;> omega
  · push_cast
    rw [zpow_neg_one]
    ring

/-- The conditions can be met: all negative integers, round(-n) is -n - 1. -/
theorem c110_negation_msvc_integers (n : ℤ) (h0 : n < 0) (h : |n| < 2 ^ 52) :
    msvc (fin n) = fin (n - 1) ∧ libRound (fin n) = fin n := by
  have := c110_negation_msvc n (by exact_mod_cast h0) (half_double n h) (by rw [away_int]; norm_num)
  rw [away_int] at this
  exact ⟨this.1, libRound_int n⟩

example : msvc (fin (-1)) = fin (-2) := by
  have := (c110_negation_msvc_integers (-1) (by norm_num) (by norm_num)).1
  push_cast at this
  rw [this]
  norm_num

/-- The conditions can be met. -/
example : msvc (fin (5 / 2)) = fin 3 := by
  have e : away (5 / 2) = 3 := (away_nearest _).unique ⟨by norm_num [abs_le], fun _ => by norm_num [abs_of_nonneg]⟩
  rw [c110_msvc_partial _ (by norm_num) (by
    have := isDouble_int (n := 3) (by norm_num)
    norm_num at this ⊢
    exact this), libRound, e, if_neg (by norm_num)]
  norm_num

omit [Rounding] in
/-- round(-0.5), round(2.5), round(-0.0), round(NaN) and round of an infinity. -/
example : ∃ t, tensor ⟨[5], [fin (-1 / 2), fin (5 / 2), nzero, nan, ninf]⟩ = .ok ⟨[5], t⟩ ∧ t = [fin (-1), fin 3, nzero, nan, ninf] := by
  have e1 : away (5 / 2) = 3 := (away_nearest _).unique ⟨by norm_num [abs_le], fun _ => by norm_num [abs_of_nonneg]⟩
  have e2 : away (-1 / 2) = -1 := (away_nearest _).unique ⟨by norm_num [abs_le], fun _ => by norm_num [abs_of_neg]⟩
  refine ⟨_, Tensor.unop_ok _ _ (by simp [Tensor.WF]), ?_⟩
  simp [libRound, e1, e2]

end Verif.Round
