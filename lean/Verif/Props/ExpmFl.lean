import Verif.Model.ExpmFl
import Verif.Props.ExactInt
import Verif.Props.FloatReduce
import Verif.Lemmas.SumOrder
import Mathlib.Analysis.SpecialFunctions.Log.Base
import Mathlib.Analysis.SpecialFunctions.Exp
/-
expm with doubles (C137): which matrices have an exponential, how the matrix is scaled, and what is returned for large ones.
-/
namespace Verif.ExpmFl

open Verif Verif.Spec Tensor Fl Rounding GemmFl Exact Exact.Spec

/-- A log2 of the C library: exact for powers of two, monotone, with the values of Annex F at zero and at infinity. -/
structure IsLog2 (lg : Fl → Fl) : Prop where
  pow : ∀ e : ℤ, -1074 ≤ e → e ≤ 1023 → (lg (fin (2 ^ e))).Finite ∧ (lg (fin (2 ^ e))).val = e
  finite : ∀ x : ℝ, IsDouble x → 0 < x → (lg (fin x)).Finite ∧ (lg (fin x)).val ≤ 1024
  mono : ∀ x y : ℝ, IsDouble x → IsDouble y → 0 < x → x ≤ y → (lg (fin x)).val ≤ (lg (fin y)).val
  zero : lg (fin 0) = ninf
  inf : lg pinf = pinf

theorem isDouble_two_zpow {e : ℤ} (h1 : -1074 ≤ e) (h2 : e ≤ 1023) : IsDouble ((2 : ℝ) ^ e) := by
  by_cases h : e ≤ 971
  · exact ⟨1, e, by norm_num, h1, h, by simp⟩
  · obtain ⟨k, hk⟩ := Int.eq_ofNat_of_zero_le (show 0 ≤ e - 971 by omega)
    refine ⟨2 ^ k, 971, ?_, by norm_num, le_refl _, ?_⟩
    · rw [abs_of_nonneg (by positivity)]
      exact pow_lt_pow_right₀ (by norm_num) (by omega)
    · rw [show e = k + 971 by omega, zpow_add₀ (by norm_num)]
      push_cast
      rw [zpow_natCast]

section
variable [Rounding]

/-- The logarithm which is rounded correctly. -/
noncomputable def logRound : Fl → Fl
  | fin x => if x = 0 then ninf else round (Real.logb 2 x)
  | pinf => pinf
  | _ => nan

/-- There are such functions. -/
theorem isLog2_round : IsLog2 logRound := by
  have two : (1 : ℝ) < 2 := by norm_num
  have i1024 : ∀ e : ℤ, |e| ≤ 1074 → IsDouble (e : ℝ) := fun e he => isDouble_int (lt_of_le_of_lt he (by norm_num))
  have key : ∀ x : ℝ, IsDouble x → 0 < x → (logRound (fin x)).Finite ∧ (logRound (fin x)).val = rnd (Real.logb 2 x) ∧
      rnd (Real.logb 2 x) ≤ 1024 := by
    intro x hd hx
    have hlt : x < 2 ^ (1024 : ℝ) := by
      have := hd.lt
      rw [abs_of_pos hx] at this
      calc x < 2 ^ 1024 := this
        _ = 2 ^ (1024 : ℝ) := by rw [← Real.rpow_natCast]; norm_num
    have hgt : (2 : ℝ) ^ (-1074 : ℝ) ≤ x := by
      obtain ⟨k, hk⟩ := hd.grid
      have hp := two_zpow_pos (-1074)
      have : 0 < (k : ℝ) := by
        rw [hk] at hx
        exact (pos_iff_pos_of_mul_pos hx).2 hp
      have h1 : (1 : ℝ) ≤ k := by exact_mod_cast (by exact_mod_cast this : (0 : ℤ) < k)
      calc (2 : ℝ) ^ (-1074 : ℝ) = 2 ^ (-1074 : ℤ) := by rw [← Real.rpow_intCast]; norm_num
        _ ≤ k * 2 ^ (-1074 : ℤ) := le_mul_of_one_le_left hp.le h1
        _ = x := hk.symm
    have h1 : Real.logb 2 x ≤ 1024 := ((Real.logb_lt_iff_lt_rpow two hx).2 hlt).le
    have h2 : -1074 ≤ Real.logb 2 x := (Real.le_logb_iff_rpow_le two hx).2 hgt
    have r1 : rnd (Real.logb 2 x) ≤ 1024 := by
      have := rnd_mono h1
      have e : rnd (1024 : ℝ) = 1024 := rnd_exact (.inl (by have := i1024 1024 (by norm_num); exact_mod_cast this))
      rwa [e] at this
    have r2 : -1074 ≤ rnd (Real.logb 2 x) := by
      have := rnd_mono h2
      have e : rnd (-1074 : ℝ) = -1074 := rnd_exact (.inl (by have := i1024 (-1074) (by norm_num); exact_mod_cast this))
      rwa [e] at this
    have hb : |rnd (Real.logb 2 x)| < 2 ^ 1024 := by
      refine lt_of_le_of_lt (abs_le.2 ⟨?_, ?_⟩ : _ ≤ (1074 : ℝ)) ?_
      · exact r2
      · linarith
      · have : (1074 : ℝ) ≤ 2 ^ 11 := by norm_num
        exact lt_of_le_of_lt this (pow_lt_pow_right₀ two (by norm_num))
    have := round_finite hb
    refine ⟨?_, ?_, r1⟩
    · rw [logRound, if_neg hx.ne']; exact this.1
    · rw [logRound, if_neg hx.ne']; exact this.2
  refine ⟨fun e h1 h2 => ?_, fun x hd hx => ?_, fun x y hdx hdy hx h => ?_, ?_, rfl⟩
  · obtain ⟨f, v, -⟩ := key _ (isDouble_two_zpow h1 h2) (two_zpow_pos e)
    refine ⟨f, ?_⟩
    rw [v, ← Real.rpow_intCast, Real.logb_rpow (by norm_num) (by norm_num)]
    exact rnd_exact (.inl (i1024 e (abs_le.2 ⟨h1, by omega⟩)))
  · obtain ⟨f, v, r⟩ := key x hd hx
    exact ⟨f, by rw [v]; exact r⟩
  · rw [(key x hdx hx).2.1, (key y hdy (hx.trans_le h)).2.1]
    exact rnd_mono (Real.logb_le_logb_of_le two hx h)
  · rw [logRound, if_pos rfl]

omit [Rounding] in
theorem toInt_of {z : Fl} (h : z.Finite) {a b : ℤ} (ha : (a : ℝ) ≤ z.val) (hb : z.val ≤ b) (h1 : -2 ^ 31 ≤ a) (h2 : b < 2 ^ 31) :
    ∃ e, toInt z = some e ∧ a ≤ e ∧ e ≤ b := by
  cases z with
  | fin x =>
    have l1 : a ≤ ⌊x⌋ := Int.le_floor.2 ha
    have l2 : ⌊x⌋ ≤ b := by
      have := Int.floor_mono (show x ≤ b from hb)
      rwa [Int.floor_intCast] at this
    exact ⟨⌊x⌋, if_pos ⟨by omega, by omega⟩, l1, l2⟩
  | nzero =>
    have ha : (a : ℝ) ≤ 0 := ha
    have hb : (0 : ℝ) ≤ b := hb
    exact ⟨0, rfl, by exact_mod_cast ha, by exact_mod_cast hb⟩
  | _ => exact h.elim

omit [Rounding] in
/-- The exponent which is found for a norm, which may be one too large near a power of two. -/
theorem exponent {lg : Fl → Fl} (hl : IsLog2 lg) {x : ℝ} (hd : IsDouble x) (hx : 0 < x) :
    ∃ e : ℤ, toInt (lg (fin x)) = some e ∧ x < 2 ^ (e + 1) ∧ (2 : ℝ) ^ e ≤ 2 * x ∧ -1074 ≤ e ∧ e ≤ 1024 ∧
      (x ≤ 2 ^ (1022 : ℤ) → e ≤ 1022) ∧ ((2 : ℝ) ^ (1023 : ℤ) ≤ x → 1023 ≤ e) := by
  obtain ⟨f, u⟩ := hl.finite x hd hx
  set k := Int.log 2 x with hk
  have k1 : (2 : ℝ) ^ k ≤ x := by
    have := Int.zpow_log_le_self (b := 2) (by norm_num) hx
    exact_mod_cast this
  have k2 : x < 2 ^ (k + 1) := by
    have := Int.lt_zpow_succ_log_self (b := 2) (by norm_num) x
    exact_mod_cast this
  have b1 : -1074 ≤ k := by
    by_contra hc
    obtain ⟨m, hm⟩ := hd.grid
    have hp := two_zpow_pos (-1074)
    have : 0 < (m : ℝ) := by
      rw [hm] at hx
      exact (pos_iff_pos_of_mul_pos hx).2 hp
    have h1 : (1 : ℝ) ≤ m := by exact_mod_cast (by exact_mod_cast this : (0 : ℤ) < m)
    have h2 : (2 : ℝ) ^ (-1074 : ℤ) ≤ x := by rw [hm]; exact le_mul_of_one_le_left hp.le h1
    have h3 : (2 : ℝ) ^ (k + 1) ≤ 2 ^ (-1074 : ℤ) := zpow_le_zpow_right₀ (by norm_num) (by omega)
    linarith
  have b2 : k ≤ 1023 := by
    by_contra hc
    have h1 := hd.lt
    rw [abs_of_pos hx] at h1
    have h3 : (2 : ℝ) ^ (1024 : ℤ) ≤ 2 ^ k := zpow_le_zpow_right₀ (by norm_num) (by omega)
    have h4 : (2 : ℝ) ^ (1024 : ℤ) = 2 ^ 1024 := zpow_natCast _ _
    exact absurd ((h1.trans_eq h4.symm).trans_le (h3.trans k1)) (lt_irrefl _)
  have lo : (k : ℝ) ≤ (lg (fin x)).val := by
    rw [← (hl.pow k b1 b2).2]
    exact hl.mono _ _ (isDouble_two_zpow b1 b2) hd (two_zpow_pos k) k1
  have hi : (lg (fin x)).val ≤ ((k + 1 : ℤ) : ℝ) := by
    by_cases h : k = 1023
    · rw [h]; push_cast; linarith
    · rw [← (hl.pow (k + 1) (by omega) (by omega)).2]
      exact hl.mono _ _ hd (isDouble_two_zpow (by omega) (by omega)) hx k2.le
  obtain ⟨e, he, e1, e2⟩ := toInt_of f lo hi (by omega) (by omega)
  refine ⟨e, he, lt_of_lt_of_le k2 (zpow_le_zpow_right₀ (by norm_num) (by omega)), ?_, by omega, by omega, fun h => ?_, fun h => ?_⟩
  · have : (2 : ℝ) ^ e ≤ 2 ^ (k + 1) := zpow_le_zpow_right₀ (by norm_num) e2
    rw [zpow_add₀ (by norm_num), zpow_one] at this
    linarith
  · have hm := hl.mono _ _ hd (isDouble_two_zpow (by norm_num) (by norm_num)) hx h
    rw [(hl.pow 1022 (by norm_num) (by norm_num)).2] at hm
    obtain ⟨e', he', -, e4⟩ := toInt_of f lo hm (by omega) (by omega)
    rw [he] at he'
    injection he' with he'
    omega
  · have : 1023 < k + 1 := by
      by_contra hc
      have : (2 : ℝ) ^ (k + 1) ≤ 2 ^ (1023 : ℤ) := zpow_le_zpow_right₀ (by norm_num) (by omega)
      linarith
    omega

omit [Rounding] in
theorem exp2_finite {j : Nat} (h : j ≤ 1023) : exp2 j = fin (2 ^ j) ∧ IsDouble ((2 : ℝ) ^ j) := by
  refine ⟨if_pos (by omega), ?_⟩
  have := isDouble_two_zpow (e := j) (by omega) (by omega)
  rwa [zpow_natCast] at this

/-! ### The norm is at least every element -/

theorem add_ge {a b : Fl} (ha : NonNeg a) (hb : NonNeg b) (h : (a + b).Finite) :
    a.Finite ∧ b.Finite ∧ a.val ≤ (a + b).val ∧ b.val ≤ (a + b).val := by
  rcases ha with rfl | ⟨ha, ha0⟩
  · rcases nonNeg_add (a := pinf) (.inl rfl) hb with _ | _ <;>
    · exfalso
      rcases hb with rfl | ⟨hb, -⟩
      · exact h
      · cases b <;> exact h
  · rcases hb with rfl | ⟨hb, hb0⟩
    · exfalso
      cases a <;> exact h
    · refine ⟨ha, hb, ?_⟩
      by_cases hz : a ≠ nzero ∨ b ≠ nzero
      · have e := add_def ha hb hz
        by_cases h0 : a.val + b.val = 0
        · rw [if_pos h0] at e
          rw [e]
          exact ⟨by show a.val ≤ 0; linarith, by show b.val ≤ 0; linarith⟩
        · rw [if_neg h0] at e
          by_cases hr : |rnd (a.val + b.val)| < 2 ^ 1024
          · rw [e, (round_finite hr).2]
            constructor
            · rw [← rnd_exact (.inl ha.val_double)]; exact rnd_mono (by rw [rnd_exact (.inl ha.val_double)]; linarith)
            · rw [← rnd_exact (.inl hb.val_double)]; exact rnd_mono (by rw [rnd_exact (.inl hb.val_double)]; linarith)
          · exfalso
            rw [abs_of_nonneg (rnd_nonneg (by linarith)), not_lt] at hr
            rw [e, Fl.round, if_pos hr] at h
            exact h
      · rw [not_or, not_not, not_not] at hz
        obtain ⟨rfl, rfl⟩ := hz
        exact ⟨le_refl _, le_refl _⟩

theorem fold_ge (l : List Fl) (s : Fl) (hs : NonNeg s) (h : ∀ x ∈ l, NonNeg x) (hf : (l.foldl (· + ·) s).Finite) :
    s.Finite ∧ s.val ≤ (l.foldl (· + ·) s).val ∧ ∀ x ∈ l, x.Finite ∧ x.val ≤ (l.foldl (· + ·) s).val := by
  induction l generalizing s with
  | nil => exact ⟨hf, le_refl _, by simp⟩
  | cons y l ih =>
    rw [List.foldl_cons] at hf ⊢
    obtain ⟨g1, g2, g3⟩ := ih _ (nonNeg_add hs (h y (by simp))) (fun x hx => h x (by simp [hx])) hf
    obtain ⟨a1, a2, a3, a4⟩ := add_ge hs (h y (by simp)) g1
    refine ⟨a1, a3.trans g2, fun x hx => ?_⟩
    rcases List.mem_cons.1 hx with rfl | hx
    · exact ⟨a2, a4.trans g2⟩
    · exact g3 x hx

omit [Rounding] in
/-- The largest of the sums. -/
theorem max_ge (l : List Fl) (o : Fl) (ho : NonNeg o) (h : ∀ x ∈ l, NonNeg x)
    (hf : (l.foldl (fun o x => if o < x then x else o) o).Finite) :
    o.Finite ∧ o.val ≤ (l.foldl (fun o x => if o < x then x else o) o).val ∧
      ∀ x ∈ l, x.Finite ∧ x.val ≤ (l.foldl (fun o x => if o < x then x else o) o).val := by
  induction l generalizing o with
  | nil => exact ⟨hf, le_refl _, by simp⟩
  | cons y l ih =>
    rw [List.foldl_cons] at hf ⊢
    have hy := h y (by simp)
    by_cases c : o < y
    · rw [if_pos c] at hf ⊢
      obtain ⟨g1, g2, g3⟩ := ih _ hy (fun x hx => h x (by simp [hx])) hf
      have of : o.Finite := by
        rcases ho with rfl | ho
        · exfalso
          cases y <;> exact c
        · exact ho.1
      refine ⟨of, ((lt_finite of g1).1 c).le.trans g2, fun x hx => ?_⟩
      rcases List.mem_cons.1 hx with rfl | hx
      · exact ⟨g1, g2⟩
      · exact g3 x hx
    · rw [if_neg c] at hf ⊢
      obtain ⟨g1, g2, g3⟩ := ih _ ho (fun x hx => h x (by simp [hx])) hf
      have yf : y.Finite := by
        rcases hy with rfl | hy
        · exfalso
          apply c
          cases o <;> first | exact trivial | exact g1.elim
        · exact hy.1
      refine ⟨g1, g2, fun x hx => ?_⟩
      rcases List.mem_cons.1 hx with rfl | hx
      · exact ⟨yf, (not_lt.1 fun hc => c ((lt_finite g1 yf).2 hc)).trans g2⟩
      · exact g3 x hx

/-- A norm which is finite is at least the absolute value of every element, if none is NaN. -/
theorem norm_ge {m : Tensor Fl} {r c : Nat} {f : Nat → Nat → Fl} (h : IsMat m.dims m.data r c f)
    (hf : ∀ i j, i < r → j < c → (f i j).Finite) {z : Fl} (hz : matrixNormInf Fl.abs m = .ok z) (hzf : z.Finite) :
    ∀ i j, i < r → j < c → |(f i j).val| ≤ z.val := by
  intro i j hi hj
  obtain ⟨c, rfl⟩ : ∃ d, c = d + 1 := ⟨c - 1, by omega⟩
  rw [matrixNormInf_order Fl.abs m r c f h] at hz
  injection hz with hz
  subst hz
  have nn : ∀ i j, i < r → j < c + 1 → NonNeg (Fl.abs (f i j)) := fun i j hi hj =>
    .inr ⟨(abs_finite (hf i j hi hj)).1, by rw [(abs_finite (hf i j hi hj)).2]; exact abs_nonneg _⟩
  have rows : ∀ i < r, NonNeg (((List.range c).map fun j => Fl.abs (f i (j + 1))).foldl (· + ·) (Fl.abs (f i 0))) := by
    intro i hi
    refine nonNeg_fold _ _ (nn i 0 hi (by omega)) fun x hx => ?_
    obtain ⟨j, hj, rfl⟩ := List.mem_map.1 hx
    exact nn i _ hi (by have := List.mem_range.1 hj; omega)
  obtain ⟨-, -, g⟩ := max_ge _ (0 : Fl) (.inr ⟨finite_zero, le_refl _⟩) (by
    intro x hx
    obtain ⟨i, hi, rfl⟩ := List.mem_map.1 hx
    exact rows i (List.mem_range.1 hi)) hzf
  obtain ⟨g1, g2⟩ := g _ (List.mem_map.2 ⟨i, List.mem_range.2 hi, rfl⟩)
  obtain ⟨-, k2, k3⟩ := fold_ge _ _ (nn i 0 hi (by omega)) (by
    intro x hx
    obtain ⟨j, hj, rfl⟩ := List.mem_map.1 hx
    exact nn i _ hi (by have := List.mem_range.1 hj; omega)) g1
  rw [← (abs_finite (hf i j hi hj)).2]
  refine le_trans ?_ g2
  cases j with
  | zero => exact k2
  | succ j => exact (k3 _ (List.mem_map.2 ⟨j, List.mem_range.2 (by omega), rfl⟩)).2

/-! ### The matrix which is divided by a power of two -/

omit [Rounding] in
theorem elem_unop {m : Tensor Fl} {r c : Nat} {f : Nat → Nat → Fl} (h : IsMat m.dims m.data r c f) (g : Fl → Fl) :
    ∃ A, unop g m = .ok A ∧ IsMat A.dims A.data r c fun i j => g (f i j) := by
  refine ⟨_, unop_ok g m (IsMat.wf h), h.1, by simpa using h.2.1, fun i j hi hj => ?_⟩
  rw [Tensor.elem_map, h.2.2 i j hi hj]
  rfl

/-- Division by a power of two. -/
theorem div_pow {z : Fl} (hz : z.Finite) {j : Nat} (hj : j ≤ 1023) (hb : |z.val| ≤ 2 ^ j) :
    (z / exp2 j).Finite ∧ |(z / exp2 j).val| ≤ 1 ∧ |(z / exp2 j).val - z.val / 2 ^ j| ≤ 2 ^ (-1075 : ℤ) ∧
      ((2 : ℝ) ^ (-1022 : ℤ) ≤ |z.val / 2 ^ j| → (z / exp2 j).val = z.val / 2 ^ j) := by
  obtain ⟨e, hd⟩ := exp2_finite hj
  have hp : (0 : ℝ) < 2 ^ j := by positivity
  have h1 : |z.val / 2 ^ j| ≤ 1 := by
    rw [abs_div, abs_of_pos hp, div_le_one hp]
    exact hb
  have d1 : IsDouble (1 : ℝ) := ⟨1, 0, by norm_num, by norm_num, by norm_num, by norm_num⟩
  have dm : IsDouble (-1 : ℝ) := ⟨-1, 0, by norm_num, by norm_num, by norm_num, by norm_num⟩
  obtain ⟨l1, l2⟩ := abs_le.1 h1
  have r1 : |rnd (z.val / 2 ^ j)| ≤ 1 := by
    have a := rnd_mono l1
    have b := rnd_mono l2
    have e1 : rnd (1 : ℝ) = 1 := rnd_exact (.inl d1)
    have e2 : rnd (-1 : ℝ) = -1 := rnd_exact (.inl dm)
    rw [e2] at a
    rw [e1] at b
    exact abs_le.2 ⟨a, b⟩
  have big : (1 : ℝ) < 2 ^ 1024 := one_lt_pow₀ (by norm_num) (by norm_num)
  have hv : (fin ((2 : ℝ) ^ j)).val = 2 ^ j := rfl
  obtain ⟨f, v⟩ := div_finite (b := fin (2 ^ j)) hz hd (by rw [hv]; exact hp.ne') (by rw [hv]; exact lt_of_le_of_lt r1 big)
  rw [e]
  rw [hv] at v
  have ex : (2 : ℝ) ^ (-1022 : ℤ) ≤ |z.val / 2 ^ j| → (z / fin (2 ^ j)).val = z.val / 2 ^ j := by
    intro hn
    rw [v]
    refine rnd_exact (.inl ?_)
    obtain ⟨m, k, hm, k1, k2, hk⟩ := hz.val_double
    have hq : z.val / 2 ^ j = m * (2 : ℝ) ^ (k - j) := by
      rw [hk, zpow_sub₀ (by norm_num), zpow_natCast]
      ring
    rw [hq] at hn ⊢
    refine ⟨m, k - j, hm, ?_, by omega, rfl⟩
    by_contra hc
    rw [abs_mul, abs_of_pos (two_zpow_pos (k - j))] at hn
    have hm' : |(m : ℝ)| < 2 ^ 53 := by exact_mod_cast hm
    have hs : (2 : ℝ) ^ (k - j) ≤ 2 ^ (-1075 : ℤ) := zpow_le_zpow_right₀ (by norm_num) (by omega)
    have : |(m : ℝ)| * 2 ^ (k - j) < 2 ^ 53 * 2 ^ (-1075 : ℤ) := by
      refine lt_of_lt_of_le (mul_lt_mul_of_pos_right hm' (two_zpow_pos _)) ?_
      exact mul_le_mul_of_nonneg_left hs (by positivity)
    have e3 : (2 : ℝ) ^ 53 * 2 ^ (-1075 : ℤ) = 2 ^ (-1022 : ℤ) := by
      rw [← zpow_natCast, ← zpow_add₀ (by norm_num)]
      norm_num
    rw [e3] at this
    exact absurd (this.trans_le hn) (lt_irrefl _)
  refine ⟨f, by rw [v]; exact r1, ?_, ex⟩
  rcases le_total ((2 : ℝ) ^ (-1022 : ℤ)) |z.val / 2 ^ j| with h | h
  · rw [ex h, sub_self, abs_zero]
    exact (two_zpow_pos _).le
  · rw [v]
    exact rnd_small h

/-- C137: a matrix of numbers whose norm is not zero and at most 2^1022 is divided by a power of two, so that the norm would
be less than one, and at least 1/4 if it was divided at all; each element is then at most one, and it has not changed except
for what is lost by underflow. Missing: norms above 2^1022, of which those from 2^1023 on fail (c137_negation_huge). -/
theorem c137_scale_partial (lg : Fl → Fl) (hl : IsLog2 lg) (m : Tensor Fl) (r c : Nat) (f : Nat → Nat → Fl)
    (h : IsMat m.dims m.data r c f) (hf : ∀ i j, i < r → j < c → (f i j).Finite) (x : ℝ) (hd : IsDouble x)
    (hn : matrixNormInf Fl.abs m = .ok (fin x)) (h0 : 0 < x) (h1 : x ≤ 2 ^ (1022 : ℤ)) :
    ∃ (s : Nat) (A : Tensor Fl) (g : Nat → Nat → Fl), scale lg m = .ok (s, A) ∧ s ≤ 1023 ∧ x < 2 ^ s ∧ (0 < s → 2 ^ s ≤ 4 * x) ∧
      IsMat A.dims A.data r c g ∧ ∀ i j, i < r → j < c → (g i j).Finite ∧ |(g i j).val| ≤ 1 ∧
        |(g i j).val - (f i j).val / 2 ^ s| ≤ 2 ^ (-1075 : ℤ) ∧
        ((2 : ℝ) ^ (-1022 : ℤ) ≤ |(f i j).val / 2 ^ s| → (g i j).val = (f i j).val / 2 ^ s) := by
  obtain ⟨e, he, e1, e2, e3, e4, e5, -⟩ := exponent hl hd h0
  have e5 := e5 h1
  set s := (max 0 (e + 1)).toNat with hs
  obtain ⟨A, hA, hm⟩ := elem_unop h (fun z => z / exp2 s)
  have lt : x < 2 ^ s := by
    refine lt_of_lt_of_le e1 ?_
    rw [← zpow_natCast]
    exact zpow_le_zpow_right₀ (by norm_num) (by omega)
  refine ⟨s, A, fun i j => f i j / exp2 s, ?_, by omega, lt, fun hpos => ?_, hm, fun i j hi hj => ?_⟩
  · rw [scale, hn, Res.ok_bind, he]
    simp only [Res.ofOption, Res.ok_bind]
    rw [← hs, binopTN, hA]
    rfl
  · have : (s : ℤ) = e + 1 := by omega
    rw [← zpow_natCast, this, zpow_add₀ (by norm_num), zpow_one]
    linarith
  · exact div_pow (hf i j hi hj) (by omega) ((norm_ge h hf hn hd i j hi hj).trans lt.le)

/-! ### The matrices without an exponential -/

omit [Rounding] in
theorem max_zero (l : List Fl) (h : ∀ x ∈ l, ¬ (0 : Fl) < x) : l.foldl (fun o x => if o < x then x else o) 0 = 0 := by
  induction l with
  | nil => rfl
  | cons y l ih =>
    rw [List.foldl_cons, if_neg (h y (by simp))]
    exact ih fun x hx => h x (by simp [hx])

omit [Rounding] in
theorem max_pinf (l : List Fl) (o : Fl) (ho : o ≠ nan) (h : o = pinf ∨ pinf ∈ l) :
    l.foldl (fun o x => if o < x then x else o) o = pinf := by
  induction l generalizing o with
  | nil => simpa using h
  | cons y l ih =>
    rw [List.foldl_cons]
    by_cases c : o < y
    · rw [if_pos c]
      refine ih y (fun e => not_lt_nan _ (e ▸ c)) ?_
      rcases h with rfl | h
      · exfalso
        cases y <;> exact c
      · rcases List.mem_cons.1 h with rfl | h
        · exact .inl rfl
        · exact .inr h
    · rw [if_neg c]
      refine ih o ho ?_
      rcases h with h | h
      · exact .inl h
      · rcases List.mem_cons.1 h with rfl | h
        · left
          cases o <;> first | rfl | exact absurd trivial c | exact absurd rfl ho
        · exact .inr h

theorem fold_nan (l : List Fl) (s : Fl) (h : s = nan ∨ nan ∈ l) : l.foldl (· + ·) s = nan := by
  induction l generalizing s with
  | nil => simpa using h
  | cons y l ih =>
    rw [List.foldl_cons]
    refine ih _ ?_
    rcases h with rfl | h
    · exact .inl (nan_add _)
    · rcases List.mem_cons.1 h with rfl | h
      · exact .inl (add_nan _)
      · exact .inr h

/-- Two of the numbers of a finite sum do not overflow. -/
theorem fold_pair (l : List Fl) (s : Fl) (hs : NonNeg s) (h : ∀ x ∈ l, NonNeg x) (hf : (l.foldl (· + ·) s).Finite) :
    (s :: l).Pairwise fun x y => x.val + y.val < 2 ^ 1024 := by
  have one : ∀ a b : Fl, NonNeg a → NonNeg b → (a + b).Finite → a.val + b.val < 2 ^ 1024 := by
    intro a b ha hb hf
    obtain ⟨fa, fb, -⟩ := add_ge ha hb hf
    by_contra hc
    rw [not_lt] at hc
    have ha0 : 0 ≤ a.val := by
      rcases ha with rfl | ha
      · exact fa.elim
      · exact ha.2
    have hr : (2 : ℝ) ^ 1024 ≤ rnd (a.val + b.val) := le_rnd (.inr (abs_of_pos (by positivity))) hc
    have hp : (0 : ℝ) < 2 ^ 1024 := by positivity
    have hne : a.val + b.val ≠ 0 := by
      intro e
      rw [e] at hc
      exact absurd (hp.trans_le hc) (lt_irrefl _)
    have hz : a ≠ nzero ∨ b ≠ nzero := by
      by_contra hz
      rw [not_or, not_not, not_not] at hz
      obtain ⟨rfl, rfl⟩ := hz
      exact hne (by simp [val])
    rw [add_def fa fb hz, if_neg hne, Fl.round, if_pos hr] at hf
    exact hf
  induction l generalizing s with
  | nil => simp
  | cons y l ih =>
    rw [List.foldl_cons] at hf
    have hy := h y (by simp)
    have hl : ∀ x ∈ l, NonNeg x := fun x hx => h x (by simp [hx])
    obtain ⟨g1, g2, -⟩ := fold_ge l (s + y) (nonNeg_add hs hy) hl hf
    obtain ⟨-, -, a3, a4⟩ := add_ge hs hy g1
    have := ih (s + y) (nonNeg_add hs hy) hl hf
    rw [List.pairwise_cons] at this ⊢
    refine ⟨fun x hx => ?_, List.pairwise_cons.2 ⟨fun x hx => ?_, this.2⟩⟩
    · rcases List.mem_cons.1 hx with rfl | hx
      · exact one s _ hs hy g1
      · exact lt_of_le_of_lt (by linarith) (this.1 x hx)
    · exact lt_of_le_of_lt (by linarith) (this.1 x hx)

omit [Rounding] in
theorem abs_cases (z : Fl) (hw : z.WF) (hz : z ≠ nan) : NonNeg (Fl.abs z) := by
  cases z with
  | nan => exact absurd rfl hz
  | pinf => exact .inl rfl
  | ninf => exact .inl rfl
  | nzero => exact .inr ⟨(abs_finite (a := nzero) trivial).1, by rw [(abs_finite (a := nzero) trivial).2]; exact abs_nonneg _⟩
  | fin x => exact .inr ⟨(abs_finite (a := fin x) hw).1, by rw [(abs_finite (a := fin x) hw).2]; exact abs_nonneg _⟩

theorem ub_of_norm {lg : Fl → Fl} (hl : IsLog2 lg) (mm : Nat → Tensor Fl → Tensor Fl → Res (Tensor Fl))
    (sol : Tensor Fl → Tensor Fl → Res (Tensor Fl)) {m : Tensor Fl} {n : Nat} {f : Nat → Nat → Fl}
    (h : IsMat m.dims m.data n n f) (order : Nat) {z : Fl} (hn : matrixNormInf Fl.abs m = .ok z) (hz : z = 0 ∨ z = pinf) :
    expm lg mm sol m order = .ub := by
  have hr : m.rank = 2 := by rw [rank, h.1]; rfl
  have d0 : m.dimension 0 = .ok n := by simp [dimension, rank, h.1, Res.assert_bind]
  have d1 : m.dimension 1 = .ok n := by simp [dimension, rank, h.1, Res.assert_bind]
  have hs : scale lg m = .ub := by
    rw [scale, hn, Res.ok_bind]
    rcases hz with rfl | rfl
    · rw [show lg 0 = ninf from hl.zero]; rfl
    · rw [hl.inf]; rfl
  rw [expm, hr, d0, d1, hs]
  simp [Res.assert]

/-- C137: the exponential of a matrix all of whose rows are of zeros (or have a NaN) is not defined, and neither is that of a
matrix which has a row without NaN with an infinite element, or with two elements whose absolute values add up to 2^1024:
the logarithm of the norm is infinite, and it is converted to an int. -/
theorem c137_undefined (lg : Fl → Fl) (hl : IsLog2 lg) (mm : Nat → Tensor Fl → Tensor Fl → Res (Tensor Fl))
    (sol : Tensor Fl → Tensor Fl → Res (Tensor Fl)) (m : Tensor Fl) (n : Nat) (hn : n ≠ 0) (f : Nat → Nat → Fl)
    (h : IsMat m.dims m.data n n f) (order : Nat)
    (hw : ∀ i j, i < n → j < n → (f i j).WF)
    (hc : (∀ i < n, (∀ j < n, (f i j).Finite ∧ (f i j).val = 0) ∨ ∃ j < n, f i j = nan) ∨
      ∃ i < n, (∀ j < n, f i j ≠ nan) ∧ ((∃ j < n, f i j = pinf ∨ f i j = ninf) ∨
        ∃ j k, j < k ∧ k < n ∧ 2 ^ 1024 ≤ |(f i j).val| + |(f i k).val|)) :
    expm lg mm sol m order = .ub := by
  obtain ⟨c, rfl⟩ : ∃ c, n = c + 1 := ⟨n - 1, by omega⟩
  have hN := matrixNormInf_order Fl.abs m (c + 1) c f h
  refine ub_of_norm hl mm sol h order hN ?_
  have mem : ∀ i, ∀ j < c + 1, j = 0 ∨ Fl.abs (f i j) ∈ (List.range c).map fun j => Fl.abs (f i (j + 1)) := by
    intro i j hj
    cases j with
    | zero => exact .inl rfl
    | succ j => exact .inr (List.mem_map.2 ⟨j, List.mem_range.2 (by omega), rfl⟩)
  rcases hc with hc | ⟨i, hi, hnan, hc⟩
  · left
    refine max_zero _ fun x hx => ?_
    obtain ⟨i, hi, rfl⟩ := List.mem_map.1 hx
    rcases hc i (List.mem_range.1 hi) with hz | ⟨j, hj, e⟩
    · have az : ∀ j < c + 1, IsMult 0 (Fl.abs (f i j)) 0 := fun j hj =>
        ⟨(abs_finite (hz j hj).1).1, by rw [(abs_finite (hz j hj).1).2, (hz j hj).2]; simp⟩
      have := fold_mult (u := 0) (by norm_num) (by norm_num)
        (x := (List.range c).map fun j => Fl.abs (f i (j + 1))) (X := (List.range c).map fun _ => (0 : ℤ)) (by
          rw [List.forall₂_map_left_iff, List.forall₂_map_right_iff, List.forall₂_same]
          exact fun j hj => az _ (by have := List.mem_range.1 hj; omega)) (az 0 (by omega)) (by simp)
      rw [lt_finite finite_zero this.1, this.2]
      have e0 : (0 : Fl).val = 0 := rfl
      rw [e0]
      simp
    · have : ((List.range c).map fun j => Fl.abs (f i (j + 1))).foldl (· + ·) (Fl.abs (f i 0)) = nan := by
        refine fold_nan _ _ ?_
        rcases mem i j hj with rfl | hm
        · left; rw [e]; rfl
        · right; rw [e] at hm; exact hm
      rw [this]
      exact not_lt_nan _
  · right
    refine max_pinf _ _ (by exact nofun) (.inr (List.mem_map.2 ⟨i, List.mem_range.2 hi, ?_⟩))
    have nn : ∀ j < c + 1, NonNeg (Fl.abs (f i j)) := fun j hj => abs_cases _ (hw i j hi hj) (hnan j hj)
    have nl : ∀ x ∈ (List.range c).map fun j => Fl.abs (f i (j + 1)), NonNeg x := by
      intro x hx
      obtain ⟨j, hj, rfl⟩ := List.mem_map.1 hx
      exact nn _ (by have := List.mem_range.1 hj; omega)
    rcases nonNeg_fold _ _ (nn 0 (by omega)) nl with e | ⟨hf, -⟩
    · exact e
    · exfalso
      obtain ⟨g1, -, g3⟩ := fold_ge _ _ (nn 0 (by omega)) nl hf
      have fi : ∀ j < c + 1, (Fl.abs (f i j)).Finite := by
        intro j hj
        rcases mem i j hj with rfl | hm
        · exact g1
        · exact (g3 _ hm).1
      rcases hc with ⟨j, hj, e⟩ | ⟨j, k, hjk, hk, hb⟩
      · have := fi j hj
        rcases e with e | e <;> · rw [e] at this; exact this
      · have hp := fold_pair _ _ (nn 0 (by omega)) nl hf
        have av : ∀ j < c + 1, (Fl.abs (f i j)).val = |(f i j).val| := by
          intro j hj
          have hfin : (f i j).Finite := by
            have h1 := fi j hj
            have h2 := hw i j hi hj
            revert h1 h2
            generalize f i j = z
            intro h1 h2
            cases z with
            | fin x => exact h2
            | nzero => trivial
            | _ => exact h1.elim
          exact (abs_finite hfin).2
        rw [← av j (by omega), ← av k hk] at hb
        have hl : Fl.abs (f i 0) :: ((List.range c).map fun j => Fl.abs (f i (j + 1))) =
            (List.range (c + 1)).map fun j => Fl.abs (f i j) := by
          rw [List.range_succ_eq_map, List.map_cons, List.map_map]
          rfl
        rw [hl, List.pairwise_iff_getElem] at hp
        have := hp j k (by simp; omega) (by simp; omega) hjk
        simp only [List.getElem_map, List.getElem_range] at this
        exact absurd (this.trans_le hb) (lt_irrefl _)

/-! ### The exponential of large matrices -/

/-- The coefficients of the approximation. -/
theorem coeff {order k : Nat} (ho : order < 2 ^ 31) (h2 : 2 ≤ k) (hk : k ≤ order) {c : Fl} (hc : c.Finite) (h0 : 0 ≤ c.val)
    (h1 : c.val ≤ 1) : (c * (num order k : Fl) / (den order k : Fl)).Finite ∧
      0 ≤ (c * (num order k : Fl) / (den order k : Fl)).val ∧ (c * (num order k : Fl) / (den order k : Fl)).val ≤ 1 := by
  have en : num order k = order - k + 1 := by unfold num; omega
  have ed : den order k = k * (2 * order - k + 1) := by
    unfold den
    have : (2 * order % 2 ^ 32 + 2 ^ 64 - k + 1) % 2 ^ 64 = 2 * order - k + 1 := by omega
    rw [this]
    refine Nat.mod_eq_of_lt ?_
    calc k * (2 * order - k + 1) < 2 ^ 31 * 2 ^ 32 := Nat.mul_lt_mul'' (by omega) (by omega)
      _ < 2 ^ 64 := by norm_num
  have hlt : num order k ≤ den order k := by
    rw [en, ed]
    calc order - k + 1 ≤ 1 * (2 * order - k + 1) := by omega
      _ ≤ _ := Nat.mul_le_mul_right _ (by omega)
  have hdl : den order k < 2 ^ 63 := by
    rw [ed]
    calc k * (2 * order - k + 1) < 2 ^ 31 * 2 ^ 32 := Nat.mul_lt_mul'' (by omega) (by omega)
      _ = 2 ^ 63 := by norm_num
  obtain ⟨nf, nv⟩ := ofNat_exact (n := num order k) (by rw [en]; omega)
  have hn1 : (1 : ℝ) ≤ num order k := by exact_mod_cast (by rw [en]; omega : 1 ≤ num order k)
  generalize num order k = N at *
  generalize den order k = D at *
  have hND : (N : ℝ) ≤ D := by exact_mod_cast hlt
  have dd : IsDouble ((2 : ℝ) ^ (63 : ℤ)) := isDouble_two_zpow (by norm_num) (by norm_num)
  have hD : (D : ℝ) ≤ 2 ^ (63 : ℤ) := by
    have : (D : ℝ) < 2 ^ 63 := by exact_mod_cast hdl
    have e : (2 : ℝ) ^ (63 : ℤ) = 2 ^ 63 := zpow_natCast _ _
    linarith
  have small : (2 : ℝ) ^ (63 : ℤ) < 2 ^ 1024 := by
    have e : (2 : ℝ) ^ (63 : ℤ) = 2 ^ 63 := zpow_natCast _ _
    rw [e]
    exact pow_lt_pow_right₀ (by norm_num) (by norm_num)
  have rd : rnd (D : ℝ) ≤ 2 ^ (63 : ℤ) := rnd_le (.inl dd) hD
  have rn : (N : ℝ) ≤ rnd (D : ℝ) := le_rnd (.inl (by rw [← nv]; exact nf.val_double)) hND
  have D0 : (0 : ℝ) ≤ rnd (D : ℝ) := by linarith
  obtain ⟨df, dv⟩ := ofNat_finite (n := D) (by rw [abs_of_nonneg D0]; exact lt_of_le_of_lt rd small)
  have pr : rnd (c.val * N) ≤ N := rnd_le (.inl (by rw [← nv]; exact nf.val_double)) (by nlinarith)
  have p0 : 0 ≤ rnd (c.val * N) := rnd_nonneg (by positivity)
  obtain ⟨mf, mv⟩ := mul_finite hc nf (by
    rw [nv, abs_of_nonneg p0]
    exact lt_of_le_of_lt (pr.trans (hND.trans hD)) small)
  rw [nv] at mv
  have hq1 : rnd (c.val * N) / rnd (D : ℝ) ≤ 1 := by
    rw [div_le_one (by linarith)]
    linarith
  have hq0 : 0 ≤ rnd (c.val * N) / rnd (D : ℝ) := div_nonneg p0 D0
  have d1 : IsDouble (1 : ℝ) := ⟨1, 0, by norm_num, by norm_num, by norm_num, by norm_num⟩
  have r1 := rnd_le (.inl d1) hq1
  have r0 := rnd_nonneg hq0
  obtain ⟨qf, qv⟩ := div_finite mf df (by rw [dv]; linarith) (by
    rw [mv, dv, abs_of_nonneg r0]
    exact lt_of_le_of_lt r1 (one_lt_pow₀ (by norm_num) (by norm_num)))
  rw [mv, dv] at qv
  exact ⟨qf, by rw [qv]; exact r0, by rw [qv]; exact r1⟩

omit [Rounding] in
theorem matrix_map {m : Tensor Fl} {r c : Nat} {A B : Nat → Nat → ℤ} (h : IsMatrix 0 m r c A) (g : Fl → Fl)
    (hg : ∀ i j z, i < r → j < c → IsMult 0 z (A i j) → IsMult 0 (g z) (B i j)) :
    ∃ t, unop g m = .ok t ∧ IsMatrix 0 t r c B := by
  obtain ⟨wf, hd, he⟩ := h
  refine ⟨_, unop_ok g m wf, by simpa [Tensor.WF] using wf, hd, fun i j hi hj => ?_⟩
  obtain ⟨z, e, hz⟩ := he i j hi hj
  exact ⟨g z, by rw [Tensor.elem_map, e]; rfl, hg i j z hi hj hz⟩

omit [Rounding] in
theorem matrix_zip {m t : Tensor Fl} {r c : Nat} {A B C : Nat → Nat → ℤ} (h : IsMatrix 0 m r c A) (k : IsMatrix 0 t r c B)
    (g : Fl → Fl → Fl) (hg : ∀ i j z w, i < r → j < c → IsMult 0 z (A i j) → IsMult 0 w (B i j) → IsMult 0 (g z w) (C i j)) :
    ∃ u, binopTT g m t = .ok u ∧ IsMatrix 0 u r c C := by
  obtain ⟨wf, hd, he⟩ := h
  obtain ⟨wf', hd', he'⟩ := k
  have hl : m.data.length = t.data.length := by
    rw [show m.data.length = totalSize m.dims from wf, show t.data.length = totalSize t.dims from wf', hd, hd']
  refine ⟨_, binopTT_ok g m t wf hl, ?_, hd, fun i j hi hj => ?_⟩
  · show (List.zipWith g m.data t.data).length = totalSize m.dims
    rw [List.length_zipWith, ← hl, min_self]
    exact wf
  · obtain ⟨z, e, hz⟩ := he i j hi hj
    obtain ⟨w, e', hw⟩ := he' i j hi hj
    refine ⟨g z w, ?_, hg i j z w hi hj hz hw⟩
    rw [hd'] at e'
    show elem m.dims _ _ = _
    rw [hd] at e ⊢
    exact elem_zipWith g _ _ _ _ z w e e'

/-- The matrix of zeros, and the identity. -/
def zeroM (_ _ : Nat) : ℤ := 0
def oneM (i j : Nat) : ℤ := if i = j then 1 else 0

theorem mult_scale {c z : Fl} (hc : c.Finite) (hz : IsMult 0 z 0) : IsMult 0 (c * z) 0 := by
  have hv : z.val = 0 := by rw [hz.2]; simp
  have := mul_finite hc hz.1 (by rw [hv, mul_zero, rnd_zero, abs_zero]; positivity)
  rw [hv, mul_zero, rnd_zero] at this
  exact ⟨this.1, by rw [this.2]; simp⟩

theorem add_zeroM {N C : Tensor Fl} {n : Nat} (hN : IsMatrix 0 N n n oneM) (hC : IsMatrix 0 C n n zeroM) :
    (∃ t, binopTT (· + ·) N C = .ok t ∧ IsMatrix 0 t n n oneM) ∧ ∃ t, binopTT (· - ·) N C = .ok t ∧ IsMatrix 0 t n n oneM := by
  have b : ∀ i j, |oneM i j| < 2 ^ 53 := by
    intro i j
    unfold oneM
    split <;> norm_num
  constructor
  · refine matrix_zip hN hC _ fun i j z w _ _ hz hw => ?_
    have := add_mult (u := 0) (by norm_num) (by norm_num) hz hw (by rw [zeroM, add_zero]; exact b i j)
    rwa [zeroM, add_zero] at this
  · refine matrix_zip hN hC _ fun i j z w _ _ hz hw => ?_
    have := sub_mult (u := 0) (by norm_num) (by norm_num) hz hw (by rw [zeroM, sub_zero]; exact b i j)
    rwa [zeroM, sub_zero] at this

theorem pade_zero {mm : Nat → Tensor Fl → Tensor Fl → Res (Tensor Fl)} (hm : ∀ k a b, a.WF → b.WF → Mmult a b (mm k a b)) {order n : Nat}
    (hn : n ≠ 0) (ho : order < 2 ^ 31) {A : Tensor Fl} (hA : IsMatrix 0 A n n zeroM) (l k : Nat) (h2 : 2 ≤ k)
    (hk : k + l ≤ order + 1) (c : Fl) (hc : c.Finite ∧ 0 ≤ c.val ∧ c.val ≤ 1) (X N D : Tensor Fl)
    (hX : IsMatrix 0 X n n zeroM) (hN : IsMatrix 0 N n n oneM) (hD : IsMatrix 0 D n n oneM) :
    ∃ N' D', padeLoop mm order A l k c X N D = .ok (N', D') ∧ IsMatrix 0 N' n n oneM ∧ IsMatrix 0 D' n n oneM := by
  induction l generalizing k c X N D with
  | zero => exact ⟨N, D, rfl, hN, hD⟩
  | succ l ih =>
    have hc' := coeff ho h2 (by omega) hc.1 hc.2.1 hc.2.2
    obtain ⟨X', eX, hX'⟩ := c136_mmult A X n n n 0 0 (by norm_num) (by norm_num) zeroM zeroM hA hX hn
      (by intro i j _ _; simp [zeroM]) _ (hm k A X hA.1 hX.1)
    have hX' : IsMatrix 0 X' n n zeroM := by
      have e : (fun i j => ∑ l ∈ Finset.range n, zeroM i l * zeroM l j) = zeroM := by
        funext i j
        simp [zeroM]
      rw [e] at hX'
      exact hX'
    obtain ⟨cX, ec, hcX⟩ := matrix_map (B := zeroM) hX' (fun x => c * (num order k : Fl) / (den order k : Fl) * x)
      fun i j z _ _ hz => mult_scale hc'.1 hz
    obtain ⟨⟨N', eN, hN'⟩, -⟩ := add_zeroM hN hcX
    obtain ⟨D', eD, hD'⟩ : ∃ D', Expm.altAdd k D cX = .ok D' ∧ IsMatrix 0 D' n n oneM := by
      unfold Expm.altAdd
      split
      · exact (add_zeroM hD hcX).1
      · exact (add_zeroM hD hcX).2
    obtain ⟨N2, D2, e, r⟩ := ih (k + 1) (by omega) (by omega) _ hc' X' N' D' hX' hN' hD'
    refine ⟨N2, D2, ?_, r⟩
    simp only [padeLoop, eX, Res.ok_bind, binopNT, ec, eN, eD, e]

theorem square_one {mm : Nat → Tensor Fl → Tensor Fl → Res (Tensor Fl)} (hm : ∀ k a b, a.WF → b.WF → Mmult a b (mm k a b)) {n : Nat}
    (hn : n ≠ 0) (l k : Nat) (X : Tensor Fl) (hX : IsMatrix 0 X n n oneM) :
    ∃ Y, squareLoop mm l k X = .ok Y ∧ IsMatrix 0 Y n n oneM := by
  induction l generalizing k X with
  | zero => exact ⟨X, rfl, hX⟩
  | succ l ih =>
    have sum : ∀ i j, i < n → ∑ l ∈ Finset.range n, oneM i l * oneM l j = oneM i j := by
      intro i j hi
      rw [Finset.sum_eq_single_of_mem i (Finset.mem_range.2 hi)]
      · simp [oneM]
      · intro l _ hl
        simp [oneM, Ne.symm hl]
    obtain ⟨X', eX, hX'⟩ := c136_mmult X X n n n 0 0 (by norm_num) (by norm_num) oneM oneM hX hX hn (by
      intro i j hi _
      have : ∀ l, |oneM i l * oneM l j| = oneM i l * oneM l j := by
        intro l
        refine abs_of_nonneg ?_
        unfold oneM
        split <;> split <;> norm_num
      simp only [this]
      rw [sum i j hi]
      unfold oneM
      split <;> norm_num) _ (hm k X X hX.1 hX.1)
    obtain ⟨wf, hd, he⟩ := hX'
    obtain ⟨Y, eY, hY⟩ := ih (k + 1) X' ⟨wf, hd, fun i j hi hj => by
      obtain ⟨z, e, hz⟩ := he i j hi hj
      have hz : IsMult 0 z (∑ l ∈ Finset.range n, oneM i l * oneM l j) := hz
      rw [sum i j hi] at hz
      exact ⟨z, e, hz⟩⟩
    exact ⟨Y, by rw [squareLoop, eX, Res.ok_bind, eY], hY⟩

/-- C137: the exponential of every matrix of numbers whose norm is finite and at least 2^1023 is the identity matrix, if
LAPACK solves the system whose matrix and right hand side are the identity: exp2(1024) is infinite, the scaled matrix is
zero. -/
theorem c137_negation_huge (lg : Fl → Fl) (hl : IsLog2 lg) (mm : Nat → Tensor Fl → Tensor Fl → Res (Tensor Fl))
    (hm : ∀ k a b, a.WF → b.WF → Mmult a b (mm k a b)) (sol : Tensor Fl → Tensor Fl → Res (Tensor Fl)) (n : Nat) (hn : n ≠ 0)
    (hsol : ∀ D N, IsMatrix 0 D n n oneM → IsMatrix 0 N n n oneM → ∃ X, sol D N = .ok X ∧ IsMatrix 0 X n n oneM)
    (m : Tensor Fl) (f : Nat → Nat → Fl) (h : IsMat m.dims m.data n n f) (hf : ∀ i j, i < n → j < n → (f i j).Finite)
    (x : ℝ) (hd : IsDouble x) (hx : matrixNormInf Fl.abs m = .ok (fin x)) (hb : (2 : ℝ) ^ (1023 : ℤ) ≤ x) (order : Nat)
    (ho : order < 2 ^ 31) : ∃ X, expm lg mm sol m order = .ok X ∧ IsMatrix 0 X n n oneM := by
  have hr : m.rank = 2 := by rw [rank, h.1]; rfl
  have d0 : m.dimension 0 = .ok n := by simp [dimension, rank, h.1, Res.assert_bind]
  have d1 : m.dimension 1 = .ok n := by simp [dimension, rank, h.1, Res.assert_bind]
  obtain ⟨e, he, -, -, -, -, -, e6⟩ := exponent hl hd ((two_zpow_pos 1023).trans_le hb)
  have e6 := e6 hb
  set s := (max 0 (e + 1)).toNat with hs
  have ei : exp2 s = pinf := if_neg (by omega)
  have dz : ∀ z : Fl, z.Finite → IsMult 0 (z / pinf) 0 := by
    intro z hz
    have : z / pinf = zeroS (z.neg ^^ false) := by
      show Fl.div z pinf = _
      cases z with
      | fin x => simp [Fl.div, isInf, Fl.neg]
      | nzero => simp [Fl.div, isInf, Fl.neg]
      | _ => exact hz.elim
    rw [this]
    exact ⟨(zeroS_finite _).1, by rw [(zeroS_finite _).2]; simp⟩
  obtain ⟨A, eA, hA⟩ := elem_unop h (fun z => z / exp2 s)
  have hA : IsMatrix 0 A n n zeroM := ⟨IsMat.wf hA, hA.1, fun i j hi hj =>
    ⟨_, hA.2.2 i j hi hj, by rw [ei]; exact dz _ (hf i j hi hj)⟩⟩
  have sc : scale lg m = .ok (s, A) := by
    rw [scale, hx, Res.ok_bind, he]
    simp only [Res.ofOption, Res.ok_bind]
    rw [← hs, binopTN, eA]
    rfl
  have dA : A.dimension 0 = .ok n := by simp [dimension, rank, hA.2.1, Res.assert_bind]
  obtain ⟨I, eI, hI⟩ := eye_isMat (α := Fl) n n
  have hI : IsMatrix 0 I n n oneM := ⟨IsMat.wf hI, hI.1, fun i j hi hj => ⟨_, hI.2.2 i j hi hj, by
    unfold oneM
    by_cases hij : i = j
    · simp only [hij, if_true]; exact mult_one
    · simp only [hij, if_false]; exact mult_zero 0⟩⟩
  have half : (fin (1 / 2)).Finite ∧ 0 ≤ (fin (1 / 2)).val ∧ (fin (1 / 2)).val ≤ 1 := by
    refine ⟨⟨1, -1, by norm_num, by norm_num, by norm_num, by norm_num⟩, ?_, ?_⟩ <;> simp only [val] <;> norm_num
  obtain ⟨cA, ec, hcA⟩ := matrix_map (B := zeroM) hA (fun x => fin (1 / 2) * x) fun i j z _ _ hz => mult_scale half.1 hz
  obtain ⟨⟨N, eN, hN⟩, D, eD, hD⟩ := add_zeroM hI hcA
  obtain ⟨N', D', eP, hN', hD'⟩ : ∃ N' D', padeLoop mm order A (order - 1) 2 (fin (1 / 2)) A N D = .ok (N', D') ∧
      IsMatrix 0 N' n n oneM ∧ IsMatrix 0 D' n n oneM := by
    by_cases h0 : order = 0
    · subst h0
      exact ⟨N, D, rfl, hN, hD⟩
    · exact pade_zero hm hn ho hA (order - 1) 2 (le_refl _) (by omega) _ half A N D hA hN hD
  obtain ⟨X, eX, hX⟩ := hsol D' N' hD' hN'
  obtain ⟨Y, eY, hY⟩ := square_one hm hn s (order + 1) X hX
  refine ⟨Y, ?_, hY⟩
  simp only [expm, hr, d0, d1, sc, dA, eI, binopNT, ec, eN, eD, eP, eX, eY, Res.ok_bind, Res.assert_bind, if_true]

/-- The norm of a matrix of one number. -/
theorem norm_one {z : Fl} (hz : z.Finite) (h0 : z.val ≠ 0) :
    IsMat [1, 1] [z] 1 1 (fun _ _ => z) ∧ matrixNormInf Fl.abs ⟨[1, 1], [z]⟩ = .ok (Fl.abs z) := by
  have hm : IsMat [1, 1] [z] 1 1 (fun _ _ => z) := by
    refine ⟨rfl, rfl, fun i j hi hj => ?_⟩
    obtain rfl : i = 0 := by omega
    obtain rfl : j = 0 := by omega
    rfl
  refine ⟨hm, ?_⟩
  rw [matrixNormInf_order Fl.abs ⟨[1, 1], [z]⟩ 1 0 (fun _ _ => z) hm]
  have hlt : (0 : Fl) < Fl.abs z := by
    rw [lt_finite finite_zero (abs_finite hz).1, (abs_finite hz).2]
    exact abs_pos.2 h0
  simp only [List.range_one, List.range_zero, List.map_cons, List.map_nil, List.foldl_cons, List.foldl_nil, if_pos hlt]

/-- C137: the exponential of the matrix whose element is -2^1023 is one, while the exponential is less than any double. -/
theorem c137_negation_witness (lg : Fl → Fl) (hl : IsLog2 lg) (mm : Nat → Tensor Fl → Tensor Fl → Res (Tensor Fl))
    (hm : ∀ k a b, a.WF → b.WF → Mmult a b (mm k a b)) (sol : Tensor Fl → Tensor Fl → Res (Tensor Fl))
    (hsol : ∀ D N, IsMatrix 0 D 1 1 oneM → IsMatrix 0 N 1 1 oneM → ∃ X, sol D N = .ok X ∧ IsMatrix 0 X 1 1 oneM)
    (order : Nat) (ho : order < 2 ^ 31) :
    (∃ X z, expm lg mm sol ⟨[1, 1], [fin (-2 ^ (1023 : ℤ))]⟩ order = .ok X ∧ elem X.dims X.data [0, 0] = some z ∧ z.Finite ∧
      z.val = 1) ∧ Real.exp (-2 ^ (1023 : ℤ)) < 2 ^ (-1074 : ℤ) := by
  have dp : IsDouble ((2 : ℝ) ^ (1023 : ℤ)) := isDouble_two_zpow (by norm_num) (by norm_num)
  have pos := two_zpow_pos 1023
  have fz : (fin (-2 ^ (1023 : ℤ))).Finite := dp.neg
  have vz : (fin (-2 ^ (1023 : ℤ))).val = -2 ^ (1023 : ℤ) := rfl
  obtain ⟨h1, h2⟩ := norm_one fz (by rw [vz]; exact (neg_lt_zero.2 pos).ne)
  have ha : Fl.abs (fin (-2 ^ (1023 : ℤ))) = fin (2 ^ (1023 : ℤ)) := by
    show fin |(-2 ^ (1023 : ℤ) : ℝ)| = _
    rw [abs_neg, abs_of_pos pos]
  rw [ha] at h2
  constructor
  · obtain ⟨X, e, -, hd, hel⟩ := c137_negation_huge lg hl mm hm sol 1 one_ne_zero hsol _ _ h1 (fun _ _ _ _ => fz) _ dp h2
      (le_refl _) order ho
    obtain ⟨z, ez, fz, vz⟩ := hel 0 0 one_pos one_pos
    exact ⟨X, z, e, ez, fz, by rw [vz]; simp [oneM]⟩
  · rw [Real.exp_neg, zpow_neg]
    refine inv_strictAnti₀ (two_zpow_pos 1074) ?_
    have h3 : (1074 : ℝ) ≤ 2 ^ (1023 : ℤ) := by
      have : (2 : ℝ) ^ (11 : ℤ) ≤ 2 ^ (1023 : ℤ) := zpow_le_zpow_right₀ (by norm_num) (by norm_num)
      refine le_trans ?_ this
      norm_num
    have h4 : (2 : ℝ) < Real.exp 1 := by
      have := Real.add_one_lt_exp (one_ne_zero : (1 : ℝ) ≠ 0)
      linarith
    calc (2 : ℝ) ^ (1074 : ℤ) = 2 ^ 1074 := zpow_natCast _ _
      _ < Real.exp 1 ^ 1074 := pow_lt_pow_left₀ h4 (by norm_num) (by norm_num)
      _ = Real.exp 1074 := by rw [← Real.exp_nat_mul]; norm_num
      _ ≤ _ := Real.exp_le_exp.2 h3

/-- C137: the norm of the scaled matrix need not be less than 1/2, as the comment of the code says: the matrix whose element
is 1/2 is not divided. -/
theorem c137_negation_half (lg : Fl → Fl) (hl : IsLog2 lg) :
    ∃ A : Tensor Fl, scale lg ⟨[1, 1], [fin (2 ^ (-1 : ℤ))]⟩ = .ok (0, A) ∧ matrixNormInf Fl.abs A = .ok (fin (1 / 2)) := by
  have dh : IsDouble ((2 : ℝ) ^ (-1 : ℤ)) := isDouble_two_zpow (by norm_num) (by norm_num)
  have pos := two_zpow_pos (-1)
  have fz : (fin (2 ^ (-1 : ℤ))).Finite := dh
  have vz : (fin (2 ^ (-1 : ℤ))).val = 2 ^ (-1 : ℤ) := rfl
  obtain ⟨h1, h2⟩ := norm_one fz (by rw [vz]; exact pos.ne')
  have ha : Fl.abs (fin (2 ^ (-1 : ℤ))) = fin (2 ^ (-1 : ℤ)) := by
    show fin |(2 ^ (-1 : ℤ) : ℝ)| = _
    rw [abs_of_pos pos]
  rw [ha] at h2
  have e : toInt (lg (fin (2 ^ (-1 : ℤ)))) = some (-1) := by
    obtain ⟨f, v⟩ := hl.pow (-1) (by norm_num) (by norm_num)
    obtain ⟨e, he, e1, e2⟩ := toInt_of f (a := -1) (b := -1) (by rw [v]) (by rw [v]) (by norm_num) (by norm_num)
    rw [he, show e = -1 by omega]
  obtain ⟨A, eA, hA⟩ := elem_unop (m := ⟨[1, 1], [fin (2 ^ (-1 : ℤ))]⟩) h1 (fun z => z / exp2 0)
  refine ⟨A, ?_, ?_⟩
  · rw [scale, h2, Res.ok_bind, e]
    simp only [Res.ofOption, Res.ok_bind]
    rw [show (max 0 (-1 + 1 : ℤ)).toNat = 0 from rfl, binopTN, eA]
    rfl
  · obtain ⟨g1, -, -, g4⟩ := div_pow fz (j := 0) (by norm_num) (by rw [vz]; norm_num)
    have g4 := g4 (by
      rw [vz, pow_zero, div_one, abs_of_pos pos]
      exact zpow_le_zpow_right₀ (by norm_num) (by norm_num))
    rw [vz, pow_zero, div_one] at g4
    have eA' : A = ⟨[1, 1], [fin (2 ^ (-1 : ℤ)) / exp2 0]⟩ := by
      rw [unop_ok _ _ (IsMat.wf h1)] at eA
      injection eA with eA
      rw [← eA]
      rfl
    rw [eA', (norm_one g1 (by rw [g4]; exact pos.ne')).2]
    congr 1
    generalize fin (2 ^ (-1 : ℤ)) / exp2 0 = z at g1 g4
    cases z with
    | fin x =>
      have g4 : x = 2 ^ (-1 : ℤ) := g4
      show fin |x| = _
      rw [g4, abs_of_pos pos]
      norm_num
    | nzero =>
      exfalso
      have g4 : (0 : ℝ) = 2 ^ (-1 : ℤ) := g4
      exact pos.ne g4
    | _ => exact g1.elim

/-- C137: if the order is more than 2^31, then 2*order wraps, and a coefficient is divided by zero. -/
theorem c137_negation_order (order : Nat) (h1 : 2 ^ 31 < order) (h2 : order < 2 ^ 32) (c : Fl) (k : Nat)
    (hk : k = 2 * order - 2 ^ 32 + 1) : 2 ≤ k ∧ k ≤ order ∧ den order k = 0 ∧ ¬ (c * (num order k : Fl) / (den order k : Fl)).Finite := by
  have hd : den order k = 0 := by
    unfold den
    have : (2 * order % 2 ^ 32 + 2 ^ 64 - k + 1) % 2 ^ 64 = 0 := by omega
    rw [this, Nat.mul_zero, Nat.zero_mod]
  refine ⟨by omega, by omega, hd, ?_⟩
  rw [hd]
  have h0 : ((0 : ℕ) : Fl) = fin 0 := show ofInt ((0 : ℕ) : ℤ) = _ by simp [ofInt]
  rw [h0]
  generalize c * (num order k : Fl) = z
  show ¬ (Fl.div z (fin 0)).Finite
  cases z with
  | fin x =>
    by_cases hx : x = 0
    · simp [Fl.div, isInf, val, hx, Fl.Finite]
    · simp only [Fl.div, isInf, val, hx]
      simp [infS]
      split <;> exact id
  | nzero => simp [Fl.div, isInf, val, Fl.Finite]
  | pinf => simp [Fl.div, isInf, infS, Fl.neg, Fl.Finite]
  | ninf => simp [Fl.div, isInf, infS, Fl.neg, Fl.Finite]
  | nan => simp [Fl.div, Fl.Finite]

-- The hypotheses can be met: a logarithm and a matrix, which is scaled.
example : ∃ lg m, IsLog2 lg ∧ ∃ x : ℝ, IsDouble x ∧ matrixNormInf Fl.abs m = .ok (fin x) ∧ 0 < x ∧ x ≤ 2 ^ (1022 : ℤ) ∧
    IsMat m.dims m.data 1 1 fun _ _ => fin (2 ^ (5 : ℤ)) := by
  have dh : IsDouble ((2 : ℝ) ^ (5 : ℤ)) := isDouble_two_zpow (by norm_num) (by norm_num)
  have pos := two_zpow_pos 5
  have vz : (fin (2 ^ (5 : ℤ))).val = 2 ^ (5 : ℤ) := rfl
  obtain ⟨h1, h2⟩ := norm_one (z := fin (2 ^ (5 : ℤ))) dh (by rw [vz]; exact pos.ne')
  refine ⟨logRound, ⟨[1, 1], [fin (2 ^ (5 : ℤ))]⟩, isLog2_round, 2 ^ (5 : ℤ), dh, ?_, pos,
    zpow_le_zpow_right₀ (by norm_num) (by norm_num), h1⟩
  rw [h2]
  show Res.ok (fin |(2 : ℝ) ^ (5 : ℤ)|) = _
  rw [abs_of_pos pos]

-- The exponential of zero, of an infinite number, and of two large numbers in a row.
example (mm : Nat → Tensor Fl → Tensor Fl → Res (Tensor Fl)) (sol : Tensor Fl → Tensor Fl → Res (Tensor Fl)) :
    expm logRound mm sol ⟨[1, 1], [fin 0]⟩ 7 = .ub :=
  c137_undefined logRound isLog2_round mm sol _ 1 one_ne_zero (fun _ _ => fin 0)
    ⟨rfl, rfl, fun i j hi hj => by
      obtain rfl : i = 0 := by omega
      obtain rfl : j = 0 := by omega
      rfl⟩ 7 (fun _ _ _ _ => isDouble_zero) (.inl fun _ _ => .inl fun _ _ => ⟨isDouble_zero, rfl⟩)

example (mm : Nat → Tensor Fl → Tensor Fl → Res (Tensor Fl)) (sol : Tensor Fl → Tensor Fl → Res (Tensor Fl)) (z w : Fl)
    (hz : z.WF) (hw : w.WF) :
    expm logRound mm sol ⟨[2, 2], [fin (2 ^ (1023 : ℤ)), z, fin (2 ^ (1023 : ℤ)), w]⟩ 7 = .ub := by
  have dp : IsDouble ((2 : ℝ) ^ (1023 : ℤ)) := isDouble_two_zpow (by norm_num) (by norm_num)
  refine c137_undefined logRound isLog2_round mm sol _ 2 two_ne_zero
    (fun i j => if i = 0 then fin (2 ^ (1023 : ℤ)) else if j = 0 then z else w)
    ⟨rfl, rfl, fun i j hi hj => ?_⟩ 7 (fun i j _ _ => ?_) (.inr ⟨0, two_pos, fun _ _ => nofun, .inr ⟨0, 1, one_pos, one_lt_two, ?_⟩⟩)
  · obtain rfl | rfl : i = 0 ∨ i = 1 := by omega
    all_goals
      obtain rfl | rfl : j = 0 ∨ j = 1 := by omega
      all_goals rfl
  · split
    · exact dp
    · split
      · exact hz
      · exact hw
  · show (2 : ℝ) ^ 1024 ≤ |(2 : ℝ) ^ (1023 : ℤ)| + |(2 : ℝ) ^ (1023 : ℤ)|
    rw [abs_of_pos (two_zpow_pos 1023), ← two_mul]
    have : (2 : ℝ) * 2 ^ (1023 : ℤ) = 2 ^ (1024 : ℤ) := by
      rw [← zpow_one_add₀ (by norm_num)]
      norm_num
    rw [this]
    exact (zpow_natCast (2 : ℝ) 1024).ge

-- There are such products and such a function solve: the result is one, and not the exponential.
example : ∃ (mm : Nat → Tensor Fl → Tensor Fl → Res (Tensor Fl)) (sol : Tensor Fl → Tensor Fl → Res (Tensor Fl)) (X : Tensor Fl)
    (z : Fl), expm logRound mm sol ⟨[1, 1], [fin (-2 ^ (1023 : ℤ))]⟩ 7 = .ok X ∧ elem X.dims X.data [0, 0] = some z ∧ z.val = 1 := by
  have : ∀ a b : Tensor Fl, ∃ r, a.WF → b.WF → Mmult a b r := by
    intro a b
    by_cases h : a.WF ∧ b.WF
    · obtain ⟨r, hr⟩ := c95_exists a b h.1 h.2 (-1) 0
      exact ⟨r, fun _ _ => hr⟩
    · exact ⟨.ub, fun h1 h2 => absurd ⟨h1, h2⟩ h⟩
  choose mm hm using this
  obtain ⟨⟨X, z, h1, h2, -, h3⟩, -⟩ := c137_negation_witness logRound isLog2_round (fun _ => mm) (fun _ a b => hm a b)
    (fun _ N => .ok N) (fun _ N _ hN => ⟨N, rfl, hN⟩) 7 (by norm_num)
  exact ⟨_, _, X, z, h1, h2, h3⟩

end

end Verif.ExpmFl
