import Verif.Lemmas.FloatLaws
import Verif.Lemmas.Arith
import Verif.Props.Arith
import Verif.Props.FloatReduce
import Verif.Props.Permute
/-
C138: which laws of arithmetic hold exactly for tensors of doubles, and which do not.
-/
namespace Verif.FlLaws

open Verif Verif.Spec Fl Rounding Tensor

section
variable [Rounding]

omit [Rounding] in
theorem zipWith_comm' {f : Fl → Fl → Fl} (h : ∀ x y, f x y = f y x) (l l' : List Fl) :
    List.zipWith f l l' = List.zipWith f l' l := by
  rw [List.zipWith_comm]
  exact congrArg (fun g => List.zipWith g l' l) (funext fun x => funext fun y => h y x)

/-- C138: a + b is b + a, and a * b is b * a, to the last bit, also with infinities and NaN; for two tensors with the
same dimensions, and for a tensor and a number. -/
theorem c138_comm (a b : Tensor Fl) (wa : a.WF) (wb : b.WF) (h : a.dims = b.dims) (x : Fl) :
    (∃ c, binopTT (· + ·) a b = .ok c ∧ binopTT (· + ·) b a = .ok c) ∧
    (∃ c, binopTT (· * ·) a b = .ok c ∧ binopTT (· * ·) b a = .ok c) ∧
    (∃ c, binopTN (· + ·) a x = .ok c ∧ binopNT (· + ·) x a = .ok c) ∧
    (∃ c, binopTN (· * ·) a x = .ok c ∧ binopNT (· * ·) x a = .ok c) := by
  have hl : a.data.length = b.data.length := by
    rw [show a.data.length = totalSize a.dims from wa, h]; exact wb.symm
  refine ⟨⟨_, binopTT_ok _ a b wa hl, ?_⟩, ⟨_, binopTT_ok _ a b wa hl, ?_⟩, ⟨_, unop_ok _ a wa, ?_⟩,
    ⟨_, unop_ok _ a wa, ?_⟩⟩
  · rw [binopTT_ok _ b a wb hl.symm, h, zipWith_comm' add_comm']
  · rw [binopTT_ok _ b a wb hl.symm, h, zipWith_comm' mul_comm']
  · rw [binopNT, unop_ok _ a wa]
    simp only [add_comm' x]
  · rw [binopNT, unop_ok _ a wa]
    simp only [mul_comm' x]

/-- C138: a - b is a + (-b); -(-a) is a; (-a) * (-b) is a * b and (-a) * b is a * (-b). -/
theorem c138_sign (a b : Tensor Fl) (wa : a.WF) (wb : b.WF) (h : a.data.length = b.data.length) :
    ∃ a' b', unop (- ·) a = .ok a' ∧ unop (- ·) b = .ok b' ∧ unop (- ·) a' = .ok a ∧
      (∃ c, binopTT (· - ·) a b = .ok c ∧ binopTT (· + ·) a b' = .ok c) ∧
      (∃ c, binopTT (· * ·) a b = .ok c ∧ binopTT (· * ·) a' b' = .ok c) ∧
      (∃ c, binopTT (· * ·) a' b = .ok c ∧ binopTT (· * ·) a b' = .ok c) := by
  have wa' : (⟨a.dims, a.data.map (- ·)⟩ : Tensor Fl).WF := by
    show (a.data.map _).length = _
    rw [List.length_map]; exact wa
  refine ⟨_, _, unop_ok _ a wa, unop_ok _ b wb, ?_, ⟨_, binopTT_ok _ a b wa h, ?_⟩, ⟨_, binopTT_ok _ a b wa h, ?_⟩,
    ⟨_, binopTT_ok _ _ b wa' (by simpa using h), ?_⟩⟩
  · rw [unop_ok _ _ wa']
    simp [neg_neg', Function.comp_def]
  · rw [binopTT_ok _ _ _ wa (by simpa using h)]
    simp [List.zipWith_map_right, Fl.sub_def]
  · rw [binopTT_ok _ _ _ wa' (by simpa using h)]
    simp [List.zipWith_map_right, List.zipWith_map_left, neg_mul_neg']
  · rw [binopTT_ok _ _ _ wa (by simpa using h)]
    simp [List.zipWith_map_right, List.zipWith_map_left, neg_mul_comm']

/-- C138: with a rounding which does not depend on the sign, such as that of IEEE 754 by default, (-a) * b is
-(a * b). -/
theorem c138_neg_mul (odd : ∀ x : ℝ, rnd (-x) = -rnd x) (a b : Tensor Fl) (wa : a.WF)
    (h : a.data.length = b.data.length) :
    ∃ a' c c', unop (- ·) a = .ok a' ∧ binopTT (· * ·) a b = .ok c ∧ unop (- ·) c = .ok c' ∧
      binopTT (· * ·) a' b = .ok c' := by
  have wa' : (⟨a.dims, a.data.map (- ·)⟩ : Tensor Fl).WF := by
    show (a.data.map _).length = _
    rw [List.length_map]; exact wa
  have wc : (⟨a.dims, List.zipWith (· * ·) a.data b.data⟩ : Tensor Fl).WF := by
    show (List.zipWith _ _ _).length = _
    rw [List.length_zipWith, ← h, min_self]; exact wa
  refine ⟨_, _, _, unop_ok _ a wa, binopTT_ok _ a b wa h, unop_ok _ _ wc, ?_⟩
  rw [binopTT_ok _ _ b wa' (by simpa using h)]
  simp [List.zipWith_map_left, List.map_zipWith, neg_mul' odd]

/-- C138: a * 1, a / 1, a - 0 and a + (-0) are a to the last bit. a + 0 is a, with positive zeros instead of the
negative ones. -/
theorem c138_neutral (a : Tensor Fl) (wa : a.WF) (hf : ∀ x ∈ a.data, x.WF) :
    binopTN (· * ·) a 1 = .ok a ∧ binopNT (· * ·) 1 a = .ok a ∧ binopTN (· / ·) a 1 = .ok a ∧
    binopTN (· - ·) a 0 = .ok a ∧ binopTN (· + ·) a nzero = .ok a ∧
    binopTN (· + ·) a 0 = .ok ⟨a.dims, a.data.map fun x => if x = nzero then 0 else x⟩ := by
  have key : ∀ f : Fl → Fl, (∀ x : Fl, x.WF → f x = x) → unop f a = .ok a := by
    intro f h
    rw [unop_ok f a wa]
    have : a.data.map f = a.data.map id := List.map_congr_left fun x hx => h x (hf x hx)
    rw [this, List.map_id]
  refine ⟨key _ fun x => mul_one', key _ fun x hx => ?_, key _ fun x => div_one', key _ fun x => sub_zero',
    key _ fun x => add_nzero, ?_⟩
  · exact (mul_comm' _ _).trans (mul_one' hx)
  · rw [binopTN, unop_ok _ a wa, List.map_congr_left fun x hx => add_zero' (hf x hx)]

/-- C138: a + a is 2 * a to the last bit. -/
theorem c138_double (a : Tensor Fl) (wa : a.WF) :
    ∃ c, binopTT (· + ·) a a = .ok c ∧ binopNT (· * ·) (fin 2) a = .ok c := by
  refine ⟨_, binopTT_ok _ a a wa rfl, ?_⟩
  rw [binopNT, unop_ok _ a wa, List.zipWith_self, List.map_congr_left fun x _ => (add_self' x).symm]

/-- C138: the difference of a tensor of finite numbers and itself has positive zeros only; the quotient has ones only,
when there is no zero. -/
theorem c138_self (a : Tensor Fl) (wa : a.WF) (hf : ∀ x ∈ a.data, x.Finite) :
    (∃ c, binopTT (· - ·) a a = .ok c ∧ c.dims = a.dims ∧ c.data = List.replicate a.data.length 0) ∧
    ((∀ x ∈ a.data, x.val ≠ 0) →
      ∃ c, binopTT (· / ·) a a = .ok c ∧ c.dims = a.dims ∧ c.data = List.replicate a.data.length 1) := by
  refine ⟨⟨_, binopTT_ok _ a a wa rfl, rfl, ?_⟩, fun h0 => ⟨_, binopTT_ok _ a a wa rfl, rfl, ?_⟩⟩
  · show List.zipWith _ _ _ = _
    rw [List.zipWith_self, List.map_congr_left fun x hx => sub_self' (hf x hx), List.map_const']
  · show List.zipWith _ _ _ = _
    rw [List.zipWith_self, List.map_congr_left fun x hx => div_self' (hf x hx) (h0 x hx), List.map_const']

omit [Rounding] in
/-- Multiplication by powers of two. -/
theorem scaled {x : ℝ} (hx : IsDouble x) {k : ℤ} (h : x = 0 ∨ ((2 : ℝ) ^ (-1022 : ℤ) ≤ |x * 2 ^ k| ∧ |x * 2 ^ k| < 2 ^ 1024)) :
    IsDouble (x * 2 ^ k) := by
  rcases h with rfl | ⟨h1, h2⟩
  · simpa using isDouble_zero
  obtain ⟨m, e, hm, he1, he2, rfl⟩ := hx
  have hs : (m : ℝ) * 2 ^ e * 2 ^ k = m * 2 ^ (e + k) := by rw [mul_assoc, ← zpow_add₀ two_ne_zero]
  rw [hs] at h1 h2 ⊢
  rw [abs_mul, abs_of_pos (two_zpow_pos (e + k))] at h1 h2
  have hm' : |(m : ℝ)| < 2 ^ (53 : ℤ) := by exact_mod_cast hm
  have hlow : -1074 ≤ e + k := by
    by_contra hc
    have : (2 : ℝ) ^ (-1022 : ℤ) < 2 ^ (53 : ℤ) * 2 ^ (e + k) :=
      lt_of_le_of_lt h1 (mul_lt_mul_of_pos_right hm' (two_zpow_pos _))
    rw [← zpow_add₀ two_ne_zero] at this
    have := (zpow_lt_zpow_iff_right₀ (one_lt_two : (1 : ℝ) < 2)).1 this
    omega
  by_cases hhigh : e + k ≤ 971
  · exact ⟨m, e + k, hm, hlow, hhigh, rfl⟩
  · obtain ⟨d, hd⟩ : ∃ d : ℕ, e + k = 971 + d := ⟨(e + k - 971).toNat, by omega⟩
    refine ⟨m * 2 ^ d, 971, ?_, by norm_num, le_refl _, ?_⟩
    · have e1 : |(m : ℝ)| * 2 ^ (e + k) = |(m : ℝ)| * 2 ^ d * 2 ^ (971 : ℤ) := by
        rw [hd, add_comm, zpow_add₀ two_ne_zero, zpow_natCast]; ring
      have e2 : (2 : ℝ) ^ 1024 = 2 ^ 53 * 2 ^ (971 : ℤ) := by
        rw [show ((2 : ℝ) ^ (971 : ℤ)) = 2 ^ (971 : ℕ) from zpow_natCast 2 971, ← pow_add]
      rw [e1, e2] at h2
      have := lt_of_mul_lt_mul_right h2 (two_zpow_pos 971).le
      rw [abs_mul, abs_pow, abs_two]
      exact_mod_cast this
    · rw [hd, zpow_add₀ two_ne_zero, zpow_natCast]
      push_cast
      ring

/-- C138: multiplication by a power of two is exact when the results are neither too large nor too small, and division
by it gives the tensor back to the last bit. -/
theorem c138_pow2 (a : Tensor Fl) (wa : a.WF) (hf : ∀ x ∈ a.data, x.Finite) (k : ℤ) (hk : -1022 ≤ k ∧ k ≤ 1023)
    (h : ∀ x ∈ a.data, x.val = 0 ∨ ((2 : ℝ) ^ (-1022 : ℤ) ≤ |x.val * 2 ^ k| ∧ |x.val * 2 ^ k| < 2 ^ 1024)) :
    ∃ c, binopTN (· * ·) a (fin (2 ^ k)) = .ok c ∧ c.dims = a.dims ∧
      c.data.map val = a.data.map (fun x => x.val * 2 ^ k) ∧ binopTN (· / ·) c (fin (2 ^ k)) = .ok a := by
  have hp := two_zpow_pos k
  have hc : IsDouble ((2 : ℝ) ^ k) := by
    have := scaled isDouble_one (k := k) (.inr ?_)
    · simpa using this
    · rw [one_mul, abs_of_pos hp]
      refine ⟨zpow_le_zpow_right₀ (by norm_num) hk.1, ?_⟩
      rw [← zpow_natCast]
      exact zpow_lt_zpow_right₀ (by norm_num) (by push_cast; omega)
  have wc : (⟨a.dims, a.data.map fun x => x * fin (2 ^ k)⟩ : Tensor Fl).WF := by
    show (a.data.map _).length = _
    rw [List.length_map]; exact wa
  have hm : ∀ x ∈ a.data, (x * fin (2 ^ k)).Finite ∧ (x * fin (2 ^ k)).val = x.val * 2 ^ k ∧
      x * fin (2 ^ k) / fin (2 ^ k) = x := by
    intro x hx
    have fx := hf x hx
    have d := scaled fx.val_double (h x hx)
    have hr := rnd_exact (.inl d)
    obtain ⟨f1, v1⟩ := mul_finite fx (show (fin (2 ^ k)).Finite from hc) (by
      show |rnd (x.val * 2 ^ k)| < _
      rw [hr]; exact d.lt)
    have v2 : (x * fin (2 ^ k)).val = x.val * 2 ^ k := v1.trans hr
    refine ⟨f1, v2, ?_⟩
    by_cases h0 : x.val = 0
    · have hz : x * fin (2 ^ k) = x := by
        show mul x _ = x
        cases x with
        | nzero => simp [mul, isInf, val, neg, zeroS, not_lt.2 hp.le]
        | fin y =>
          have hy : y = 0 := h0
          subst hy
          simp [mul, isInf, val, neg, zeroS, not_lt.2 hp.le]
        | _ => exact absurd fx id
      rw [hz]
      show div x _ = x
      cases x with
      | nzero => simp [div, isInf, val, neg, zeroS, not_lt.2 hp.le, hp.ne']
      | fin y =>
        have hy : y = 0 := h0
        subst hy
        simp [div, isInf, val, neg, zeroS, not_lt.2 hp.le, hp.ne']
      | _ => exact absurd fx id
    · have hne : x.val * 2 ^ k ≠ 0 := mul_ne_zero h0 hp.ne'
      show div _ _ = x
      unfold div
      rw [if_neg (by simp [f1.ne_nan]), if_neg (by simp [f1.not_inf]), if_neg (by simp [isInf]),
        if_neg (show (fin (2 ^ k)).val ≠ 0 from hp.ne'), if_neg (by rw [v2]; exact hne), v2]
      show Fl.round (x.val * 2 ^ k / 2 ^ k) = x
      rw [mul_div_assoc, div_self hp.ne', mul_one, round_double fx.val_double h0]
      cases x with
      | fin y => rfl
      | nzero => exact absurd rfl h0
      | _ => exact absurd fx id
  refine ⟨_, unop_ok _ a wa, rfl, ?_, ?_⟩
  · show List.map _ (List.map _ _) = _
    rw [List.map_map]
    exact List.map_congr_left fun x hx => (hm x hx).2.1
  · rw [binopTN, unop_ok _ _ wc, List.map_map]
    have : a.data.map ((fun x => x / fin (2 ^ k)) ∘ fun x => x * fin (2 ^ k)) = a.data.map id :=
      List.map_congr_left fun x hx => (hm x hx).2.2
    rw [this, List.map_id]

/-- C138: the sum of a square matrix and the transposed one is symmetric to the last bit. -/
theorem c138_symmetric (a : Tensor Fl) (wa : a.WF) (n : ℕ) (hd : a.dims = [n, n]) :
    ∃ t s, transpose a = .ok t ∧ binopTT (· + ·) a t = .ok s ∧ transpose s = .ok s := by
  obtain ⟨t, et, wt, htd, hel⟩ := (c18_transpose a wa).1 n n hd
  obtain ⟨s, es, -, ws, hsd, hs⟩ := (c32_tensor_tensor (· + ·) a t wa wt).1 (hd.trans htd.symm)
  refine ⟨t, s, et, es, ?_⟩
  obtain ⟨u, eu, wu, hud, hu⟩ := (c18_transpose s ws).1 n n (hsd.trans hd)
  have : u = s := by
    apply ext_elem wu ws (by rw [hud, hsd, hd])
    intro idx hidx
    rw [hud] at hidx
    obtain ⟨i, j, rfl, hi, hj⟩ := inB2 hidx
    rw [hu j i hj hi]
    obtain ⟨x, hx, -⟩ := elem_some wa (js := [i, j]) (by rw [hd]; exact hidx) (by simp)
    obtain ⟨y, hy, -⟩ := elem_some wa (js := [j, i]) (by rw [hd]; exact ⟨hj, hi, trivial⟩) (by simp)
    rw [hs [j, i] y x hy ((hel i j hi hj).trans hx), hs [i, j] x y hx ((hel j i hj hi).trans hy), add_comm' y x]
  rw [eu, this]

/-- C138: sums keep the order: a tensor with larger elements has a larger sum, also if it overflows. -/
theorem c138_sum_mono (a b : Tensor Fl) (ha : ∀ x ∈ a.data, x.Finite) (hb : ∀ x ∈ b.data, x.Finite)
    (h : List.Forall₂ (· ≤ ·) a.data b.data) : sumAll a ≤ sumAll b := by
  have key : ∀ (l l' : List Fl) (s s' : Fl), List.Forall₂ (· ≤ ·) l l' → (∀ x ∈ l, x.Finite) → (∀ x ∈ l', x.Finite) →
      s.WF → s'.WF → s ≤ s' → l.foldl (· + ·) s ≤ l'.foldl (· + ·) s' := by
    intro l l' s s' hl
    induction hl generalizing s s' with
    | nil => intro _ _ _ _ h; exact h
    | @cons x y l l' hxy _ ih =>
      intro h1 h2 w1 w2 hs
      have fx := h1 x (by simp)
      have fy := h2 y (by simp)
      exact ih _ _ (fun z hz => h1 z (by simp [hz])) (fun z hz => h2 z (by simp [hz])) (add_wf w1 fx.wf) (add_wf w2 fy.wf)
        (add_le w1 w2 fx.wf fy.wf hs hxy (add_ne_nan hs.1 w1 fx).1 (add_ne_nan hs.2.1 w2 fy).1)
  exact key _ _ _ _ h ha hb isDouble_zero isDouble_zero ((le_finite finite_zero finite_zero).2 le_rfl)

/-- C138: the sum of numbers which are not negative is at least each of them. -/
theorem c138_sum_bound (a : Tensor Fl) (ha : ∀ x ∈ a.data, x.Finite ∧ 0 ≤ x.val) :
    0 ≤ sumAll a ∧ ∀ x ∈ a.data, x ≤ sumAll a := by
  have zw : (0 : Fl).WF := isDouble_zero
  have step : ∀ s x : Fl, s.WF → x.Finite → 0 ≤ x.val → 0 ≤ s → s ≤ s + x ∧ x ≤ s + x := by
    intro s x hs fx hx h0
    have hn := (add_ne_nan h0.2.1 hs fx).1
    by_cases hp : s = pinf
    · subst hp
      have : pinf + x = pinf := by cases x <;> first | rfl | exact absurd fx id
      rw [this]
      exact ⟨le_pinf (by simp), le_pinf fx.ne_nan⟩
    have fs := finite_of_ne hs h0.2.1 hp (fun e => by
      have h1 := eq_ninf (e ▸ h0); cases h1)
    have hv := (le_finite finite_zero fs).1 h0
    have hv' : 0 ≤ s.val := hv
    rw [le_iff_big hs (add_wf hs fx.wf) fs.ne_nan hn, le_iff_big fx.wf (add_wf hs fx.wf) fx.ne_nan hn, big_add fs fx,
      big_finite fs, big_finite fx]
    exact ⟨le_rnd (.inl fs.val_double) (by linarith), le_rnd (.inl fx.val_double) (by linarith)⟩
  have trans : ∀ x y z : Fl, x.WF → y.WF → z.WF → x ≤ y → y ≤ z → x ≤ z := by
    intro x y z wx wy wz h1 h2
    rw [le_iff_big wx wz h1.1 h2.2.1]
    exact ((le_iff_big wx wy h1.1 h1.2.1).1 h1).trans ((le_iff_big wy wz h2.1 h2.2.1).1 h2)
  have key : ∀ (l : List Fl) (s : Fl), (∀ x ∈ l, x.Finite ∧ 0 ≤ x.val) → s.WF → 0 ≤ s →
      (l.foldl (· + ·) s).WF ∧ s ≤ l.foldl (· + ·) s ∧ ∀ x ∈ l, x ≤ l.foldl (· + ·) s := by
    intro l
    induction l with
    | nil => intro s _ ws h; exact ⟨ws, (le_iff_big ws ws h.2.1 h.2.1).2 le_rfl, by simp⟩
    | cons x l ih =>
      intro s hl ws h0
      obtain ⟨fx, hx⟩ := hl x (by simp)
      obtain ⟨i1, i2⟩ := step s x ws fx hx h0
      have ws' := add_wf ws fx.wf
      obtain ⟨j1, j2, j3⟩ := ih (s + x) (fun y hy => hl y (by simp [hy])) ws' (trans _ _ _ zw ws ws' h0 i1)
      refine ⟨j1, trans _ _ _ ws ws' j1 i1 j2, fun y hy => ?_⟩
      rcases List.mem_cons.1 hy with rfl | hy
      · exact trans _ _ _ fx.wf ws' j1 i2 j2
      · exact j3 y hy
  obtain ⟨-, k2, k3⟩ := key a.data 0 ha zw ((le_finite finite_zero finite_zero).2 le_rfl)
  exact ⟨k2, k3⟩

/-- C138: scprod(a, b) is scprod(b, a) to the last bit, and norm2(-a) is norm2(a). -/
theorem c138_scprod (a b : Tensor Fl) (wa : a.WF) (h : a.data.length = b.data.length) :
    (∃ s, scprod id a b = .ok s ∧ scprod id b a = .ok s) ∧
    ∃ a' s, unop (- ·) a = .ok a' ∧ norm2 id id Fl.sqrt a = .ok s ∧ norm2 id id Fl.sqrt a' = .ok s := by
  refine ⟨⟨_, scprod_fold id a b h.le, ?_⟩, _, _, unop_ok _ a wa, norm2_eq a, ?_⟩
  · rw [scprod_fold id b a h.ge]
    simp only [id]
    rw [zipWith_comm' mul_comm']
  · rw [norm2_eq]
    simp only [List.map_map, Function.comp_def, neg_mul_neg']

omit [Rounding] in
theorem nonNeg_wf {a : Fl} (h : NonNeg a) : a.WF ∧ a ≠ nan := by
  rcases h with rfl | ⟨h, -⟩
  · exact ⟨trivial, by simp⟩
  · exact ⟨h.wf, h.ne_nan⟩

theorem sqrt_mono {a b : Fl} (ha : NonNeg a) (hb : NonNeg b) (h : a ≤ b) : Fl.sqrt a ≤ Fl.sqrt b := by
  have fin' : ∀ x : Fl, x.Finite → 0 ≤ x.val → (Fl.sqrt x).WF ∧ Fl.sqrt x ≠ nan ∧ big (Fl.sqrt x) = rnd (Real.sqrt x.val) := by
    intro x fx hx
    cases x with
    | nzero => exact ⟨trivial, by simp [Fl.sqrt], by simp [Fl.sqrt, big, val, rnd_zero]⟩
    | fin y =>
      have hy : 0 ≤ y := hx
      by_cases h0 : y = 0
      · subst h0
        have : Fl.sqrt (fin 0) = fin 0 := by simp [Fl.sqrt]
        rw [this]
        exact ⟨isDouble_zero, by simp, by simp [big, val, rnd_zero]⟩
      · have : Fl.sqrt (fin y) = Fl.round (Real.sqrt y) := by simp [Fl.sqrt, not_lt.2 hy, h0]
        rw [this]
        exact ⟨round_wf _, round_ne_nan _, big_round _⟩
    | _ => exact absurd fx id
  rcases hb with rfl | ⟨fb, hb⟩
  · refine le_pinf ?_
    rcases ha with rfl | ⟨fa, ha⟩
    · simp [Fl.sqrt]
    · exact (fin' a fa ha).2.1
  · rcases ha with rfl | ⟨fa, ha⟩
    · rw [eq_pinf h] at fb
      exact absurd fb id
    · obtain ⟨a1, a2, a3⟩ := fin' a fa ha
      obtain ⟨b1, b2, b3⟩ := fin' b fb hb
      rw [le_iff_big a1 b1 a2 b2, a3, b3]
      exact rnd_mono (Real.sqrt_le_sqrt ((le_finite fa fb).1 h))

/-- C138: the norm keeps the order: a tensor whose elements have larger absolute values has a larger norm, also if it
overflows. -/
theorem c138_norm2_mono (a b : Tensor Fl) (ha : ∀ x ∈ a.data, x.Finite) (hb : ∀ x ∈ b.data, x.Finite)
    (h : List.Forall₂ (fun x y => |x.val| ≤ |y.val|) a.data b.data) :
    ∃ u v, norm2 id id Fl.sqrt a = .ok u ∧ norm2 id id Fl.sqrt b = .ok v ∧ u ≤ v := by
  refine ⟨_, _, norm2_eq a, norm2_eq b, ?_⟩
  have key : ∀ (l l' : List Fl) (s s' : Fl), List.Forall₂ (fun x y => |x.val| ≤ |y.val|) l l' →
      (∀ x ∈ l, x.Finite) → (∀ x ∈ l', x.Finite) → NonNeg s → NonNeg s' → s ≤ s' →
      NonNeg ((l.map fun x => x * x).foldl (· + ·) s) ∧ NonNeg ((l'.map fun x => x * x).foldl (· + ·) s') ∧
      (l.map fun x => x * x).foldl (· + ·) s ≤ (l'.map fun x => x * x).foldl (· + ·) s' := by
    intro l l' s s' hl
    induction hl generalizing s s' with
    | nil => intro _ _ n1 n2 h; exact ⟨n1, n2, h⟩
    | @cons x y l l' hxy _ ih =>
      intro h1 h2 n1 n2 hs
      have fx := h1 x (by simp)
      have fy := h2 y (by simp)
      have qx := nonNeg_sq fx.wf fx.ne_nan
      have qy := nonNeg_sq fy.wf fy.ne_nan
      have m1 := nonNeg_add n1 qx
      have m2 := nonNeg_add n2 qy
      have hq : x * x ≤ y * y := by
        rw [le_iff_big (nonNeg_wf qx).1 (nonNeg_wf qy).1 (nonNeg_wf qx).2 (nonNeg_wf qy).2, big_mul fx fx, big_mul fy fy]
        refine rnd_mono ?_
        have := mul_self_le_mul_self (abs_nonneg x.val) hxy
        rwa [abs_mul_abs_self, abs_mul_abs_self] at this
      exact ih _ _ (fun z hz => h1 z (by simp [hz])) (fun z hz => h2 z (by simp [hz])) m1 m2
        (add_le (nonNeg_wf n1).1 (nonNeg_wf n2).1 (nonNeg_wf qx).1 (nonNeg_wf qy).1 hs hq (nonNeg_wf m1).2 (nonNeg_wf m2).2)
  have z : NonNeg 0 := .inr ⟨isDouble_zero, le_rfl⟩
  obtain ⟨n1, n2, k⟩ := key _ _ 0 0 h ha hb z z ((le_finite finite_zero finite_zero).2 le_rfl)
  exact sqrt_mono n1 n2 k

/-! ### Laws which do not hold -/

/-- A number with spacing 256. -/
private noncomputable def B : ℝ := ((3 * 2 ^ 51 : ℤ) : ℝ) * (2 : ℝ) ^ (8 : ℤ)

omit [Rounding] in
private theorem isDouble_B : IsDouble B := ⟨3 * 2 ^ 51, 8, by norm_num, by norm_num, by norm_num, rfl⟩

omit [Rounding] in
private theorem B_val : B = 3 * 2 ^ 59 := by unfold B; norm_num

private theorem add_fin {x y z : ℝ} (h : rnd (x + y) = z) (hz : |z| < 2 ^ 1024) (h0 : z ≠ 0) :
    fin x + fin y = fin z := by
  show add (fin x) (fin y) = _
  have hs : x + y ≠ 0 := fun e => h0 (by rw [← h, e, rnd_zero])
  simp only [add, val, hs, if_false]
  have := abs_lt.1 hz
  unfold Fl.round
  rw [h, if_neg (not_le.2 this.2), if_neg (not_le.2 this.1), if_neg h0]

private theorem B_add_one : fin B + fin 1 = fin B := by
  have : rnd (B + 1) = B := rnd_eq_of (x := B + 1) (m := 3 * 2 ^ 51) (e := 8) (by norm_num) (by norm_num) (by norm_num) (by norm_num) (by
    rw [← B, add_sub_cancel_left]; norm_num)
  exact add_fin this isDouble_B.lt (by rw [B_val]; norm_num)

private theorem B_sub_B : fin B + fin (-B) = fin 0 := by
  show add _ _ = _
  simp [add, val]

private theorem zero_add_fin {x : ℝ} (hx : IsDouble x) : fin 0 + fin x = fin x := by
  show add _ _ = _
  by_cases h : x = 0
  · simp [add, val, h]
  · simp [add, val, h, round_double hx h]

/-- C138: addition is not associative, for tensors of any dimensions with elements. -/
theorem c138_negation_assoc (d : List ℕ) (hd : totalSize d ≠ 0) :
    ∃ a b c ab bc l r : Tensor Fl, (∀ t ∈ [a, b, c], t.WF ∧ t.dims = d ∧ ∀ x ∈ t.data, x.Finite) ∧
      binopTT (· + ·) a b = .ok ab ∧ binopTT (· + ·) b c = .ok bc ∧ binopTT (· + ·) ab c = .ok l ∧
      binopTT (· + ·) a bc = .ok r ∧ l ≠ r := by
  have wf : ∀ x : Fl, (⟨d, List.replicate (totalSize d) x⟩ : Tensor Fl).WF := fun x => List.length_replicate
  have op : ∀ x y : Fl, binopTT (· + ·) (⟨d, List.replicate (totalSize d) x⟩ : Tensor Fl) ⟨d, List.replicate (totalSize d) y⟩ =
      .ok ⟨d, List.replicate (totalSize d) (x + y)⟩ := fun x y => by
    rw [binopTT_ok _ _ _ (wf x) (by simp)]
    simp
  refine ⟨_, _, _, _, _, _, _, ?_, op (fin (-B)) (fin B), op (fin B) (fin 1), op _ (fin 1), op (fin (-B)) _, ?_⟩
  · intro t ht
    simp only [List.mem_cons, List.not_mem_nil, or_false] at ht
    rcases ht with rfl | rfl | rfl
    · exact ⟨wf _, rfl, fun x hx => by rw [List.eq_of_mem_replicate hx]; exact isDouble_B.neg⟩
    · exact ⟨wf _, rfl, fun x hx => by rw [List.eq_of_mem_replicate hx]; exact isDouble_B⟩
    · exact ⟨wf _, rfl, fun x hx => by rw [List.eq_of_mem_replicate hx]; exact isDouble_one⟩
  · rw [B_add_one, add_comm' (fin (-B)), B_sub_B, zero_add_fin isDouble_one]
    intro h
    injection h with _ h
    have := List.replicate_right_inj hd |>.1 h
    injection this with this
    norm_num at this

/-- C138: the sum of the elements depends on their order: the sum of a matrix may differ from that of the transposed
matrix. -/
theorem c138_negation_sum_transpose :
    ∃ a t : Tensor Fl, a.WF ∧ (∀ x ∈ a.data, x.Finite) ∧ transpose a = .ok t ∧ sumAll a = 0 ∧ sumAll t = 1 := by
  refine ⟨⟨[2, 2], [fin B, fin 1, fin (-B), fin 0]⟩, ⟨[2, 2], [fin B, fin (-B), fin 1, fin 0]⟩, rfl, ?_, rfl, ?_, ?_⟩
  · intro x hx
    simp only [List.mem_cons, List.not_mem_nil, or_false] at hx
    rcases hx with rfl | rfl | rfl | rfl
    exacts [isDouble_B, isDouble_one, isDouble_B.neg, isDouble_zero]
  · show fin 0 + fin B + fin 1 + fin (-B) + fin 0 = fin 0
    rw [zero_add_fin isDouble_B, B_add_one, B_sub_B, zero_add_fin isDouble_zero]
  · show fin 0 + fin B + fin (-B) + fin 1 + fin 0 = fin 1
    rw [zero_add_fin isDouble_B, B_sub_B, zero_add_fin isDouble_one, add_comm', zero_add_fin isDouble_one]

/-- C138: the mean of equal numbers may be smaller than all of them: mean of five times 2^53 - 1. -/
theorem c138_negation_mean :
    ∃ a : Tensor Fl, a.WF ∧ (∀ x ∈ a.data, x = fin (2 ^ 53 - 1)) ∧ a.data.length = 5 ∧ IsDouble (2 ^ 53 - 1) ∧
      meanAll (fun s n => s / (n : Fl)) a = fin (2 ^ 53 - 2) := by
  have hx : IsDouble (2 ^ 53 - 1) := ⟨2 ^ 53 - 1, 0, by norm_num, by norm_num, by norm_num, by norm_num⟩
  have hx1 : (2 ^ 53 - 1 : ℝ) = 9007199254740991 := by norm_num
  refine ⟨⟨[5], List.replicate 5 (fin (2 ^ 53 - 1))⟩, rfl, fun x hx => List.eq_of_mem_replicate hx, rfl, hx, ?_⟩
  have big : ∀ m : ℤ, ∀ e : ℕ, |m| < 2 ^ 53 → e < 10 → IsDouble ((m : ℝ) * (2 : ℝ) ^ (e : ℤ)) := fun m e hm he =>
    ⟨m, e, hm, by omega, by omega, rfl⟩
  have d2 : IsDouble 18014398509481982 := by have := big 9007199254740991 1 (by norm_num) (by norm_num); norm_num at this; exact this
  have d3 : IsDouble 27021597764222972 := by have := big 6755399441055743 2 (by norm_num) (by norm_num); norm_num at this; exact this
  have d4 : IsDouble 36028797018963964 := by have := big 9007199254740991 2 (by norm_num) (by norm_num); norm_num at this; exact this
  have d5 : IsDouble 45035996273704952 := by have := big 5629499534213119 3 (by norm_num) (by norm_num); norm_num at this; exact this
  rw [hx1] at hx ⊢
  have s2 : fin 9007199254740991 + fin 9007199254740991 = fin 18014398509481982 :=
    add_fin (by norm_num; exact rnd_exact (.inl d2)) d2.lt (by norm_num)
  have s3 : fin 18014398509481982 + fin 9007199254740991 = fin 27021597764222972 := by
    refine add_fin ?_ d3.lt (by norm_num)
    have := rnd_eq_of (x := 18014398509481982 + 9007199254740991) (m := 6755399441055743) (e := 2) (by norm_num) (by norm_num)
      (by norm_num) (by norm_num) (by norm_num [abs_lt])
    rw [this]; norm_num
  have s4 : fin 27021597764222972 + fin 9007199254740991 = fin 36028797018963964 := by
    refine add_fin ?_ d4.lt (by norm_num)
    have := rnd_eq_of (x := 27021597764222972 + 9007199254740991) (m := 9007199254740991) (e := 2) (by norm_num) (by norm_num)
      (by norm_num) (by norm_num) (by norm_num [abs_lt])
    rw [this]; norm_num
  have s5 : fin 36028797018963964 + fin 9007199254740991 = fin 45035996273704952 := by
    refine add_fin ?_ d5.lt (by norm_num)
    have := rnd_eq_of (x := 36028797018963964 + 9007199254740991) (m := 5629499534213119) (e := 3) (by norm_num) (by norm_num)
      (by norm_num) (by norm_num) (by norm_num [abs_lt])
    rw [this]; norm_num
  have q : rnd (45035996273704952 / 5) = 9007199254740990 := by
    have := rnd_eq_of (x := 45035996273704952 / 5) (m := 9007199254740990) (e := 0) (by norm_num) (by norm_num)
      (by norm_num) (by norm_num) (by norm_num [abs_lt])
    rw [this]; norm_num
  have h5 : ((5 : ℕ) : Fl) = fin 5 := by
    show ofInt ((5 : ℕ) : ℤ) = fin 5
    have d : IsDouble 5 := by have := isDouble_int (n := 5) (by norm_num); simpa using this
    simp only [ofInt]
    norm_num
    exact round_double d (by norm_num)
  show (fin 0 + fin 9007199254740991 + fin 9007199254740991 + fin 9007199254740991 + fin 9007199254740991 + fin 9007199254740991) / ((5 : ℕ) : Fl) = _
  rw [zero_add_fin hx, s2, s3, s4, s5, h5]
  show div _ _ = _
  have e : (2 ^ 53 - 2 : ℝ) = 9007199254740990 := by norm_num
  have d6 : IsDouble 9007199254740990 := by have := big 9007199254740990 0 (by norm_num) (by norm_num); norm_num at this; exact this
  have := abs_lt.1 d6.lt
  unfold div
  rw [if_neg (by simp), if_neg (by simp [isInf]), if_neg (by simp [isInf]), if_neg (by simp [val]), if_neg (by simp [val]), e]
  show Fl.round (45035996273704952 / 5) = _
  unfold Fl.round
  rw [q, if_neg (not_le.2 this.2), if_neg (not_le.2 this.1), if_neg (by norm_num)]

/-- C138: halving and doubling does not give back the smallest number, whichever way ties are rounded. -/
theorem c138_negation_half :
    ∃ a h c : Tensor Fl, a.WF ∧ (∀ x ∈ a.data, x.Finite) ∧ binopTN (· / ·) a (fin 2) = .ok h ∧
      binopTN (· * ·) h (fin 2) = .ok c ∧ c ≠ a := by
  have hd : IsDouble ((2 : ℝ) ^ (-1074 : ℤ)) := ⟨1, -1074, by norm_num, by norm_num, by norm_num, by simp⟩
  have wf : ∀ x : Fl, (⟨[1], [x]⟩ : Tensor Fl).WF := fun x => rfl
  refine ⟨⟨[1], [fin (2 ^ (-1074 : ℤ))]⟩, _, _, wf _, ?_, unop_ok _ _ (wf _), unop_ok _ _ (wf _), ?_⟩
  · intro x hx
    rw [List.mem_singleton.1 hx]; exact hd
  · intro h
    injection h with _ h
    simp only [List.map_cons, List.map_nil, List.cons.injEq, and_true] at h
    have hp : (0 : ℝ) < 2 ^ (-1074 : ℤ) := two_zpow_pos _
    have d1 : IsDouble 2 := by have := isDouble_int (n := 2) (by norm_num); simpa using this
    have f2 : (fin 2).Finite := d1
    generalize hu : (2 : ℝ) ^ (-1074 : ℤ) = u at *
    have hb : |rnd (u / 2)| < 2 ^ 1024 := by
      rw [abs_of_nonneg (rnd_nonneg (by linarith))]
      exact lt_of_le_of_lt (rnd_le (.inl hd) (by linarith)) ((le_abs_self _).trans_lt hd.lt)
    obtain ⟨f1, v1⟩ := div_finite (a := fin u) (b := fin 2) hd f2 (by show (2 : ℝ) ≠ 0; norm_num) hb
    obtain ⟨k, hk⟩ := f1.val_double.grid
    rw [hu] at hk
    have v1' : (fin u / fin 2).val = rnd (u / 2) := v1
    have r1 : 0 ≤ rnd (u / 2) := rnd_nonneg (by linarith)
    have r2 : rnd (u / 2) ≤ u := rnd_le (.inl hd) (by linarith)
    have hk' : (k : ℝ) * u = rnd (u / 2) := by rw [← hk, v1']
    have k0 : 0 ≤ k := by
      by_contra hc
      have : (k : ℝ) ≤ -1 := by exact_mod_cast (by omega : k ≤ -1)
      nlinarith
    have k1 : k ≤ 1 := by
      by_contra hc
      have : (2 : ℝ) ≤ k := by exact_mod_cast (by omega : 2 ≤ k)
      nlinarith
    have d2 : IsDouble (2 * u) := ⟨2, -1074, by norm_num, by norm_num, by norm_num, by rw [hu]; norm_num⟩
    have e : rnd ((fin u / fin 2).val * 2) = k * u * 2 := by
      rw [hk]
      refine rnd_exact (.inl ?_)
      rcases (by omega : k = 0 ∨ k = 1) with rfl | rfl
      · simpa using isDouble_zero
      · have : ((1 : ℤ) : ℝ) * u * 2 = 2 * u := by push_cast; ring
        rw [this]; exact d2
    have hb2 : |rnd ((fin u / fin 2).val * (fin 2).val)| < 2 ^ 1024 := by
      show |rnd ((fin u / fin 2).val * 2)| < _
      rw [e]
      rcases (by omega : k = 0 ∨ k = 1) with rfl | rfl
      · simp
      · have : ((1 : ℤ) : ℝ) * u * 2 = 2 * u := by push_cast; ring
        rw [this]; exact d2.lt
    obtain ⟨-, v2⟩ := mul_finite f1 f2 hb2
    have v3 : (fin u / fin 2 * fin 2).val = k * u * 2 := v2.trans e
    rw [h] at v3
    have v4 : u = k * u * 2 := v3
    rcases (by omega : k = 0 ∨ k = 1) with rfl | rfl
    · simp at v4; exact hp.ne' v4
    · push_cast at v4; linarith

/-- C138: the difference of a tensor with infinite elements and itself is NaN there, and so is the quotient for zeros
and infinite elements. -/
theorem c138_negation_self (a : Tensor Fl) (wa : a.WF) (i : ℕ) (x : Fl) (hx : a.data[i]? = some x) :
    ((x = pinf ∨ x = ninf) → ∃ c, binopTT (· - ·) a a = .ok c ∧ c.data[i]? = some nan) ∧
    ((x = pinf ∨ x = ninf ∨ x = nzero ∨ x = 0) → ∃ c, binopTT (· / ·) a a = .ok c ∧ c.data[i]? = some nan) := by
  refine ⟨fun h => ⟨_, binopTT_ok _ a a wa rfl, ?_⟩, fun h => ⟨_, binopTT_ok _ a a wa rfl, ?_⟩⟩
  · show (List.zipWith _ _ _)[i]? = _
    rw [List.zipWith_self, List.getElem?_map, hx]
    rcases h with rfl | rfl <;> rfl
  · show (List.zipWith _ _ _)[i]? = _
    rw [List.zipWith_self, List.getElem?_map, hx]
    have : x / x = nan := by
      show div x x = nan
      rcases h with rfl | rfl | rfl | rfl
      · simp [div, isInf]
      · simp [div, isInf]
      · simp [div, isInf, val]
      · show div (fin 0) (fin 0) = nan
        simp [div, isInf, val]
    show some (x / x) = some nan
    rw [this]

end

/-! ### Examples -/

/-- There is a rounding which does not depend on the sign. -/
theorem exists_odd : ∃ _ : Rounding, ∀ x : ℝ, rnd (-x) = -rnd x := by
  obtain ⟨R⟩ := exists_rounding
  have z : R.rnd 0 = 0 := @rnd_zero R
  refine ⟨⟨fun x => if 0 ≤ x then R.rnd x else -R.rnd (-x), fun x => ?_, fun x y hy => ?_⟩, fun x => ?_⟩
  · split
    · exact R.target x
    · exact (R.target (-x)).neg
  · split
    · exact R.nearest x y hy
    · have h := R.nearest (-x) (-y) hy.neg
      rw [show -x - R.rnd (-x) = -(x - -R.rnd (-x)) by ring, show -x - -y = -(x - y) by ring, abs_neg, abs_neg] at h
      exact h
  · show (if 0 ≤ -x then R.rnd (-x) else -R.rnd (- -x)) = -(if 0 ≤ x then R.rnd x else -R.rnd (-x))
    rcases lt_trichotomy x 0 with h | rfl | h
    · rw [if_pos (by linarith), if_neg (by linarith), neg_neg]
    · simp [z]
    · rw [if_neg (by linarith), if_pos h.le, neg_neg]

private noncomputable def ex : Tensor Fl := ⟨[2, 2], [fin 1, fin 2, nzero, fin 3]⟩

private theorem isDouble_nat (n : ℕ) (h : n < 2 ^ 53) : IsDouble n := by
  have := isDouble_int (n := n) (by rw [abs_of_nonneg (by omega)]; exact_mod_cast h)
  simpa using this

private theorem ex_finite : ∀ x ∈ ex.data, x.Finite ∧ 0 ≤ x.val := by
  intro x hx
  simp only [ex, List.mem_cons, List.not_mem_nil, or_false] at hx
  rcases hx with rfl | rfl | rfl | rfl
  · exact ⟨isDouble_one, by simp [val]⟩
  · exact ⟨by have := isDouble_nat 2 (by norm_num); exact_mod_cast this, by simp [val]⟩
  · exact ⟨trivial, le_rfl⟩
  · exact ⟨by have := isDouble_nat 3 (by norm_num); exact_mod_cast this, by simp [val]⟩

/-- Tensors which satisfy the premises of `c138_comm`, `c138_neutral`, `c138_self`, `c138_symmetric`, `c138_sum_bound`. -/
example : ex.WF ∧ ex.dims = [2, 2] ∧ (∀ x ∈ ex.data, x.Finite ∧ 0 ≤ x.val) ∧ ∀ x ∈ ex.data, x.WF :=
  ⟨rfl, rfl, ex_finite, fun x hx => (ex_finite x hx).1.wf⟩

/-- Premises of `c138_sum_mono` and `c138_norm2_mono`. -/
example : List.Forall₂ (· ≤ ·) ex.data ex.data ∧ List.Forall₂ (fun x y => |x.val| ≤ |y.val|) ex.data ex.data := by
  constructor
  · rw [List.forall₂_same]
    exact fun x hx => (le_finite (ex_finite x hx).1 (ex_finite x hx).1).2 le_rfl
  · rw [List.forall₂_same]
    exact fun x _ => le_rfl

/-- Premises of `c138_pow2`, with k = -1. -/
example : ∀ x ∈ ex.data, x.val = 0 ∨ ((2 : ℝ) ^ (-1022 : ℤ) ≤ |x.val * 2 ^ (-1 : ℤ)| ∧ |x.val * 2 ^ (-1 : ℤ)| < 2 ^ 1024) := by
  have h1 : (2 : ℝ) ^ (-1022 : ℤ) ≤ 2 ^ (-1 : ℤ) := zpow_le_zpow_right₀ (by norm_num) (by norm_num)
  have h2 : (2 : ℝ) ^ 2 ≤ 2 ^ 1024 := pow_le_pow_right₀ (by norm_num) (by norm_num)
  generalize (2 : ℝ) ^ (-1022 : ℤ) = l at *
  generalize (2 : ℝ) ^ 1024 = u at *
  have h3 : (2 : ℝ) ^ (-1 : ℤ) = 1 / 2 := by norm_num
  rw [h3] at h1 ⊢
  intro x hx
  simp only [ex, List.mem_cons, List.not_mem_nil, or_false] at hx
  rcases hx with rfl | rfl | rfl | rfl
  · right; simp only [val]; rw [abs_of_pos (by norm_num)]; constructor <;> linarith
  · right; simp only [val]; rw [abs_of_pos (by norm_num)]; constructor <;> linarith
  · left; rfl
  · right; simp only [val]; rw [abs_of_pos (by norm_num)]; constructor <;> linarith

/-- The premise of `c138_negation_assoc`. -/
example : totalSize [2, 3] ≠ 0 := by decide

end Verif.FlLaws
