import Verif.Props.Linspace
import Verif.Props.FloatSum
/-
C86: linspace with numbers of type double.
-/
namespace Verif.Fl

open Verif Tensor Rounding Linspace

variable [Rounding]

theorem rnd_abs_le {x y : ℝ} (hy : IsTarget y) (h : |x| ≤ y) : |rnd x| ≤ y := by
  obtain ⟨h1, h2⟩ := abs_le.1 h
  exact abs_le.2 ⟨le_rnd hy.neg h1, rnd_le hy h2⟩

omit [Rounding] in
theorem isTarget_pow {k : ℕ} (m : ℕ) (hm : m < 2 ^ 53) (h : k ≤ 971) : IsTarget (m * (2 : ℝ) ^ k) := by
  have := isTarget_of (m := m) (e := k) (by rw [abs_of_nonneg (by omega)]; exact_mod_cast hm.le) (by omega) (by omega)
  simpa using this

/-- The divisor of linspace. -/
theorem pred_exact {n : ℕ} (h1 : 2 ≤ n) (h2 : n < 2 ^ 53) : ((n : Fl) - 1).Finite ∧ ((n : Fl) - 1).val = n - 1 := by
  obtain ⟨n1, n2⟩ := ofNat_exact h2
  have hone : (1 : Fl).Finite := ⟨1, 0, by norm_num, by norm_num, by norm_num, by norm_num⟩
  have hv : (1 : Fl).val = 1 := rfl
  have hd : IsDouble ((n : ℝ) - 1) := by
    have := isDouble_int (n := (n : ℤ) - 1) (by rw [abs_of_nonneg (by omega)]; omega)
    push_cast at this
    exact this
  have hr := rnd_exact (Or.inl hd)
  have := sub_finite n1 hone (by rw [n2, hv, hr]; exact hd.lt)
  rwa [n2, hv, hr] at this

/-- The product of the increment and an index is at most 5/4 of the largest difference. -/
theorem step_bound {D : ℝ} {n j : ℕ} (hn : 2 ≤ n) (hn2 : n < 2 ^ 53) (hj : j < n) (hD : |D| ≤ 2 ^ 1023) :
    |rnd (D / (n - 1)) * j| ≤ 5 * 2 ^ 1021 := by
  have h1023 : (2 : ℝ) ^ 1023 = 4 * 2 ^ 1021 := by
    rw [show (1023 : ℕ) = 2 + 1021 from rfl, pow_add]; norm_num
  have h1024 : (2 : ℝ) ^ 1024 = 8 * 2 ^ 1021 := by
    rw [show (1024 : ℕ) = 3 + 1021 from rfl, pow_add]; norm_num
  have hW : (2 : ℝ) ^ 55 ≤ 2 ^ 1021 := pow_le_pow_right₀ (by norm_num) (by norm_num)
  have hn1 : (1 : ℝ) ≤ n - 1 := by
    have : (2 : ℝ) ≤ n := by exact_mod_cast hn
    linarith
  have hj1 : (j : ℝ) ≤ n - 1 := by
    have : (j : ℝ) + 1 ≤ n := by exact_mod_cast hj
    linarith
  have hq : |D / (n - 1)| ≤ 2 ^ 1023 := by
    rw [abs_div, abs_of_pos (by linarith : (0 : ℝ) < n - 1)]
    exact (div_le_self (abs_nonneg _) hn1).trans hD
  have herr : |rnd (D / (n - 1)) - D / (n - 1)| ≤ eps * |D / (n - 1)| + tinyErr :=
    rnd_err (hq.trans_lt (pow_lt_pow_right₀ (by norm_num) (by norm_num)))
  have hb : |rnd (D / (n - 1))| ≤ (1 + eps) * |D / (n - 1)| + tinyErr := by
    have := abs_add_le (rnd (D / (n - 1)) - D / (n - 1)) (D / (n - 1))
    rw [sub_add_cancel] at this
    linarith
  have hj0 : (0 : ℝ) ≤ j := Nat.cast_nonneg _
  have hDj : |D / (n - 1)| * j ≤ 2 ^ 1023 := by
    rw [abs_div, abs_of_pos (by linarith : (0 : ℝ) < n - 1), div_mul_eq_mul_div, div_le_iff₀ (by linarith)]
    exact mul_le_mul hD hj1 hj0 (by positivity)
  have htj : tinyErr * j ≤ 1 := by
    have h1 : (j : ℝ) ≤ 2 ^ 53 := by
      have : j ≤ 2 ^ 53 := by omega
      exact_mod_cast this
    have h2 : tinyErr ≤ 2 ^ (-53 : ℤ) := zpow_le_zpow_right₀ (by norm_num) (by norm_num)
    calc tinyErr * j ≤ 2 ^ (-53 : ℤ) * 2 ^ 53 := mul_le_mul h2 h1 hj0 (two_zpow_pos _).le
      _ = 1 := by norm_num
  have he : eps ≤ 1 / 8 := by rw [eps]; norm_num
  have he0 := eps_pos
  rw [abs_mul, Nat.abs_cast]
  rw [h1023] at hDj
  clear hD hq h1023 h1024 herr
  generalize (2 : ℝ) ^ 1021 = W at *
  have h3 := mul_le_mul_of_nonneg_right hb hj0
  have h4 : eps * (|D / (n - 1)| * j) ≤ 1 / 8 * (4 * W) :=
    mul_le_mul he hDj (by positivity) (by norm_num)
  norm_num at hW
  calc _ ≤ _ := h3
    _ = |D / (n - 1)| * j + eps * (|D / (n - 1)| * j) + tinyErr * j := by ring
    _ ≤ 5 * W := by linarith

/-- The value of an element of linspace. -/
theorem point_val {a b : Fl} (ha : a.Finite) (hb : b.Finite) (hA : |a.val| ≤ 2 ^ 1022) (hB : |b.val| ≤ 2 ^ 1022)
    {n j : ℕ} (hn : 2 ≤ n) (hn2 : n < 2 ^ 53) (hj : j < n) :
    ((b - a) / ((n : Fl) - 1) * (j : Fl) + a).Finite ∧ ((b - a) / ((n : Fl) - 1) * (j : Fl) + a).val =
      rnd (rnd (rnd (rnd (b.val - a.val) / (n - 1)) * j) + a.val) := by
  have h1022 : (2 : ℝ) ^ 1022 = 2 * 2 ^ 1021 := by rw [← pow_succ']
  have h1023 : (2 : ℝ) ^ 1023 = 2 * 2 ^ 1022 := by rw [← pow_succ']
  have h1024 : (2 : ℝ) ^ 1024 = 8 * 2 ^ 1021 := by
    rw [show (1024 : ℕ) = 3 + 1021 from rfl, pow_add]; norm_num
  have hW : (0 : ℝ) < 2 ^ 1021 := by positivity
  have t1 : IsTarget ((2 : ℝ) ^ 1023) := by
    have := isTarget_of (m := 2 ^ 52) (e := 971) (by norm_num) (by norm_num) (by norm_num)
    have e : (((2 ^ 52 : ℤ) : ℝ)) * 2 ^ (971 : ℤ) = 2 ^ 1023 := by
      push_cast
      rw [show ((2 : ℝ) ^ (971 : ℤ)) = 2 ^ (971 : ℕ) from zpow_natCast 2 971,
        show (4503599627370496 : ℝ) = 2 ^ 52 by norm_num, ← pow_add]
    rwa [e] at this
  have tk : ∀ k : ℤ, |k| ≤ 8 → IsTarget ((k : ℝ) * 2 ^ 1021) := by
    intro k hk
    have := isTarget_of (m := k * 2 ^ 50) (e := 971) (by rw [abs_mul]; norm_num; omega) (by norm_num) (by norm_num)
    have e : (((k * 2 ^ 50 : ℤ) : ℝ)) * 2 ^ (971 : ℤ) = k * 2 ^ 1021 := by
      push_cast
      rw [show ((2 : ℝ) ^ (971 : ℤ)) = 2 ^ (971 : ℕ) from zpow_natCast 2 971,
        show (1125899906842624 : ℝ) = 2 ^ 50 by norm_num, mul_assoc, ← pow_add]
    rwa [e] at this
  have t5 := tk 5 (by norm_num)
  have t7 := tk 7 (by norm_num)
  push_cast at t5 t7
  have l1 : (2 : ℝ) ^ 1023 < 2 ^ 1024 := pow_lt_pow_right₀ (by norm_num) (by norm_num)
  have l2 : ∀ x : ℝ, x ≤ 7 * 2 ^ 1021 → x < 2 ^ 1024 := by
    intro x hx
    rw [h1024]
    generalize (2 : ℝ) ^ 1021 = W at hx hW ⊢
    linarith
  have hd : |b.val - a.val| ≤ 2 ^ 1023 := by
    rw [h1023]
    have := abs_sub b.val a.val
    generalize (2 : ℝ) ^ 1022 = W at *
    linarith
  have hD := rnd_abs_le t1 hd
  obtain ⟨s1, s2⟩ := sub_finite hb ha (hD.trans_lt l1)
  obtain ⟨p1, p2⟩ := pred_exact hn hn2
  have hn1 : (1 : ℝ) ≤ n - 1 := by
    have : (2 : ℝ) ≤ n := by exact_mod_cast hn
    linarith
  have hq : |rnd (b.val - a.val) / (n - 1)| ≤ 2 ^ 1023 := by
    rw [abs_div, abs_of_pos (by linarith : (0 : ℝ) < n - 1)]
    exact (div_le_self (abs_nonneg _) hn1).trans hD
  obtain ⟨q1, q2⟩ := div_finite s1 p1 (by rw [p2]; linarith) (by
    rw [s2, p2]; exact (rnd_abs_le t1 hq).trans_lt l1)
  rw [s2, p2] at q2
  obtain ⟨j1, j2⟩ := ofNat_exact (hj.trans hn2)
  have hm := step_bound hn hn2 hj hD
  have hm' := rnd_abs_le t5 hm
  obtain ⟨m1, m2⟩ := mul_finite q1 j1 (by
    rw [q2, j2]
    refine l2 _ (hm'.trans ?_)
    generalize (2 : ℝ) ^ 1021 = W at hW ⊢
    linarith)
  rw [q2, j2] at m2
  have hs : |rnd (rnd (rnd (b.val - a.val) / (n - 1)) * j) + a.val| ≤ 7 * 2 ^ 1021 := by
    refine (abs_add_le _ _).trans ?_
    rw [h1022] at hA
    generalize (2 : ℝ) ^ 1021 = W at *
    linarith
  obtain ⟨r1, r2⟩ := add_finite m1 ha (by rw [m2]; exact l2 _ (rnd_abs_le t7 hs))
  rw [m2] at r2
  exact ⟨r1, r2⟩

/-- The distance from the place where an element should be. -/
theorem point_err {a b : ℝ} (ha : IsDouble a) (hb : IsDouble b) (hA : |a| ≤ 2 ^ 1022) (hB : |b| ≤ 2 ^ 1022)
    {n j : ℕ} (hn : 2 ≤ n) (hn2 : n < 2 ^ 53) (hj : j < n) :
    |rnd (rnd (rnd (rnd (b - a) / (n - 1)) * j) + a) - (a + (b - a) * (j / (n - 1)))| ≤
      ((1 + eps) ^ 4 - 1) * (|a| + |b - a|) + n * 2 ^ (-1074 : ℤ) := by
  have h1022 : (2 : ℝ) ^ 1022 = 2 * 2 ^ 1021 := by rw [← pow_succ']
  have h1023 : (2 : ℝ) ^ 1023 = 2 * 2 ^ 1022 := by rw [← pow_succ']
  have h1024 : (2 : ℝ) ^ 1024 = 8 * 2 ^ 1021 := by
    rw [show (1024 : ℕ) = 3 + 1021 from rfl, pow_add]; norm_num
  have hW : (0 : ℝ) < 2 ^ 1021 := by positivity
  have hd : |b - a| ≤ 2 ^ 1023 := by
    rw [h1023]
    have := abs_sub b a
    generalize (2 : ℝ) ^ 1022 = W at *
    linarith
  have l1 : (2 : ℝ) ^ 1023 < 2 ^ 1024 := pow_lt_pow_right₀ (by norm_num) (by norm_num)
  have t1 : IsTarget ((2 : ℝ) ^ 1023) := by
    have := isTarget_of (m := 2 ^ 52) (e := 971) (by norm_num) (by norm_num) (by norm_num)
    have e : (((2 ^ 52 : ℤ) : ℝ)) * 2 ^ (971 : ℤ) = 2 ^ 1023 := by
      push_cast
      rw [show ((2 : ℝ) ^ (971 : ℤ)) = 2 ^ (971 : ℕ) from zpow_natCast 2 971,
        show (4503599627370496 : ℝ) = 2 ^ 52 by norm_num, ← pow_add]
    rwa [e] at this
  have hD := rnd_abs_le t1 hd
  have hm := step_bound hn hn2 hj hD
  have hn1 : (1 : ℝ) ≤ n - 1 := by
    have : (2 : ℝ) ≤ n := by exact_mod_cast hn
    linarith
  have hj1 : (j : ℝ) ≤ n - 1 := by
    have : (j : ℝ) + 1 ≤ n := by exact_mod_cast hj
    linarith
  have hj0 : (0 : ℝ) ≤ j := Nat.cast_nonneg _
  have he := eps_pos
  have he1 : eps ≤ 1 / 8 := by rw [eps]; norm_num
  have ht := tinyErr_pos
  have htt : (2 : ℝ) ^ (-1074 : ℤ) = 2 * tinyErr := by
    rw [tinyErr, show (-1075 : ℤ) = -1074 - 1 by norm_num, zpow_sub_one₀ (by norm_num)]; ring
  -- the four roundings
  have e1 : |rnd (b - a) - (b - a)| ≤ eps * |b - a| := by
    have := rnd_add hb ha.neg (by rw [← sub_eq_add_neg]; exact hd.trans_lt l1)
    rwa [← sub_eq_add_neg] at this
  have hq : |rnd (b - a) / (n - 1)| ≤ 2 ^ 1023 := by
    rw [abs_div, abs_of_pos (by linarith : (0 : ℝ) < n - 1)]
    exact (div_le_self (abs_nonneg _) hn1).trans hD
  have e2 : |rnd (rnd (b - a) / (n - 1)) - rnd (b - a) / (n - 1)| ≤ eps * |rnd (b - a) / (n - 1)| + tinyErr :=
    rnd_err (hq.trans_lt l1)
  have e3 : |rnd (rnd (rnd (b - a) / (n - 1)) * j) - rnd (rnd (b - a) / (n - 1)) * j| ≤
      eps * |rnd (rnd (b - a) / (n - 1)) * j| + tinyErr := by
    refine rnd_err (hm.trans_lt ?_)
    rw [h1024]
    generalize (2 : ℝ) ^ 1021 = W at hW ⊢
    linarith
  have tk5 : IsTarget ((5 : ℝ) * 2 ^ 1021) := by
    have := isTarget_of (m := 5 * 2 ^ 50) (e := 971) (by norm_num) (by norm_num) (by norm_num)
    have e : (((5 * 2 ^ 50 : ℤ) : ℝ)) * 2 ^ (971 : ℤ) = 5 * 2 ^ 1021 := by
      push_cast
      rw [show ((2 : ℝ) ^ (971 : ℤ)) = 2 ^ (971 : ℕ) from zpow_natCast 2 971,
        show (5629499534213120 : ℝ) = 5 * 2 ^ 50 by norm_num, mul_assoc, ← pow_add]
    rwa [e] at this
  have hm' := rnd_abs_le tk5 hm
  have hpd : IsDouble (rnd (rnd (rnd (b - a) / (n - 1)) * j)) := by
    refine (target _).double (hm'.trans_lt ?_)
    rw [h1024]
    generalize (2 : ℝ) ^ 1021 = W at hW ⊢
    linarith
  have hsum : ∀ u : ℝ, |u| ≤ 5 * 2 ^ 1021 → |u + a| < 2 ^ 1024 := by
    intro u hu
    refine (abs_add_le _ _).trans_lt ?_
    rw [h1022] at hA
    rw [h1024]
    clear hd hD hm hm' hq tk5 t1 l1 h1022 h1023 h1024 hB
    generalize (2 : ℝ) ^ 1021 = W at *
    linarith
  have e4 := rnd_add hpd ha (hsum _ hm')
  change _ ≤ eps * _ at e4
  rw [htt]
  clear hsum htt h1022 h1023 h1024 hW hd l1 t1 hD hm hq tk5 hm' hpd hA hB ha hb
  -- the bounds follow one another
  set T := (b - a) * (j / (n - 1)) with hT
  set D := rnd (b - a)
  set q := rnd (D / (n - 1))
  set p := rnd (q * j)
  set x := rnd (p + a)
  have hr0 : 0 ≤ (j : ℝ) / (n - 1) := div_nonneg hj0 (by linarith)
  have hr1 : (j : ℝ) / (n - 1) ≤ 1 := (div_le_one (by linarith)).2 hj1
  have hT1 : |T| ≤ |b - a| := by
    rw [hT, abs_mul, abs_of_nonneg hr0]
    exact mul_le_of_le_one_right (abs_nonneg _) hr1
  -- q * j
  have f1 : |D / (n - 1) * j - T| ≤ eps * |T| := by
    have : D / (n - 1) * j - T = (D - (b - a)) * (j / (n - 1)) := by
      rw [hT]; field_simp
    rw [this, abs_mul, hT, abs_mul, abs_of_nonneg hr0, ← mul_assoc]
    exact mul_le_mul_of_nonneg_right e1 hr0
  have f2 : |q * j - D / (n - 1) * j| ≤ eps * |D / (n - 1) * j| + tinyErr * j := by
    rw [← sub_mul, abs_mul, abs_mul, Nat.abs_cast]
    have := mul_le_mul_of_nonneg_right e2 hj0
    linarith
  have g1 : |D / (n - 1) * j| ≤ (1 + eps) * |T| := by
    have := abs_add_le (D / (n - 1) * j - T) T
    rw [sub_add_cancel] at this
    linarith
  have g2 : |q * j - T| ≤ ((1 + eps) ^ 2 - 1) * |T| + tinyErr * j := by
    have := abs_add_le (q * j - D / (n - 1) * j) (D / (n - 1) * j - T)
    rw [sub_add_sub_cancel] at this
    have := mul_le_mul_of_nonneg_left g1 he.le
    nlinarith
  have g3 : |q * j| ≤ (1 + eps) ^ 2 * |T| + tinyErr * j := by
    have := abs_add_le (q * j - T) T
    rw [sub_add_cancel] at this
    linarith
  have g4 : |p - T| ≤ ((1 + eps) ^ 3 - 1) * |T| + (1 + eps) * (tinyErr * j) + tinyErr := by
    have h1 := abs_add_le (p - q * j) (q * j - T)
    rw [sub_add_sub_cancel] at h1
    have h2 := mul_le_mul_of_nonneg_left g3 he.le
    calc _ ≤ _ := h1
      _ ≤ eps * ((1 + eps) ^ 2 * |T| + tinyErr * j) + tinyErr + (((1 + eps) ^ 2 - 1) * |T| + tinyErr * j) := by
        linarith
      _ = _ := by ring
  have g5 : |p + a| ≤ (1 + eps) ^ 3 * |T| + (1 + eps) * (tinyErr * j) + tinyErr + |a| := by
    have h1 := abs_add_le (p - T) (T + a)
    rw [show p - T + (T + a) = p + a by ring] at h1
    have h2 := abs_add_le T a
    linarith
  have g6 : |x - (a + T)| ≤ ((1 + eps) ^ 4 - 1) * |T| + eps * |a| + (1 + eps) * ((1 + eps) * (tinyErr * j) + tinyErr) := by
    have h1 := abs_add_le (x - (p + a)) (p - T)
    rw [show x - (p + a) + (p - T) = x - (a + T) by ring] at h1
    have h2 := mul_le_mul_of_nonneg_left g5 he.le
    calc _ ≤ _ := h1
      _ ≤ eps * ((1 + eps) ^ 3 * |T| + (1 + eps) * (tinyErr * j) + tinyErr + |a|) +
          (((1 + eps) ^ 3 - 1) * |T| + (1 + eps) * (tinyErr * j) + tinyErr) := by linarith
      _ = _ := by ring
  have hE : 0 ≤ (1 + eps) ^ 4 - 1 := by
    have := one_le_pow_eps 4
    linarith
  have hE2 : eps ≤ (1 + eps) ^ 4 - 1 := by nlinarith [pow_pos he 2, pow_pos he 3, pow_pos he 4]
  have k1 := mul_le_mul_of_nonneg_left hT1 hE
  have k2 := mul_le_mul_of_nonneg_right hE2 (abs_nonneg a)
  have k3 : (1 + eps) * ((1 + eps) * (tinyErr * j) + tinyErr) ≤ n * (2 * tinyErr) := by
    have hc : (1 + eps) * (1 + eps) ≤ 2 := by nlinarith
    have h1 : (1 + eps) * ((1 + eps) * (tinyErr * j) + tinyErr) ≤ 2 * (tinyErr * j) + 2 * tinyErr := by
      have := mul_le_mul_of_nonneg_right hc (mul_nonneg ht.le hj0)
      nlinarith
    have h2 : tinyErr * (j + 1) ≤ tinyErr * n := mul_le_mul_of_nonneg_left (by linarith) ht.le
    linarith
  linarith

/-- C86: the elements of linspace of finite numbers of size at most 2^1022: the first element is the start, the
others are in order, and each is near the place where it should be. -/
theorem c86_linspace_partial {mn mx : Tensor Fl} (wf : mn.WF) (wfx : mx.WF) (hmne : mn.dims ≠ [])
    (hs : mx.data.length = mn.data.length) {n : Nat} (hn : 2 ≤ n) (hn2 : n < 2 ^ 53)
    (hmn : ∀ x ∈ mn.data, x.Finite ∧ |x.val| ≤ 2 ^ 1022) (hmx : ∀ x ∈ mx.data, x.Finite ∧ |x.val| ≤ 2 ^ 1022) :
    ∃ (t : Tensor Fl), Finishes (fun fuel => linspace fuel mn mx n) (.ok ⟨t.dims, t.data.map some⟩) ∧
      t.WF ∧ t.dims = outShape mn n ∧
      ∀ p a b, mn.data[p]? = some a → mx.data[p]? = some b →
        (∃ x, t.data[p]? = some x ∧ x.Finite ∧ x.val = a.val) ∧
        ∀ j, j < n → ∃ x, t.data[p + mn.data.length * j]? = some x ∧ x.Finite ∧
          |x.val - (a.val + (b.val - a.val) * (j / (n - 1)))| ≤
            ((1 + 2 ^ (-53 : ℤ)) ^ 4 - 1) * (|a.val| + |b.val - a.val|) + n * 2 ^ (-1074 : ℤ) ∧
          ∀ i, i ≤ j → ∃ y, t.data[p + mn.data.length * i]? = some y ∧
            (a ≤ b → y ≤ x) ∧ (b ≤ a → x ≤ y) := by
  obtain ⟨t, h1, h2, h3, h4⟩ := linspace_values wf wfx hmne hs hn
  refine ⟨t, h1, h2, h3, fun p a b ha hb => ?_⟩
  obtain ⟨fa, A⟩ := hmn a (List.mem_of_getElem? ha)
  obtain ⟨fb, B⟩ := hmx b (List.mem_of_getElem? hb)
  have hv := fun j (hj : j < n) => point_val fa fb A B hn hn2 hj
  have hn1 : (1 : ℝ) ≤ n - 1 := by
    have : (2 : ℝ) ≤ n := by exact_mod_cast hn
    linarith
  refine ⟨⟨_, ?_, (hv 0 (by omega)).1, ?_⟩, fun j hj => ⟨_, h4 p j a b hj ha hb, (hv j hj).1, ?_, fun i hi =>
    ⟨_, h4 p i a b (by omega) ha hb, fun hab => ?_, fun hab => ?_⟩⟩⟩
  · have := h4 p 0 a b (by omega) ha hb
    rwa [Nat.mul_zero, Nat.add_zero] at this
  · rw [(hv 0 (by omega)).2]
    rw [Nat.cast_zero, mul_zero, rnd_zero, zero_add]
    exact rnd_exact (Or.inl fa.val_double)
  · rw [(hv j hj).2]
    exact point_err fa.val_double fb.val_double A B hn hn2 hj
  · rw [le_finite (hv i (by omega)).1 (hv j hj).1, (hv i (by omega)).2, (hv j hj).2]
    rw [le_finite fa fb] at hab
    have hc : (i : ℝ) ≤ j := by exact_mod_cast hi
    refine rnd_mono (by
      have := rnd_mono (x := rnd (rnd (b.val - a.val) / (n - 1)) * i) (y := rnd (rnd (b.val - a.val) / (n - 1)) * j)
        (mul_le_mul_of_nonneg_left hc (rnd_nonneg (div_nonneg (rnd_nonneg (by linarith)) (by linarith))))
      linarith)
  · rw [le_finite (hv j hj).1 (hv i (by omega)).1, (hv i (by omega)).2, (hv j hj).2]
    rw [le_finite fb fa] at hab
    have hc : (i : ℝ) ≤ j := by exact_mod_cast hi
    refine rnd_mono (by
      have := rnd_mono (x := rnd (rnd (b.val - a.val) / (n - 1)) * j) (y := rnd (rnd (b.val - a.val) / (n - 1)) * i)
        (mul_le_mul_of_nonpos_left hc (rnd_nonpos (div_nonpos_of_nonpos_of_nonneg (rnd_nonpos (by linarith)) (by linarith))))
      linarith)

/-- The hypotheses can be met. -/
example : (fin 3).Finite ∧ |(fin 3).val| ≤ 2 ^ 1022 := by
  refine ⟨⟨3, 0, by norm_num, by norm_num, by norm_num, by norm_num⟩, ?_⟩
  have h1 : (2 : ℝ) ^ 2 ≤ 2 ^ 1022 := pow_le_pow_right₀ (by norm_num) (by norm_num)
  refine le_trans ?_ h1
  norm_num [val]

/-- The elements of linspace of two numbers. -/
theorem numbers_values (a b : Fl) {n : Nat} (hn : 2 ≤ n) :
    ∃ v : List Fl, Finishes (fun fuel => linspaceNum fuel a b n) (.ok ⟨[n], v.map some⟩) ∧ v.length = n ∧
      ∀ j, j < n → v[j]? = some ((b - a) / ((n : Fl) - 1) * (j : Fl) + a) := by
  obtain ⟨t, h1, h2, h3, h4⟩ := linspace_values (mn := (⟨[1], [a]⟩ : Tensor Fl))
    (mx := ⟨[1], [b]⟩) rfl rfl (by simp) rfl hn
  have h3' : t.dims = [n] := h3
  have hlen : t.data.length = n := by
    rw [Tensor.WF, h3'] at h2
    simpa [Tensor.totalSize] using h2
  refine ⟨t.data, ?_, hlen, fun j hj => ?_⟩
  · rw [h3'] at h1
    exact h1
  · have := h4 0 j a b hj rfl rfl
    simpa using this

/-- C86: the last element need not be the end: it is less than one for linspace(0, 1, 50), and more than 29 for
linspace(0, 29, 8). -/
theorem c86_negation_last :
    (∃ (v : List Fl) (x : Fl), Finishes (fun fuel => linspaceNum fuel (fin 0) (fin 1) 50) (.ok ⟨[50], v.map some⟩) ∧
      v[49]? = some x ∧ x < fin 1) ∧
    (∃ (v : List Fl) (x : Fl), Finishes (fun fuel => linspaceNum fuel (fin 0) (fin 29) 8) (.ok ⟨[8], v.map some⟩) ∧
      v[7]? = some x ∧ fin 29 < x) := by
  have hb : ∀ x : ℝ, |x| ≤ 2 ^ 5 → |x| ≤ 2 ^ 1022 := fun x hx =>
    hx.trans (pow_le_pow_right₀ (by norm_num) (by norm_num))
  have f0 : (fin 0).Finite := isDouble_zero
  have f1 : (fin 1).Finite := ⟨1, 0, by norm_num, by norm_num, by norm_num, by norm_num⟩
  have f29 : (fin 29).Finite := ⟨29, 0, by norm_num, by norm_num, by norm_num, by norm_num⟩
  constructor
  · obtain ⟨v, h1, -, h2⟩ := numbers_values (fin 0) (fin 1) (n := 50) (by norm_num)
    obtain ⟨g1, g2⟩ := point_val f0 f1 (hb _ (by norm_num [val])) (hb _ (by norm_num [val])) (n := 50) (j := 49)
      (by norm_num) (by norm_num) (by norm_num)
    refine ⟨v, _, h1, h2 49 (by norm_num), ?_⟩
    rw [lt_finite g1 f1, g2]
    have r1 : rnd ((fin 1).val - (fin 0).val) = 1 := by
      have : (fin 1).val - (fin 0).val = 1 := by norm_num [val]
      rw [this]; exact rnd_exact (Or.inl f1)
    have r2 : rnd ((1 : ℝ) / (((50 : ℕ) : ℝ) - 1)) = (5882252574524729 : ℤ) * (2 : ℝ) ^ (-58 : ℤ) :=
      rnd_eq_of (by norm_num) (by norm_num) (by norm_num) (by norm_num) (by
        rw [abs_lt]; constructor <;> norm_num)
    have r3 : rnd (((5882252574524729 : ℤ) * (2 : ℝ) ^ (-58 : ℤ)) * ((49 : ℕ) : ℝ)) =
        (9007199254740991 : ℤ) * (2 : ℝ) ^ (-53 : ℤ) :=
      rnd_eq_of (by norm_num) (by norm_num) (by norm_num) (by norm_num) (by
        rw [abs_lt]; constructor <;> norm_num)
    rw [r1, r2, r3]
    have : (fin 0).val = 0 := rfl
    rw [this, add_zero, rnd_exact (isTarget_of (by norm_num) (by norm_num) (by norm_num))]
    norm_num [val]
  · obtain ⟨v, h1, -, h2⟩ := numbers_values (fin 0) (fin 29) (n := 8) (by norm_num)
    obtain ⟨g1, g2⟩ := point_val f0 f29 (hb _ (by norm_num [val])) (hb _ (by norm_num [val])) (n := 8) (j := 7)
      (by norm_num) (by norm_num) (by norm_num)
    refine ⟨v, _, h1, h2 7 (by norm_num), ?_⟩
    rw [lt_finite f29 g1, g2]
    have r1 : rnd ((fin 29).val - (fin 0).val) = 29 := by
      have : (fin 29).val - (fin 0).val = 29 := by norm_num [val]
      rw [this]; exact rnd_exact (Or.inl f29)
    have r2 : rnd ((29 : ℝ) / (((8 : ℕ) : ℝ) - 1)) = (4664442471205157 : ℤ) * (2 : ℝ) ^ (-50 : ℤ) :=
      rnd_eq_of (by norm_num) (by norm_num) (by norm_num) (by norm_num) (by
        rw [abs_lt]; constructor <;> norm_num)
    have r3 : rnd (((4664442471205157 : ℤ) * (2 : ℝ) ^ (-50 : ℤ)) * ((7 : ℕ) : ℝ)) =
        (8162774324609025 : ℤ) * (2 : ℝ) ^ (-48 : ℤ) :=
      rnd_eq_of (by norm_num) (by norm_num) (by norm_num) (by norm_num) (by
        rw [abs_lt]; constructor <;> norm_num)
    rw [r1, r2, r3]
    have : (fin 0).val = 0 := rfl
    rw [this, add_zero, rnd_exact (isTarget_of (by norm_num) (by norm_num) (by norm_num))]
    norm_num [val]

/-- A difference with overflow. -/
theorem sub_overflow {a b : Fl} (ha : a.Finite) (hb : b.Finite) (h : 2 ^ 1024 ≤ b.val - a.val) : b - a = pinf := by
  have hp : (0 : ℝ) < 2 ^ 1024 := by positivity
  obtain ⟨na, nv⟩ := negate_finite ha
  have e : b + -a = b - a := rfl
  rw [← e, add_def hb na (by
    by_contra hc
    rw [not_or, not_not, not_not] at hc
    have h5 : b.val = 0 := by rw [hc.1]; rfl
    have h6 : -a.val = 0 := by rw [← nv, hc.2]; rfl
    rw [h5, zero_sub, h6] at h
    exact absurd h (not_le.2 hp)), nv, ← sub_eq_add_neg, if_neg (hp.trans_le h).ne', round, if_pos]
  exact le_rnd (Or.inr (abs_of_nonneg (by positivity))) h

/-- C86: if the difference of the ends overflows, then the first element is NaN, and the others are infinite. -/
theorem c86_negation_overflow (a b : Fl) (ha : a.Finite) (hb : b.Finite) (h : 2 ^ 1024 ≤ b.val - a.val)
    {n : Nat} (hn : 2 ≤ n) (hn2 : n < 2 ^ 53) :
    ∃ v : List Fl, Finishes (fun fuel => linspaceNum fuel a b n) (.ok ⟨[n], v.map some⟩) ∧ v.length = n ∧
      v[0]? = some nan ∧ ∀ j, 0 < j → j < n → v[j]? = some pinf := by
  obtain ⟨v, h1, h2, h3⟩ := numbers_values a b hn
  obtain ⟨p1, p2⟩ := pred_exact hn hn2
  have hn1 : (0 : ℝ) < n - 1 := by
    have : (2 : ℝ) ≤ n := by exact_mod_cast hn
    linarith
  have hsub : b - a = pinf := sub_overflow ha hb h
  have hdiv : (pinf : Fl) / ((n : Fl) - 1) = pinf := by
    show div pinf ((n : Fl) - 1) = pinf
    have hneg : ((n : Fl) - 1).neg = false := by
      generalize (n : Fl) - 1 = y at p1 p2
      cases y with
      | fin z =>
        have : z = n - 1 := p2
        simp only [neg, decide_eq_false_iff_not, not_lt]
        linarith
      | nzero => have : (0 : ℝ) = n - 1 := p2; linarith
      | _ => exact p1.elim
    rw [div, if_neg (by simp [p1.ne_nan]), if_pos (by rfl), if_neg (by simp [p1.not_inf]), hneg]
    rfl
  refine ⟨v, h1, h2, ?_, fun j hj0 hj => ?_⟩
  · rw [h3 0 (by omega), hsub, hdiv]
    have h0 : ((0 : ℕ) : Fl) = fin 0 := show ofInt ((0 : ℕ) : ℤ) = _ by simp [ofInt]
    have : (pinf : Fl) * fin 0 = nan := by
      show mul pinf (fin 0) = nan
      simp [mul, isInf, val]
    rw [h0, this, nan_add]
  · obtain ⟨j1, j2⟩ := ofNat_exact (hj.trans hn2)
    have hjp : (0 : ℝ) < j := by exact_mod_cast hj0
    rw [h3 j hj, hsub, hdiv]
    have hmul : (pinf : Fl) * (j : Fl) = pinf := by
      show mul pinf (j : Fl) = pinf
      generalize (j : Fl) = y at j1 j2
      cases y with
      | fin z =>
        have hz : z = j := j2
        simp [mul, isInf, val, infS, neg, hz, hjp.ne', hjp.le]
      | nzero => have : (0 : ℝ) = j := j2; linarith
      | _ => exact j1.elim
    rw [hmul]
    cases a <;> first | rfl | exact ha.elim

end Verif.Fl
