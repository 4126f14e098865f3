import Verif.Model.CgsFl
import Verif.Spec.CgsFl
import Verif.Lemmas.PowerFl
/-
Lemmas for C133: one update of the conjugate gradient method in doubles, and the test which ends it.
-/
namespace Verif.CgsFl

open Verif Verif.Spec Fl Rounding Tensor FiniteResults CgsFl.Spec PowerFl

theorem eps_small : eps ≤ 1 / 1024 := by
  rw [eps_eq]
  norm_num

theorem le_of_rel {e x y : ℝ} (he : 0 < e) (he' : e ≤ 1 / 1024) (h : (1 - e) * x ≤ y) (hy : 0 ≤ y) : x ≤ (1 + 2 * e) * y := by
  have h1 : (1 - e) * ((1 + 2 * e) * y) = y + e * y - 2 * (e * (e * y)) := by ring
  have h2 : 0 ≤ e * y := by positivity
  have h3 : e * (e * y) ≤ 1 / 1024 * (e * y) := mul_le_mul_of_nonneg_right he' h2
  have h4 : (1 - e) * x ≤ (1 - e) * ((1 + 2 * e) * y) := by linarith
  exact le_of_mul_le_mul_left h4 (by linarith)

/-- One update in real numbers. -/
theorem update_real {e τ B x t x' q : ℝ} (he : 0 < e) (he' : e ≤ 1 / 1024) (hτ : 0 < τ) (hx : |x| ≤ B) (hx' : |x'| ≤ B)
    (h1 : |x' - (x + t)| ≤ e * |x + t|) (h2 : |t - q| ≤ e * |q| + τ) :
    |x' - (x + q)| ≤ 4 * e * B + 2 * τ ∧ |q| ≤ 3 * B + 2 * τ := by
  have hB : 0 ≤ B := (abs_nonneg _).trans hx
  have h3 : |x + t| ≤ (1 + 2 * e) * B := by
    refine le_of_rel he he' ?_ hB
    have := abs_sub_le (x + t) x' 0
    rw [sub_zero, sub_zero, abs_sub_comm (x + t) x'] at this
    linarith
  have h4 : |t| ≤ (2 + 2 * e) * B := by
    have := abs_sub (x + t) x
    rw [add_sub_cancel_left] at this
    linarith
  have hp : 0 ≤ (2 + 2 * e) * B + τ := by positivity
  have h5 : |q| ≤ (1 + 2 * e) * ((2 + 2 * e) * B + τ) := by
    refine le_of_rel he he' ?_ hp
    have := abs_sub_le q t 0
    rw [sub_zero, sub_zero, abs_sub_comm q t] at this
    linarith
  have e1 : 0 ≤ e * B := by positivity
  have e2 : e * (e * B) ≤ 1 / 1024 * (e * B) := mul_le_mul_of_nonneg_right he' e1
  have e3 : e * B ≤ 1 / 1024 * B := mul_le_mul_of_nonneg_right he' hB
  have e4 : e * τ ≤ 1 / 1024 * τ := mul_le_mul_of_nonneg_right he' hτ.le
  have e5 : (1 + 2 * e) * ((2 + 2 * e) * B + τ) = 2 * B + 6 * (e * B) + 4 * (e * (e * B)) + τ + 2 * (e * τ) := by ring
  have h6 : |q| ≤ 3 * B + 2 * τ := by linarith
  refine ⟨?_, h6⟩
  have h7 := abs_sub_le x' (x + t) (x + q)
  rw [add_sub_add_left_eq_sub] at h7
  have h8 : e * |x + t| ≤ e * ((1 + 2 * e) * B) := mul_le_mul_of_nonneg_left h3 he.le
  have h9 : e * |q| ≤ e * (2 * B + 6 * (e * B) + 4 * (e * (e * B)) + τ + 2 * (e * τ)) :=
    mul_le_mul_of_nonneg_left (by linarith) he.le
  have e6 : e * ((1 + 2 * e) * B) = e * B + 2 * (e * (e * B)) := by ring
  have e7 : e * (2 * B + 6 * (e * B) + 4 * (e * (e * B)) + τ + 2 * (e * τ)) =
      2 * (e * B) + 6 * (e * (e * B)) + 4 * (e * (e * (e * B))) + e * τ + 2 * (e * (e * τ)) := by ring
  have e8 : e * (e * (e * B)) ≤ 1 / 1024 * (e * (e * B)) := mul_le_mul_of_nonneg_right he' (by positivity)
  have e9 : e * (e * τ) ≤ 1 / 1024 * (e * τ) := mul_le_mul_of_nonneg_right he' (by positivity)
  linarith

section
variable [Rounding]

theorem div_wf (a b : Fl) : (a / b).WF := by
  show (div a b).WF
  rw [div]
  split
  · trivial
  split
  · split
    · trivial
    · rw [infS]; split <;> trivial
  split
  · exact zeroS_wf _
  split
  · split
    · trivial
    · rw [infS]; split <;> trivial
  split
  · exact zeroS_wf _
  · exact round_wf _

/-- One element of `x += alpha * p`. -/
theorem update_add {x a p : Fl} {B : ℝ} (hx : x.Finite) (hxB : |x.val| ≤ B) (ha : a.WF) (hp : p.WF)
    (h : (x + a * p).Finite) (hB : |(x + a * p).val| ≤ B) :
    a.Finite ∧ p.Finite ∧ |(x + a * p).val - (x.val + a.val * p.val)| ≤ 4 * eps * B + 2 * tinyErr ∧
      |a.val * p.val| ≤ 3 * B + 2 * tinyErr := by
  obtain ⟨-, ft, h1⟩ := add_near hx.wf (mul_wf a p) h
  obtain ⟨fa, fp, h2⟩ := mul_near ha hp ft
  exact ⟨fa, fp, update_real eps_pos eps_small tinyErr_pos hxB hB h1 h2⟩

/-- One element of `r -= alpha * Ap`. -/
theorem update_sub {x a p : Fl} {B : ℝ} (hx : x.Finite) (hxB : |x.val| ≤ B) (ha : a.WF) (hp : p.WF)
    (h : (x - a * p).Finite) (hB : |(x - a * p).val| ≤ B) :
    p.Finite ∧ |(x - a * p).val - (x.val - a.val * p.val)| ≤ 4 * eps * B + 2 * tinyErr := by
  have h' : (x + -(a * p)).Finite := h
  obtain ⟨-, fn, h1⟩ := add_near hx.wf (neg_wf (mul_wf a p)) h'
  have ft := neg_fin_inv (mul_wf a p) fn
  obtain ⟨fa, fp, h2⟩ := mul_near ha hp ft
  rw [(negate_finite ft).2] at h1
  have h3 : |-(a * p).val - -(a.val * p.val)| ≤ eps * |-(a.val * p.val)| + tinyErr := by
    rw [abs_neg, neg_sub_neg, abs_sub_comm]
    exact h2
  have := (update_real eps_pos eps_small tinyErr_pos hxB hB h1 h3).1
  rw [← sub_eq_add_neg] at this
  exact ⟨fp, this⟩

/-- One element of `b - A x`. -/
theorem sub_real {a b : Fl} {B : ℝ} (ha : a.WF) (hb : b.WF) (h : (a - b).Finite) (hB : |(a - b).val| ≤ B) :
    a.Finite ∧ b.Finite ∧ |(a - b).val - (a.val - b.val)| ≤ 2 * eps * B := by
  have h' : (a + -b).Finite := h
  obtain ⟨fa, fn, h1⟩ := add_near ha (neg_wf hb) h'
  have fb := neg_fin_inv hb fn
  refine ⟨fa, fb, ?_⟩
  rw [(negate_finite fb).2] at h1
  change |(a - b).val - (a.val + -b.val)| ≤ _ at h1
  rw [← sub_eq_add_neg] at h1
  generalize (a - b).val = c at *
  have hB0 : 0 ≤ B := (abs_nonneg _).trans hB
  have h2 : |a.val - b.val| ≤ (1 + 2 * eps) * B := by
    refine le_of_rel eps_pos eps_small ?_ hB0
    have := abs_sub_le (a.val - b.val) c 0
    rw [sub_zero, sub_zero, abs_sub_comm (a.val - b.val) c] at this
    linarith
  have h3 : eps * |a.val - b.val| ≤ eps * ((1 + 2 * eps) * B) := mul_le_mul_of_nonneg_left h2 eps_pos.le
  have e1 : 0 ≤ eps * B := mul_nonneg eps_pos.le hB0
  have e2 : eps * (eps * B) ≤ 1 / 1024 * (eps * B) := mul_le_mul_of_nonneg_right eps_small e1
  linarith [show eps * ((1 + 2 * eps) * B) = eps * B + 2 * (eps * (eps * B)) by ring]

/-- Sums of positive numbers. -/
theorem fold_ge (l : List Fl) (s : Fl) (hs : s.WF) (hl : ∀ x ∈ l, x.WF ∧ (x.Finite → 0 ≤ x.val))
    (hs0 : s.Finite → 0 ≤ s.val) (h : (l.foldl (· + ·) s).Finite) :
    s.Finite ∧ s.val ≤ (l.foldl (· + ·) s).val ∧ ∀ x ∈ l, x.Finite ∧ x.val ≤ (l.foldl (· + ·) s).val := by
  induction l generalizing s with
  | nil => exact ⟨h, le_refl _, by simp⟩
  | cons y l ih =>
    obtain ⟨wy, hy⟩ := hl y (by simp)
    have key : (s + y).Finite → s.Finite ∧ y.Finite ∧ s.val ≤ (s + y).val ∧ y.val ≤ (s + y).val := by
      intro hf
      obtain ⟨fs, fy, hr⟩ := add_inv hs wy hf
      have e := (add_finite fs fy hr).2
      have h1 := hs0 fs
      have h2 := hy fy
      refine ⟨fs, fy, ?_, ?_⟩
      · rw [e]
        exact le_rnd (.inl fs.val_double) (by linarith)
      · rw [e]
        exact le_rnd (.inl fy.val_double) (by linarith)
    obtain ⟨h1, h2, h3⟩ := ih (s + y) (add_wf hs wy) (fun x hx => hl x (by simp [hx])) (fun hf => by
      obtain ⟨fs, -, h4, -⟩ := key hf
      exact (hs0 fs).trans h4) h
    obtain ⟨fs, fy, h4, h5⟩ := key h1
    refine ⟨fs, h4.trans h2, fun x hx => ?_⟩
    rcases List.mem_cons.1 hx with rfl | hx
    · exact ⟨fy, h5.trans h2⟩
    · exact h3 x hx

theorem lt_fin_inv {a r : Fl} (hr : r.Finite) (ha : a.WF) (h : Fl.sqrt (Fl.abs a) < r) : a.Finite := by
  cases a with
  | fin x => exact ha
  | nzero => trivial
  | nan => exact (not_nan_lt _ h).elim
  | pinf =>
    change lt pinf r at h
    cases r <;> exact h.elim
  | ninf =>
    change lt pinf r at h
    cases r <;> exact h.elim

/-- The square of a number, in real numbers. -/
theorem square_le {e τ x s p T : ℝ} (he : 0 < e) (he' : e ≤ 1 / 1024) (hτ : 0 < τ) (hτ' : τ ≤ 1) (hs : 0 ≤ s)
    (h1 : |p - x * x| ≤ e * |x * x| + τ) (h2 : p ≤ s) (h3 : √s ≤ (1 + 2 * e) * (T + τ)) (hT : 0 ≤ T) :
    |x| ≤ (1 + 8 * e) * T + 4 * √τ := by
  rw [abs_mul_self] at h1
  have h4 : x * x ≤ (1 + 2 * e) * (s + τ) := by
    refine le_of_rel he he' ?_ (by positivity)
    linarith [(abs_le.1 h1).1]
  have h5 : |x| ≤ (1 + 2 * e) * (√s + √τ) := by
    refine abs_le_of_sq_le_sq ?_ (by positivity)
    have e1 : (√s + √τ) ^ 2 = s + τ + 2 * (√s * √τ) := by
      rw [add_sq, Real.sq_sqrt hs, Real.sq_sqrt hτ.le]
      ring
    rw [mul_pow, e1, sq x]
    have h6 : 0 ≤ √s * √τ := by positivity
    have h7 : (1 + 2 * e) * (s + τ) ≤ (1 + 2 * e) ^ 2 * (s + τ) :=
      mul_le_mul_of_nonneg_right (by nlinarith) (by positivity)
    have h8 : 0 ≤ (1 + 2 * e) ^ 2 * (2 * (√s * √τ)) := by positivity
    linarith [show (1 + 2 * e) ^ 2 * (s + τ + 2 * (√s * √τ)) = (1 + 2 * e) ^ 2 * (s + τ) + (1 + 2 * e) ^ 2 * (2 * (√s * √τ)) by ring]
  have h9 : τ ≤ √τ := by
    have := Real.sq_sqrt hτ.le
    have h10 : √τ ≤ 1 := Real.sqrt_le_one.2 hτ'
    nlinarith [Real.sqrt_nonneg τ]
  have h10 : (1 + 2 * e) * (√s + √τ) ≤ (1 + 2 * e) * ((1 + 2 * e) * (T + √τ) + √τ) := by
    refine mul_le_mul_of_nonneg_left ?_ (by linarith)
    have : (1 + 2 * e) * (T + τ) ≤ (1 + 2 * e) * (T + √τ) := mul_le_mul_of_nonneg_left (by linarith) (by linarith)
    linarith
  have hr : 0 ≤ √τ := Real.sqrt_nonneg _
  have e1 : 0 ≤ e * T := by positivity
  have e2 : e * (e * T) ≤ 1 / 1024 * (e * T) := mul_le_mul_of_nonneg_right he' e1
  have e3 : e * √τ ≤ 1 / 1024 * √τ := mul_le_mul_of_nonneg_right he' hr
  have e4 : e * (e * √τ) ≤ 1 / 1024 * (e * √τ) := mul_le_mul_of_nonneg_right he' (by positivity)
  linarith [show (1 + 2 * e) * ((1 + 2 * e) * (T + √τ) + √τ) =
    T + 4 * (e * T) + 4 * (e * (e * T)) + 2 * √τ + 6 * (e * √τ) + 4 * (e * (e * √τ)) by ring]

/-- Vectors whose norm passes the test. -/
theorem norm_lt {l : List Fl} (hl : ∀ x ∈ l, x.WF) {tol : Fl} (ht : tol.Finite)
    (h : Fl.sqrt (Fl.abs ((List.zipWith (fun x y : Fl => x * y) l l).foldl (· + ·) 0)) < tol) :
    ∀ x ∈ l, x.Finite ∧ |x.val| ≤ (1 + 2 ^ (-50 : ℤ)) * tol.val + 2 ^ (-535 : ℤ) := by
  rw [List.zipWith_self] at h
  have hw : ∀ y ∈ l.map fun x : Fl => x * x, y.WF := by
    intro y hy
    obtain ⟨x, -, rfl⟩ := List.mem_map.1 hy
    exact mul_wf _ _
  have hsw : ∀ (k : List Fl) (s : Fl), s.WF → (∀ x ∈ k, x.WF) → (k.foldl (· + ·) s).WF := by
    intro k
    induction k with
    | nil => exact fun s hs _ => hs
    | cons z k ih => exact fun s hs hk => ih _ (add_wf hs (hk z (by simp))) fun x hx => hk x (by simp [hx])
  have wf := hsw _ 0 finite_zero.wf hw
  have fs := lt_fin_inv ht wf h
  obtain ⟨-, hs0, hge⟩ := fold_ge _ 0 finite_zero.wf (fun y hy => ⟨hw y hy, fun fy => by
    obtain ⟨x, hx, rfl⟩ := List.mem_map.1 hy
    obtain ⟨f1, f2, hr⟩ := mul_inv (hl x hx) (hl x hx) fy
    rw [(mul_finite f1 f2 hr).2]
    exact rnd_nonneg (mul_self_nonneg _)⟩) (fun _ => le_refl (0 : ℝ)) fs
  generalize (l.map fun x : Fl => x * x).foldl (· + ·) 0 = s at *
  change (0 : ℝ) ≤ s.val at hs0
  obtain ⟨fa, ea⟩ := abs_finite fs
  rw [abs_of_nonneg hs0] at ea
  have hs1 : √s.val ≤ 2 ^ 1000 := by
    rw [Real.sqrt_le_left (by positivity)]
    refine ((le_abs_self _).trans fs.val_double.lt.le).trans ?_
    rw [← pow_mul]
    exact pow_le_pow_right₀ (by norm_num) (by norm_num)
  have hr : |rnd (√s.val)| < 2 ^ 1024 := rnd_lt_of (by rw [abs_of_nonneg (Real.sqrt_nonneg _)]; exact hs1)
  obtain ⟨fq, eq⟩ := sqrt_finite fa (by rw [ea]; exact hs0) (by rw [ea]; exact hr)
  rw [lt_finite fq ht, eq, ea] at h
  have hT : 0 ≤ tol.val := (rnd_nonneg (Real.sqrt_nonneg s.val)).trans h.le
  have h3 : √s.val ≤ (1 + 2 * eps) * (tol.val + tinyErr) := by
    refine le_of_rel eps_pos eps_small ?_ (add_nonneg hT tinyErr_pos.le)
    have h4 : |rnd (√s.val) - √s.val| ≤ eps * |√s.val| + tinyErr := rnd_err (lt_of_rnd hr)
    rw [abs_of_nonneg (Real.sqrt_nonneg s.val)] at h4
    linarith [(abs_le.1 h4).1]
  have ht1 : tinyErr ≤ 1 := zpow_le_one_of_nonpos₀ (by norm_num) (by norm_num)
  have ht2 : 4 * √tinyErr ≤ 2 ^ (-535 : ℤ) := by
    have : √tinyErr ≤ 2 ^ (-537 : ℤ) := by
      rw [Real.sqrt_le_left (by positivity), tinyErr, ← zpow_natCast, ← zpow_mul]
      exact zpow_le_zpow_right₀ (by norm_num) (by norm_num)
    have e : (2 : ℝ) ^ (-535 : ℤ) = 4 * 2 ^ (-537 : ℤ) := by
      rw [show (4 : ℝ) = 2 ^ (2 : ℤ) by norm_num, ← zpow_add₀ (by norm_num)]
      norm_num
    rw [e]
    linarith
  have h50 : (2 : ℝ) ^ (-50 : ℤ) = 8 * eps := by
    rw [eps, show (8 : ℝ) = 2 ^ (3 : ℤ) by norm_num, ← zpow_add₀ (by norm_num)]
    norm_num
  intro x hx
  obtain ⟨f1, f2⟩ := hge _ (List.mem_map.2 ⟨x, hx, rfl⟩)
  obtain ⟨fx, -, h1⟩ := mul_near (hl x hx) (hl x hx) f1
  refine ⟨fx, ?_⟩
  have := square_le eps_pos eps_small tinyErr_pos ht1 hs0 h1 f2 h3 hT
  rw [h50]
  linarith

end

end Verif.CgsFl
