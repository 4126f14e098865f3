import Verif.Lemmas.Float
/-
Laws of single operations on doubles, for C138.
-/
namespace Verif.Fl

open Verif Rounding

/-- Infinities replaced by the next power of two. -/
noncomputable def big : Fl → ℝ
  | pinf => 2 ^ 1024
  | ninf => -2 ^ 1024
  | a => a.val

theorem big_finite {a : Fl} (h : a.Finite) : big a = a.val := by cases a <;> first | rfl | exact absurd h id

theorem huge_pos : (0 : ℝ) < 2 ^ 1024 := by positivity

theorem le_iff_big {a b : Fl} (ha : a.WF) (hb : b.WF) (na : a ≠ nan) (nb : b ≠ nan) : a ≤ b ↔ big a ≤ big b := by
  have e : a ≤ b ↔ ¬ b < a := ⟨fun h => h.2.2, fun h => ⟨na, nb, h⟩⟩
  have key : lt b a ↔ big b < big a := by
    have hp := huge_pos
    have d : ∀ x : ℝ, IsDouble x → x < 2 ^ 1024 ∧ -2 ^ 1024 < x := fun x h => ⟨(abs_lt.1 h.lt).2, (abs_lt.1 h.lt).1⟩
    cases a <;> cases b <;> simp only [lt, big, val, ne_eq, not_true, reduceCtorEq, WF] at * <;>
      generalize (2 : ℝ) ^ 1024 = H at * <;>
      first
        | rfl
        | (constructor <;> intro h <;> first | trivial | linarith | exact h.elim | (have := d _ ha; linarith) | (have := d _ hb; linarith))
  rw [e]
  show ¬ lt b a ↔ _
  rw [key, not_lt]

theorem ninf_le {a : Fl} (na : a ≠ nan) : ninf ≤ a :=
  ⟨by simp, na, fun h => by cases a <;> exact h⟩

theorem le_pinf {a : Fl} (na : a ≠ nan) : a ≤ pinf :=
  ⟨na, by simp, fun h => by cases a <;> exact h⟩

theorem finite_of_ne {a : Fl} (h : a.WF) (h1 : a ≠ nan) (h2 : a ≠ pinf) (h3 : a ≠ ninf) : a.Finite := by
  cases a <;> trivial

theorem eq_ninf {a : Fl} (h : a ≤ ninf) : a = ninf := by
  have h1 := h.1
  have h2 : ¬ lt ninf a := h.2.2
  cases a <;> first | rfl | exact absurd rfl h1 | exact absurd trivial h2

theorem eq_pinf {a : Fl} (h : pinf ≤ a) : a = pinf := by
  have h1 := h.2.1
  have h2 : ¬ lt a pinf := h.2.2
  cases a <;> first | rfl | exact absurd rfl h1 | exact absurd trivial h2

theorem negate_wf {a : Fl} (h : a.WF) : (-a).WF := by
  show (negate a).WF
  cases a with
  | fin x =>
    simp only [negate]
    split
    · trivial
    · exact IsDouble.neg h
  | nzero => exact isDouble_zero
  | _ => trivial

/-- Twice the other sign. -/
theorem neg_neg' (a : Fl) : -(-a) = a := by
  show negate (negate a) = a
  cases a with
  | fin x =>
    by_cases h : x = 0
    · simp [negate, h]
    · simp [negate, h]
  | nzero => simp [negate]
  | _ => rfl

theorem negate_facts (a : Fl) : (-a = nan ↔ a = nan) ∧ (-a).isInf = a.isInf ∧ (-a).val = -a.val ∧
    (a ≠ nan → (-a).neg = !a.neg) := by
  show (negate a = nan ↔ _) ∧ (negate a).isInf = _ ∧ (negate a).val = _ ∧ (a ≠ nan → (negate a).neg = _)
  cases a with
  | fin x =>
    by_cases h : x = 0
    · subst h
      simp [negate, isInf, val, neg]
    · refine ⟨by simp [negate, h], by simp [negate, h, isInf], by simp [negate, h, val], fun _ => ?_⟩
      simp only [negate, h, if_false, neg]
      rcases lt_or_gt_of_ne h with h | h
      · simp [h, h.le]
      · simp [h, h.le]
  | nzero => simp [negate, isInf, val, neg]
  | nan => simp [negate, isInf, val]
  | pinf => simp [negate, isInf, val, neg]
  | ninf => simp [negate, isInf, val, neg]

section
variable [Rounding]

theorem big_round (x : ℝ) : big (round x) = rnd x := by
  have h := (target x).le
  rw [abs_le] at h
  unfold round
  split_ifs with h1 h2 h3
  · exact le_antisymm h1 h.2
  · exact le_antisymm h.1 h2
  · unfold zeroS
    split <;> simp [big, val, h3]
  · rfl

theorem big_add {a b : Fl} (ha : a.Finite) (hb : b.Finite) : big (a + b) = rnd (a.val + b.val) := by
  by_cases hz : a = nzero ∧ b = nzero
  · obtain ⟨rfl, rfl⟩ := hz
    simp only [val, add_zero, rnd_zero]
    rfl
  · rw [add_def ha hb (by tauto)]
    split
    · rename_i h
      rw [h, rnd_zero]
      rfl
    · exact big_round _

theorem big_mul {a b : Fl} (ha : a.Finite) (hb : b.Finite) : big (a * b) = rnd (a.val * b.val) := by
  show big (mul a b) = _
  unfold mul
  rw [if_neg (by simp [ha.ne_nan, hb.ne_nan]), if_neg (by simp [ha.not_inf, hb.not_inf])]
  split
  · rename_i h
    rw [h, rnd_zero, big_finite (zeroS_finite _).1, (zeroS_finite _).2]
  · exact big_round _

theorem add_comm' (a b : Fl) : a + b = b + a := by
  show add a b = add b a
  cases a <;> cases b <;> first | rfl | (simp only [add]; rw [_root_.add_comm])

theorem mul_comm' (a b : Fl) : a * b = b * a := by
  show mul a b = mul b a
  unfold mul
  simp only [or_comm (a := a = nan) (b := b = nan), or_comm (a := a.isInf = true) (b := b.isInf = true),
    or_comm (a := a.isInf = false ∧ a.val = 0) (b := b.isInf = false ∧ b.val = 0), Bool.xor_comm a.neg b.neg,
    mul_comm a.val b.val]

theorem sub_def (a b : Fl) : a - b = a + -b := rfl

theorem add_wf {a b : Fl} (ha : a.WF) (hb : b.WF) : (a + b).WF := by
  show (add a b).WF
  cases a <;> cases b <;> first | trivial | (simp only [add]; split <;> first | exact isDouble_zero | exact round_wf _)

theorem mul_wf {a b : Fl} : (a * b).WF := by
  show (mul a b).WF
  unfold mul
  split_ifs
  · trivial
  · trivial
  · unfold infS; split <;> trivial
  · exact (zeroS_finite _).1.wf
  · exact round_wf _

/-- Addition keeps the order. -/
theorem add_le {a b x y : Fl} (ha : a.WF) (hb : b.WF) (hx : x.WF) (hy : y.WF) (h : a ≤ b) (h' : x ≤ y)
    (n1 : a + x ≠ nan) (n2 : b + y ≠ nan) : a + x ≤ b + y := by
  have an := h.1
  have bn := h.2.1
  have xn := h'.1
  have yn := h'.2.1
  by_cases a1 : a = ninf
  · subst a1
    have : ninf + x = ninf := by
      cases x <;> first | rfl | exact absurd rfl n1
    rw [this]
    exact ninf_le n2
  by_cases x1 : x = ninf
  · subst x1
    have : a + ninf = ninf := by
      cases a <;> first | rfl | exact absurd rfl n1
    rw [this]
    exact ninf_le n2
  by_cases b1 : b = pinf
  · subst b1
    have : pinf + y = pinf := by
      cases y <;> first | rfl | exact absurd rfl n2
    rw [this]
    exact le_pinf n1
  by_cases y1 : y = pinf
  · subst y1
    have : b + pinf = pinf := by
      cases b <;> first | rfl | exact absurd rfl n2
    rw [this]
    exact le_pinf n1
  have fa := finite_of_ne ha an (fun e => b1 (eq_pinf (e ▸ h))) a1
  have fb := finite_of_ne hb bn b1 (fun e => a1 (eq_ninf (e ▸ h)))
  have fx := finite_of_ne hx xn (fun e => y1 (eq_pinf (e ▸ h'))) x1
  have fy := finite_of_ne hy yn y1 (fun e => x1 (eq_ninf (e ▸ h')))
  rw [le_iff_big (add_wf ha hx) (add_wf hb hy) n1 n2, big_add fa fx, big_add fb fy]
  exact rnd_mono (add_le_add ((le_finite fa fb).1 h) ((le_finite fx fy).1 h'))

omit [Rounding] in
theorem one_val : (1 : Fl) = fin 1 := rfl

omit [Rounding] in
theorem isDouble_one : IsDouble 1 := by
  have := isDouble_int (n := 1) (by norm_num)
  simpa using this

theorem round_double {x : ℝ} (h : IsDouble x) (h0 : x ≠ 0) : round x = fin x := by
  have hr := rnd_exact (.inl h)
  have := abs_lt.1 h.lt
  unfold round
  rw [hr, if_neg (not_le.2 this.2), if_neg (not_le.2 this.1), if_neg h0]

theorem mul_one' {a : Fl} (h : a.WF) : a * 1 = a := by
  show mul a (fin 1) = a
  cases a with
  | nan => simp [mul]
  | pinf => simp [mul, isInf, val, neg, infS]
  | ninf => simp [mul, isInf, val, neg, infS]
  | nzero => simp [mul, isInf, val, neg, zeroS]
  | fin x =>
    by_cases h0 : x = 0
    · simp [mul, isInf, val, neg, zeroS, h0]
    · simp [mul, isInf, val, h0, round_double h h0]

theorem div_one' {a : Fl} (h : a.WF) : a / 1 = a := by
  show div a (fin 1) = a
  cases a with
  | nan => simp [div]
  | pinf => simp [div, isInf, neg, infS]
  | ninf => simp [div, isInf, neg, infS]
  | nzero => simp [div, isInf, val, neg, zeroS]
  | fin x =>
    by_cases h0 : x = 0
    · simp [div, isInf, val, neg, zeroS, h0]
    · simp [div, isInf, val, h0, round_double h h0]

theorem add_nzero {a : Fl} (h : a.WF) : a + nzero = a := by
  show add a nzero = a
  cases a with
  | fin x =>
    by_cases h0 : x = 0
    · simp [add, val, h0]
    · simp [add, val, h0, round_double h h0]
  | _ => rfl

theorem sub_zero' {a : Fl} (h : a.WF) : a - 0 = a := by
  have : -(0 : Fl) = nzero := if_pos rfl
  rw [sub_def, this, add_nzero h]

/-- Adding zero changes the sign of the negative zero only. -/
theorem add_zero' {a : Fl} (h : a.WF) : a + 0 = if a = nzero then 0 else a := by
  show add a (fin 0) = _
  cases a with
  | fin x =>
    by_cases h0 : x = 0
    · simp [add, val, h0]
    · simp [add, val, h0, round_double h h0]
  | nzero => simp [add, val]; rfl
  | _ => simp [add]

theorem sub_self' {a : Fl} (h : a.Finite) : a - a = 0 := by
  rw [sub_def, add_def h (negate_finite h).1, if_pos (by rw [(negate_finite h).2]; ring)]
  · rfl
  · cases a with
    | fin x => exact .inl (by simp)
    | nzero => exact .inr (by show negate nzero ≠ nzero; simp [negate])
    | _ => exact absurd h id

theorem div_self' {a : Fl} (h : a.Finite) (h0 : a.val ≠ 0) : a / a = 1 := by
  show div a a = fin 1
  unfold div
  rw [if_neg (by simp [h.ne_nan]), if_neg (by simp [h.not_inf]), if_neg (by simp [h.not_inf]), if_neg h0, if_neg h0,
    div_self h0, round_double isDouble_one one_ne_zero]

/-- Twice a number. -/
theorem add_self' (a : Fl) : a + a = fin 2 * a := by
  show add a a = mul (fin 2) a
  cases a with
  | nan => simp [add, mul]
  | pinf => simp [add, mul, isInf, val, neg, infS]
  | ninf => simp [add, mul, isInf, val, neg, infS]
  | nzero => simp [add, mul, isInf, val, neg, zeroS]
  | fin x =>
    by_cases h0 : x = 0
    · simp [add, mul, isInf, val, neg, zeroS, h0]
    · have e : x + x = 2 * x := by ring
      simp [add, mul, isInf, val, h0, e]

/-- Both signs changed. -/
theorem neg_mul_neg' (a b : Fl) : -a * -b = a * b := by
  obtain ⟨a1, a2, a3, a4⟩ := negate_facts a
  obtain ⟨b1, b2, b3, b4⟩ := negate_facts b
  show mul (-a) (-b) = mul a b
  by_cases hn : a = nan ∨ b = nan
  · simp [mul, a1, b1, hn]
  · have hn' := not_or.1 hn
    simp only [mul, a1, b1, a2, b2, a3, b3, a4 hn'.1, b4 hn'.2, neg_mul_neg, neg_eq_zero, Bool.not_bne, Bool.bne_not, Bool.not_not]

/-- The sign may be changed in either factor. -/
theorem neg_mul_comm' (a b : Fl) : -a * b = a * -b := by
  rw [← neg_mul_neg' a (-b), neg_neg']

/-- With a rounding which does not depend on the sign, as roundTiesToEven. -/
theorem round_neg (odd : ∀ x : ℝ, rnd (-x) = -rnd x) {x : ℝ} (h0 : x ≠ 0) : round (-x) = -round x := by
  show _ = negate (round x)
  have h := (target x).le
  rw [abs_le] at h
  have hp := huge_pos
  unfold round
  rw [odd]
  generalize (2 : ℝ) ^ 1024 = H at *
  generalize rnd x = y at *
  by_cases h1 : H ≤ y
  · rw [if_neg (by linarith), if_pos (by linarith), if_pos h1]; rfl
  · by_cases h2 : y ≤ -H
    · rw [if_pos (by linarith), if_neg h1, if_pos h2]; rfl
    · rw [if_neg (by linarith), if_neg (by linarith), if_neg h1, if_neg h2]
      by_cases h3 : y = 0
      · rw [if_pos (by linarith), if_pos h3]
        rcases lt_or_gt_of_ne h0 with h4 | h4
        · simp [zeroS, h4, h4.le, negate]
        · simp [zeroS, h4, not_lt.2 h4.le, negate]
      · rw [if_neg (by simpa using h3), if_neg h3]
        simp [negate, h3]

theorem neg_mul' (odd : ∀ x : ℝ, rnd (-x) = -rnd x) (a b : Fl) : -a * b = -(a * b) := by
  obtain ⟨a1, a2, a3, a4⟩ := negate_facts a
  show mul (-a) b = -(mul a b)
  by_cases hn : a = nan ∨ b = nan
  · simp [mul, a1, hn]; rfl
  · have hn' := not_or.1 hn
    have hz : ∀ s : Bool, zeroS (!s) = -zeroS s := fun s => by
      show _ = negate _
      cases s <;> simp [zeroS, negate]
    have hi : ∀ s : Bool, infS (!s) = -infS s := fun s => by cases s <;> rfl
    have e3 : ∀ s t : Bool, ((!s) ^^ t) = !(s ^^ t) := by decide
    simp only [mul, a1, a2, a3, a4 hn'.1, neg_mul, neg_eq_zero, if_neg hn, e3, hz, hi]
    split_ifs
    · rfl
    · rfl
    · rfl
    · exact round_neg odd ‹_›

end

end Verif.Fl
