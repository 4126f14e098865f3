import Verif.Model.Reduce
import Verif.Model.Cgs
import Verif.Lemmas.Float
import Verif.Lemmas.Arith
import Verif.Lemmas.Modify
import Mathlib.Tactic.GCongr
/-
C84: NaN in the functions which reduce a tensor to a number. C85: the accuracy of sums, scalar products
and norms. The functions of Model/Reduce.lean with numbers of type double.
-/
namespace Verif.Fl

open Verif Tensor Rounding

variable [Rounding]

theorem scprod_fold {α : Type} [Zero α] [Add α] [Mul α] (conj : α → α) (a b : Tensor α)
    (h : a.data.length ≤ b.data.length) :
    scprod conj a b = .ok ((List.zipWith (fun x y => x * conj y) a.data b.data).foldl (· + ·) 0) := by
  have e : a.data.zipIdx.map (fun (x, i) => (do
      let y ← b.data[i]?
      pure (x * conj y) : Option α)) =
      (List.zipWith (fun x y => x * conj y) a.data b.data).map some := by
    apply List.ext_getElem?
    intro i
    by_cases hi : i < a.data.length
    · have hb : i < b.data.length := by omega
      simp [List.getElem?_zipWith, hi, hb]
    · rw [List.getElem?_eq_none (by simp; omega), List.getElem?_eq_none (by simp; omega)]
  have key : ∀ (l : List α) z, accum z (l.map some) = some (l.foldl (· + ·) z) := by
    intro l
    induction l with
    | nil => intro z; rfl
    | cons x xs ih => intro z; simp [accum, ih]
  rw [scprod, e, key]
  rfl

/-! ### NaN -/

theorem foldl_nan (l : List Fl) : l.foldl (· + ·) nan = nan := by
  induction l with
  | nil => rfl
  | cons x xs ih => rw [List.foldl_cons, nan_add, ih]

theorem foldl_mem_nan (l : List Fl) (s : Fl) (h : nan ∈ l) : l.foldl (· + ·) s = nan := by
  induction l generalizing s with
  | nil => simp at h
  | cons x xs ih =>
    rw [List.foldl_cons]
    rcases List.mem_cons.1 h with h | h
    · rw [← h, add_nan, foldl_nan]
    · exact ih _ h

/-- C84: a sum, a mean, a scalar product or a norm with a NaN is NaN. -/
theorem c84_nan (t : Tensor Fl) (h : nan ∈ t.data) :
    sumAll t = nan ∧ meanAll (fun s n => s / (n : Fl)) t = nan ∧
    norm2 id id sqrt t = .ok nan ∧
    ∀ b : Tensor Fl, b.data.length = t.data.length → scprod id t b = .ok nan ∧ scprod id b t = .ok nan := by
  have hs : sumAll t = nan := foldl_mem_nan _ _ h
  have hp : ∀ b : Tensor Fl, b.data.length = t.data.length →
      scprod id t b = .ok nan ∧ scprod id b t = .ok nan := by
    intro b hb
    obtain ⟨i, hi⟩ := List.mem_iff_getElem?.1 h
    have hi' : i < t.data.length := (List.getElem?_eq_some_iff.1 hi).1
    have hbi : b.data[i]? = some (b.data[i]'(by omega)) := List.getElem?_eq_getElem _
    rw [scprod_fold _ _ _ hb.ge, scprod_fold _ _ _ hb.le]
    refine ⟨congrArg Res.ok (foldl_mem_nan _ _ ?_), congrArg Res.ok (foldl_mem_nan _ _ ?_)⟩
    · refine List.mem_iff_getElem?.2 ⟨i, ?_⟩
      rw [List.getElem?_zipWith, hi, hbi]
      show some (nan * _) = _
      rw [nan_mul]
    · refine List.mem_iff_getElem?.2 ⟨i, ?_⟩
      rw [List.getElem?_zipWith, hi, hbi]
      show some (_ * nan) = _
      rw [mul_nan]
  refine ⟨hs, ?_, ?_, hp⟩
  · rw [meanAll, hs, nan_div]
  · rw [norm2, (hp t rfl).1]; rfl

/-- The hypothesis can be met. -/
example : nan ∈ (⟨[2], [1, nan]⟩ : Tensor Fl).data := by simp

theorem finite_cases {a : Fl} (hw : a.WF) (h : a ≠ nan) : a = pinf ∨ a = ninf ∨ a.Finite := by
  cases a with
  | nan => exact absurd rfl h
  | pinf => exact Or.inl rfl
  | ninf => exact Or.inr (Or.inl rfl)
  | nzero => exact Or.inr (Or.inr trivial)
  | fin x => exact Or.inr (Or.inr hw)

theorem add_ne_nan {a b : Fl} (ha : a ≠ nan) (hw : a.WF) (hb : b.Finite) : a + b ≠ nan ∧ (a + b).WF := by
  rcases finite_cases hw ha with rfl | rfl | h
  · have : (pinf : Fl) + b = pinf := by cases b <;> first | rfl | exact hb.elim
    rw [this]; exact ⟨nofun, trivial⟩
  · have : (ninf : Fl) + b = ninf := by cases b <;> first | rfl | exact hb.elim
    rw [this]; exact ⟨nofun, trivial⟩
  · by_cases hz : a ≠ nzero ∨ b ≠ nzero
    · rw [add_def h hb hz]
      split
      · exact ⟨nofun, isDouble_zero⟩
      · exact ⟨round_ne_nan _, round_wf _⟩
    · rw [not_or, not_not, not_not] at hz
      obtain ⟨rfl, rfl⟩ := hz
      exact ⟨nofun, trivial⟩

/-- C84: the sum of finite numbers is not NaN, not even with overflow. -/
theorem c84_sum_finite (t : Tensor Fl) (h : ∀ x ∈ t.data, x.Finite) : sumAll t ≠ nan := by
  have key : ∀ (l : List Fl) (s : Fl), (∀ x ∈ l, x.Finite) → s ≠ nan → s.WF → l.foldl (· + ·) s ≠ nan := by
    intro l
    induction l with
    | nil => intro s _ h _; exact h
    | cons x xs ih =>
      intro s hl h1 h2
      rw [List.foldl_cons]
      have := add_ne_nan h1 h2 (hl x (by simp))
      exact ih _ (fun y hy => hl y (by simp [hy])) this.1 this.2
  exact key _ _ h (nofun) isDouble_zero

/-- C84: the sum of numbers with both infinities among them is not a number, in whichever order they are. -/
theorem c84_sum_infinities (t : Tensor Fl) (h1 : pinf ∈ t.data) (h2 : ninf ∈ t.data) : sumAll t = nan := by
  have pn : ∀ x : Fl, pinf + x = pinf ∨ pinf + x = nan := fun x => by cases x <;> first | exact Or.inl rfl | exact Or.inr rfl
  have nn : ∀ x : Fl, ninf + x = ninf ∨ ninf + x = nan := fun x => by cases x <;> first | exact Or.inl rfl | exact Or.inr rfl
  have hp : ∀ (l : List Fl), ninf ∈ l → l.foldl (· + ·) pinf = nan := by
    intro l
    induction l with
    | nil => intro h; cases h
    | cons x xs ih =>
      intro h
      rw [List.foldl_cons]
      rcases List.mem_cons.1 h with h | h
      · rw [← h]
        exact foldl_nan xs
      · rcases pn x with e | e
        · rw [e]; exact ih h
        · rw [e]; exact foldl_nan xs
  have hn : ∀ (l : List Fl), pinf ∈ l → l.foldl (· + ·) ninf = nan := by
    intro l
    induction l with
    | nil => intro h; cases h
    | cons x xs ih =>
      intro h
      rw [List.foldl_cons]
      rcases List.mem_cons.1 h with h | h
      · rw [← h]
        exact foldl_nan xs
      · rcases nn x with e | e
        · rw [e]; exact ih h
        · rw [e]; exact foldl_nan xs
  have ps : ∀ s : Fl, s + pinf = pinf ∨ s + pinf = nan := fun s => by cases s <;> first | exact Or.inl rfl | exact Or.inr rfl
  have ns : ∀ s : Fl, s + ninf = ninf ∨ s + ninf = nan := fun s => by cases s <;> first | exact Or.inl rfl | exact Or.inr rfl
  have key : ∀ (l : List Fl) (s : Fl), pinf ∈ l → ninf ∈ l → l.foldl (· + ·) s = nan := by
    intro l
    induction l with
    | nil => intro s h; cases h
    | cons x xs ih =>
      intro s h1 h2
      rw [List.foldl_cons]
      rcases List.mem_cons.1 h1 with e1 | h1
      · rcases List.mem_cons.1 h2 with e2 | h2
        · rw [← e1] at e2; cases e2
        · rw [← e1]
          rcases ps s with e | e
          · rw [e]; exact hp xs h2
          · rw [e]; exact foldl_nan xs
      · rcases List.mem_cons.1 h2 with e2 | h2
        · rw [← e2]
          rcases ns s with e | e
          · rw [e]; exact hn xs h1
          · rw [e]; exact foldl_nan xs
        · exact ih _ h1 h2
  exact key _ _ h1 h2

example : pinf ∈ (⟨[3], [pinf, fin 1, ninf]⟩ : Tensor Fl).data ∧ ninf ∈ (⟨[3], [pinf, fin 1, ninf]⟩ : Tensor Fl).data := by
  simp

/-- C84: the mean of no elements is NaN. -/
theorem c84_mean_empty (t : Tensor Fl) (h : t.data = []) : meanAll (fun s n => s / (n : Fl)) t = nan := by
  have h0 : ((0 : ℕ) : Fl) = fin 0 := show ofInt ((0 : ℕ) : ℤ) = _ by simp [ofInt]
  rw [meanAll, sumAll, Tensor.size, h]
  show div (fin 0) ((0 : ℕ) : Fl) = nan
  rw [h0]
  simp [div, isInf, val]

/-- Numbers, or the positive infinity, which are not negative. -/
def NonNeg (a : Fl) : Prop := a = pinf ∨ (a.Finite ∧ 0 ≤ a.val)

theorem round_nonNeg {x : ℝ} (h : 0 ≤ x) : NonNeg (round x) := by
  by_cases h1 : 2 ^ 1024 ≤ rnd x
  · left; rw [round, if_pos h1]
  · right
    have h2 := round_finite (x := x) (by rw [abs_of_nonneg (rnd_nonneg h)]; exact not_le.1 h1)
    exact ⟨h2.1, by rw [h2.2]; exact rnd_nonneg h⟩

theorem nonNeg_add {a b : Fl} (ha : NonNeg a) (hb : NonNeg b) : NonNeg (a + b) := by
  rcases ha with rfl | ⟨ha, ha0⟩
  · left
    rcases hb with rfl | ⟨hb, -⟩
    · rfl
    · cases b <;> first | rfl | exact hb.elim
  · rcases hb with rfl | ⟨hb, hb0⟩
    · left; cases a <;> first | rfl | exact ha.elim
    · by_cases hz : a ≠ nzero ∨ b ≠ nzero
      · rw [add_def ha hb hz]
        split
        · exact Or.inr ⟨isDouble_zero, le_refl _⟩
        · exact round_nonNeg (by linarith)
      · rw [not_or, not_not, not_not] at hz
        obtain ⟨rfl, rfl⟩ := hz
        exact Or.inr ⟨trivial, le_refl _⟩

theorem nonNeg_sq {a : Fl} (hw : a.WF) (h : a ≠ nan) : NonNeg (a * a) := by
  rcases finite_cases hw h with rfl | rfl | h
  · left; show mul pinf pinf = pinf; simp [mul, isInf, neg, infS]
  · left; show mul ninf ninf = pinf; simp [mul, isInf, neg, infS]
  · show NonNeg (mul a a)
    rw [mul, if_neg (by simp [h.ne_nan]), if_neg (by simp [h.not_inf])]
    split
    · right
      have := zeroS_finite (a.neg ^^ a.neg)
      exact ⟨this.1, this.2.ge⟩
    · exact round_nonNeg (mul_self_nonneg _)

theorem nonNeg_fold (l : List Fl) (s : Fl) (hs : NonNeg s) (h : ∀ x ∈ l, NonNeg x) :
    NonNeg (l.foldl (· + ·) s) := by
  induction l generalizing s with
  | nil => exact hs
  | cons x xs ih =>
    rw [List.foldl_cons]
    exact ih _ (nonNeg_add hs (h x (by simp))) fun y hy => h y (by simp [hy])

theorem norm2_eq (t : Tensor Fl) :
    norm2 id id sqrt t = .ok (sqrt ((t.data.map fun x => x * x).foldl (· + ·) 0)) := by
  rw [norm2, scprod_fold _ _ _ (le_refl _), Res.ok_bind]
  have : List.zipWith (fun x y : Fl => x * id y) t.data t.data = t.data.map fun x => x * x := by
    rw [List.zipWith_self]; rfl
  rw [this]; rfl

/-- C84: a norm is NaN exactly if an element is. -/
theorem c84_norm2 (t : Tensor Fl) (hw : ∀ x ∈ t.data, x.WF) :
    norm2 id id sqrt t = .ok nan ↔ nan ∈ t.data := by
  refine ⟨fun h => ?_, fun h => (c84_nan t h).2.2.1⟩
  by_contra hc
  rw [norm2_eq] at h
  injection h with h
  have hn : NonNeg ((t.data.map fun x => x * x).foldl (· + ·) 0) := by
    refine nonNeg_fold _ _ (Or.inr ⟨isDouble_zero, le_refl _⟩) fun x hx => ?_
    obtain ⟨y, hy, rfl⟩ := List.mem_map.1 hx
    exact nonNeg_sq (hw y hy) fun e => hc (e ▸ hy)
  revert h
  generalize (t.data.map fun x => x * x).foldl (· + ·) 0 = r at hn
  rcases hn with rfl | ⟨h1, h2⟩
  · exact nofun
  · cases r with
    | fin x =>
      have h2 : 0 ≤ x := h2
      rw [sqrt, if_neg (not_lt.2 h2)]
      split
      · exact nofun
      · exact round_ne_nan _
    | nzero => exact nofun
    | _ => exact h1.elim

omit [Rounding] in
theorem fl_lt_trans {a b c : Fl} (h1 : a < b) (h2 : b < c) : a < c := by
  change lt a b at h1
  change lt b c at h2
  show lt a c
  cases a <;> cases b <;> cases c <;> simp only [lt, val] at * <;> linarith

omit [Rounding] in
theorem fl_lt_irrefl (a : Fl) : ¬ a < a := by
  show ¬ lt a a
  cases a <;> simp [lt, val]

omit [Rounding] in
/-- Numbers which are not NaN are in order. -/
theorem lt_of_not {a b c : Fl} (h1 : ¬ a < b) (hb : b ≠ nan) (h2 : a < c) : b < c := by
  change ¬ lt a b at h1
  change lt a c at h2
  show lt b c
  cases a <;> cases b <;> cases c <;> simp only [lt, val, not_true_eq_false, not_false_eq_true, ne_eq] at * <;> linarith

omit [Rounding] in
/-- C84: norm0 is the largest absolute value of the elements which are not NaN: it is never NaN. -/
theorem c84_negation_norm0 (t : Tensor Fl) :
    norm0 abs t ≠ nan ∧ (norm0 abs t = 0 ∨ ∃ x ∈ t.data, norm0 abs t = abs x) ∧
    (∀ x ∈ t.data, ¬ norm0 abs t < abs x) ∧
    norm0 abs t = norm0 abs ⟨t.dims, t.data.filter (· ≠ nan)⟩ := by
  have key : ∀ (l : List Fl) (o : Fl), o ≠ nan →
      let m := l.foldl (fun o x => if o < abs x then abs x else o) o
      m ≠ nan ∧ (m = o ∨ ∃ x ∈ l, m = abs x) ∧ (¬ m < o) ∧ (∀ x ∈ l, ¬ m < abs x) ∧
      m = (l.filter (· ≠ nan)).foldl (fun o x => if o < abs x then abs x else o) o := by
    intro l
    induction l with
    | nil => intro o ho; exact ⟨ho, Or.inl rfl, fl_lt_irrefl _, by simp, rfl⟩
    | cons x xs ih =>
      intro o ho
      by_cases h : o < abs x
      · have hx : abs x ≠ nan := fun e => not_lt_nan _ (e ▸ h)
        have hx' : x ≠ nan := fun e => hx (by rw [e]; rfl)
        obtain ⟨h1, h2, h3, h4, h5⟩ := ih (abs x) hx
        simp only [List.foldl_cons, if_pos h]
        refine ⟨h1, ?_, fun h6 => h3 (fl_lt_trans h6 h), ?_, ?_⟩
        · rcases h2 with h2 | ⟨y, hy, h2⟩
          · exact Or.inr ⟨x, by simp, h2⟩
          · exact Or.inr ⟨y, by simp [hy], h2⟩
        · intro y hy
          rcases List.mem_cons.1 hy with rfl | hy
          · exact h3
          · exact h4 y hy
        · rw [List.filter_cons_of_pos (by simpa using hx'), List.foldl_cons, if_pos h]
          exact h5
      · obtain ⟨h1, h2, h3, h4, h5⟩ := ih o ho
        simp only [List.foldl_cons, if_neg h]
        refine ⟨h1, ?_, h3, ?_, ?_⟩
        · rcases h2 with h2 | ⟨y, hy, h2⟩
          · exact Or.inl h2
          · exact Or.inr ⟨y, by simp [hy], h2⟩
        · intro y hy
          rcases List.mem_cons.1 hy with rfl | hy
          · intro h6
            rcases h2 with h2 | ⟨z, hz, h2⟩
            · rw [h2] at h6; exact h h6
            · exact h (lt_of_not h3 ho h6)
          · exact h4 y hy
        · by_cases hx : x = nan
          · rw [List.filter_cons_of_neg (by simp [hx])]
            exact h5
          · rw [List.filter_cons_of_pos (by simpa using hx), List.foldl_cons, if_neg h]
            exact h5
  obtain ⟨h1, h2, h3, h4, h5⟩ := key t.data 0 (nofun)
  exact ⟨h1, h2, h4, h5⟩

/-- A tensor of NaN has norm0 zero. -/
example : norm0 abs (⟨[1], [nan]⟩ : Tensor Fl) = 0 := by
  simp [norm0, not_lt_nan, abs]

omit [Rounding] in
theorem maxFrom_nan (l : List Fl) : maxFrom nan l = nan := by
  induction l with
  | nil => rfl
  | cons x xs ih => rw [maxFrom, if_neg (not_nan_lt _), ih]

omit [Rounding] in
theorem minFrom_nan (l : List Fl) : minFrom nan l = nan := by
  induction l with
  | nil => rfl
  | cons x xs ih => rw [minFrom, if_neg (not_lt_nan _), ih]

omit [Rounding] in
theorem maxFrom_float (l : List Fl) (o : Fl) (ho : o ≠ nan) :
    maxFrom o l ≠ nan ∧ maxFrom o l ∈ o :: l ∧ ∀ y ∈ o :: l, ¬ maxFrom o l < y := by
  induction l generalizing o with
  | nil => exact ⟨ho, by simp [maxFrom], by simpa [maxFrom] using fl_lt_irrefl _⟩
  | cons x xs ih =>
    rw [maxFrom]
    by_cases h : o < x
    · have hx : x ≠ nan := fun e => not_lt_nan _ (e ▸ h)
      obtain ⟨h1, h2, h3⟩ := ih x hx
      rw [if_pos h]
      refine ⟨h1, List.mem_cons_of_mem _ h2, fun y hy => ?_⟩
      rcases List.mem_cons.1 hy with rfl | hy
      · exact fun h6 => h3 x (by simp) (fl_lt_trans h6 h)
      · exact h3 y hy
    · obtain ⟨h1, h2, h3⟩ := ih o ho
      rw [if_neg h]
      refine ⟨h1, ?_, fun y hy => ?_⟩
      · rcases List.mem_cons.1 h2 with h2 | h2
        · rw [h2]; simp
        · simp [h2]
      · simp only [List.mem_cons] at hy
        rcases hy with rfl | rfl | hy
        · exact h3 y (by simp)
        · exact fun h6 => h (lt_of_not (h3 o (by simp)) ho h6)
        · exact h3 y (by simp [hy])

omit [Rounding] in
/-- Numbers which are not NaN are in order. -/
theorem lt_of_not' {a b c : Fl} (h1 : ¬ b < a) (hb : b ≠ nan) (h2 : c < a) : c < b := by
  change ¬ lt b a at h1
  change lt c a at h2
  show lt c b
  cases a <;> cases b <;> cases c <;> simp only [lt, val, not_true_eq_false, not_false_eq_true, ne_eq] at * <;> linarith

omit [Rounding] in
theorem minFrom_float (l : List Fl) (o : Fl) (ho : o ≠ nan) :
    minFrom o l ≠ nan ∧ minFrom o l ∈ o :: l ∧ ∀ y ∈ o :: l, ¬ y < minFrom o l := by
  induction l generalizing o with
  | nil => exact ⟨ho, by simp [minFrom], by simpa [minFrom] using fl_lt_irrefl _⟩
  | cons x xs ih =>
    rw [minFrom]
    by_cases h : x < o
    · have hx : x ≠ nan := fun e => not_nan_lt _ (e ▸ h)
      obtain ⟨h1, h2, h3⟩ := ih x hx
      rw [if_pos h]
      refine ⟨h1, List.mem_cons_of_mem _ h2, fun y hy => ?_⟩
      rcases List.mem_cons.1 hy with rfl | hy
      · exact fun h6 => h3 x (by simp) (fl_lt_trans h h6)
      · exact h3 y hy
    · obtain ⟨h1, h2, h3⟩ := ih o ho
      rw [if_neg h]
      refine ⟨h1, ?_, fun y hy => ?_⟩
      · rcases List.mem_cons.1 h2 with h2 | h2
        · rw [h2]; simp
        · simp [h2]
      · simp only [List.mem_cons] at hy
        rcases hy with rfl | rfl | hy
        · exact h3 y (by simp)
        · exact fun h6 => h (lt_of_not' (h3 o (by simp)) ho h6)
        · exact h3 y (by simp [hy])

omit [Rounding] in
/-- C84: the largest element is NaN exactly if the first element is; otherwise it is the largest of the
elements which are not NaN. The same holds for the smallest one. -/
theorem c84_negation_max (d : List Nat) (x : Fl) (xs : List Fl) :
    (∃ m, maxAll ⟨d, x :: xs⟩ = .ok m ∧ (m = nan ↔ x = nan) ∧
      (x ≠ nan → m ∈ x :: xs ∧ ∀ y ∈ x :: xs, y ≠ nan → y ≤ m)) ∧
    (∃ m, minAll ⟨d, x :: xs⟩ = .ok m ∧ (m = nan ↔ x = nan) ∧
      (x ≠ nan → m ∈ x :: xs ∧ ∀ y ∈ x :: xs, y ≠ nan → m ≤ y)) := by
  refine ⟨⟨_, rfl, ?_, fun h => ?_⟩, ⟨_, rfl, ?_, fun h => ?_⟩⟩
  · by_cases h : x = nan
    · rw [h, maxFrom_nan]
    · simp [h, (maxFrom_float xs x h).1]
  · obtain ⟨h1, h2, h3⟩ := maxFrom_float xs x h
    exact ⟨h2, fun y hy hn => ⟨hn, h1, h3 y hy⟩⟩
  · by_cases h : x = nan
    · rw [h, minFrom_nan]
    · simp [h, (minFrom_float xs x h).1]
  · obtain ⟨h1, h2, h3⟩ := minFrom_float xs x h
    exact ⟨h2, fun y hy hn => ⟨h1, hn, h3 y hy⟩⟩

/-- C84: matrix_norminf is never NaN. -/
theorem c84_negation_norminf (m : Tensor Fl) : matrixNormInf abs m ≠ .ok nan := by
  have key : ∀ (l : List Fl) (o : Fl), o ≠ nan → l.foldl (fun o x => if o < x then x else o) o ≠ nan := by
    intro l
    induction l with
    | nil => intro o ho; exact ho
    | cons x xs ih =>
      intro o ho
      rw [List.foldl_cons]
      refine ih _ ?_
      split
      · rename_i h
        exact fun e => not_lt_nan _ (e ▸ h)
      · exact ho
  intro h
  rw [matrixNormInf, Res.assert_bind] at h
  split at h
  · rename_i hr
    cases h0 : m.dimension 0 with
    | ok r => cases h1 : m.dimension 1 with
      | ok c =>
        rw [h0, Res.ok_bind, h1, Res.ok_bind] at h
        revert h
        generalize runWrites r _ = w
        cases w with
        | ok w =>
          rw [Res.ok_bind]
          generalize modLoop _ _ _ w = w'
          cases w' with
          | ok w' =>
            rw [Res.ok_bind]
            intro h
            injection h with h
            exact key _ 0 nofun h
          | abort => exact nofun
          | ub => exact nofun
        | abort => exact nofun
        | ub => exact nofun
      | abort => rw [h0, Res.ok_bind, h1] at h; cases h
      | ub => rw [h0, Res.ok_bind, h1] at h; cases h
    | abort => rw [h0] at h; cases h
    | ub => rw [h0] at h; cases h
  · cases h

/-- A matrix of NaN has norm zero. -/
example : matrixNormInf abs (⟨[1, 1], [nan]⟩ : Tensor Fl) = .ok 0 := by
  simp [matrixNormInf, Tensor.rank, Tensor.dimension, Res.assert_bind, runWrites, writeAll, finish, modLoop, abs,
    not_lt_nan]

/-- C84: if the right-hand side of a system, or its image of the start, has a NaN, then cgs returns its start
without any iterations, as it does if the start is the solution. -/
theorem c84_negation_cgs (tiny : Fl → Fl) (deftol : Fl) (A : Tensor Fl → Res (Tensor Fl)) (b x : Tensor Fl)
    (start : Tensor Fl) (maxiter : Int) (hm : maxiter ≠ 0) (tol : Fl) (Ax : Tensor Fl) (hA : A x = .ok Ax)
    (hb : b.WF) (hl : b.data.length = Ax.data.length) (h : nan ∈ b.data ∨ nan ∈ Ax.data) :
    ∃ r, Cgs.solve ⟨id, abs, sqrt, tiny⟩ deftol A b (some x) start maxiter tol = .ok ⟨x, r, 1⟩ := by
  have hr : binopTT (· - ·) b Ax = .ok ⟨b.dims, List.zipWith (· - ·) b.data Ax.data⟩ := binopTT_ok _ _ _ hb hl
  have hn : nan ∈ (List.zipWith (· - ·) b.data Ax.data : List Fl) := by
    rcases h with h | h
    · obtain ⟨i, hi⟩ := List.mem_iff_getElem?.1 h
      have hi' : i < b.data.length := (List.getElem?_eq_some_iff.1 hi).1
      refine List.mem_iff_getElem?.2 ⟨i, ?_⟩
      rw [List.getElem?_zipWith, hi, List.getElem?_eq_getElem (by omega)]
      exact congrArg some (nan_add _)
    · obtain ⟨i, hi⟩ := List.mem_iff_getElem?.1 h
      have hi' : i < Ax.data.length := (List.getElem?_eq_some_iff.1 hi).1
      refine List.mem_iff_getElem?.2 ⟨i, ?_⟩
      rw [List.getElem?_zipWith, hi, List.getElem?_eq_getElem (show i < b.data.length by omega)]
      exact congrArg some (add_nan _)
  refine ⟨⟨b.dims, List.zipWith (· - ·) b.data Ax.data⟩, ?_⟩
  have hs := (c84_nan ⟨b.dims, List.zipWith (· - ·) b.data Ax.data⟩ hn).2.2.2 _ rfl
  rw [Cgs.solve, Cgs.limit, if_neg hm]
  simp only [Res.pure_eq, Res.ok_bind, Option.getD_some, hA, hr, hs.1]
  exact if_neg (not_lt_nan _)

/-- The hypotheses can be met: the matrix is the identity, the right-hand side a NaN. -/
example : (fun t : Tensor Fl => Res.ok t) ⟨[1], [0]⟩ = .ok ⟨[1], [0]⟩ ∧ (⟨[1], [nan]⟩ : Tensor Fl).WF ∧
    nan ∈ (⟨[1], [nan]⟩ : Tensor Fl).data := ⟨rfl, rfl, by simp⟩

end Verif.Fl
