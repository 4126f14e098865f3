import Verif.Lemmas.GemmFloat
/-
What finite results of operations with doubles say about the operands.
-/
namespace Verif.Fl

open Verif Rounding

variable [Rounding]

/-- A number which is not rounded to infinity is not larger than all finite numbers. -/
theorem lt_of_rnd {x : ℝ} (h : |rnd x| < 2 ^ 1024) : |x| < 2 ^ 1024 := by
  have hB : (0 : ℝ) < 2 ^ 1024 := by positivity
  have t1 : IsTarget ((2 : ℝ) ^ 1024) := .inr (abs_of_pos hB)
  have t2 : IsTarget (-(2 : ℝ) ^ 1024) := .inr (by rw [abs_neg]; exact abs_of_pos hB)
  obtain ⟨h1, h2⟩ := abs_lt.1 h
  have r1 := rnd_exact t1
  have r2 := rnd_exact t2
  rw [abs_lt]
  constructor
  · by_contra hn
    have := rnd_mono (not_lt.1 hn)
    rw [r2] at this
    linarith
  · by_contra hn
    have := rnd_mono (not_lt.1 hn)
    rw [r1] at this
    linarith

theorem round_fin_inv {x : ℝ} (h : (round x).Finite) : |rnd x| < 2 ^ 1024 := by
  rw [abs_lt]
  constructor
  · by_contra hn
    rw [round] at h
    split at h
    · exact h
    · rw [if_pos (not_lt.1 hn)] at h
      exact h
  · by_contra hn
    rw [round, if_pos (not_lt.1 hn)] at h
    exact h

theorem add_inv {a b : Fl} (ha : a.WF) (hb : b.WF) (h : (a + b).Finite) :
    a.Finite ∧ b.Finite ∧ |rnd (a.val + b.val)| < 2 ^ 1024 := by
  have hB : (0 : ℝ) < 2 ^ 1024 := by positivity
  have fa : a.Finite := by
    cases a with
    | fin x => exact ha
    | nzero => trivial
    | nan => exact h.elim
    | pinf => cases b <;> exact h.elim
    | ninf => cases b <;> exact h.elim
  have fb : b.Finite := by
    cases b with
    | fin x => exact hb
    | nzero => trivial
    | nan => cases a <;> exact h.elim
    | pinf => cases a <;> exact h.elim
    | ninf => cases a <;> exact h.elim
  refine ⟨fa, fb, ?_⟩
  by_cases hz : a ≠ nzero ∨ b ≠ nzero
  · rw [add_def fa fb hz] at h
    split at h
    · rename_i h0
      rw [h0, rnd_zero, abs_zero]
      exact hB
    · exact round_fin_inv h
  · have : a = nzero ∧ b = nzero := by
      constructor
      · by_contra e; exact hz (.inl e)
      · by_contra e; exact hz (.inr e)
    rw [this.1, this.2]
    show |rnd (0 + 0)| < _
    rw [add_zero, rnd_zero, abs_zero]
    exact hB

omit [Rounding] in
theorem finite_of {a : Fl} (hw : a.WF) (h1 : a ≠ nan) (h2 : a.isInf = false) : a.Finite := by
  cases a with
  | fin x => exact hw
  | nzero => trivial
  | nan => exact absurd rfl h1
  | pinf => cases h2
  | ninf => cases h2

omit [Rounding] in
theorem infS_not (s : Bool) : ¬ (infS s).Finite := by cases s <;> exact id

theorem mul_inv {a b : Fl} (ha : a.WF) (hb : b.WF) (h : (a * b).Finite) :
    a.Finite ∧ b.Finite ∧ |rnd (a.val * b.val)| < 2 ^ 1024 := by
  have hB : (0 : ℝ) < 2 ^ 1024 := by positivity
  have h : (mul a b).Finite := h
  rw [mul] at h
  split at h
  · exact h.elim
  rename_i h1
  rw [not_or] at h1
  split at h
  · split at h
    · exact h.elim
    · exact (infS_not _ h).elim
  rename_i h2
  rw [not_or, Bool.not_eq_true, Bool.not_eq_true] at h2
  refine ⟨finite_of ha h1.1 h2.1, finite_of hb h1.2 h2.2, ?_⟩
  split at h
  · rename_i h0
    rw [h0, rnd_zero, abs_zero]
    exact hB
  · exact round_fin_inv h

omit [Rounding] in
theorem zeroS_wf (s : Bool) : (zeroS s).WF := (zeroS_finite s).1.wf

theorem add_wf {a b : Fl} (ha : a.WF) (hb : b.WF) : (a + b).WF := by
  by_cases fa : a.Finite
  · by_cases fb : b.Finite
    · by_cases hz : a ≠ nzero ∨ b ≠ nzero
      · rw [add_def fa fb hz]
        split
        · exact isDouble_zero
        · exact round_wf _
      · have : a = nzero ∧ b = nzero := by
          constructor
          · by_contra e; exact hz (.inl e)
          · by_contra e; exact hz (.inr e)
        rw [this.1, this.2]
        trivial
    · cases b with
      | fin x => exact absurd hb fb
      | nzero => exact absurd trivial fb
      | _ => cases a <;> trivial
  · cases a with
    | fin x => exact absurd ha fa
    | nzero => exact absurd trivial fa
    | _ => cases b <;> trivial

theorem mul_wf (a b : Fl) : (a * b).WF := by
  show (mul a b).WF
  rw [mul]
  split
  · trivial
  split
  · split
    · trivial
    · unfold infS
      split <;> trivial
  split
  · exact zeroS_wf _
  · exact round_wf _

omit [Rounding] in
theorem neg_wf {a : Fl} (h : a.WF) : (-a).WF := by
  cases a with
  | fin x =>
    show (negate (fin x)).WF
    rw [negate]
    split
    · trivial
    · exact IsDouble.neg h
  | nzero => exact isDouble_zero
  | _ => trivial

omit [Rounding] in
theorem neg_fin_inv {a : Fl} (hw : a.WF) (h : (-a).Finite) : a.Finite := by
  cases a with
  | fin x => exact hw
  | nzero => trivial
  | _ => exact h.elim

/-- The error of the sum of two finite numbers, if it is finite. -/
theorem add_near {a b : Fl} (ha : a.WF) (hb : b.WF) (h : (a + b).Finite) :
    a.Finite ∧ b.Finite ∧ |(a + b).val - (a.val + b.val)| ≤ eps * |a.val + b.val| := by
  obtain ⟨fa, fb, hr⟩ := add_inv ha hb h
  refine ⟨fa, fb, ?_⟩
  rw [(add_finite fa fb hr).2]
  exact rnd_add fa.val_double fb.val_double (lt_of_rnd hr)

/-- The error of a product. -/
theorem mul_near {a b : Fl} (ha : a.WF) (hb : b.WF) (h : (a * b).Finite) :
    a.Finite ∧ b.Finite ∧ |(a * b).val - a.val * b.val| ≤ eps * |a.val * b.val| + tinyErr := by
  obtain ⟨fa, fb, hr⟩ := mul_inv ha hb h
  refine ⟨fa, fb, ?_⟩
  rw [(mul_finite fa fb hr).2]
  exact rnd_err (lt_of_rnd hr)

/-- The error of a quotient. -/
theorem div_near {a b : Fl} (ha : a.WF) (hb : b.Finite) (h0 : b.val ≠ 0) (h : (a / b).Finite) :
    a.Finite ∧ |(a / b).val - a.val / b.val| ≤ eps * |a.val / b.val| + tinyErr := by
  have hB : (0 : ℝ) < 2 ^ 1024 := by positivity
  have h' : (div a b).Finite := h
  rw [div] at h'
  split at h'
  · exact h'.elim
  rename_i h1
  rw [not_or] at h1
  split at h'
  · rw [if_neg (by simp [hb.not_inf])] at h'
    exact (infS_not _ h').elim
  rename_i h2
  rw [Bool.not_eq_true] at h2
  have fa := finite_of ha h1.1 h2
  rw [if_neg (by simp [hb.not_inf])] at h'
  have hr : |rnd (a.val / b.val)| < 2 ^ 1024 := by
    split at h'
    · rename_i h3
      rw [h3, zero_div, rnd_zero, abs_zero]
      exact hB
    · exact round_fin_inv h'
  refine ⟨fa, ?_⟩
  rw [(div_finite fa hb h0 hr).2]
  exact rnd_err (lt_of_rnd hr)

/-- A finite sum of numbers. -/
theorem fold_fin (l : List Fl) (s : Fl) (hs : s.WF) (hl : ∀ x ∈ l, x.WF) (h : (l.foldl (· + ·) s).Finite) :
    s.Finite ∧ (∀ x ∈ l, x.Finite) ∧
    |(l.foldl (· + ·) s).val - (s.val + sumV l)| ≤ ((1 + eps) ^ l.length - 1) * (|s.val| + sumA l) := by
  induction l generalizing s with
  | nil => exact ⟨h, by simp, by simp [sumV]⟩
  | cons x xs ih =>
    have hsum : sumA (x :: xs) = |x.val| + sumA xs := by simp [sumA]
    have hsumV : sumV (x :: xs) = x.val + sumV xs := by simp [sumV]
    have hA := sumA_nonneg xs
    have hp := one_le_pow_eps xs.length
    have he := eps_pos
    have hx := abs_nonneg x.val
    have hs0 := abs_nonneg s.val
    rw [List.foldl_cons] at h
    rw [List.length_cons, hsum, hsumV, List.foldl_cons, pow_succ]
    set P := (1 + eps) ^ xs.length with hP
    have hxw : x.WF := hl x (by simp)
    obtain ⟨h1, h4, h5⟩ := ih (s + x) (add_wf hs hxw) (fun y hy => hl y (by simp [hy])) h
    obtain ⟨f1, f2, h2⟩ := add_near hs hxw h1
    refine ⟨f1, ?_, ?_⟩
    · intro y hy
      rcases List.mem_cons.1 hy with rfl | hy
      · exact f2
      · exact h4 y hy
    have h3 := abs_add_le s.val x.val
    have h2' : |(s + x).val - (s.val + x.val)| ≤ eps * (|s.val| + |x.val|) :=
      h2.trans (mul_le_mul_of_nonneg_left h3 he.le)
    have hb2 : |(s + x).val| + sumA xs ≤ (1 + eps) * (|s.val| + (|x.val| + sumA xs)) := by
      have := abs_add_le ((s + x).val - (s.val + x.val)) (s.val + x.val)
      rw [sub_add_cancel] at this
      nlinarith
    have h6 : |(xs.foldl (· + ·) (s + x)).val - (s.val + (x.val + sumV xs))| ≤
        |(xs.foldl (· + ·) (s + x)).val - ((s + x).val + sumV xs)| + |(s + x).val - (s.val + x.val)| := by
      have := abs_add_le ((xs.foldl (· + ·) (s + x)).val - ((s + x).val + sumV xs)) ((s + x).val - (s.val + x.val))
      refine le_trans (le_of_eq ?_) this
      congr 1; ring
    have h7 : (P - 1) * (|(s + x).val| + sumA xs) ≤ (P - 1) * ((1 + eps) * (|s.val| + (|x.val| + sumA xs))) :=
      mul_le_mul_of_nonneg_left hb2 (by linarith)
    have h8 : eps * (|s.val| + |x.val|) ≤ eps * (|s.val| + (|x.val| + sumA xs)) :=
      mul_le_mul_of_nonneg_left (by linarith) he.le
    calc _ ≤ _ := h6
      _ ≤ (P - 1) * ((1 + eps) * (|s.val| + (|x.val| + sumA xs))) + eps * (|s.val| + (|x.val| + sumA xs)) := by
        linarith
      _ = _ := by ring

theorem sum_fin (l : List Fl) (hl : ∀ x ∈ l, x.WF) (h : (l.foldl (· + ·) 0).Finite) :
    (∀ x ∈ l, x.Finite) ∧ |(l.foldl (· + ·) 0).val - sumV l| ≤ ((1 + eps) ^ (l.length - 1) - 1) * sumA l := by
  obtain ⟨-, h2, -⟩ := fold_fin l 0 finite_zero.wf hl h
  refine ⟨h2, ?_⟩
  cases l with
  | nil => simp [sumV, sumA]; rfl
  | cons x xs =>
    obtain ⟨h1, h3⟩ := zero_add_finite (h2 x (by simp))
    have hsum : sumA (x :: xs) = |((0 : Fl) + x).val| + sumA xs := by rw [h3]; simp [sumA]
    have hsumV : sumV (x :: xs) = ((0 : Fl) + x).val + sumV xs := by rw [h3]; simp [sumV]
    rw [hsum, hsumV, List.length_cons, Nat.add_sub_cancel, List.foldl_cons]
    exact (fold_fin xs _ h1.wf (fun y hy => hl y (by simp [hy])) h).2.2

end Verif.Fl

namespace Verif.GemmFl

open Verif Fl Rounding

variable [Rounding]

theorem fma_wf {a b c : Fl} (hc : c.WF) : (fma a b c).WF := by
  rw [fma]
  split
  · exact add_wf (mul_wf _ _) hc
  split
  · exact hc
  split
  · exact add_wf (mul_wf _ _) hc
  split
  · exact isDouble_zero
  · exact round_wf _

theorem fma_near {a b c : Fl} (ha : a.WF) (hb : b.WF) (hc : c.WF) (h : (fma a b c).Finite) :
    a.Finite ∧ b.Finite ∧ c.Finite ∧
      |(fma a b c).val - (a.val * b.val + c.val)| ≤ eps * |a.val * b.val + c.val| + tinyErr := by
  have hB : (0 : ℝ) < 2 ^ 1024 := by positivity
  have hf : a.Finite ∧ b.Finite ∧ c.Finite ∧ |rnd (a.val * b.val + c.val)| < 2 ^ 1024 := by
    rw [fma] at h
    split at h
    · obtain ⟨h1, h2, -⟩ := add_inv (mul_wf a b) hc h
      obtain ⟨h3, h4, -⟩ := mul_inv ha hb h1
      rename_i hn
      simp [h3.ne_nan, h4.ne_nan, h2.ne_nan, h3.not_inf, h4.not_inf] at hn
    rename_i hn
    simp only [not_or, Bool.not_eq_true] at hn
    obtain ⟨n1, n2, n3, n4, n5⟩ := hn
    split at h
    · rename_i hi
      rw [h.not_inf] at hi
      cases hi
    rename_i n6
    rw [Bool.not_eq_true] at n6
    have fa := finite_of ha n1 n4
    have fb := finite_of hb n2 n5
    have fc := finite_of hc n3 n6
    refine ⟨fa, fb, fc, ?_⟩
    split at h
    · rename_i h0
      obtain ⟨h1, -, h2⟩ := add_inv (mul_wf a b) hc h
      obtain ⟨-, -, h3⟩ := mul_inv ha hb h1
      rwa [(mul_finite fa fb h3).2, h0, rnd_zero, ← h0] at h2
    split at h
    · rename_i h0
      rw [h0, rnd_zero, abs_zero]
      exact hB
    · exact round_fin_inv h
  obtain ⟨fa, fb, fc, hr⟩ := hf
  refine ⟨fa, fb, fc, ?_⟩
  rw [(fma_finite fa fb fc hr).2]
  exact rnd_err (lt_of_rnd hr)

omit [Rounding] in
theorem IsZero.neg_inv {x : Fl} (h : IsZero (-x)) : IsZero x := by
  cases x with
  | fin y =>
    have h' : IsZero (negate (fin y)) := h
    rw [negate] at h'
    split at h'
    · rename_i hy; rw [hy]; exact .inr rfl
    · rename_i hy
      rcases h' with h' | h'
      · cases h'
      · exact absurd (neg_eq_zero.1 (Fl.fin.inj h')) hy
  | nzero => exact .inl rfl
  | _ => rcases h with h | h <;> cases h

theorem sums_wf {l : List (Fl × Fl)} {s : Fl} (h : Sums l s) : s.WF := by
  induction h with
  | zero => exact isDouble_zero
  | prod x y => exact mul_wf x y
  | add _ _ i1 i2 => exact add_wf i1 i2
  | fma x y _ i => exact fma_wf i
  | skip _ _ _ _ i => exact i
  | perm _ _ i => exact i
  | neg _ i => exact neg_wf i
  | sign _ _ _ i => exact i
  | flip _ _ h _ => exact h.finite.1.wf

/-- A product which is part of a finite sum. -/
def Harmless (p : Fl × Fl) : Prop := (p.1.Finite ∧ p.2.Finite) ∨ IsZero p.1 ∨ IsZero p.2

/-- A finite sum of products in any order: its terms and its error. -/
theorem sums_fin {l : List (Fl × Fl)} {s : Fl} (h : Sums l s) (hw : ∀ p ∈ l, p.1.WF ∧ p.2.WF) (hs : s.Finite) :
    (∀ p ∈ l, Harmless p) ∧ |s.val - exact l| ≤ maxErr l.length (size l) := by
  have he := eps_pos
  have ht := tinyErr_pos
  induction h with
  | zero => exact ⟨by simp, by simp [exact, size, maxErr]; rfl⟩
  | prod x y =>
    obtain ⟨hx, hy⟩ := hw (x, y) (by simp)
    obtain ⟨fx, fy, m2⟩ := mul_near hx hy hs
    have e1 : exact [(x, y)] = x.val * y.val := by simp [exact]
    have e2 : size [(x, y)] = |x.val * y.val| := by simp [size]
    rw [e2, e1]
    simp only [List.length_cons, List.length_nil, maxErr, Nat.zero_add, pow_one, Nat.cast_one, Nat.sub_self,
      pow_zero, one_mul, add_sub_cancel_left]
    refine ⟨?_, m2⟩
    intro p hp
    rw [List.mem_singleton.1 hp]
    exact .inl ⟨fx, fy⟩
  | @add l l' s s' h1 h2 i1 i2 =>
    have e1 : exact (l ++ l') = exact l + exact l' := by simp [exact]
    have e2 : size (l ++ l') = size l + size l' := by simp [size]
    have e3 : (l ++ l').length = l.length + l'.length := List.length_append
    have n1 := size_nonneg l
    have n2 := size_nonneg l'
    obtain ⟨f1, f2, d0⟩ := add_near (sums_wf h1) (sums_wf h2) hs
    obtain ⟨t1, d1⟩ := i1 (fun p hp => hw p (List.mem_append_left _ hp)) f1
    obtain ⟨t2, d2⟩ := i2 (fun p hp => hw p (List.mem_append_right _ hp)) f2
    refine ⟨fun p hp => (List.mem_append.1 hp).elim (t1 p) (t2 p), ?_⟩
    by_cases z1 : l = []
    · obtain ⟨-, v1⟩ := sums_nil h1 z1
      have hr : rnd s'.val = s'.val := rnd_exact (Or.inl f2.val_double)
      have := add_finite f1 f2 (by rw [v1, zero_add, hr]; exact f2.val_double.lt)
      rw [v1, zero_add, hr] at this
      subst z1
      rw [List.nil_append, this.2]
      exact d2
    by_cases z2 : l' = []
    · obtain ⟨-, v1⟩ := sums_nil h2 z2
      have hr : rnd s.val = s.val := rnd_exact (Or.inl f1.val_double)
      have := add_finite f1 f2 (by rw [v1, add_zero, hr]; exact f1.val_double.lt)
      rw [v1, add_zero, hr] at this
      subst z2
      rw [List.append_nil, this.2]
      exact d1
    have p1 := List.length_pos_iff.2 z1
    have p2 := List.length_pos_iff.2 z2
    have s1 := maxErr_step (m := l.length) (n := l.length + l'.length) (by omega) n1 _ rfl
    have s2 := maxErr_step (m := l'.length) (n := l.length + l'.length) (by omega) n2 _ rfl
    have b1 := exact_le l
    have b2 := exact_le l'
    have v1 : |s.val| ≤ maxErr l.length (size l) + size l := by
      have := abs_add_le (s.val - exact l) (exact l)
      rw [sub_add_cancel] at this
      linarith
    have v2 : |s'.val| ≤ maxErr l'.length (size l') + size l' := by
      have := abs_add_le (s'.val - exact l') (exact l')
      rw [sub_add_cancel] at this
      linarith
    have key : (1 + eps) * (maxErr l.length (size l) + maxErr l'.length (size l')) + eps * (size l + size l') ≤
        maxErr (l.length + l'.length) (size l + size l') := by
      have ex : maxErr (l.length + l'.length) (size l + size l') =
          ((1 + eps) ^ (l.length + l'.length) - 1) * size l + l.length * (1 + eps) ^ (l.length + l'.length - 1) * tinyErr +
          (((1 + eps) ^ (l.length + l'.length) - 1) * size l' +
            l'.length * (1 + eps) ^ (l.length + l'.length - 1) * tinyErr) := by
        rw [maxErr]; push_cast; ring
      linarith
    rw [e1, e2, e3]
    have t : |(s + s').val - (exact l + exact l')| ≤
        |(s + s').val - (s.val + s'.val)| + (|s.val - exact l| + |s'.val - exact l'|) := by
      have q : (s + s').val - (exact l + exact l') =
          ((s + s').val - (s.val + s'.val)) + ((s.val - exact l) + (s'.val - exact l')) := by ring
      rw [q]
      exact (abs_add_le _ _).trans (by linarith [abs_add_le (s.val - exact l) (s'.val - exact l')])
    have u : eps * |s.val + s'.val| ≤ eps * (maxErr l.length (size l) + size l + (maxErr l'.length (size l') + size l')) :=
      mul_le_mul_of_nonneg_left ((abs_add_le _ _).trans (by linarith)) he.le
    linarith
  | @fma l s x y h1 i1 =>
    have e1 : exact ((x, y) :: l) = x.val * y.val + exact l := by simp [exact]
    have e2 : size ((x, y) :: l) = |x.val * y.val| + size l := by simp [size]
    have e3 : ((x, y) :: l).length = l.length + 1 := List.length_cons
    have n1 := size_nonneg l
    have n2 := abs_nonneg (x.val * y.val)
    obtain ⟨hx, hy⟩ := hw (x, y) (by simp)
    obtain ⟨fx, fy, f1, d0⟩ := fma_near hx hy (sums_wf h1) hs
    obtain ⟨t1, d1⟩ := i1 (fun p hp => hw p (List.mem_cons_of_mem _ hp)) f1
    refine ⟨fun p hp => (List.mem_cons.1 hp).elim (fun e => by rw [e]; exact .inl ⟨fx, fy⟩) (t1 p), ?_⟩
    have s1 := maxErr_step (m := l.length) (n := l.length + 1) (by omega) n1 _ rfl
    have b1 := exact_le l
    have v1 : |s.val| ≤ maxErr l.length (size l) + size l := by
      have := abs_add_le (s.val - exact l) (exact l)
      rw [sub_add_cancel] at this
      linarith
    have hone : 1 ≤ (1 + eps) ^ l.length := one_le_pow₀ (by linarith)
    have key : (1 + eps) * maxErr l.length (size l) + eps * (|x.val * y.val| + size l) + tinyErr ≤
        maxErr (l.length + 1) (|x.val * y.val| + size l) := by
      have : eps * |x.val * y.val| ≤ ((1 + eps) ^ (l.length + 1) - 1) * |x.val * y.val| := by
        refine mul_le_mul_of_nonneg_right ?_ n2
        rw [pow_succ]
        nlinarith
      have h7 : tinyErr ≤ (1 + eps) ^ l.length * tinyErr := le_mul_of_one_le_left ht.le hone
      simp only [Nat.add_sub_cancel] at s1
      have ex : maxErr (l.length + 1) (|x.val * y.val| + size l) =
          ((1 + eps) ^ (l.length + 1) - 1) * size l + l.length * (1 + eps) ^ l.length * tinyErr +
          ((1 + eps) ^ (l.length + 1) - 1) * |x.val * y.val| + (1 + eps) ^ l.length * tinyErr := by
        rw [maxErr, Nat.add_sub_cancel]; push_cast; ring
      linarith
    have w : |x.val * y.val + s.val| ≤ |x.val * y.val| + (maxErr l.length (size l) + size l) :=
      (abs_add_le _ _).trans (by linarith)
    have w' : eps * |x.val * y.val + s.val| ≤ eps * (|x.val * y.val| + (maxErr l.length (size l) + size l)) :=
      mul_le_mul_of_nonneg_left w he.le
    rw [e1, e2, e3]
    have t : |(fma x y s).val - (x.val * y.val + exact l)| ≤
        |(fma x y s).val - (x.val * y.val + s.val)| + |s.val - exact l| := by
      have q : (fma x y s).val - (x.val * y.val + exact l) =
          ((fma x y s).val - (x.val * y.val + s.val)) + (s.val - exact l) := by ring
      rw [q]
      exact abs_add_le _ _
    linarith
  | @skip l s x y h0 h1 i1 =>
    have z : x.val * y.val = 0 := by
      rcases h0 with (rfl | rfl) | (rfl | rfl) <;> simp [val]
    have e1 : exact ((x, y) :: l) = exact l := by simp [exact, z]
    have e2 : size ((x, y) :: l) = size l := by rw [size, List.map_cons, List.sum_cons, z, abs_zero, zero_add]; rfl
    have e3 : ((x, y) :: l).length = l.length + 1 := List.length_cons
    have n1 := size_nonneg l
    obtain ⟨t1, d1⟩ := i1 (fun p hp => hw p (List.mem_cons_of_mem _ hp)) hs
    refine ⟨fun p hp => (List.mem_cons.1 hp).elim (fun e => by rw [e]; exact .inr h0) (t1 p), ?_⟩
    rw [e1, e2, e3]
    exact d1.trans (maxErr_mono (by omega) n1 (le_refl _))
  | @perm l l' s p h1 i1 =>
    have e1 : exact l = exact l' := (p.map _).sum_eq
    have e2 : size l = size l' := (p.map _).sum_eq
    have e3 := p.length_eq
    rw [← e1, ← e2, ← e3]
    obtain ⟨t1, d1⟩ := i1 (fun q hq => hw q (p.mem_iff.1 hq)) hs
    exact ⟨fun q hq => t1 q (p.mem_iff.2 hq), d1⟩
  | @neg l s h1 i1 =>
    have e1 : exact (l.map fun p => (-p.1, p.2)) = -exact l := by
      clear hw hs h1 i1
      induction l with
      | nil => simp [exact]
      | cons p l ih =>
        simp only [exact, List.map_cons, List.sum_cons, val_neg] at ih ⊢
        rw [ih]
        ring
    have e2 : size (l.map fun p => (-p.1, p.2)) = size l := by
      simp only [size, List.map_map]
      congr 1
      refine List.map_congr_left fun p _ => ?_
      simp [val_neg]
    rw [e1, e2, List.length_map] at i1
    obtain ⟨t1, d1⟩ := i1 (by
      intro q hq
      obtain ⟨p, hp, rfl⟩ := List.mem_map.1 hq
      exact ⟨neg_wf (hw p hp).1, (hw p hp).2⟩) (neg_fin_inv (sums_wf h1) hs)
    constructor
    · intro p hp
      rcases t1 (-p.1, p.2) (List.mem_map.2 ⟨p, hp, rfl⟩) with ⟨q1, q2⟩ | q | q
      · exact .inl ⟨neg_fin_inv (hw p hp).1 q1, q2⟩
      · exact .inr (.inl q.neg_inv)
      · exact .inr (.inr q)
    rw [val_neg, ← abs_neg]
    have q : -(-s.val - exact l) = s.val - -exact l := by ring
    rwa [q]
  | @sign l s x y h1 i1 =>
    have e1 : exact ((-x, -y) :: l) = exact ((x, y) :: l) := by simp [exact, val_neg]
    have e2 : size ((-x, -y) :: l) = size ((x, y) :: l) := by simp [size, val_neg]
    rw [e1, e2] at i1
    obtain ⟨hx, hy⟩ := hw (x, y) (by simp)
    obtain ⟨t1, d1⟩ := i1 (by
      intro p hp
      rcases List.mem_cons.1 hp with rfl | hp
      · exact ⟨neg_wf hx, neg_wf hy⟩
      · exact hw p (List.mem_cons_of_mem _ hp)) hs
    refine ⟨?_, d1⟩
    intro p hp
    rcases List.mem_cons.1 hp with rfl | hp
    · rcases t1 (-x, -y) (by simp) with ⟨q1, q2⟩ | q | q
      · exact .inl ⟨neg_fin_inv hx q1, neg_fin_inv hy q2⟩
      · exact .inr (.inl q.neg_inv)
      · exact .inr (.inr q.neg_inv)
    · exact t1 p (List.mem_cons_of_mem _ hp)
  | @flip l s s' h1 h0 h0' i1 =>
    obtain ⟨t1, d1⟩ := i1 hw h0.finite.1
    refine ⟨t1, ?_⟩
    rw [h0'.finite.2, ← h0.finite.2]
    exact d1

end Verif.GemmFl
