import Verif.Model.GemmFloat
import Verif.Props.FloatSum
/-
Sums of products in any order.
-/
namespace Verif.GemmFl

open Verif Fl Rounding

variable [Rounding]

/-- The exact sum of the products, and that of their absolute values. -/
noncomputable def exact (l : List (Fl × Fl)) : ℝ := (l.map fun p => p.1.val * p.2.val).sum
noncomputable def size (l : List (Fl × Fl)) : ℝ := (l.map fun p => |p.1.val * p.2.val|).sum

omit [Rounding] in
theorem size_nonneg (l : List (Fl × Fl)) : 0 ≤ size l :=
  List.sum_nonneg fun x hx => by
    obtain ⟨y, -, rfl⟩ := List.mem_map.1 hx
    exact abs_nonneg _

omit [Rounding] in
theorem exact_le (l : List (Fl × Fl)) : |exact l| ≤ size l := by
  induction l with
  | nil => simp [exact, size]
  | cons p l ih =>
    have e1 : exact (p :: l) = p.1.val * p.2.val + exact l := by simp [exact]
    have e2 : size (p :: l) = |p.1.val * p.2.val| + size l := by simp [size]
    rw [e1, e2]
    exact (abs_add_le _ _).trans (by linarith)

/-- A fused operation without overflow. -/
theorem fma_finite {a b c : Fl} (ha : a.Finite) (hb : b.Finite) (hc : c.Finite)
    (h : |rnd (a.val * b.val + c.val)| < 2 ^ 1024) :
    (fma a b c).Finite ∧ (fma a b c).val = rnd (a.val * b.val + c.val) := by
  rw [fma, if_neg (by simp [ha.ne_nan, hb.ne_nan, hc.ne_nan, ha.not_inf, hb.not_inf]), if_neg (by simp [hc.not_inf])]
  split
  · rename_i h0
    obtain ⟨m1, m2⟩ := mul_finite ha hb (by rw [h0, rnd_zero]; simp)
    rw [h0, rnd_zero] at m2
    have := add_finite m1 hc (by rw [m2, ← h0]; exact h)
    rwa [m2, ← h0] at this
  · split
    · rename_i h0
      rw [h0, rnd_zero]
      exact ⟨isDouble_zero, rfl⟩
    · exact round_finite h

omit [Rounding] in
theorem val_neg (a : Fl) : (-a).val = -a.val := by
  show (negate a).val = _
  cases a with
  | fin x =>
    rw [negate]
    split
    · rename_i h
      rw [h]
      simp [val]
    · rfl
  | _ => simp [negate, val]

omit [Rounding] in
theorem IsZero.finite {x : Fl} (h : IsZero x) : x.Finite ∧ x.val = 0 := by
  rcases h with rfl | rfl
  · exact ⟨trivial, rfl⟩
  · exact ⟨isDouble_zero, rfl⟩

/-- Nothing is added up to nothing. -/
theorem sums_nil {l : List (Fl × Fl)} {s : Fl} (h : Sums l s) (hl : l = []) : s.Finite ∧ s.val = 0 := by
  induction h with
  | zero => exact ⟨isDouble_zero, rfl⟩
  | prod => simp at hl
  | add h1 h2 i1 i2 =>
    rw [List.append_eq_nil_iff] at hl
    obtain ⟨f1, v1⟩ := i1 hl.1
    obtain ⟨f2, v2⟩ := i2 hl.2
    have := add_finite f1 f2 (by rw [v1, v2, add_zero, rnd_zero]; simp)
    rwa [v1, v2, add_zero, rnd_zero] at this
  | fma => simp at hl
  | skip => simp at hl
  | perm p h i =>
    subst hl
    exact i p.eq_nil
  | neg h i =>
    obtain ⟨i1, i2⟩ := i (by rw [hl]; rfl)
    obtain ⟨n1, n2⟩ := negate_finite i1
    exact ⟨n1, by rw [n2, i2, neg_zero]⟩
  | sign => simp at hl
  | flip h h0 h0' i => exact h0'.finite

omit [Rounding] in
/-- The bounds of a sum of two parts. -/
theorem two_bound {e τ A d G G1 n H H1 : ℝ} (he : 0 < e) (hτ : 0 < τ) (hA : 0 ≤ A)
    (hd : d ≤ (G1 - 1) * A + n * H1 * τ) (hG : (1 + e) * G1 ≤ G) (hH : n * ((1 + e) * H1) ≤ n * H) :
    (1 + e) * d + e * A ≤ (G - 1) * A + n * H * τ := by
  have h1 : (1 + e) * d ≤ (1 + e) * ((G1 - 1) * A + n * H1 * τ) := mul_le_mul_of_nonneg_left hd (by linarith)
  have h2 : (1 + e) * G1 * A ≤ G * A := mul_le_mul_of_nonneg_right hG hA
  have h3 : n * ((1 + e) * H1) * τ ≤ n * H * τ := mul_le_mul_of_nonneg_right hH hτ.le
  nlinarith

/-- The largest value which the computed sum may have. -/
noncomputable def maxSum (n : ℕ) (A : ℝ) : ℝ := (1 + eps) ^ n * A + n * (1 + eps) ^ (n - 1) * tinyErr

/-- The largest error. -/
noncomputable def maxErr (n : ℕ) (A : ℝ) : ℝ := ((1 + eps) ^ n - 1) * A + n * (1 + eps) ^ (n - 1) * tinyErr

omit [Rounding] in
theorem maxSum_eq (n : ℕ) (A : ℝ) : maxSum n A = maxErr n A + A := by
  rw [maxSum, maxErr]; ring

omit [Rounding] in
theorem pow_eps_mono {m n : ℕ} (h : m ≤ n) : (1 + eps) ^ m ≤ (1 + eps) ^ n :=
  pow_le_pow_right₀ (by linarith [eps_pos]) h

omit [Rounding] in
theorem coeff_mono {m n : ℕ} (h : m ≤ n) : (m : ℝ) * (1 + eps) ^ (m - 1) ≤ n * (1 + eps) ^ (n - 1) := by
  have h1 := pow_eps_mono (show m - 1 ≤ n - 1 by omega)
  have h2 : (m : ℝ) ≤ n := by exact_mod_cast h
  have h3 : (0 : ℝ) ≤ (1 + eps) ^ (m - 1) := by have := eps_pos; positivity
  exact mul_le_mul h2 h1 h3 (by positivity)

omit [Rounding] in
theorem maxErr_mono {m n : ℕ} {A B : ℝ} (h : m ≤ n) (hA : 0 ≤ A) (hB : A ≤ B) : maxErr m A ≤ maxErr n B := by
  have h1 := pow_eps_mono h
  have h2 := coeff_mono h
  have h4 := tinyErr_pos
  have h5 : 1 ≤ (1 + eps) ^ m := one_le_pow₀ (by linarith [eps_pos])
  rw [maxErr, maxErr]
  have := mul_le_mul_of_nonneg_right h2 h4.le
  have : ((1 + eps) ^ m - 1) * A ≤ ((1 + eps) ^ n - 1) * B := mul_le_mul (by linarith) hB hA (by linarith)
  linarith

omit [Rounding] in
theorem maxSum_mono {m n : ℕ} {A B : ℝ} (h : m ≤ n) (hA : 0 ≤ A) (hB : A ≤ B) : maxSum m A ≤ maxSum n B := by
  rw [maxSum_eq, maxSum_eq]
  linarith [maxErr_mono h hA hB]

omit [Rounding] in
/-- One more operation. -/
theorem maxErr_step {m n : ℕ} {A : ℝ} (h : m < n) (hA : 0 ≤ A) (k : ℝ) (hk : k = m) :
    (1 + eps) * maxErr m A + eps * A ≤ ((1 + eps) ^ n - 1) * A + k * (1 + eps) ^ (n - 1) * tinyErr := by
  subst hk
  refine two_bound eps_pos tinyErr_pos hA (le_refl (maxErr m A)) ?_ ?_
  · rw [← pow_succ']
    exact pow_eps_mono h
  · rcases Nat.eq_zero_or_pos m with rfl | hm
    · simp
    · refine mul_le_mul_of_nonneg_left ?_ (by positivity)
      rw [← pow_succ']
      exact pow_eps_mono (by omega)

/-- The error of a sum of products in any order. -/
theorem sums_err {l : List (Fl × Fl)} {s : Fl} (h : Sums l s) (hf : ∀ p ∈ l, p.1.Finite ∧ p.2.Finite)
    (hM : maxSum l.length (size l) < 2 ^ 1024) :
    s.Finite ∧ |s.val - exact l| ≤ maxErr l.length (size l) := by
  have he := eps_pos
  have ht := tinyErr_pos
  induction h with
  | zero => exact ⟨isDouble_zero, by simp [exact, size, maxErr]; rfl⟩
  | prod x y =>
    obtain ⟨hx, hy⟩ := hf (x, y) (by simp)
    have e1 : exact [(x, y)] = x.val * y.val := by simp [exact]
    have e2 : size [(x, y)] = |x.val * y.val| := by simp [size]
    rw [e2] at hM ⊢
    rw [e1]
    simp only [List.length_cons, List.length_nil, maxSum, maxErr, Nat.zero_add, pow_one, Nat.cast_one, Nat.sub_self,
      pow_zero, one_mul] at hM ⊢
    obtain ⟨m1, m2, -⟩ := mul_err hx hy hM
    refine ⟨m1, ?_⟩
    rw [add_sub_cancel_left]
    exact m2
  | @add l l' s s' h1 h2 i1 i2 =>
    have e1 : exact (l ++ l') = exact l + exact l' := by simp [exact]
    have e2 : size (l ++ l') = size l + size l' := by simp [size]
    have e3 : (l ++ l').length = l.length + l'.length := List.length_append
    have n1 := size_nonneg l
    have n2 := size_nonneg l'
    obtain ⟨f1, d1⟩ := i1 (fun p hp => hf p (List.mem_append_left _ hp))
      (lt_of_le_of_lt (maxSum_mono (by omega) n1 (by linarith)) hM)
    obtain ⟨f2, d2⟩ := i2 (fun p hp => hf p (List.mem_append_right _ hp))
      (lt_of_le_of_lt (maxSum_mono (by omega) n2 (by linarith)) hM)
    by_cases z1 : l = []
    · obtain ⟨-, v1⟩ := sums_nil h1 z1
      have hr : rnd s'.val = s'.val := rnd_exact (Or.inl f2.val_double)
      have := add_finite f1 f2 (by rw [v1, zero_add, hr]; exact f2.val_double.lt)
      rw [v1, zero_add, hr] at this
      subst z1
      rw [List.nil_append, this.2]
      exact ⟨this.1, d2⟩
    by_cases z2 : l' = []
    · obtain ⟨-, v1⟩ := sums_nil h2 z2
      have hr : rnd s.val = s.val := rnd_exact (Or.inl f1.val_double)
      have := add_finite f1 f2 (by rw [v1, add_zero, hr]; exact f1.val_double.lt)
      rw [v1, add_zero, hr] at this
      subst z2
      rw [List.append_nil, this.2]
      exact ⟨this.1, d1⟩
    have p1 := List.length_pos_iff.2 z1
    have p2 := List.length_pos_iff.2 z2
    have s1 := maxErr_step (m := l.length) (n := l.length + l'.length) (by omega) n1 _ rfl
    have s2 := maxErr_step (m := l'.length) (n := l.length + l'.length) (by omega) n2 _ rfl
    have b1 := exact_le l
    have b2 := exact_le l'
    have v1 : |s.val| ≤ maxErr l.length (size l) + size l := by
      have := abs_add_le (s.val - exact l) (exact l)
      rw [sub_add_cancel] at this
      linarith
    have v2 : |s'.val| ≤ maxErr l'.length (size l') + size l' := by
      have := abs_add_le (s'.val - exact l') (exact l')
      rw [sub_add_cancel] at this
      linarith
    have key : (1 + eps) * (maxErr l.length (size l) + maxErr l'.length (size l')) + eps * (size l + size l') ≤
        maxErr (l.length + l'.length) (size l + size l') := by
      have ex : maxErr (l.length + l'.length) (size l + size l') =
          ((1 + eps) ^ (l.length + l'.length) - 1) * size l + l.length * (1 + eps) ^ (l.length + l'.length - 1) * tinyErr +
          (((1 + eps) ^ (l.length + l'.length) - 1) * size l' +
            l'.length * (1 + eps) ^ (l.length + l'.length - 1) * tinyErr) := by
        rw [maxErr]; push_cast; ring
      linarith
    rw [e2, e3] at hM
    rw [maxSum_eq] at hM
    obtain ⟨a1, a2, -⟩ := add_err f1 f2 (by
      have : (1 + eps) * (|s.val| + |s'.val|) ≤ (1 + eps) * (maxErr l.length (size l) + size l + (maxErr l'.length (size l') + size l')) :=
        mul_le_mul_of_nonneg_left (by linarith) (by linarith)
      refine lt_of_le_of_lt this (lt_of_le_of_lt ?_ hM)
      linarith)
    refine ⟨a1, ?_⟩
    rw [e1, e2, e3]
    have t : |(s + s').val - (exact l + exact l')| ≤
        |(s + s').val - (s.val + s'.val)| + (|s.val - exact l| + |s'.val - exact l'|) := by
      have q : (s + s').val - (exact l + exact l') =
          ((s + s').val - (s.val + s'.val)) + ((s.val - exact l) + (s'.val - exact l')) := by ring
      rw [q]
      exact (abs_add_le _ _).trans (by linarith [abs_add_le (s.val - exact l) (s'.val - exact l')])
    have u : eps * (|s.val| + |s'.val|) ≤ eps * (maxErr l.length (size l) + size l + (maxErr l'.length (size l') + size l')) :=
      mul_le_mul_of_nonneg_left (by linarith) he.le
    linarith
  | @fma l s x y h1 i1 =>
    have e1 : exact ((x, y) :: l) = x.val * y.val + exact l := by simp [exact]
    have e2 : size ((x, y) :: l) = |x.val * y.val| + size l := by simp [size]
    have e3 : ((x, y) :: l).length = l.length + 1 := List.length_cons
    have n1 := size_nonneg l
    have n2 := abs_nonneg (x.val * y.val)
    obtain ⟨hx, hy⟩ := hf (x, y) (by simp)
    obtain ⟨f1, d1⟩ := i1 (fun p hp => hf p (List.mem_cons_of_mem _ hp))
      (lt_of_le_of_lt (maxSum_mono (by omega) n1 (by linarith)) hM)
    have s1 := maxErr_step (m := l.length) (n := l.length + 1) (by omega) n1 _ rfl
    have b1 := exact_le l
    have v1 : |s.val| ≤ maxErr l.length (size l) + size l := by
      have := abs_add_le (s.val - exact l) (exact l)
      rw [sub_add_cancel] at this
      linarith
    have hone : 1 ≤ (1 + eps) ^ l.length := one_le_pow₀ (by linarith)
    have key : (1 + eps) * maxErr l.length (size l) + eps * (|x.val * y.val| + size l) + tinyErr ≤
        maxErr (l.length + 1) (|x.val * y.val| + size l) := by
      have : eps * |x.val * y.val| ≤ ((1 + eps) ^ (l.length + 1) - 1) * |x.val * y.val| := by
        refine mul_le_mul_of_nonneg_right ?_ n2
        rw [pow_succ]
        nlinarith
      have h7 : tinyErr ≤ (1 + eps) ^ l.length * tinyErr := le_mul_of_one_le_left ht.le hone
      simp only [Nat.add_sub_cancel] at s1
      have ex : maxErr (l.length + 1) (|x.val * y.val| + size l) =
          ((1 + eps) ^ (l.length + 1) - 1) * size l + l.length * (1 + eps) ^ l.length * tinyErr +
          ((1 + eps) ^ (l.length + 1) - 1) * |x.val * y.val| + (1 + eps) ^ l.length * tinyErr := by
        rw [maxErr, Nat.add_sub_cancel]; push_cast; ring
      linarith
    rw [e2, e3] at hM
    rw [maxSum_eq] at hM
    have w : |x.val * y.val + s.val| ≤ |x.val * y.val| + (maxErr l.length (size l) + size l) :=
      (abs_add_le _ _).trans (by linarith)
    have m0 : 0 ≤ maxErr l.length (size l) := le_trans (abs_nonneg _) d1
    have w' : eps * |x.val * y.val + s.val| ≤ eps * (|x.val * y.val| + (maxErr l.length (size l) + size l)) :=
      mul_le_mul_of_nonneg_left w he.le
    have hlt : |x.val * y.val + s.val| + (eps * |x.val * y.val + s.val| + tinyErr) < 2 ^ 1024 := by
      refine lt_of_le_of_lt ?_ hM
      linarith
    have hrd := rnd_err (x := x.val * y.val + s.val) (by
      refine lt_of_le_of_lt ?_ hlt
      have := mul_nonneg he.le (abs_nonneg (x.val * y.val + s.val))
      linarith)
    have e4 : (2 : ℝ) ^ (-53 : ℤ) = eps := rfl
    have e5 : (2 : ℝ) ^ (-1075 : ℤ) = tinyErr := rfl
    rw [e4, e5] at hrd
    obtain ⟨a1, a2⟩ := fma_finite hx hy f1 (by
      refine lt_of_le_of_lt ?_ hlt
      have := abs_add_le (rnd (x.val * y.val + s.val) - (x.val * y.val + s.val)) (x.val * y.val + s.val)
      rw [sub_add_cancel] at this
      linarith)
    refine ⟨a1, ?_⟩
    rw [a2, e1, e2, e3]
    have t : |rnd (x.val * y.val + s.val) - (x.val * y.val + exact l)| ≤
        |rnd (x.val * y.val + s.val) - (x.val * y.val + s.val)| + |s.val - exact l| := by
      have q : rnd (x.val * y.val + s.val) - (x.val * y.val + exact l) =
          (rnd (x.val * y.val + s.val) - (x.val * y.val + s.val)) + (s.val - exact l) := by ring
      rw [q]
      exact abs_add_le _ _
    linarith
  | @skip l s x y h0 h1 i1 =>
    have z : x.val * y.val = 0 := by
      rcases h0 with (rfl | rfl) | (rfl | rfl) <;> simp [val]
    have e1 : exact ((x, y) :: l) = exact l := by simp [exact, z]
    have e2 : size ((x, y) :: l) = size l := by rw [size, List.map_cons, List.sum_cons, z, abs_zero, zero_add]; rfl
    have e3 : ((x, y) :: l).length = l.length + 1 := List.length_cons
    have n1 := size_nonneg l
    obtain ⟨f1, d1⟩ := i1 (fun p hp => hf p (List.mem_cons_of_mem _ hp))
      (lt_of_le_of_lt (maxSum_mono (by omega) n1 e2.ge) hM)
    refine ⟨f1, ?_⟩
    rw [e1, e2, e3]
    exact d1.trans (maxErr_mono (by omega) n1 (le_refl _))
  | @perm l l' s p h1 i1 =>
    have e1 : exact l = exact l' := (p.map _).sum_eq
    have e2 : size l = size l' := (p.map _).sum_eq
    have e3 := p.length_eq
    rw [← e1, ← e2, ← e3]
    rw [← e2, ← e3] at hM
    exact i1 (fun q hq => hf q (p.mem_iff.1 hq)) hM
  | @neg l s h1 i1 =>
    have e1 : exact (l.map fun p => (-p.1, p.2)) = -exact l := by
      clear hf hM h1 i1
      induction l with
      | nil => simp [exact]
      | cons p l ih =>
        simp only [exact, List.map_cons, List.sum_cons, val_neg] at ih ⊢
        rw [ih]
        ring
    have e2 : size (l.map fun p => (-p.1, p.2)) = size l := by
      simp only [size, List.map_map]
      congr 1
      refine List.map_congr_left fun p _ => ?_
      simp [val_neg]
    rw [e1, e2, List.length_map] at i1
    obtain ⟨f1, d1⟩ := i1 (by
      intro q hq
      obtain ⟨p, hp, rfl⟩ := List.mem_map.1 hq
      exact ⟨(negate_finite (hf p hp).1).1, (hf p hp).2⟩) hM
    refine ⟨(negate_finite f1).1, ?_⟩
    rw [val_neg, ← abs_neg]
    have q : -(-s.val - exact l) = s.val - -exact l := by ring
    rwa [q]
  | @sign l s x y h1 i1 =>
    have e1 : exact ((-x, -y) :: l) = exact ((x, y) :: l) := by simp [exact, val_neg]
    have e2 : size ((-x, -y) :: l) = size ((x, y) :: l) := by simp [size, val_neg]
    rw [e1, e2] at i1
    refine i1 ?_ hM
    intro p hp
    rcases List.mem_cons.1 hp with rfl | hp
    · obtain ⟨g1, g2⟩ := hf (x, y) (by simp)
      exact ⟨(negate_finite g1).1, (negate_finite g2).1⟩
    · exact hf p (List.mem_cons_of_mem _ hp)
  | @flip l s s' h1 h0 h0' i1 =>
    obtain ⟨f1, d1⟩ := i1 hf hM
    refine ⟨h0'.finite.1, ?_⟩
    rw [h0'.finite.2, ← h0.finite.2]
    exact d1

end Verif.GemmFl
