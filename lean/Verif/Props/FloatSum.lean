import Verif.Props.FloatReduce
import Mathlib.Algebra.Order.BigOperators.Group.List
import Mathlib.Algebra.BigOperators.Ring.List
/-
C85: the accuracy of sums, means, scalar products and norms.
-/
namespace Verif.Fl

open Verif Tensor Rounding

variable [Rounding]

/-- Half the distance from one to the next number. -/
noncomputable def eps : ℝ := 2 ^ (-53 : ℤ)

/-- Half the smallest positive number. -/
noncomputable def tinyErr : ℝ := 2 ^ (-1075 : ℤ)

omit [Rounding] in
theorem eps_pos : 0 < eps := two_zpow_pos _

omit [Rounding] in
theorem eps_lt : eps < 1 := by rw [eps]; norm_num

omit [Rounding] in
theorem tinyErr_pos : 0 < tinyErr := two_zpow_pos _

/-- The sum of the values. -/
noncomputable def sumV (l : List Fl) : ℝ := (l.map val).sum

/-- The sum of the absolute values. -/
noncomputable def sumA (l : List Fl) : ℝ := (l.map fun x => |x.val|).sum

omit [Rounding] in
theorem sumA_nonneg (l : List Fl) : 0 ≤ sumA l :=
  List.sum_nonneg fun x hx => by
    obtain ⟨y, -, rfl⟩ := List.mem_map.1 hx
    exact abs_nonneg _

theorem one_le_pow_eps (k : ℕ) : 1 ≤ (1 + eps) ^ k := one_le_pow₀ (by linarith [eps_pos])

/-- A sum of two finite numbers. -/
theorem add_err {a b : Fl} (ha : a.Finite) (hb : b.Finite) (h : (1 + eps) * (|a.val| + |b.val|) < 2 ^ 1024) :
    (a + b).Finite ∧ |(a + b).val - (a.val + b.val)| ≤ eps * (|a.val| + |b.val|) ∧
      |(a + b).val| ≤ (1 + eps) * (|a.val| + |b.val|) := by
  have h0 : |a.val + b.val| ≤ |a.val| + |b.val| := abs_add_le _ _
  have he := eps_pos
  have hn : 0 ≤ |a.val| + |b.val| := by positivity
  have h1 : |a.val + b.val| < 2 ^ 1024 := by nlinarith
  have h2 : |rnd (a.val + b.val) - (a.val + b.val)| ≤ eps * (|a.val| + |b.val|) :=
    (rnd_add ha.val_double hb.val_double h1).trans (mul_le_mul_of_nonneg_left h0 he.le)
  have h3 : |rnd (a.val + b.val)| ≤ (1 + eps) * (|a.val| + |b.val|) := by
    have : |rnd (a.val + b.val)| ≤ |rnd (a.val + b.val) - (a.val + b.val)| + |a.val + b.val| := by
      have := abs_add_le (rnd (a.val + b.val) - (a.val + b.val)) (a.val + b.val)
      rwa [sub_add_cancel] at this
    linarith
  obtain ⟨h4, h5⟩ := add_finite ha hb (h3.trans_lt h)
  rw [h5]
  exact ⟨h4, h2, h3⟩

theorem fold_err (l : List Fl) (s : Fl) (hs : s.Finite) (hl : ∀ x ∈ l, x.Finite)
    (h : (1 + eps) ^ l.length * (|s.val| + sumA l) < 2 ^ 1024) :
    (l.foldl (· + ·) s).Finite ∧
    |(l.foldl (· + ·) s).val - (s.val + sumV l)| ≤ ((1 + eps) ^ l.length - 1) * (|s.val| + sumA l) := by
  induction l generalizing s with
  | nil => exact ⟨hs, by simp [sumV]⟩
  | cons x xs ih =>
    have hsum : sumA (x :: xs) = |x.val| + sumA xs := by simp [sumA]
    have hsumV : sumV (x :: xs) = x.val + sumV xs := by simp [sumV]
    have hA := sumA_nonneg xs
    have hp := one_le_pow_eps xs.length
    have he := eps_pos
    have hx := abs_nonneg x.val
    have hs0 := abs_nonneg s.val
    rw [List.length_cons, hsum, pow_succ] at h
    rw [List.length_cons, hsum, hsumV, List.foldl_cons, pow_succ]
    set P := (1 + eps) ^ xs.length with hP
    have hP0 : 0 < P := by linarith
    have hb : (1 + eps) * (|s.val| + |x.val|) ≤ P * (1 + eps) * (|s.val| + (|x.val| + sumA xs)) := by
      have h1 : (1 + eps) * (|s.val| + |x.val|) ≤ (1 + eps) * (|s.val| + (|x.val| + sumA xs)) :=
        mul_le_mul_of_nonneg_left (by linarith) (by linarith)
      have h2 : 0 ≤ (1 + eps) * (|s.val| + (|x.val| + sumA xs)) :=
        mul_nonneg (by linarith) (by linarith)
      nlinarith
    obtain ⟨h1, h2, h3⟩ := add_err hs (hl x (by simp)) (hb.trans_lt h)
    have hb2 : |(s + x).val| + sumA xs ≤ (1 + eps) * (|s.val| + (|x.val| + sumA xs)) := by nlinarith
    obtain ⟨h4, h5⟩ := ih (s + x) h1 (fun y hy => hl y (by simp [hy])) (by
      refine lt_of_le_of_lt ?_ h
      rw [mul_assoc]
      exact mul_le_mul_of_nonneg_left hb2 hP0.le)
    refine ⟨h4, ?_⟩
    have h6 : |(xs.foldl (· + ·) (s + x)).val - (s.val + (x.val + sumV xs))| ≤
        |(xs.foldl (· + ·) (s + x)).val - ((s + x).val + sumV xs)| + |(s + x).val - (s.val + x.val)| := by
      have := abs_add_le ((xs.foldl (· + ·) (s + x)).val - ((s + x).val + sumV xs)) ((s + x).val - (s.val + x.val))
      refine le_trans (le_of_eq ?_) this
      congr 1; ring
    have h7 : (P - 1) * (|(s + x).val| + sumA xs) ≤ (P - 1) * ((1 + eps) * (|s.val| + (|x.val| + sumA xs))) :=
      mul_le_mul_of_nonneg_left hb2 (by linarith)
    have h8 : eps * (|s.val| + |x.val|) ≤ eps * (|s.val| + (|x.val| + sumA xs)) :=
      mul_le_mul_of_nonneg_left (by linarith) he.le
    calc _ ≤ _ := h6
      _ ≤ (P - 1) * ((1 + eps) * (|s.val| + (|x.val| + sumA xs))) + eps * (|s.val| + (|x.val| + sumA xs)) := by
        linarith
      _ = _ := by ring

/-- Adding to zero is exact. -/
theorem zero_add_finite {x : Fl} (hx : x.Finite) : ((0 : Fl) + x).Finite ∧ ((0 : Fl) + x).val = x.val := by
  have h0 : (0 : Fl).val = 0 := rfl
  have h : rnd (x.val) = x.val := rnd_exact (Or.inl hx.val_double)
  have := add_finite finite_zero hx (by rw [h0, zero_add, h]; exact hx.val_double.lt)
  rwa [h0, zero_add, h] at this

theorem sum_err (l : List Fl) (hl : ∀ x ∈ l, x.Finite) (h : (1 + eps) ^ (l.length - 1) * sumA l < 2 ^ 1024) :
    (l.foldl (· + ·) 0).Finite ∧
    |(l.foldl (· + ·) 0).val - sumV l| ≤ ((1 + eps) ^ (l.length - 1) - 1) * sumA l := by
  cases l with
  | nil => exact ⟨isDouble_zero, by simp [sumV, sumA]; rfl⟩
  | cons x xs =>
    obtain ⟨h1, h2⟩ := zero_add_finite (hl x (by simp))
    have hsum : sumA (x :: xs) = |((0 : Fl) + x).val| + sumA xs := by rw [h2]; simp [sumA]
    have hsumV : sumV (x :: xs) = ((0 : Fl) + x).val + sumV xs := by rw [h2]; simp [sumV]
    rw [hsum, List.length_cons, Nat.add_sub_cancel] at h
    rw [hsum, hsumV, List.length_cons, Nat.add_sub_cancel, List.foldl_cons]
    exact fold_err xs _ h1 (fun y hy => hl y (by simp [hy])) h

/-- C85: without overflow, the error of the sum of n finite numbers is at most ((1 + 2^-53)^(n-1) - 1) times the sum
of their absolute values. -/
theorem c85_sum (t : Tensor Fl) (ht : ∀ x ∈ t.data, x.Finite)
    (h : (1 + 2 ^ (-53 : ℤ)) ^ (t.data.length - 1) * (t.data.map fun x => |x.val|).sum < (2 : ℝ) ^ 1024) :
    (sumAll t).Finite ∧ |(sumAll t).val - (t.data.map val).sum| ≤
      ((1 + 2 ^ (-53 : ℤ)) ^ (t.data.length - 1) - 1) * (t.data.map fun x => |x.val|).sum :=
  sum_err t.data ht h

/-- The hypotheses can be met. -/
example : (∀ x ∈ (⟨[2], [fin 1, fin 2]⟩ : Tensor Fl).data, x.Finite) ∧
    (1 + 2 ^ (-53 : ℤ)) ^ ((⟨[2], [fin 1, fin 2]⟩ : Tensor Fl).data.length - 1) *
      ((⟨[2], [fin 1, fin 2]⟩ : Tensor Fl).data.map fun x => |x.val|).sum < (2 : ℝ) ^ 1024 := by
  refine ⟨?_, ?_⟩
  · intro x hx
    simp only [List.mem_cons, List.not_mem_nil, or_false] at hx
    rcases hx with rfl | rfl
    · exact ⟨1, 0, by norm_num, by norm_num, by norm_num, by norm_num⟩
    · exact ⟨2, 0, by norm_num, by norm_num, by norm_num, by norm_num⟩
  · have : (2 : ℝ) ^ 4 ≤ 2 ^ 1024 := pow_le_pow_right₀ (by norm_num) (by norm_num)
    refine lt_of_lt_of_le ?_ this
    norm_num [val]

/-- A product of finite numbers. -/
theorem mul_err {a b : Fl} (ha : a.Finite) (hb : b.Finite)
    (h : (1 + eps) * |a.val * b.val| + tinyErr < 2 ^ 1024) :
    (a * b).Finite ∧ |(a * b).val - a.val * b.val| ≤ eps * |a.val * b.val| + tinyErr ∧
      |(a * b).val| ≤ (1 + eps) * |a.val * b.val| + tinyErr := by
  have he := eps_pos
  have ht := tinyErr_pos
  have hn := abs_nonneg (a.val * b.val)
  have h1 : |a.val * b.val| < 2 ^ 1024 := by nlinarith
  have h2 : |rnd (a.val * b.val) - a.val * b.val| ≤ eps * |a.val * b.val| + tinyErr := rnd_err h1
  have h3 : |rnd (a.val * b.val)| ≤ (1 + eps) * |a.val * b.val| + tinyErr := by
    have := abs_add_le (rnd (a.val * b.val) - a.val * b.val) (a.val * b.val)
    rw [sub_add_cancel] at this
    linarith
  obtain ⟨h4, h5⟩ := mul_finite ha hb (h3.trans_lt h)
  rw [h5]
  exact ⟨h4, h2, h3⟩

/-- C85: the scalar product, without overflow. Products may underflow: for each there is an error of at most
2^-1075. -/
theorem c85_scprod (a b : Tensor Fl) (ha : ∀ x ∈ a.data, x.Finite) (hb : ∀ x ∈ b.data, x.Finite)
    (hl : a.data.length = b.data.length)
    (h : (1 + 2 ^ (-53 : ℤ)) ^ (a.data.length - 1) * ((1 + 2 ^ (-53 : ℤ)) *
      (List.zipWith (fun x y => |x.val * y.val|) a.data b.data).sum + a.data.length * 2 ^ (-1075 : ℤ)) < (2 : ℝ) ^ 1024) :
    ∃ s, scprod id a b = .ok s ∧ s.Finite ∧
      |s.val - (List.zipWith (fun x y => x.val * y.val) a.data b.data).sum| ≤
        ((1 + 2 ^ (-53 : ℤ)) ^ a.data.length - 1) * (List.zipWith (fun x y => |x.val * y.val|) a.data b.data).sum +
        (1 + 2 ^ (-53 : ℤ)) ^ (a.data.length - 1) * (a.data.length * 2 ^ (-1075 : ℤ)) := by
  have e1 : (2 : ℝ) ^ (-53 : ℤ) = eps := rfl
  have e2 : (2 : ℝ) ^ (-1075 : ℤ) = tinyErr := rfl
  rw [e1, e2] at h ⊢
  refine ⟨_, scprod_fold _ _ _ hl.le, ?_⟩
  have hp : ∀ (l l' : List Fl), (∀ x ∈ l, x.Finite) → (∀ x ∈ l', x.Finite) → l.length = l'.length →
      ((1 + eps) * (List.zipWith (fun x y => |x.val * y.val|) l l').sum + l.length * tinyErr < 2 ^ 1024) →
      (∀ x ∈ (List.zipWith (fun x y : Fl => x * id y) l l'), x.Finite) ∧
      sumA (List.zipWith (fun x y : Fl => x * id y) l l') ≤
        (1 + eps) * (List.zipWith (fun x y => |x.val * y.val|) l l').sum + l.length * tinyErr ∧
      |sumV (List.zipWith (fun x y : Fl => x * id y) l l') - (List.zipWith (fun x y => x.val * y.val) l l').sum| ≤
        eps * (List.zipWith (fun x y => |x.val * y.val|) l l').sum + l.length * tinyErr := by
    intro l
    induction l with
    | nil => intro l' _ _ _ _; simp [sumA, sumV]
    | cons x xs ih =>
      intro l' h1 h2 h3 h4
      cases l' with
      | nil => simp at h3
      | cons y ys =>
        simp only [List.zipWith_cons_cons, List.sum_cons, List.length_cons, Nat.cast_succ] at h4 ⊢
        have hA : 0 ≤ (List.zipWith (fun x y : Fl => |x.val * y.val|) xs ys).sum := by
          refine List.sum_nonneg fun z hz => ?_
          rw [List.mem_iff_getElem?] at hz
          obtain ⟨i, hi⟩ := hz
          rw [List.getElem?_zipWith] at hi
          cases hx : xs[i]? <;> cases hy : ys[i]? <;> rw [hx, hy] at hi <;> simp at hi
          rw [← hi]
          positivity
        have he := eps_pos
        have ht := tinyErr_pos
        have hxy := abs_nonneg (x.val * y.val)
        have hk : (0 : ℝ) ≤ xs.length * tinyErr := mul_nonneg (Nat.cast_nonneg _) ht.le
        obtain ⟨i1, i2, i3⟩ := ih ys (fun z hz => h1 z (by simp [hz])) (fun z hz => h2 z (by simp [hz]))
          (by simpa using h3) (by nlinarith)
        obtain ⟨j1, j2, j3⟩ := mul_err (h1 x (by simp)) (h2 y (by simp)) (by nlinarith)
        refine ⟨?_, ?_, ?_⟩
        · intro z hz
          rcases List.mem_cons.1 hz with rfl | hz
          · exact j1
          · exact i1 z hz
        · have : sumA (x * id y :: List.zipWith (fun x y : Fl => x * id y) xs ys) =
              |(x * y).val| + sumA (List.zipWith (fun x y : Fl => x * id y) xs ys) := by simp [sumA]
          rw [this]
          nlinarith
        · have : sumV (x * id y :: List.zipWith (fun x y : Fl => x * id y) xs ys) =
              (x * y).val + sumV (List.zipWith (fun x y : Fl => x * id y) xs ys) := by simp [sumV]
          rw [this]
          have := abs_add_le ((x * y).val - x.val * y.val)
            (sumV (List.zipWith (fun x y : Fl => x * id y) xs ys) - (List.zipWith (fun x y => x.val * y.val) xs ys).sum)
          rw [show (x * y).val - x.val * y.val + (sumV (List.zipWith (fun x y : Fl => x * id y) xs ys) -
            (List.zipWith (fun x y => x.val * y.val) xs ys).sum) = (x * y).val +
            sumV (List.zipWith (fun x y : Fl => x * id y) xs ys) -
            (x.val * y.val + (List.zipWith (fun x y => x.val * y.val) xs ys).sum) by ring] at this
          nlinarith
  have hone := one_le_pow_eps (a.data.length - 1)
  have he := eps_pos
  have ht := tinyErr_pos
  have hk : (0 : ℝ) ≤ a.data.length * tinyErr := mul_nonneg (Nat.cast_nonneg _) ht.le
  set S := (List.zipWith (fun x y : Fl => |x.val * y.val|) a.data b.data).sum with hS
  have hS0 : 0 ≤ S := by
    refine List.sum_nonneg fun z hz => ?_
    rw [List.mem_iff_getElem?] at hz
    obtain ⟨i, hi⟩ := hz
    rw [List.getElem?_zipWith] at hi
    cases hx : a.data[i]? <;> cases hy : b.data[i]? <;> rw [hx, hy] at hi <;> simp at hi
    rw [← hi]
    positivity
  have hT0 : 0 ≤ (1 + eps) * S + a.data.length * tinyErr := by nlinarith
  obtain ⟨p1, p2, p3⟩ := hp a.data b.data ha hb hl (by nlinarith)
  have hlen : (List.zipWith (fun x y : Fl => x * id y) a.data b.data).length = a.data.length := by simp [hl]
  obtain ⟨q1, q2⟩ := sum_err _ p1 (by
    rw [hlen]
    refine lt_of_le_of_lt ?_ h
    exact mul_le_mul_of_nonneg_left p2 (by linarith))
  refine ⟨q1, ?_⟩
  rw [hlen] at q2
  set P := (1 + eps) ^ (a.data.length - 1) with hP
  have hfin : |((List.zipWith (fun x y : Fl => x * id y) a.data b.data).foldl (· + ·) 0).val -
      (List.zipWith (fun x y => x.val * y.val) a.data b.data).sum| ≤
      (P - 1) * ((1 + eps) * S + a.data.length * tinyErr) + (eps * S + a.data.length * tinyErr) := by
    have h3 := abs_add_le (((List.zipWith (fun x y : Fl => x * id y) a.data b.data).foldl (· + ·) 0).val -
      sumV (List.zipWith (fun x y : Fl => x * id y) a.data b.data))
      (sumV (List.zipWith (fun x y : Fl => x * id y) a.data b.data) -
        (List.zipWith (fun x y => x.val * y.val) a.data b.data).sum)
    rw [sub_add_sub_cancel] at h3
    have h4 := mul_le_mul_of_nonneg_left p2 (show 0 ≤ P - 1 by linarith)
    linarith
  refine hfin.trans ?_
  rcases Nat.eq_zero_or_pos a.data.length with h0 | h0
  · have hz : S = 0 := by
      have : a.data = [] := List.length_eq_zero_iff.1 h0
      rw [hS, this]; simp
    rw [hP, h0, hz]
    simp
  · have hsucc : (1 + eps) ^ a.data.length = P * (1 + eps) := by
      rw [hP, ← pow_succ]; congr 1; omega
    rw [hsucc]
    refine le_of_eq ?_
    ring

/-- The hypotheses can be met. -/
example : (1 + 2 ^ (-53 : ℤ)) ^ ([fin 3].length - 1) * ((1 + 2 ^ (-53 : ℤ)) *
      (List.zipWith (fun x y => |x.val * y.val|) [fin 3] [fin 5]).sum + [fin 3].length * 2 ^ (-1075 : ℤ)) < (2 : ℝ) ^ 1024 := by
  have h1 : (2 : ℝ) ^ 10 ≤ 2 ^ 1024 := pow_le_pow_right₀ (by norm_num) (by norm_num)
  have h2 : (2 : ℝ) ^ (-1075 : ℤ) ≤ 2 ^ (0 : ℤ) := zpow_le_zpow_right₀ (by norm_num) (by norm_num)
  refine lt_of_lt_of_le ?_ h1
  generalize (2 : ℝ) ^ (-1075 : ℤ) = w at *
  norm_num [val] at h2 ⊢
  linarith

/-- C85: the mean, if the sum has no overflow and the numbers of elements are exact. -/
theorem c85_mean (t : Tensor Fl) (ht : ∀ x ∈ t.data, x.Finite) (h0 : t.data ≠ []) (hn : t.data.length < 2 ^ 53)
    (h : (1 + 2 ^ (-53 : ℤ)) ^ t.data.length * (t.data.map fun x => |x.val|).sum < (2 : ℝ) ^ 1023) :
    (meanAll (fun s n => s / (n : Fl)) t).Finite ∧
    |(meanAll (fun s n => s / (n : Fl)) t).val - (t.data.map val).sum / t.data.length| ≤
      ((1 + 2 ^ (-53 : ℤ)) ^ t.data.length - 1) * ((t.data.map fun x => |x.val|).sum / t.data.length) +
        2 ^ (-1075 : ℤ) := by
  have e1 : (2 : ℝ) ^ (-53 : ℤ) = eps := rfl
  have e2 : (2 : ℝ) ^ (-1075 : ℤ) = tinyErr := rfl
  have e3 : (t.data.map fun x => |x.val|).sum = sumA t.data := rfl
  have e4 : (t.data.map val).sum = sumV t.data := rfl
  rw [e1, e3] at h
  rw [e1, e2, e3, e4]
  have hpos : 0 < t.data.length := List.length_pos_of_ne_nil h0
  have hN : (1 : ℝ) ≤ t.data.length := by exact_mod_cast hpos
  have he := eps_pos
  have ht0 := tinyErr_pos
  have hA := sumA_nonneg t.data
  have hone := one_le_pow_eps (t.data.length - 1)
  have hsucc : (1 + eps) ^ t.data.length = (1 + eps) ^ (t.data.length - 1) * (1 + eps) := by
    rw [← pow_succ]; congr 1; omega
  have h1023 : (2 : ℝ) ^ 1024 = 2 * 2 ^ 1023 := by rw [← pow_succ']
  have hone' : (1 : ℝ) ≤ 2 ^ 1023 := one_le_pow₀ (by norm_num)
  generalize (2 : ℝ) ^ 1023 = B at h h1023 hone'
  have hB : ∀ x, x < 2 * B → x < 2 ^ 1024 := fun x hx => by rw [h1023]; exact hx
  clear h1023
  set P := (1 + eps) ^ (t.data.length - 1) with hP
  rw [hsucc] at h ⊢
  have hlt : P * sumA t.data < B := by nlinarith [mul_nonneg (mul_nonneg (by linarith : 0 ≤ P) he.le) hA]
  obtain ⟨h1, h2⟩ := sum_err t.data ht (by rw [← hP]; exact hB _ (by linarith))
  rw [← hP] at h2
  obtain ⟨n1, n2⟩ := ofNat_exact hn
  set s := t.data.foldl (· + ·) 0 with hs
  have hsV : |sumV t.data| ≤ sumA t.data := by
    have key : ∀ l : List Fl, |sumV l| ≤ sumA l := by
      intro l
      induction l with
      | nil => simp [sumV, sumA]
      | cons x xs ih =>
        have a : sumA (x :: xs) = |x.val| + sumA xs := by simp [sumA]
        have b : sumV (x :: xs) = x.val + sumV xs := by simp [sumV]
        rw [a, b]
        exact (abs_add_le _ _).trans (by linarith)
    exact key _
  have hsb : |s.val| ≤ P * sumA t.data := by
    have := abs_add_le (s.val - sumV t.data) (sumV t.data)
    rw [sub_add_cancel] at this
    linarith
  have hq : |s.val / t.data.length| = |s.val| / t.data.length := by
    rw [abs_div, abs_of_pos (by linarith : (0 : ℝ) < t.data.length)]
  have hq1 : |s.val| / t.data.length ≤ |s.val| := div_le_self (abs_nonneg _) hN
  have hb : |s.val / t.data.length| < B := by rw [hq]; linarith
  have herr : |rnd (s.val / t.data.length) - s.val / t.data.length| ≤ eps * |s.val / t.data.length| + tinyErr :=
    rnd_err (hB _ (by linarith))
  have htl : tinyErr < 1 / 2 := by
    have : (2 : ℝ) ^ (-1075 : ℤ) < 2 ^ (-1 : ℤ) := zpow_lt_zpow_right₀ (by norm_num) (by norm_num)
    rw [e2] at this
    norm_num at this ⊢
    exact this
  have hel : eps < 1 / 2 := by rw [eps]; norm_num
  have hrb : |rnd (s.val / t.data.length)| < 2 ^ 1024 := by
    refine hB _ ?_
    have := abs_add_le (rnd (s.val / t.data.length) - s.val / t.data.length) (s.val / t.data.length)
    rw [sub_add_cancel] at this
    have := mul_le_mul_of_nonneg_right hel.le (abs_nonneg (s.val / t.data.length))
    linarith
  obtain ⟨d1, d2⟩ := div_finite h1 n1 (by rw [n2]; positivity) (by rw [n2]; exact hrb)
  rw [n2] at d2
  have hm : meanAll (fun s n => s / (n : Fl)) t = s / (t.data.length : Fl) := rfl
  rw [hm]
  refine ⟨d1, ?_⟩
  rw [d2]
  have h5 := abs_add_le (rnd (s.val / t.data.length) - s.val / t.data.length)
    (s.val / t.data.length - sumV t.data / t.data.length)
  rw [sub_add_sub_cancel, ← sub_div, abs_div (s.val - sumV t.data), abs_of_pos (by linarith : (0 : ℝ) < t.data.length)] at h5
  have h6 : |s.val - sumV t.data| / t.data.length ≤ (P - 1) * (sumA t.data / t.data.length) := by
    rw [← mul_div_assoc]
    exact div_le_div_of_nonneg_right h2 (by linarith)
  have h7 : |s.val / t.data.length| ≤ P * (sumA t.data / t.data.length) := by
    rw [hq, ← mul_div_assoc]
    exact div_le_div_of_nonneg_right hsb (by linarith)
  have h8 := mul_le_mul_of_nonneg_left h7 he.le
  calc _ ≤ _ := h5
    _ ≤ eps * (P * (sumA t.data / t.data.length)) + tinyErr + (P - 1) * (sumA t.data / t.data.length) := by linarith
    _ = _ := by ring

/-- An infinite sum. -/
theorem fold_pinf (l : List Fl) (s : Fl) (hs : NonNeg s) (hl : ∀ y ∈ l, NonNeg y) (h : pinf ∈ l) :
    l.foldl (· + ·) s = pinf := by
  have hadd : ∀ b, NonNeg b → pinf + b = pinf := by
    rintro b (rfl | ⟨hb, -⟩)
    · rfl
    · cases b <;> first | rfl | exact hb.elim
  have hadd' : ∀ b, NonNeg b → b + pinf = pinf := by
    rintro b (rfl | ⟨hb, -⟩)
    · rfl
    · cases b <;> first | rfl | exact hb.elim
  have hinf : ∀ l : List Fl, (∀ y ∈ l, NonNeg y) → l.foldl (· + ·) pinf = pinf := by
    intro l
    induction l with
    | nil => intro _; rfl
    | cons y ys ih =>
      intro hl
      rw [List.foldl_cons, hadd y (hl y (by simp))]
      exact ih fun z hz => hl z (by simp [hz])
  have key : ∀ (l : List Fl) (s : Fl), NonNeg s → (∀ y ∈ l, NonNeg y) → pinf ∈ l → l.foldl (· + ·) s = pinf := by
    intro l
    induction l with
    | nil => intro s _ _ h; simp at h
    | cons y ys ih =>
      intro s hs hl h
      rw [List.foldl_cons]
      by_cases hy : y = pinf
      · rw [hy, hadd' s hs]
        exact hinf ys fun z hz => hl z (by simp [hz])
      · exact ih _ (nonNeg_add hs (hl y (by simp))) (fun z hz => hl z (by simp [hz]))
          ((List.mem_cons.1 h).resolve_left fun e => hy e.symm)
  exact key l s hs hl h

/-- The square of a number of size 2^512 or more. -/
theorem sq_big {x : Fl} (hxf : x.Finite) (h : 2 ^ 512 ≤ |x.val|) : x * x = pinf := by
  have h1 : (2 : ℝ) ^ 1024 ≤ x.val * x.val := by
    rw [← abs_mul_abs_self]
    calc (2 : ℝ) ^ 1024 = 2 ^ 512 * 2 ^ 512 := by rw [← pow_add]
      _ ≤ |x.val| * |x.val| := mul_le_mul h h (by positivity) (abs_nonneg _)
  have h2 : (2 : ℝ) ^ 1024 ≤ rnd (x.val * x.val) :=
    le_rnd (Or.inr (abs_of_nonneg (by positivity))) h1
  have h0 : (0 : ℝ) < 2 ^ 1024 := by positivity
  show mul x x = pinf
  rw [mul, if_neg (by simp [hxf.ne_nan]), if_neg (by simp [hxf.not_inf]),
    if_neg (h0.trans_le h1).ne', round, if_pos h2]

/-- C85: if there is an element of size 2^512 or more, then norm2 is infinite, whatever the norm is. -/
theorem c85_negation_overflow (t : Tensor Fl) (hf : ∀ x ∈ t.data, x.Finite) (x : Fl) (hx : x ∈ t.data)
    (h : 2 ^ 512 ≤ |x.val|) : norm2 id id sqrt t = .ok pinf := by
  rw [norm2_eq, fold_pinf _ (0 : Fl) (Or.inr ⟨isDouble_zero, le_refl _⟩) (fun y hy => by
    obtain ⟨z, hz, rfl⟩ := List.mem_map.1 hy
    exact nonNeg_sq (hf z hz).wf (hf z hz).ne_nan) (List.mem_map.2 ⟨x, hx, sq_big (hf x hx) h⟩ : pinf ∈ t.data.map fun x => x * x)]
  rfl

/-- Numbers which are rounded to zero. -/
theorem rnd_tiny {y : ℝ} (hy : |y| < 2 ^ (-1075 : ℤ)) : rnd y = 0 := by
  refine rnd_eq (d := 2 ^ (-1074 : ℤ)) (Or.inl isDouble_zero) (fun z hz hne => ?_) ?_
  · rw [sub_zero]
    rcases hz with hz | hz
    · obtain ⟨k, rfl⟩ := hz.grid
      have hk : k ≠ 0 := fun e => hne (by rw [e]; simp)
      rw [abs_mul, abs_of_pos (two_zpow_pos _)]
      have : (1 : ℝ) ≤ |(k : ℝ)| := by
        have := Int.one_le_abs hk
        exact_mod_cast this
      exact le_mul_of_one_le_left (two_zpow_pos _).le this
    · rw [hz]
      have h1 : (2 : ℝ) ^ (-1074 : ℤ) ≤ 2 ^ (0 : ℤ) := zpow_le_zpow_right₀ (by norm_num) (by norm_num)
      rw [zpow_zero] at h1
      exact h1.trans (one_le_pow₀ (by norm_num))
  · rw [sub_zero]
    refine lt_of_lt_of_eq hy ?_
    rw [show (-1075 : ℤ) = -1074 - 1 by norm_num, zpow_sub_one₀ (by norm_num)]; rfl

omit [Rounding] in
theorem sq_tiny {x : ℝ} (hlt : |x| < 2 ^ (-538 : ℤ)) : |x * x| < 2 ^ (-1075 : ℤ) := by
  rw [abs_mul]
  calc |x| * |x| < 2 ^ (-538 : ℤ) * 2 ^ (-538 : ℤ) :=
        mul_lt_mul'' hlt hlt (abs_nonneg _) (abs_nonneg _)
    _ = 2 ^ (-1076 : ℤ) := by rw [← zpow_add₀ (by norm_num)]; norm_num
    _ < 2 ^ (-1075 : ℤ) := zpow_lt_zpow_right₀ (by norm_num) (by norm_num)

/-- The square of a number which underflows. -/
theorem sq_zero {x : Fl} (hxf : x.Finite) (hlt : |x.val| < 2 ^ (-538 : ℤ)) : x * x = 0 := by
  show mul x x = fin 0
  rw [mul, if_neg (by simp [hxf.ne_nan]), if_neg (by simp [hxf.not_inf])]
  split
  · simp [zeroS]
  · have h0 : (0 : ℝ) < 2 ^ 1024 := by positivity
    rw [round, rnd_tiny (sq_tiny hlt), if_neg (not_le.2 h0), if_neg (not_le.2 (neg_lt_zero.2 h0)), if_pos rfl, zeroS,
      if_neg (by simpa using mul_self_nonneg x.val)]

theorem fold_zero (l : List Fl) (hl : ∀ y ∈ l, y = 0) : l.foldl (· + ·) (0 : Fl) = 0 := by
  induction l with
  | nil => rfl
  | cons y ys ih =>
    rw [List.foldl_cons, hl y (by simp)]
    have : (0 : Fl) + 0 = 0 := by
      show add (fin 0) (fin 0) = fin 0
      simp [add, val]
    rw [this]
    exact ih fun z hz => hl z (by simp [hz])

/-- C85: if all the elements are smaller than 2^-538, then norm2 is zero. -/
theorem c85_negation_underflow (t : Tensor Fl) (hf : ∀ x ∈ t.data, x.Finite)
    (h : ∀ x ∈ t.data, |x.val| < 2 ^ (-538 : ℤ)) : norm2 id id sqrt t = .ok 0 := by
  rw [norm2_eq, fold_zero _ (fun y hy => by
    obtain ⟨z, hz, rfl⟩ := List.mem_map.1 hy
    exact sq_zero (hf z hz) (h z hz))]
  show Res.ok (sqrt (fin 0)) = .ok (fin 0)
  simp [sqrt]

/-- Squares without underflow. -/
theorem sq_err (l : List Fl) (hf : ∀ x ∈ l, x.Finite) (hu : ∀ x ∈ l, x.val = 0 ∨ 2 ^ (-511 : ℤ) ≤ |x.val|)
    (h : (1 + eps) * (l.map fun x => x.val ^ 2).sum < 2 ^ 1024) :
    (∀ x ∈ (l.map fun x => x * x), x.Finite) ∧
    sumA (l.map fun x => x * x) ≤ (1 + eps) * (l.map fun x => x.val ^ 2).sum ∧
    |sumV (l.map fun x => x * x) - (l.map fun x => x.val ^ 2).sum| ≤ eps * (l.map fun x => x.val ^ 2).sum := by
  induction l with
  | nil => simp [sumA, sumV]
  | cons x xs ih =>
    have he := eps_pos
    have hA : 0 ≤ (xs.map fun x => x.val ^ 2).sum := List.sum_nonneg fun z hz => by
      obtain ⟨y, -, rfl⟩ := List.mem_map.1 hz
      positivity
    simp only [List.map_cons, List.sum_cons] at h ⊢
    have hx2 : 0 ≤ x.val ^ 2 := sq_nonneg _
    obtain ⟨i1, i2, i3⟩ := ih (fun z hz => hf z (by simp [hz])) (fun z hz => hu z (by simp [hz]))
      (lt_of_le_of_lt (mul_le_mul_of_nonneg_left (by linarith) (by linarith)) h)
    have hxf := hf x (by simp)
    have hrel : |rnd (x.val * x.val) - x.val * x.val| ≤ eps * x.val ^ 2 := by
      rcases hu x (by simp) with h0 | h0
      · rw [h0, mul_zero, rnd_zero, sub_zero, abs_zero]; simp
      · have habs : |x.val * x.val| = x.val ^ 2 := by rw [← sq, abs_of_nonneg hx2]
        rw [← habs]
        refine rnd_rel ?_ ?_
        · rw [abs_mul]
          calc (2 : ℝ) ^ (-1022 : ℤ) = 2 ^ (-511 : ℤ) * 2 ^ (-511 : ℤ) := by
                rw [← zpow_add₀ (by norm_num)]; norm_num
            _ ≤ |x.val| * |x.val| := mul_le_mul h0 h0 (two_zpow_pos _).le (abs_nonneg _)
        · rw [habs]
          refine lt_of_le_of_lt ?_ h
          nlinarith
    have hb : |rnd (x.val * x.val)| ≤ (1 + eps) * x.val ^ 2 := by
      have := abs_add_le (rnd (x.val * x.val) - x.val * x.val) (x.val * x.val)
      rw [sub_add_cancel, ← sq, abs_of_nonneg hx2] at this
      rw [← sq] at hrel ⊢
      linarith
    obtain ⟨m1, m2⟩ := mul_finite hxf hxf (lt_of_le_of_lt (hb.trans (by nlinarith)) h)
    refine ⟨?_, ?_, ?_⟩
    · intro z hz
      rcases List.mem_cons.1 hz with rfl | hz
      · exact m1
      · exact i1 z hz
    · have : sumA (x * x :: xs.map fun x => x * x) = |(x * x).val| + sumA (xs.map fun x => x * x) := by simp [sumA]
      rw [this, m2]
      linarith
    · have : sumV (x * x :: xs.map fun x => x * x) = (x * x).val + sumV (xs.map fun x => x * x) := by simp [sumV]
      rw [this, m2]
      have h3 := abs_add_le (rnd (x.val * x.val) - x.val * x.val)
        (sumV (xs.map fun x => x * x) - (xs.map fun x => x.val ^ 2).sum)
      rw [show rnd (x.val * x.val) - x.val * x.val + (sumV (xs.map fun x => x * x) - (xs.map fun x => x.val ^ 2).sum)
        = rnd (x.val * x.val) + sumV (xs.map fun x => x * x) - (x.val ^ 2 + (xs.map fun x => x.val ^ 2).sum) by ring] at h3
      linarith

/-- The rounding of a root: there is no overflow and no underflow. -/
theorem sqrt_rounded {S : Fl} (q1 : S.Finite) (hSn : 0 ≤ S.val) :
    (sqrt S).Finite ∧ |(sqrt S).val - Real.sqrt S.val| ≤ eps * Real.sqrt S.val := by
  have hSb : S.val < 2 ^ 1024 := (le_abs_self _).trans_lt q1.val_double.lt
  have hrb : Real.sqrt S.val < 2 ^ 512 := by
    rw [Real.sqrt_lt' (by positivity), ← pow_mul]
    exact hSb
  have h512 : (2 : ℝ) ^ 512 < 2 ^ 1024 := pow_lt_pow_right₀ (by norm_num) (by norm_num)
  have hrel : |rnd (Real.sqrt S.val) - Real.sqrt S.val| ≤ eps * Real.sqrt S.val := by
    rcases eq_or_lt_of_le hSn with h1 | h1
    · rw [← h1, Real.sqrt_zero, rnd_zero]; simp
    · have h2 : (2 : ℝ) ^ (-1022 : ℤ) ≤ Real.sqrt S.val := by
        rw [Real.le_sqrt (two_zpow_pos _).le hSn]
        obtain ⟨k, hk⟩ := q1.val_double.grid
        rw [hk] at h1 ⊢
        have hk1 : (0 : ℝ) < k := (mul_pos_iff_of_pos_right (two_zpow_pos _)).1 h1
        have hk2 : (1 : ℝ) ≤ k := by
          have : (0 : ℤ) < k := by exact_mod_cast hk1
          exact_mod_cast this
        calc ((2 : ℝ) ^ (-1022 : ℤ)) ^ 2 = 2 ^ (-2044 : ℤ) := by
              rw [sq, ← zpow_add₀ (by norm_num)]; norm_num
          _ ≤ 2 ^ (-1074 : ℤ) := zpow_le_zpow_right₀ (by norm_num) (by norm_num)
          _ ≤ k * 2 ^ (-1074 : ℤ) := le_mul_of_one_le_left (two_zpow_pos _).le hk2
      have := rnd_rel (x := Real.sqrt S.val) (by rwa [abs_of_nonneg (Real.sqrt_nonneg _)])
        (by rw [abs_of_nonneg (Real.sqrt_nonneg _)]; exact hrb.trans h512)
      rwa [abs_of_nonneg (Real.sqrt_nonneg _)] at this
  have hfin : |rnd (Real.sqrt S.val)| < 2 ^ 1024 := by
    rw [abs_of_nonneg (rnd_nonneg (Real.sqrt_nonneg _))]
    refine lt_of_le_of_lt (rnd_le (y := 2 ^ 512) (Or.inl ⟨1, 512, by norm_num, by norm_num, by norm_num, ?_⟩) hrb.le) h512
    rw [Int.cast_one, one_mul]; exact (zpow_natCast (2 : ℝ) 512).symm
  obtain ⟨r1, r2⟩ := sqrt_finite q1 hSn hfin
  exact ⟨r1, by rwa [r2]⟩

/-- The error of the root of a sum of squares. -/
theorem sqrt_rel {S : Fl} {Q G : ℝ} (q1 : S.Finite) (hSn : 0 ≤ S.val) (hQ0 : 0 ≤ Q) (hone' : 1 ≤ G)
    (hSQ : |S.val - Q| ≤ (G - 1) * Q) :
    (sqrt S).Finite ∧ |(sqrt S).val - Real.sqrt Q| ≤ (G * (1 + eps) - 1) * Real.sqrt Q := by
  have he := eps_pos
  have hS2 := abs_le.1 hSQ
  have hup : Real.sqrt S.val ≤ G * Real.sqrt Q := by
    have h1 : S.val ≤ G ^ 2 * Q := by nlinarith [mul_nonneg (sub_nonneg.2 hone') (mul_nonneg (by linarith : 0 ≤ G) hQ0)]
    calc Real.sqrt S.val ≤ Real.sqrt (G ^ 2 * Q) := Real.sqrt_le_sqrt h1
      _ = G * Real.sqrt Q := by rw [Real.sqrt_mul (sq_nonneg _), Real.sqrt_sq (by linarith)]
  have hlo : (2 - G) * Real.sqrt Q ≤ Real.sqrt S.val := by
    rcases le_total 2 G with h2 | h2
    · exact (mul_nonpos_of_nonpos_of_nonneg (by linarith) (Real.sqrt_nonneg _)).trans (Real.sqrt_nonneg _)
    · have h1 : (2 - G) ^ 2 * Q ≤ S.val := by
        have : (2 - G) ^ 2 ≤ 2 - G := by nlinarith
        have := mul_le_mul_of_nonneg_right this hQ0
        linarith
      calc (2 - G) * Real.sqrt Q = Real.sqrt ((2 - G) ^ 2 * Q) := by
            rw [Real.sqrt_mul (sq_nonneg _), Real.sqrt_sq (by linarith)]
        _ ≤ Real.sqrt S.val := Real.sqrt_le_sqrt h1
  obtain ⟨r1, hrel⟩ := sqrt_rounded q1 hSn
  refine ⟨r1, ?_⟩
  clear hSQ hS2
  obtain ⟨r3, r4⟩ := abs_le.1 hrel
  have hq := Real.sqrt_nonneg Q
  rw [abs_le]
  constructor
  · nlinarith [mul_nonneg (sub_nonneg.2 hone') hq, mul_nonneg he.le (mul_nonneg (sub_nonneg.2 hone') hq)]
  · nlinarith [mul_le_mul_of_nonneg_left hup he.le]

/-- C85: without overflow or underflow of the squares, the relative error of the norm of n elements is at most
(1 + 2^-53)^(n+1) - 1. -/
theorem c85_norm2_partial (t : Tensor Fl) (hf : ∀ x ∈ t.data, x.Finite)
    (hu : ∀ x ∈ t.data, x.val = 0 ∨ 2 ^ (-511 : ℤ) ≤ |x.val|)
    (h : (1 + 2 ^ (-53 : ℤ)) ^ t.data.length * (t.data.map fun x => x.val ^ 2).sum < (2 : ℝ) ^ 1024) :
    ∃ r, norm2 id id sqrt t = .ok r ∧ r.Finite ∧
      |r.val - Real.sqrt (t.data.map fun x => x.val ^ 2).sum| ≤
        ((1 + 2 ^ (-53 : ℤ)) ^ (t.data.length + 1) - 1) * Real.sqrt (t.data.map fun x => x.val ^ 2).sum := by
  have e1 : (2 : ℝ) ^ (-53 : ℤ) = eps := rfl
  rw [e1] at h ⊢
  have he := eps_pos
  have he1 := eps_lt
  rw [norm2_eq]
  refine ⟨_, rfl, ?_⟩
  by_cases h0 : t.data = []
  · have hz : (0 : Fl).val = 0 := rfl
    have : sqrt ((t.data.map fun x => x * x).foldl (· + ·) 0) = 0 := by
      rw [h0]
      show sqrt (fin 0) = fin 0
      simp [sqrt]
    rw [this, h0]
    exact ⟨isDouble_zero, by simp [hz]⟩
  set Q := (t.data.map fun x => x.val ^ 2).sum with hQ
  have hQ0 : 0 ≤ Q := List.sum_nonneg fun z hz => by
    obtain ⟨y, -, rfl⟩ := List.mem_map.1 hz
    positivity
  have hpos : 0 < t.data.length := List.length_pos_of_ne_nil h0
  have hsucc : (1 + eps) ^ t.data.length = (1 + eps) ^ (t.data.length - 1) * (1 + eps) := by
    rw [← pow_succ]; congr 1; omega
  have hone := one_le_pow_eps (t.data.length - 1)
  have hone' := one_le_pow_eps t.data.length
  obtain ⟨s1, s2, s3⟩ := sq_err t.data hf hu (by
    refine lt_of_le_of_lt ?_ h
    rw [hsucc, mul_assoc]
    exact le_mul_of_one_le_left (mul_nonneg (by linarith) hQ0) hone)
  rw [← hQ] at s2 s3
  obtain ⟨q1, q2⟩ := sum_err _ s1 (by
    rw [List.length_map]
    refine lt_of_le_of_lt ?_ h
    rw [hsucc, mul_assoc]
    exact mul_le_mul_of_nonneg_left s2 (by linarith))
  rw [List.length_map] at q2
  set S := (t.data.map fun x => x * x).foldl (· + ·) 0 with hS
  -- the sum of squares
  have hSn : 0 ≤ S.val := by
    have : NonNeg S := nonNeg_fold _ _ (Or.inr ⟨isDouble_zero, le_refl _⟩) fun x hx => by
      obtain ⟨y, hy, rfl⟩ := List.mem_map.1 hx
      exact nonNeg_sq (hf y hy).wf (hf y hy).ne_nan
    rcases this with h | h
    · rw [h] at q1; exact q1.elim
    · exact h.2
  set P := (1 + eps) ^ (t.data.length - 1) with hP
  have hSQ : |S.val - Q| ≤ (P * (1 + eps) - 1) * Q := by
    have h3 := abs_add_le (S.val - sumV (t.data.map fun x => x * x)) (sumV (t.data.map fun x => x * x) - Q)
    rw [sub_add_sub_cancel] at h3
    have h4 := mul_le_mul_of_nonneg_left s2 (show 0 ≤ P - 1 by linarith)
    calc _ ≤ _ := h3
      _ ≤ (P - 1) * ((1 + eps) * Q) + eps * Q := by linarith
      _ = _ := by ring
  rw [hsucc] at hone'
  have := sqrt_rel q1 hSn hQ0 hone' hSQ
  rwa [pow_succ, hsucc]

/-- The hypotheses can be met. -/
example : (fin 3).Finite ∧ 2 ^ (-511 : ℤ) ≤ |(fin 3).val| ∧
    (1 + 2 ^ (-53 : ℤ)) ^ [fin 3].length * ([fin 3].map fun x => x.val ^ 2).sum < (2 : ℝ) ^ 1024 := by
  refine ⟨⟨3, 0, by norm_num, by norm_num, by norm_num, by norm_num⟩, ?_, ?_⟩
  · have h2 : (2 : ℝ) ^ (-511 : ℤ) ≤ 2 ^ (0 : ℤ) := zpow_le_zpow_right₀ (by norm_num) (by norm_num)
    refine h2.trans ?_
    norm_num [val]
  · have h1 : (2 : ℝ) ^ 10 ≤ 2 ^ 1024 := pow_le_pow_right₀ (by norm_num) (by norm_num)
    refine lt_of_lt_of_le ?_ h1
    norm_num [val]

end Verif.Fl
