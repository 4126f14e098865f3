import Verif.Core.CFloat
import Verif.Props.FloatSum
/-
C84 and C85 for complex tensors: tensor_sum_z.cc, tensor_mean_z.cc, tensor_norm2_z.cc, tensor_norm0_z.cc.
-/
namespace Verif.CFl

open Verif Tensor Rounding Fl

variable [Rounding]

/-! ### Real and imaginary parts -/

theorem fold_parts (l : List CFl) (s : CFl) :
    (l.foldl (· + ·) s).re = (l.map CFl.re).foldl (· + ·) s.re ∧
    (l.foldl (· + ·) s).im = (l.map CFl.im).foldl (· + ·) s.im := by
  induction l generalizing s with
  | nil => exact ⟨rfl, rfl⟩
  | cons x xs ih => exact ih (s + x)

/-- The parts of a tensor. -/
def res (t : Tensor CFl) : Tensor Fl := ⟨t.dims, t.data.map CFl.re⟩
def ims (t : Tensor CFl) : Tensor Fl := ⟨t.dims, t.data.map CFl.im⟩

theorem sum_parts (t : Tensor CFl) : sumAll t = ⟨sumAll (res t), sumAll (ims t)⟩ := by
  have := fold_parts t.data 0
  have e : sumAll t = ⟨(sumAll t).re, (sumAll t).im⟩ := rfl
  rw [e]
  exact congrArg₂ CFl.mk this.1 this.2

theorem mean_parts (t : Tensor CFl) : meanAll (fun s n => divD s (n : Fl)) t =
    ⟨meanAll (fun s n => s / (n : Fl)) (res t), meanAll (fun s n => s / (n : Fl)) (ims t)⟩ := by
  rw [meanAll, sum_parts]
  simp only [meanAll, divD, Tensor.size, res, ims, List.length_map]

/-- C84: a part of a sum or of a mean is NaN if this part of an element is. -/
theorem c84_complex_sum (t : Tensor CFl) :
    ((∃ x ∈ t.data, x.re = nan) → (sumAll t).re = nan ∧ (meanAll (fun s n => divD s (n : Fl)) t).re = nan) ∧
    ((∃ x ∈ t.data, x.im = nan) → (sumAll t).im = nan ∧ (meanAll (fun s n => divD s (n : Fl)) t).im = nan) := by
  rw [sum_parts, mean_parts]
  constructor
  · rintro ⟨x, hx, h⟩
    have := c84_nan (res t) (List.mem_map.2 ⟨x, hx, h⟩)
    exact ⟨this.1, this.2.1⟩
  · rintro ⟨x, hx, h⟩
    have := c84_nan (ims t) (List.mem_map.2 ⟨x, hx, h⟩)
    exact ⟨this.1, this.2.1⟩

/-- C85: both parts of a sum of complex numbers. -/
theorem c85_complex_sum (t : Tensor CFl) (ht : ∀ x ∈ t.data, x.re.Finite ∧ x.im.Finite)
    (hr : (1 + 2 ^ (-53 : ℤ)) ^ (t.data.length - 1) * (t.data.map fun x => |x.re.val|).sum < (2 : ℝ) ^ 1024)
    (hi : (1 + 2 ^ (-53 : ℤ)) ^ (t.data.length - 1) * (t.data.map fun x => |x.im.val|).sum < (2 : ℝ) ^ 1024) :
    (sumAll t).re.Finite ∧ (sumAll t).im.Finite ∧
    |(sumAll t).re.val - (t.data.map fun x => x.re.val).sum| ≤
      ((1 + 2 ^ (-53 : ℤ)) ^ (t.data.length - 1) - 1) * (t.data.map fun x => |x.re.val|).sum ∧
    |(sumAll t).im.val - (t.data.map fun x => x.im.val).sum| ≤
      ((1 + 2 ^ (-53 : ℤ)) ^ (t.data.length - 1) - 1) * (t.data.map fun x => |x.im.val|).sum := by
  have e1 : ∀ f : Fl → ℝ, (res t).data.map f = t.data.map fun x => f x.re := fun f => List.map_map
  have e2 : ∀ f : Fl → ℝ, (ims t).data.map f = t.data.map fun x => f x.im := fun f => List.map_map
  have l1 : (res t).data.length = t.data.length := List.length_map _
  have l2 : (ims t).data.length = t.data.length := List.length_map _
  have h1 := c85_sum (res t) (fun x hx => by
    obtain ⟨y, hy, rfl⟩ := List.mem_map.1 hx
    exact (ht y hy).1) (by rw [l1, e1]; exact hr)
  have h2 := c85_sum (ims t) (fun x hx => by
    obtain ⟨y, hy, rfl⟩ := List.mem_map.1 hx
    exact (ht y hy).2) (by rw [l2, e2]; exact hi)
  rw [l1, e1, e1] at h1
  rw [l2, e2, e2] at h2
  rw [sum_parts]
  exact ⟨h1.1, h2.1, h1.2, h2.2⟩

/-- C85: both parts of a mean of complex numbers. -/
theorem c85_complex_mean (t : Tensor CFl) (ht : ∀ x ∈ t.data, x.re.Finite ∧ x.im.Finite) (h0 : t.data ≠ [])
    (hn : t.data.length < 2 ^ 53)
    (hr : (1 + 2 ^ (-53 : ℤ)) ^ t.data.length * (t.data.map fun x => |x.re.val|).sum < (2 : ℝ) ^ 1023)
    (hi : (1 + 2 ^ (-53 : ℤ)) ^ t.data.length * (t.data.map fun x => |x.im.val|).sum < (2 : ℝ) ^ 1023) :
    (meanAll (fun s n => divD s (n : Fl)) t).re.Finite ∧ (meanAll (fun s n => divD s (n : Fl)) t).im.Finite ∧
    |(meanAll (fun s n => divD s (n : Fl)) t).re.val - (t.data.map fun x => x.re.val).sum / t.data.length| ≤
      ((1 + 2 ^ (-53 : ℤ)) ^ t.data.length - 1) * ((t.data.map fun x => |x.re.val|).sum / t.data.length) +
        2 ^ (-1075 : ℤ) ∧
    |(meanAll (fun s n => divD s (n : Fl)) t).im.val - (t.data.map fun x => x.im.val).sum / t.data.length| ≤
      ((1 + 2 ^ (-53 : ℤ)) ^ t.data.length - 1) * ((t.data.map fun x => |x.im.val|).sum / t.data.length) +
        2 ^ (-1075 : ℤ) := by
  have e1 : ∀ f : Fl → ℝ, (res t).data.map f = t.data.map fun x => f x.re := fun f => List.map_map
  have e2 : ∀ f : Fl → ℝ, (ims t).data.map f = t.data.map fun x => f x.im := fun f => List.map_map
  have l1 : (res t).data.length = t.data.length := List.length_map _
  have l2 : (ims t).data.length = t.data.length := List.length_map _
  have n1 : (res t).data ≠ [] := fun h => h0 (List.map_eq_nil_iff.1 h)
  have n2 : (ims t).data ≠ [] := fun h => h0 (List.map_eq_nil_iff.1 h)
  have h1 := c85_mean (res t) (fun x hx => by
    obtain ⟨y, hy, rfl⟩ := List.mem_map.1 hx
    exact (ht y hy).1) n1 (by rw [l1]; exact hn) (by rw [l1, e1]; exact hr)
  have h2 := c85_mean (ims t) (fun x hx => by
    obtain ⟨y, hy, rfl⟩ := List.mem_map.1 hx
    exact (ht y hy).2) n2 (by rw [l2]; exact hn) (by rw [l2, e2]; exact hi)
  rw [l1, e1, e1] at h1
  rw [l2, e2, e2] at h2
  rw [mean_parts]
  exact ⟨h1.1, h2.1, h1.2, h2.2⟩

/-! ### Sums of terms with errors -/

/-- A sum of terms which have errors themselves. -/
theorem terms_err {E : Type} (l : List E) (z : E → Fl) (w u : E → ℝ) {a τ : ℝ}
    (h : ∀ x ∈ l, (z x).Finite ∧ |(z x).val - w x| ≤ a * u x + τ ∧ |(z x).val| ≤ (1 + a) * u x + τ)
    (hlt : (1 + eps) ^ (l.length - 1) * ((1 + a) * (l.map u).sum + l.length * τ) < 2 ^ 1024) :
    ((l.map z).foldl (· + ·) 0).Finite ∧
    |((l.map z).foldl (· + ·) 0).val - (l.map w).sum| ≤
      ((1 + eps) ^ (l.length - 1) * (1 + a) - 1) * (l.map u).sum + (1 + eps) ^ (l.length - 1) * (l.length * τ) := by
  have key : ∀ l : List E,
      (∀ x ∈ l, (z x).Finite ∧ |(z x).val - w x| ≤ a * u x + τ ∧ |(z x).val| ≤ (1 + a) * u x + τ) →
      (∀ y ∈ l.map z, y.Finite) ∧ sumA (l.map z) ≤ (1 + a) * (l.map u).sum + l.length * τ ∧
      |sumV (l.map z) - (l.map w).sum| ≤ a * (l.map u).sum + l.length * τ := by
    intro l
    induction l with
    | nil => intro _; simp [sumA, sumV]
    | cons x xs ih =>
      intro h
      obtain ⟨i1, i2, i3⟩ := ih (fun y hy => h y (by simp [hy]))
      obtain ⟨j1, j2, j3⟩ := h x (by simp)
      simp only [List.map_cons, List.sum_cons, List.length_cons, Nat.cast_succ]
      refine ⟨?_, ?_, ?_⟩
      · intro y hy
        rcases List.mem_cons.1 hy with rfl | hy
        · exact j1
        · exact i1 y hy
      · have : sumA (z x :: xs.map z) = |(z x).val| + sumA (xs.map z) := by simp [sumA]
        rw [this]
        linarith
      · have : sumV (z x :: xs.map z) = (z x).val + sumV (xs.map z) := by simp [sumV]
        rw [this]
        have := abs_add_le ((z x).val - w x) (sumV (xs.map z) - (xs.map w).sum)
        rw [show (z x).val - w x + (sumV (xs.map z) - (xs.map w).sum) =
          (z x).val + sumV (xs.map z) - (w x + (xs.map w).sum) by ring] at this
        linarith
  obtain ⟨k1, k2, k3⟩ := key l h
  have hone := one_le_pow_eps (l.length - 1)
  obtain ⟨q1, q2⟩ := sum_err _ k1 (by
    rw [List.length_map]
    exact lt_of_le_of_lt (mul_le_mul_of_nonneg_left k2 (by linarith)) hlt)
  refine ⟨q1, ?_⟩
  rw [List.length_map] at q2
  set P := (1 + eps) ^ (l.length - 1) with hP
  have h3 := abs_add_le (((l.map z).foldl (· + ·) 0).val - sumV (l.map z)) (sumV (l.map z) - (l.map w).sum)
  rw [sub_add_sub_cancel] at h3
  have h4 := mul_le_mul_of_nonneg_left k2 (show 0 ≤ P - 1 by linarith)
  calc _ ≤ _ := h3
    _ ≤ (P - 1) * ((1 + a) * (l.map u).sum + l.length * τ) + (a * (l.map u).sum + l.length * τ) := by linarith
    _ = _ := by ring

/-! ### Products -/

/-- The sum of two products of finite numbers. -/
theorem two_err {a b c d : Fl} (ha : a.Finite) (hb : b.Finite) (hc : c.Finite) (hd : d.Finite) (m : Bool)
    (h : (1 + eps) ^ 2 * (|a.val * b.val| + |c.val * d.val|) + (1 + eps) * (2 * tinyErr) < 2 ^ 1024) :
    ((if m then a * b - c * d else a * b + c * d) : Fl).Finite ∧
    |((if m then a * b - c * d else a * b + c * d) : Fl).val -
        (if m then a.val * b.val - c.val * d.val else a.val * b.val + c.val * d.val)| ≤
      ((1 + eps) ^ 2 - 1) * (|a.val * b.val| + |c.val * d.val|) + (1 + eps) * (2 * tinyErr) ∧
    |((if m then a * b - c * d else a * b + c * d) : Fl).val| ≤
      (1 + eps) ^ 2 * (|a.val * b.val| + |c.val * d.val|) + (1 + eps) * (2 * tinyErr) := by
  have he := eps_pos
  have ht := tinyErr_pos
  have h1 := abs_nonneg (a.val * b.val)
  have h2 := abs_nonneg (c.val * d.val)
  have hbig : ∀ x, x ≤ (1 + eps) ^ 2 * (|a.val * b.val| + |c.val * d.val|) + (1 + eps) * (2 * tinyErr) →
      x < 2 ^ 1024 := fun x hx => hx.trans_lt h
  clear h
  set u := |a.val * b.val|
  set v := |c.val * d.val|
  set e := eps
  set τ := tinyErr
  have k1 := mul_nonneg he.le h1
  have k2 := mul_nonneg he.le h2
  have k3 := mul_nonneg he.le ht.le
  have k4 := mul_nonneg he.le k1
  have k5 := mul_nonneg he.le k2
  obtain ⟨p1, p2, p3⟩ := mul_err ha hb (hbig _ (by nlinarith))
  obtain ⟨q1, q2, q3⟩ := mul_err hc hd (hbig _ (by nlinarith))
  have hsum : ∀ r : Fl, r.Finite → |r.val| = |(c * d).val| → ∀ w : ℝ, |r.val - w| ≤ e * v + τ →
      (a * b + r).Finite ∧ |(a * b + r).val - (a.val * b.val + w)| ≤ ((1 + e) ^ 2 - 1) * (u + v) + (1 + e) * (2 * τ) ∧
      |(a * b + r).val| ≤ (1 + e) ^ 2 * (u + v) + (1 + e) * (2 * τ) := by
    intro r hr hrv w hw
    rw [← hrv] at q3
    have hb' : |(a * b).val| + |r.val| ≤ (1 + e) * (u + v) + 2 * τ := by
      change |(a * b).val| ≤ (1 + e) * u + τ at p3
      change |r.val| ≤ (1 + e) * v + τ at q3
      linarith
    have hb'' := mul_le_mul_of_nonneg_left hb' (show 0 ≤ 1 + e by linarith)
    have hb3 : (1 + e) * ((1 + e) * (u + v) + 2 * τ) = (1 + e) ^ 2 * (u + v) + (1 + e) * (2 * τ) := by ring
    obtain ⟨s1, s2, s3⟩ := add_err p1 hr (hbig _ (by rw [← hb3]; exact hb''))
    refine ⟨s1, ?_, (s3.trans hb'').trans hb3.le⟩
    have h3 := abs_add_le ((a * b + r).val - ((a * b).val + r.val)) (((a * b).val - a.val * b.val) + (r.val - w))
    rw [show (a * b + r).val - ((a * b).val + r.val) + (((a * b).val - a.val * b.val) + (r.val - w)) =
      (a * b + r).val - (a.val * b.val + w) by ring] at h3
    have h4 := abs_add_le ((a * b).val - a.val * b.val) (r.val - w)
    have h5 := mul_le_mul_of_nonneg_left hb' he.le
    change |(a * b).val - a.val * b.val| ≤ e * u + τ at p2
    change |(a * b + r).val - ((a * b).val + r.val)| ≤ e * (|(a * b).val| + |r.val|) at s2
    calc _ ≤ _ := h3
      _ ≤ e * ((1 + e) * (u + v) + 2 * τ) + ((e * u + τ) + (e * v + τ)) := by linarith
      _ = _ := by ring
  cases m with
  | false => exact hsum (c * d) q1 rfl (c.val * d.val) q2
  | true =>
    obtain ⟨n1, n2⟩ := negate_finite q1
    have := hsum (-(c * d)) n1 (by rw [n2, abs_neg]) (-(c.val * d.val)) (by
      rw [n2, show -(c * d).val - -(c.val * d.val) = -((c * d).val - c.val * d.val) by ring, abs_neg]
      exact q2)
    rw [← sub_eq_add_neg] at this
    exact this

variable [Recover]

theorem mul_re {x y : CFl} (h : mulRe x y ≠ nan ∨ mulIm x y ≠ nan) : (x * y).re = mulRe x y ∧ (x * y).im = mulIm x y := by
  have : x * y = ⟨mulRe x y, mulIm x y⟩ := if_neg (by tauto)
  rw [this]
  exact ⟨rfl, rfl⟩

/-- The size of the terms of a scalar product, for the real and for the imaginary part. -/
noncomputable def sizeRe (p : CFl × CFl) : ℝ := |p.1.re.val * p.2.re.val| + |p.1.im.val * p.2.im.val|
noncomputable def sizeIm (p : CFl × CFl) : ℝ := |p.1.re.val * p.2.im.val| + |p.1.im.val * p.2.re.val|

theorem scprod_parts (a b : Tensor CFl) (hl : a.data.length ≤ b.data.length) :
    ∃ s, scprod conj a b = .ok s ∧
      s.re = ((a.data.zip b.data).map fun p => (p.1 * conj p.2).re).foldl (· + ·) 0 ∧
      s.im = ((a.data.zip b.data).map fun p => (p.1 * conj p.2).im).foldl (· + ·) 0 := by
  refine ⟨_, scprod_fold _ _ _ hl, ?_⟩
  have e : List.zipWith (fun x y => x * conj y) a.data b.data = (a.data.zip b.data).map fun p => p.1 * conj p.2 := by
    rw [List.zip, List.map_zipWith]
  rw [e]
  have := fold_parts ((a.data.zip b.data).map fun p => p.1 * conj p.2) 0
  rw [List.map_map, List.map_map] at this
  exact this

omit [Rounding] [Recover] in
theorem pow_split (n : ℕ) (h : 0 < n) : (1 + eps) ^ (n - 1) * (1 + eps) ^ 2 = (1 + eps) ^ (n + 1) := by
  rw [← pow_add]
  congr 1
  omega

/-- C85: the scalar product of complex tensors, without overflow, for the real and the imaginary part on their
own. -/
theorem c85_complex_scprod (a b : Tensor CFl) (ha : ∀ x ∈ a.data, x.re.Finite ∧ x.im.Finite)
    (hb : ∀ x ∈ b.data, x.re.Finite ∧ x.im.Finite) (hl : a.data.length = b.data.length) :
    ∃ s, scprod conj a b = .ok s ∧
      ((1 + 2 ^ (-53 : ℤ)) ^ (a.data.length + 1) * (((a.data.zip b.data).map sizeRe).sum +
          a.data.length * (2 * 2 ^ (-1075 : ℤ))) < (2 : ℝ) ^ 1024 →
        s.re.Finite ∧
        |s.re.val - ((a.data.zip b.data).map fun p => p.1.re.val * p.2.re.val + p.1.im.val * p.2.im.val).sum| ≤
          ((1 + 2 ^ (-53 : ℤ)) ^ (a.data.length + 1) - 1) * ((a.data.zip b.data).map sizeRe).sum +
          (1 + 2 ^ (-53 : ℤ)) ^ a.data.length * (a.data.length * (2 * 2 ^ (-1075 : ℤ)))) ∧
      ((1 + 2 ^ (-53 : ℤ)) ^ (a.data.length + 1) * (((a.data.zip b.data).map sizeIm).sum +
          a.data.length * (2 * 2 ^ (-1075 : ℤ))) < (2 : ℝ) ^ 1024 →
        s.im.Finite ∧
        |s.im.val - ((a.data.zip b.data).map fun p => p.1.im.val * p.2.re.val - p.1.re.val * p.2.im.val).sum| ≤
          ((1 + 2 ^ (-53 : ℤ)) ^ (a.data.length + 1) - 1) * ((a.data.zip b.data).map sizeIm).sum +
          (1 + 2 ^ (-53 : ℤ)) ^ a.data.length * (a.data.length * (2 * 2 ^ (-1075 : ℤ)))) := by
  obtain ⟨s, hs, h1, h2⟩ := scprod_parts a b hl.le
  refine ⟨s, hs, ?_⟩
  clear hs
  rw [h1, h2]
  have e1 : (2 : ℝ) ^ (-53 : ℤ) = eps := rfl
  have e2 : (2 : ℝ) ^ (-1075 : ℤ) = tinyErr := rfl
  rw [e1, e2]
  have hlen : (a.data.zip b.data).length = a.data.length := by rw [List.length_zip, hl, min_self]
  have hmem : ∀ p ∈ a.data.zip b.data, (p.1.re.Finite ∧ p.1.im.Finite) ∧ p.2.re.Finite ∧ p.2.im.Finite := fun p hp =>
    ⟨ha _ (List.of_mem_zip (show (p.1, p.2) ∈ _ from hp)).1, hb _ (List.of_mem_zip (show (p.1, p.2) ∈ _ from hp)).2⟩
  rw [← hlen]
  generalize a.data.zip b.data = l at hmem
  have he := eps_pos
  have ht := tinyErr_pos
  have main : ∀ (z : CFl × CFl → Fl) (w u : CFl × CFl → ℝ), (∀ p, 0 ≤ u p) →
      (∀ p ∈ l, (1 + eps) ^ 2 * u p + (1 + eps) * (2 * tinyErr) < 2 ^ 1024 → (z p).Finite ∧
        |(z p).val - w p| ≤ ((1 + eps) ^ 2 - 1) * u p + (1 + eps) * (2 * tinyErr) ∧
        |(z p).val| ≤ (1 + eps) ^ 2 * u p + (1 + eps) * (2 * tinyErr)) →
      (1 + eps) ^ (l.length + 1) * ((l.map u).sum + l.length * (2 * tinyErr)) < 2 ^ 1024 →
      ((l.map z).foldl (· + ·) 0).Finite ∧ |((l.map z).foldl (· + ·) 0).val - (l.map w).sum| ≤
        ((1 + eps) ^ (l.length + 1) - 1) * (l.map u).sum + (1 + eps) ^ l.length * (l.length * (2 * tinyErr)) := by
    intro z w u hu hz hlt
    by_cases h0 : l = []
    · rw [h0]
      exact ⟨isDouble_zero, by simp; rfl⟩
    have hpos : 0 < l.length := List.length_pos_of_ne_nil h0
    have hone := one_le_pow_eps (l.length - 1)
    have hu0 : 0 ≤ (l.map u).sum := List.sum_nonneg fun y hy => by
      obtain ⟨p, -, rfl⟩ := List.mem_map.1 hy
      exact hu p
    have hn1 : (1 : ℝ) ≤ l.length := by exact_mod_cast hpos
    have hk : 0 ≤ (l.length : ℝ) * (2 * tinyErr) := by positivity
    have hle : (1 + eps) ^ (l.length - 1) * ((1 + eps) ^ 2 * (l.map u).sum + l.length * ((1 + eps) * (2 * tinyErr))) ≤
        (1 + eps) ^ (l.length + 1) * ((l.map u).sum + l.length * (2 * tinyErr)) := by
      rw [← pow_split _ hpos, mul_assoc]
      refine mul_le_mul_of_nonneg_left ?_ (by linarith)
      have := mul_nonneg he.le hk
      nlinarith
    have hterm : ∀ p ∈ l, (1 + eps) ^ 2 * u p + (1 + eps) * (2 * tinyErr) < 2 ^ 1024 := by
      intro p hp
      refine lt_of_le_of_lt ?_ hlt
      refine le_trans ?_ hle
      have hup : u p ≤ (l.map u).sum := List.single_le_sum (fun y hy => by
        obtain ⟨q, -, rfl⟩ := List.mem_map.1 hy
        exact hu q) _ (List.mem_map.2 ⟨p, hp, rfl⟩)
      have h3 : (1 + eps) ^ 2 * u p ≤ (1 + eps) ^ 2 * (l.map u).sum := mul_le_mul_of_nonneg_left hup (by positivity)
      have h4 : (1 + eps) * (2 * tinyErr) ≤ l.length * ((1 + eps) * (2 * tinyErr)) :=
        le_mul_of_one_le_left (by positivity) hn1
      have h5 : 0 ≤ (1 + eps) ^ 2 * (l.map u).sum + l.length * ((1 + eps) * (2 * tinyErr)) := by positivity
      calc _ ≤ (1 + eps) ^ 2 * (l.map u).sum + l.length * ((1 + eps) * (2 * tinyErr)) := add_le_add h3 h4
        _ ≤ _ := le_mul_of_one_le_left h5 hone
    have hsq : 1 + ((1 + eps) ^ 2 - 1) = (1 + eps) ^ 2 := by ring
    have := terms_err l z w u (a := (1 + eps) ^ 2 - 1) (τ := (1 + eps) * (2 * tinyErr)) 
      (fun p hp => by rw [hsq]; exact hz p hp (hterm p hp)) (by rw [hsq]; exact hle.trans_lt hlt)
    refine ⟨this.1, this.2.trans (le_of_eq ?_)⟩
    rw [hsq, pow_split _ hpos]
    have : (1 + eps) ^ l.length = (1 + eps) ^ (l.length - 1) * (1 + eps) := by
      rw [← pow_succ]; congr 1; omega
    rw [this]
    ring
  constructor
  · refine main _ _ sizeRe (fun p => by unfold sizeRe; positivity) ?_
    intro p hp hlt
    obtain ⟨⟨f1, f2⟩, f3, f4⟩ := hmem p hp
    obtain ⟨n1, n2⟩ := negate_finite f4
    have key := two_err f1 f3 f2 n1 true (by rw [n2, mul_neg, abs_neg]; exact hlt)
    have hre : (p.1 * conj p.2).re = mulRe p.1 (conj p.2) := (mul_re (x := p.1) (y := conj p.2) (Or.inl key.1.ne_nan)).1
    rw [n2, mul_neg, abs_neg, sub_neg_eq_add] at key
    rw [hre]
    exact key
  · refine main _ _ sizeIm (fun p => by unfold sizeIm; positivity) ?_
    intro p hp hlt
    obtain ⟨⟨f1, f2⟩, f3, f4⟩ := hmem p hp
    obtain ⟨n1, n2⟩ := negate_finite f4
    have key := two_err f1 n1 f2 f3 false (by rw [n2, mul_neg, abs_neg]; exact hlt)
    have him : (p.1 * conj p.2).im = mulIm p.1 (conj p.2) := (mul_re (x := p.1) (y := conj p.2) (Or.inr key.1.ne_nan)).2
    rw [n2, mul_neg, abs_neg, show (if false = true then -(p.1.re.val * p.2.im.val) - p.1.im.val * p.2.re.val
      else -(p.1.re.val * p.2.im.val) + p.1.im.val * p.2.re.val) = p.1.im.val * p.2.re.val - p.1.re.val * p.2.im.val by
        rw [if_neg (by simp)]; ring] at key
    rw [him]
    exact key

/-- The hypotheses can be met. -/
example : (1 + 2 ^ (-53 : ℤ)) ^ (1 + 1) * (([((⟨fin 3, fin 1⟩ : CFl), (⟨fin 5, fin 2⟩ : CFl))].map sizeRe).sum +
    (1 : ℕ) * (2 * 2 ^ (-1075 : ℤ))) < (2 : ℝ) ^ 1024 := by
  have h1 : (2 : ℝ) ^ 10 ≤ 2 ^ 1024 := pow_le_pow_right₀ (by norm_num) (by norm_num)
  have h2 : (2 : ℝ) ^ (-1075 : ℤ) ≤ 2 ^ (0 : ℤ) := zpow_le_zpow_right₀ (by norm_num) (by norm_num)
  refine lt_of_lt_of_le ?_ h1
  generalize (2 : ℝ) ^ (-1075 : ℤ) = w at *
  norm_num [val, sizeRe] at h2 ⊢
  linarith

/-! ### NaN in scalar products and norms -/

omit [Recover] in
theorem mul_parts_nan {x y : CFl} (h : x.re = nan ∨ x.im = nan ∨ y.re = nan ∨ y.im = nan) :
    mulRe x y = nan ∧ mulIm x y = nan := by
  have sn : ∀ a : Fl, a - nan = nan := fun a => add_nan a
  have ns : ∀ a : Fl, nan - a = nan := fun a => nan_add _
  unfold mulRe mulIm
  rcases h with h | h | h | h <;> rw [h] <;> simp only [nan_mul, mul_nan, sn, ns, nan_add, add_nan, and_self]

/-- C84: a scalar product with a NaN is NaN in both parts, if there are no infinities or overflows. -/
theorem c84_complex_scprod (a b : Tensor CFl) (hl : a.data.length ≤ b.data.length)
    (hi : ∀ p ∈ a.data.zip b.data, NoInf p.1 (conj p.2))
    (h : ∃ p ∈ a.data.zip b.data, p.1.re = nan ∨ p.1.im = nan ∨ p.2.re = nan ∨ p.2.im = nan) :
    scprod conj a b = .ok ⟨nan, nan⟩ := by
  obtain ⟨s, hs, h1, h2⟩ := scprod_parts a b hl
  obtain ⟨p, hp, hn⟩ := h
  have hprod : p.1 * conj p.2 = ⟨nan, nan⟩ := by
    have hn' : p.1.re = nan ∨ p.1.im = nan ∨ (conj p.2).re = nan ∨ (conj p.2).im = nan := by
      rcases hn with h | h | h | h
      · exact .inl h
      · exact .inr (.inl h)
      · exact .inr (.inr (.inl h))
      · refine .inr (.inr (.inr ?_))
        show -p.2.im = nan
        rw [h]
        rfl
    rw [show p.1 * conj p.2 = _ from if_pos (mul_parts_nan hn')]
    exact Recover.none _ _ (hi p hp)
  rw [foldl_mem_nan _ _ (List.mem_map.2 ⟨p, hp, by rw [hprod]⟩)] at h1 h2
  rw [hs]
  exact congrArg Res.ok (congrArg₂ CFl.mk h1 h2)

omit [Recover] in
theorem round_nonPos {x : ℝ} (h : x ≤ 0) : NonNeg (-(Fl.round x)) := by
  by_cases h1 : rnd x ≤ -2 ^ 1024
  · left
    have h0 : (0 : ℝ) < 2 ^ 1024 := by positivity
    rw [Fl.round, if_neg (not_le.2 ((rnd_nonpos h).trans_lt h0)), if_pos h1]
    rfl
  · right
    have h2 := round_finite (x := x) (by
      rw [abs_of_nonpos (rnd_nonpos h)]
      exact neg_lt.1 (not_le.1 h1))
    obtain ⟨h3, h4⟩ := negate_finite h2.1
    exact ⟨h3, by rw [h4, h2.2]; exact neg_nonneg.2 (rnd_nonpos h)⟩

omit [Recover] in
/-- The second term of the real part of a product with the conjugate. -/
theorem nonNeg_conj {b : Fl} (hw : b.WF) (h : b ≠ nan) : NonNeg (-(b * -b)) := by
  rcases finite_cases hw h with rfl | rfl | h
  · left
    show negate (mul pinf ninf) = pinf
    simp [mul, isInf, Fl.neg, infS, negate]
  · left
    show negate (mul ninf pinf) = pinf
    simp [mul, isInf, Fl.neg, infS, negate]
  · obtain ⟨h1, h2⟩ := negate_finite h
    show NonNeg (-(mul b (-b)))
    rw [mul, if_neg (by simp [h.ne_nan, h1.ne_nan]), if_neg (by simp [h.not_inf, h1.not_inf])]
    split
    · have h3 := zeroS_finite (b.neg ^^ (-b).neg)
      obtain ⟨h4, h5⟩ := negate_finite h3.1
      exact Or.inr ⟨h4, by rw [h5, h3.2, neg_zero]⟩
    · refine round_nonPos ?_
      rw [h2, mul_neg]
      exact neg_nonpos.2 (mul_self_nonneg _)

omit [Rounding] [Recover] in
theorem nonNeg_ne {a : Fl} (h : NonNeg a) : a ≠ nan := by
  rcases h with rfl | ⟨h, -⟩
  · exact nofun
  · exact h.ne_nan

theorem self_re {x : CFl} (hr : x.re.WF) (hi : x.im.WF) (nr : x.re ≠ nan) (ni : x.im ≠ nan) :
    (x * conj x).re = x.re * x.re + -(x.im * -x.im) ∧ NonNeg (x * conj x).re := by
  have h : NonNeg (mulRe x (conj x)) := nonNeg_add (nonNeg_sq hr nr) (nonNeg_conj hi ni)
  rw [(mul_re (Or.inl (nonNeg_ne h))).1]
  exact ⟨rfl, h⟩

theorem norm2_parts (t : Tensor CFl) :
    norm2 conj CFl.re sqrt t = .ok (sqrt ((t.data.map fun x => (x * conj x).re).foldl (· + ·) 0)) := by
  obtain ⟨s, hs, h1, -⟩ := scprod_parts t t le_rfl
  rw [norm2, hs]
  show Res.ok (sqrt s.re) = _
  rw [h1, List.zip, List.map_zipWith, List.zipWith_self]

omit [Recover] in
theorem sqrt_nonNeg {r : Fl} (h : NonNeg r) : sqrt r ≠ nan := by
  rcases h with rfl | ⟨h1, h2⟩
  · exact nofun
  · cases r with
    | fin x =>
      have h2 : 0 ≤ x := h2
      rw [sqrt, if_neg (not_lt.2 h2)]
      split
      · exact nofun
      · exact round_ne_nan _
    | nzero => exact nofun
    | _ => exact h1.elim

omit [Rounding] [Recover] in
theorem nonNeg_zero : NonNeg (0 : Fl) := Or.inr ⟨isDouble_zero, le_refl _⟩

/-- C84: the norm of a complex tensor is not NaN if no part of an element is, whether or not there are infinities;
it is NaN if a part is and there are no infinities and overflows. -/
theorem c84_complex_norm2 (t : Tensor CFl) (hw : ∀ x ∈ t.data, x.re.WF ∧ x.im.WF) :
    ((∀ x ∈ t.data, x.re ≠ nan ∧ x.im ≠ nan) → ∃ r, norm2 conj CFl.re sqrt t = .ok r ∧ r ≠ nan) ∧
    ((∀ x ∈ t.data, NoInf x (conj x)) → (∃ x ∈ t.data, x.re = nan ∨ x.im = nan) → norm2 conj CFl.re sqrt t = .ok nan) := by
  constructor
  · intro h
    refine ⟨_, norm2_parts t, sqrt_nonNeg (nonNeg_fold _ _ nonNeg_zero ?_)⟩
    intro y hy
    obtain ⟨x, hx, rfl⟩ := List.mem_map.1 hy
    exact (self_re (hw x hx).1 (hw x hx).2 (h x hx).1 (h x hx).2).2
  · rintro hi ⟨x, hx, hn⟩
    have hz : ∀ p ∈ t.data.zip t.data, p.1 = p.2 ∧ p.1 ∈ t.data := by
      intro p hp
      rw [List.zip, List.zipWith_self] at hp
      obtain ⟨y, hy, rfl⟩ := List.mem_map.1 hp
      exact ⟨rfl, hy⟩
    have := c84_complex_scprod t t le_rfl (fun p hp => by
      rw [← (hz p hp).1]
      exact hi _ (hz p hp).2) ⟨(x, x), by
        rw [List.zip, List.zipWith_self]
        exact List.mem_map.2 ⟨x, hx, rfl⟩, by
        rcases hn with h | h
        · exact .inl h
        · exact .inr (.inl h)⟩
    rw [norm2, this]
    rfl

/-- The hypotheses can be met. -/
example : NoInf ⟨nan, fin 1⟩ (conj ⟨nan, fin 1⟩) ∧ (fin 1).WF := by
  have h1 : (1 : ℝ) * -1 = -1 := by norm_num
  have hd : IsDouble (-1) := ⟨-1, 0, by norm_num, by norm_num, by norm_num, by norm_num⟩
  have hf : (fin 1 * -fin 1 : Fl).Finite := by
    have h2 : IsDouble (1 : ℝ) := ⟨1, 0, by norm_num, by norm_num, by norm_num, by norm_num⟩
    obtain ⟨n1, n2⟩ := negate_finite (a := fin 1) h2
    refine (mul_finite (a := fin 1) h2 n1 ?_).1
    rw [n2]
    show |rnd (1 * -1)| < 2 ^ 1024
    rw [h1, rnd_exact (Or.inl hd)]
    exact hd.lt
  refine ⟨⟨rfl, rfl, rfl, ?_, ?_, ?_, ?_, ?_⟩, ⟨1, 0, by norm_num, by norm_num, by norm_num, by norm_num⟩⟩
  · show isInf (negate (fin 1)) = false
    simp [negate, isInf]
  · rw [show (nan : Fl) * (conj ⟨nan, fin 1⟩).re = nan from nan_mul _]; rfl
  · exact hf.not_inf
  · rw [show (nan : Fl) * (conj ⟨nan, fin 1⟩).im = nan from nan_mul _]; rfl
  · rw [show (fin 1 : Fl) * (conj ⟨nan, fin 1⟩).re = nan from mul_nan _]; rfl

omit [Recover] in
/-- C84, negation: with annex G, the norm of a complex number with the parts NaN and 2^600 is infinite and not
NaN, because the square of the second part overflows. -/
theorem c84_negation_complex (s : Fl → Bool) :
    letI : Recover := iso s
    norm2 conj CFl.re sqrt (⟨[1], [⟨nan, fin (2 ^ 600)⟩]⟩ : Tensor CFl) = .ok pinf := by
  let : Recover := iso s
  have hpos : (0 : ℝ) < 2 ^ 600 := by positivity
  have hneg : -(fin (2 ^ 600)) = fin (-2 ^ 600) := if_neg hpos.ne'
  have hbig : fin (2 ^ 600) * fin (-2 ^ 600) = ninf := by
    have h1 : (2 : ℝ) ^ 600 * -2 ^ 600 ≤ -2 ^ 1024 := by
      rw [mul_neg, neg_le_neg_iff, ← pow_add]
      exact pow_le_pow_right₀ (by norm_num) (by norm_num)
    have h0 : (0 : ℝ) < 2 ^ 1024 := by positivity
    have h2 : rnd ((2 : ℝ) ^ 600 * -2 ^ 600) ≤ -2 ^ 1024 :=
      rnd_le (Or.inr (by rw [abs_neg, abs_of_pos h0])) h1
    show mul _ _ = _
    rw [mul, if_neg (by simp), if_neg (by simp [isInf])]
    have hn := neg_lt_zero.2 h0
    show (if (2 : ℝ) ^ 600 * -2 ^ 600 = 0 then _ else Fl.round ((2 : ℝ) ^ 600 * -2 ^ 600)) = ninf
    rw [if_neg (h1.trans_lt hn).ne, Fl.round, if_neg (not_le.2 ((h2.trans_lt hn).trans h0)), if_pos h2]
  have hz : ∀ a b : Bool, (zeroS a * zeroS b : Fl) = zeroS (a ^^ b) := by
    intro a b
    show mul _ _ = _
    cases a <;> cases b <;> simp [mul, zeroS, isInf, val, Fl.neg]
  have hzs : ∀ a : Bool, (zeroS a - ninf : Fl) = pinf := by
    intro a
    show add (zeroS a) pinf = pinf
    cases a <;> simp [zeroS, add]
  have hre : ((⟨nan, fin (2 ^ 600)⟩ : CFl) * conj ⟨nan, fin (2 ^ 600)⟩).re = pinf := by
    rw [show (⟨nan, fin (2 ^ 600)⟩ : CFl) * conj ⟨nan, fin (2 ^ 600)⟩ = annexG s _ _ from
      if_pos (mul_parts_nan (Or.inl rfl))]
    have hy : conj ⟨nan, fin (2 ^ 600)⟩ = ⟨nan, fin (-2 ^ 600)⟩ := by rw [conj, hneg]
    rw [hy, annexG]
    simp only [isInf, Bool.false_eq_true, or_self, if_false, hbig, true_or, or_true, if_true]
    have c1 : clear s nan = zeroS (s nan) := if_pos rfl
    have c2 : ∀ x, clear s (fin x) = fin x := fun x => if_neg (by simp)
    rw [c1, c2, c2, hz, hbig, hzs]
    show mul pinf pinf = pinf
    simp [mul, isInf, Fl.neg, infS]
  rw [norm2_parts]
  show Res.ok (sqrt (0 + _)) = _
  beta_reduce
  rw [hre]
  rfl

/-! ### The rounding error of the norm -/

omit [Rounding] [Recover] in
theorem mul_neg_val {b : Fl} (h : b.Finite) : b.val * (-b).val = -(b.val * b.val) := by
  rw [(negate_finite h).2, mul_neg]

/-- C85: if an element has a part of size 2^512 or more, then norm2 is infinite, whatever the norm is. -/
theorem c85_negation_complex_overflow (t : Tensor CFl) (hf : ∀ x ∈ t.data, x.re.Finite ∧ x.im.Finite) (x : CFl)
    (hx : x ∈ t.data) (h : 2 ^ 512 ≤ |x.re.val| ∨ 2 ^ 512 ≤ |x.im.val|) : norm2 conj CFl.re sqrt t = .ok pinf := by
  have hself : ∀ y ∈ t.data, (y * conj y).re = y.re * y.re + -(y.im * -y.im) ∧ NonNeg (y * conj y).re := fun y hy =>
    self_re (hf y hy).1.wf (hf y hy).2.wf (hf y hy).1.ne_nan (hf y hy).2.ne_nan
  obtain ⟨h1, h2⟩ := hf x hx
  have hp : ∀ b, NonNeg b → pinf + b = pinf ∧ b + pinf = pinf := by
    rintro b (rfl | ⟨hb, -⟩)
    · exact ⟨rfl, rfl⟩
    · cases b <;> first | exact ⟨rfl, rfl⟩ | exact hb.elim
  have hterm : (x * conj x).re = pinf := by
    rw [(hself x hx).1]
    rcases h with h | h
    · rw [sq_big h1 h, (hp _ (nonNeg_conj h2.wf h2.ne_nan)).1]
    · have h3 : x.im.val * (-x.im).val ≤ -2 ^ 1024 := by
        rw [mul_neg_val h2, neg_le_neg_iff, ← abs_mul_abs_self]
        calc (2 : ℝ) ^ 1024 = 2 ^ 512 * 2 ^ 512 := by rw [← pow_add]
          _ ≤ |x.im.val| * |x.im.val| := mul_le_mul h h (by positivity) (abs_nonneg _)
      have h0 : (0 : ℝ) < 2 ^ 1024 := by positivity
      have hn := neg_lt_zero.2 h0
      have h4 : rnd (x.im.val * (-x.im).val) ≤ -2 ^ 1024 :=
        rnd_le (Or.inr (by rw [abs_neg, abs_of_pos h0])) h3
      have h5 := (negate_finite h2).1
      have : x.im * -x.im = ninf := by
        show mul x.im (-x.im) = ninf
        rw [mul, if_neg (by simp [h2.ne_nan, h5.ne_nan]), if_neg (by simp [h2.not_inf, h5.not_inf]),
          if_neg (h3.trans_lt hn).ne, Fl.round, if_neg (not_le.2 ((h4.trans_lt hn).trans h0)), if_pos h4]
      rw [this]
      exact (hp _ (nonNeg_sq h1.wf h1.ne_nan)).2
  rw [norm2_parts, fold_pinf _ _ nonNeg_zero (fun y hy => by
    obtain ⟨z, hz, rfl⟩ := List.mem_map.1 hy
    exact (hself z hz).2) (List.mem_map.2 ⟨x, hx, hterm⟩ : pinf ∈ t.data.map fun x => (x * conj x).re)]
  rfl

/-- C85: if all the parts are smaller than 2^-538, then norm2 is zero. -/
theorem c85_negation_complex_underflow (t : Tensor CFl) (hf : ∀ x ∈ t.data, x.re.Finite ∧ x.im.Finite)
    (h : ∀ x ∈ t.data, |x.re.val| < 2 ^ (-538 : ℤ) ∧ |x.im.val| < 2 ^ (-538 : ℤ)) :
    norm2 conj CFl.re sqrt t = .ok 0 := by
  have hterm : ∀ x ∈ t.data, (x * conj x).re = 0 := by
    intro x hx
    obtain ⟨h1, h2⟩ := hf x hx
    rw [(self_re h1.wf h2.wf h1.ne_nan h2.ne_nan).1, sq_zero h1 (h x hx).1]
    have h5 := (negate_finite h2).1
    have hv : rnd (x.im.val * (-x.im).val) = 0 := by
      rw [mul_neg_val h2]
      refine rnd_tiny ?_
      rw [abs_neg]
      exact sq_tiny (h x hx).2
    have h0 : (0 : ℝ) < 2 ^ 1024 := by positivity
    obtain ⟨m1, m2⟩ := mul_finite h2 h5 (by rw [hv, abs_zero]; exact h0)
    rw [hv] at m2
    obtain ⟨n1, n2⟩ := negate_finite m1
    have hz : ∀ a : Fl, a.Finite → a.val = 0 → (0 : Fl) + a = 0 := by
      intro a ha hav
      show add (fin 0) a = fin 0
      cases a with
      | fin y =>
        have hav : y = 0 := hav
        simp [add, val, hav]
      | nzero => simp [add, val]
      | _ => exact ha.elim
    exact hz _ n1 (by rw [n2, m2, neg_zero])
  rw [norm2_parts, fold_zero _ fun y hy => by
    obtain ⟨z, hz, rfl⟩ := List.mem_map.1 hy
    exact hterm z hz]
  show Res.ok (sqrt (fin 0)) = .ok (fin 0)
  simp [sqrt]

omit [Recover] in
/-- A square or minus a square without underflow. -/
theorem sq_rel {y z : ℝ} (hz : |z| = y * y) (hu : y = 0 ∨ 2 ^ (-511 : ℤ) ≤ |y|) (h : y * y < 2 ^ 1024) :
    |rnd z - z| ≤ eps * (y * y) ∧ |rnd z| ≤ (1 + eps) * (y * y) := by
  have h1 : |rnd z - z| ≤ eps * (y * y) := by
    rcases hu with rfl | hu
    · have : z = 0 := by simpa using hz
      rw [this, rnd_zero]
      simp
    · rw [← hz]
      refine rnd_rel ?_ (by rw [hz]; exact h)
      rw [hz, ← abs_mul_abs_self]
      calc (2 : ℝ) ^ (-1022 : ℤ) = 2 ^ (-511 : ℤ) * 2 ^ (-511 : ℤ) := by
            rw [← zpow_add₀ (by norm_num)]; norm_num
        _ ≤ |y| * |y| := mul_le_mul hu hu (two_zpow_pos _).le (abs_nonneg _)
  refine ⟨h1, ?_⟩
  have := abs_add_le (rnd z - z) z
  rw [sub_add_cancel, hz] at this
  linarith

theorem self_err {x : CFl} (hr : x.re.Finite) (hi : x.im.Finite) (ur : x.re.val = 0 ∨ 2 ^ (-511 : ℤ) ≤ |x.re.val|)
    (ui : x.im.val = 0 ∨ 2 ^ (-511 : ℤ) ≤ |x.im.val|)
    (h : (1 + eps) ^ 2 * (x.re.val * x.re.val + x.im.val * x.im.val) < 2 ^ 1024) :
    (x * conj x).re.Finite ∧ |(x * conj x).re.val - (x.re.val * x.re.val + x.im.val * x.im.val)| ≤
      ((1 + eps) ^ 2 - 1) * (x.re.val * x.re.val + x.im.val * x.im.val) ∧
    |(x * conj x).re.val| ≤ (1 + eps) ^ 2 * (x.re.val * x.re.val + x.im.val * x.im.val) := by
  rw [(self_re hr.wf hi.wf hr.ne_nan hi.ne_nan).1]
  have he := eps_pos
  have hu := mul_self_nonneg x.re.val
  have hv := mul_self_nonneg x.im.val
  have hbig : ∀ y, y ≤ (1 + eps) ^ 2 * (x.re.val * x.re.val + x.im.val * x.im.val) → y < 2 ^ 1024 :=
    fun y hy => hy.trans_lt h
  clear h
  have k1 := mul_nonneg he.le hu
  have k2 := mul_nonneg he.le hv
  have k3 := mul_nonneg he.le k1
  have k4 := mul_nonneg he.le k2
  have h5 := (negate_finite hi).1
  have hm := mul_neg_val hi
  obtain ⟨a1, a2⟩ := sq_rel (abs_of_nonneg hu) ur (hbig _ (by nlinarith))
  obtain ⟨b1, b2⟩ := sq_rel (z := x.im.val * (-x.im).val) (by rw [hm, abs_neg, abs_of_nonneg hv]) ui
    (hbig _ (by nlinarith))
  obtain ⟨m1, m2⟩ := mul_finite hr hr (hbig _ (a2.trans (by nlinarith)))
  obtain ⟨m3, m4⟩ := mul_finite hi h5 (hbig _ (b2.trans (by nlinarith)))
  obtain ⟨n1, n2⟩ := negate_finite m3
  rw [m4] at n2
  rw [← m2] at a1 a2
  have b3 : |(-(x.im * -x.im)).val - x.im.val * x.im.val| ≤ eps * (x.im.val * x.im.val) := by
    rw [n2, ← abs_neg]
    rw [hm] at b1 ⊢
    convert b1 using 2
    ring
  rw [← abs_neg, ← n2] at b2
  set u := x.re.val * x.re.val
  set v := x.im.val * x.im.val
  set A := x.re * x.re
  set B := -(x.im * -x.im)
  have hb : |A.val| + |B.val| ≤ (1 + eps) * (u + v) := by linarith
  have hb' := mul_le_mul_of_nonneg_left hb (show 0 ≤ 1 + eps by linarith)
  have hb3 : (1 + eps) * ((1 + eps) * (u + v)) = (1 + eps) ^ 2 * (u + v) := by ring
  obtain ⟨s1, s2, s3⟩ := add_err m1 n1 (hbig _ (by rw [← hb3]; exact hb'))
  refine ⟨s1, ?_, (s3.trans hb').trans hb3.le⟩
  have h3 := abs_add_le ((A + B).val - (A.val + B.val)) ((A.val - u) + (B.val - v))
  rw [show (A + B).val - (A.val + B.val) + ((A.val - u) + (B.val - v)) = (A + B).val - (u + v) by ring] at h3
  have h4 := abs_add_le (A.val - u) (B.val - v)
  have h6 := mul_le_mul_of_nonneg_left hb he.le
  calc _ ≤ _ := h3
    _ ≤ eps * ((1 + eps) * (u + v)) + (eps * u + eps * v) := by linarith
    _ = _ := by ring

/-- The square of the norm. -/
noncomputable def normSq (l : List CFl) : ℝ := (l.map fun x => x.re.val * x.re.val + x.im.val * x.im.val).sum

/-- C85: without overflow or underflow of the squares, the relative error of the norm of n complex numbers is at
most (1 + 2^-53)^(n+2) - 1. -/
theorem c85_complex_norm2_partial (t : Tensor CFl) (hf : ∀ x ∈ t.data, x.re.Finite ∧ x.im.Finite)
    (hu : ∀ x ∈ t.data, (x.re.val = 0 ∨ 2 ^ (-511 : ℤ) ≤ |x.re.val|) ∧ (x.im.val = 0 ∨ 2 ^ (-511 : ℤ) ≤ |x.im.val|))
    (h : (1 + 2 ^ (-53 : ℤ)) ^ (t.data.length + 1) * normSq t.data < (2 : ℝ) ^ 1024) :
    ∃ r, norm2 conj CFl.re sqrt t = .ok r ∧ r.Finite ∧
      |r.val - Real.sqrt (normSq t.data)| ≤
        ((1 + 2 ^ (-53 : ℤ)) ^ (t.data.length + 2) - 1) * Real.sqrt (normSq t.data) := by
  have e1 : (2 : ℝ) ^ (-53 : ℤ) = eps := rfl
  rw [e1] at h ⊢
  have he := eps_pos
  refine ⟨_, norm2_parts t, ?_⟩
  by_cases h0 : t.data = []
  · have : sqrt ((t.data.map fun x => (x * conj x).re).foldl (· + ·) 0) = 0 := by
      rw [h0]
      show sqrt (fin 0) = fin 0
      simp [sqrt]
    rw [this, h0]
    have hz : (0 : Fl).val = 0 := rfl
    exact ⟨isDouble_zero, by simp [hz, normSq]⟩
  have hn : ∀ l : List CFl, 0 ≤ normSq l := fun l => List.sum_nonneg fun z hz => by
    obtain ⟨y, -, rfl⟩ := List.mem_map.1 hz
    exact add_nonneg (mul_self_nonneg _) (mul_self_nonneg _)
  have hone := one_le_pow_eps (t.data.length - 1)
  have hsplit := pow_split t.data.length (List.length_pos_of_ne_nil h0)
  have hle : ∀ x ∈ t.data, x.re.val * x.re.val + x.im.val * x.im.val ≤ normSq t.data := by
    intro x hx
    refine List.single_le_sum (fun z hz => ?_) _ (List.mem_map.2 ⟨x, hx, rfl⟩)
    obtain ⟨y, -, rfl⟩ := List.mem_map.1 hz
    exact add_nonneg (mul_self_nonneg _) (mul_self_nonneg _)
  have he2 : (0 : ℝ) ≤ (1 + eps) ^ 2 := by positivity
  have hterm : ∀ x ∈ t.data, (x * conj x).re.Finite ∧
      |(x * conj x).re.val - (x.re.val * x.re.val + x.im.val * x.im.val)| ≤
        ((1 + eps) ^ 2 - 1) * (x.re.val * x.re.val + x.im.val * x.im.val) + 0 ∧
      |(x * conj x).re.val| ≤ (1 + ((1 + eps) ^ 2 - 1)) * (x.re.val * x.re.val + x.im.val * x.im.val) + 0 := by
    intro x hx
    rw [add_zero, add_zero, add_sub_cancel]
    refine self_err (hf x hx).1 (hf x hx).2 (hu x hx).1 (hu x hx).2 (lt_of_le_of_lt ?_ h)
    rw [← hsplit, mul_assoc]
    exact (mul_le_mul_of_nonneg_left (hle x hx) he2).trans (le_mul_of_one_le_left (mul_nonneg he2 (hn _)) hone)
  obtain ⟨q1, q2⟩ := terms_err t.data _ _ _ hterm (by
    rw [add_sub_cancel, mul_zero, add_zero, ← mul_assoc, hsplit]
    exact h)
  rw [add_sub_cancel, mul_zero, mul_zero, add_zero, hsplit] at q2
  have hS : NonNeg ((t.data.map fun x => (x * conj x).re).foldl (· + ·) 0) := nonNeg_fold _ _ nonNeg_zero fun y hy => by
    obtain ⟨x, hx, rfl⟩ := List.mem_map.1 hy
    obtain ⟨f1, f2⟩ := hf x hx
    exact (self_re f1.wf f2.wf f1.ne_nan f2.ne_nan).2
  have hS' : 0 ≤ ((t.data.map fun x => (x * conj x).re).foldl (· + ·) 0).val := by
    rcases hS with h | h
    · rw [h] at q1; exact q1.elim
    · exact h.2
  exact sqrt_rel q1 hS' (hn _) (one_le_pow_eps _) q2

/-- The hypotheses can be met. -/
example : 2 ^ (-511 : ℤ) ≤ |(fin 3).val| ∧
    (1 + 2 ^ (-53 : ℤ)) ^ ([(⟨fin 3, fin 0⟩ : CFl)].length + 1) * normSq [⟨fin 3, fin 0⟩] < (2 : ℝ) ^ 1024 := by
  refine ⟨?_, ?_⟩
  · have h2 : (2 : ℝ) ^ (-511 : ℤ) ≤ 2 ^ (0 : ℤ) := zpow_le_zpow_right₀ (by norm_num) (by norm_num)
    refine h2.trans ?_
    norm_num [val]
  · have h1 : (2 : ℝ) ^ 10 ≤ 2 ^ 1024 := pow_le_pow_right₀ (by norm_num) (by norm_num)
    refine lt_of_lt_of_le ?_ h1
    norm_num [val, normSq]

end Verif.CFl
