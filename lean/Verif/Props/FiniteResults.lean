import Verif.Lemmas.FiniteResults
import Verif.Props.GemmFloat
import Verif.Props.Fused
import Verif.Props.CFloat
/-
C128: finite results are accurate.
-/
namespace Verif.FiniteResults

open Verif Verif.Spec Fl Rounding GemmFl GemmFl.Spec Tensor Fused

section
variable [Rounding]

/-! ### Sums and means -/

/-- C128: if the sum of a tensor is finite then all elements are, and the error is that of C85. -/
theorem c128_sum (t : Tensor Fl) (hw : ∀ x ∈ t.data, x.WF) (h : (sumAll t).Finite) :
    (∀ x ∈ t.data, x.Finite) ∧ |(sumAll t).val - (t.data.map val).sum| ≤
      ((1 + 2 ^ (-53 : ℤ)) ^ (t.data.length - 1) - 1) * (t.data.map fun x => |x.val|).sum :=
  sum_fin t.data hw h

/-- C128: the same for the mean. -/
theorem c128_mean (t : Tensor Fl) (hw : ∀ x ∈ t.data, x.WF) (h0 : t.data ≠ []) (hn : t.data.length < 2 ^ 53)
    (h : (meanAll (fun s n => s / (n : Fl)) t).Finite) :
    (∀ x ∈ t.data, x.Finite) ∧
    |(meanAll (fun s n => s / (n : Fl)) t).val - (t.data.map val).sum / t.data.length| ≤
      ((1 + 2 ^ (-53 : ℤ)) ^ t.data.length - 1) * ((t.data.map fun x => |x.val|).sum / t.data.length) +
        2 ^ (-1075 : ℤ) := by
  have hm : meanAll (fun s n => s / (n : Fl)) t = sumAll t / (t.data.length : Fl) := rfl
  rw [hm] at h ⊢
  have hpos : 0 < t.data.length := List.length_pos_of_ne_nil h0
  have hN : (1 : ℝ) ≤ t.data.length := by exact_mod_cast hpos
  obtain ⟨n1, n2⟩ := ofNat_exact hn
  have hsw : (sumAll t).WF := by
    have key : ∀ (l : List Fl) (s : Fl), s.WF → (∀ x ∈ l, x.WF) → (l.foldl (· + ·) s).WF := by
      intro l
      induction l with
      | nil => exact fun s hs _ => hs
      | cons x xs ih => exact fun s hs hl => ih _ (add_wf hs (hl x (by simp))) fun y hy => hl y (by simp [hy])
    exact key _ _ finite_zero.wf hw
  obtain ⟨hs, hd⟩ := div_near hsw n1 (by rw [n2]; positivity) h
  obtain ⟨hf, he⟩ := sum_fin t.data hw hs
  refine ⟨hf, ?_⟩
  have e1 : (2 : ℝ) ^ (-53 : ℤ) = eps := rfl
  have e2 : (2 : ℝ) ^ (-1075 : ℤ) = tinyErr := rfl
  have e3 : (t.data.map fun x => |x.val|).sum = sumA t.data := rfl
  have e4 : (t.data.map val).sum = sumV t.data := rfl
  have e5 : t.data.foldl (· + ·) 0 = sumAll t := rfl
  rw [e5] at he
  rw [e1, e2, e3, e4]
  rw [n2] at hd
  have hsucc : (1 + eps) ^ t.data.length = (1 + eps) ^ (t.data.length - 1) * (1 + eps) := by
    rw [← pow_succ]; congr 1; omega
  have hA := sumA_nonneg t.data
  have hep := eps_pos
  have hone := one_le_pow_eps (t.data.length - 1)
  rw [hsucc]
  set P := (1 + eps) ^ (t.data.length - 1) with hP
  set s := sumAll t with hs'
  have hsV : |sumV t.data| ≤ sumA t.data := by
    have key : ∀ l : List Fl, |sumV l| ≤ sumA l := by
      intro l
      induction l with
      | nil => simp [sumV, sumA]
      | cons x xs ih =>
        have a : sumA (x :: xs) = |x.val| + sumA xs := by simp [sumA]
        have b : sumV (x :: xs) = x.val + sumV xs := by simp [sumV]
        rw [a, b]
        exact (abs_add_le _ _).trans (by linarith)
    exact key _
  have hsb : |s.val| ≤ P * sumA t.data := by
    have := abs_add_le (s.val - sumV t.data) (sumV t.data)
    rw [sub_add_cancel] at this
    linarith
  have hq : |s.val / t.data.length| = |s.val| / t.data.length := by
    rw [abs_div, abs_of_pos (by linarith : (0 : ℝ) < t.data.length)]
  have h5 := abs_add_le ((s / (t.data.length : Fl)).val - s.val / t.data.length)
    (s.val / t.data.length - sumV t.data / t.data.length)
  rw [sub_add_sub_cancel, ← sub_div, abs_div (s.val - sumV t.data), abs_of_pos (by linarith : (0 : ℝ) < t.data.length)] at h5
  have h6 : |s.val - sumV t.data| / t.data.length ≤ (P - 1) * (sumA t.data / t.data.length) := by
    rw [← mul_div_assoc]
    exact div_le_div_of_nonneg_right he (by linarith)
  have h7 : |s.val / t.data.length| ≤ P * (sumA t.data / t.data.length) := by
    rw [hq, ← mul_div_assoc]
    exact div_le_div_of_nonneg_right hsb (by linarith)
  have h8 := mul_le_mul_of_nonneg_left h7 hep.le
  calc _ ≤ _ := h5
    _ ≤ eps * (P * (sumA t.data / t.data.length)) + tinyErr + (P - 1) * (sumA t.data / t.data.length) := by linarith
    _ = _ := by ring

/-- C128: both parts of a sum of complex numbers, each by itself. -/
theorem c128_complex_sum (t : Tensor CFl) (hw : ∀ x ∈ t.data, x.re.WF ∧ x.im.WF) :
    ((sumAll t).re.Finite → (∀ x ∈ t.data, x.re.Finite) ∧ |(sumAll t).re.val - (t.data.map fun x => x.re.val).sum| ≤
      ((1 + 2 ^ (-53 : ℤ)) ^ (t.data.length - 1) - 1) * (t.data.map fun x => |x.re.val|).sum) ∧
    ((sumAll t).im.Finite → (∀ x ∈ t.data, x.im.Finite) ∧ |(sumAll t).im.val - (t.data.map fun x => x.im.val).sum| ≤
      ((1 + 2 ^ (-53 : ℤ)) ^ (t.data.length - 1) - 1) * (t.data.map fun x => |x.im.val|).sum) := by
  rw [CFl.sum_parts]
  constructor
  · intro h
    have := c128_sum (CFl.res t) (by simpa [CFl.res] using fun x hx => (hw x hx).1) h
    simpa [CFl.res, Function.comp_def] using this
  · intro h
    have := c128_sum (CFl.ims t) (by simpa [CFl.ims] using fun x hx => (hw x hx).2) h
    simpa [CFl.ims, Function.comp_def] using this

/-- C128: both parts of a mean of complex numbers. -/
theorem c128_complex_mean (t : Tensor CFl) (hw : ∀ x ∈ t.data, x.re.WF ∧ x.im.WF) (h0 : t.data ≠ [])
    (hn : t.data.length < 2 ^ 53) :
    ((meanAll (fun s n => CFl.divD s (n : Fl)) t).re.Finite → (∀ x ∈ t.data, x.re.Finite) ∧
      |(meanAll (fun s n => CFl.divD s (n : Fl)) t).re.val - (t.data.map fun x => x.re.val).sum / t.data.length| ≤
        ((1 + 2 ^ (-53 : ℤ)) ^ t.data.length - 1) * ((t.data.map fun x => |x.re.val|).sum / t.data.length) +
          2 ^ (-1075 : ℤ)) ∧
    ((meanAll (fun s n => CFl.divD s (n : Fl)) t).im.Finite → (∀ x ∈ t.data, x.im.Finite) ∧
      |(meanAll (fun s n => CFl.divD s (n : Fl)) t).im.val - (t.data.map fun x => x.im.val).sum / t.data.length| ≤
        ((1 + 2 ^ (-53 : ℤ)) ^ t.data.length - 1) * ((t.data.map fun x => |x.im.val|).sum / t.data.length) +
          2 ^ (-1075 : ℤ)) := by
  rw [CFl.mean_parts]
  constructor
  · intro h
    have := c128_mean (CFl.res t) (by simpa [CFl.res] using fun x hx => (hw x hx).1) (by simpa [CFl.res] using h0)
      (by simpa [CFl.res] using hn) h
    simpa [CFl.res, Function.comp_def] using this
  · intro h
    have := c128_mean (CFl.ims t) (by simpa [CFl.ims] using fun x hx => (hw x hx).2) (by simpa [CFl.ims] using h0)
      (by simpa [CFl.ims] using hn) h
    simpa [CFl.ims, Function.comp_def] using this

/-! ### Sums of products -/

/-- A loop with a finite result has no other operands. -/
theorem dot_fin {l : List (Fl × Fl)} (hw : ∀ p ∈ l, p.1.WF ∧ p.2.WF) {s : Fl} (h : Eval (Fused.dot l 0) s) (hs : s.Finite) :
    (∀ p ∈ l, p.1.Finite ∧ p.2.Finite) ∧ Near l.length (GemmFl.size l) (exact l) s := by
  have hsum := dot_zero_sums h
  refine ⟨?_, hs, (sums_fin hsum hw hs).2⟩
  have key := dot_induct (fun l' z => z.WF ∧ (z.Finite → ∀ p ∈ l', p.1.Finite ∧ p.2.Finite)) l [] (by
    rintro l' p z hp ⟨hz, ih⟩
    obtain ⟨w1, w2⟩ := hw p hp
    refine ⟨⟨add_wf hz (mul_wf _ _), ?_⟩, ⟨fma_wf hz, ?_⟩⟩
    · intro hf q hq
      obtain ⟨f1, f2, -⟩ := add_inv hz (mul_wf _ _) hf
      obtain ⟨f3, f4, -⟩ := mul_inv w1 w2 f2
      rcases List.mem_append.1 hq with hq | hq
      · exact ih f1 q hq
      · rw [List.mem_singleton.1 hq]
        exact ⟨f3, f4⟩
    · intro hf q hq
      obtain ⟨f3, f4, f1, -⟩ := fma_near w1 w2 hz hf
      rcases List.mem_append.1 hq with hq | hq
      · exact ih f1 q hq
      · rw [List.mem_singleton.1 hq]
        exact ⟨f3, f4⟩) (T := 0) (by intro a b e; cases e) (by
    intro z hz
    cases hz
    exact ⟨isDouble_zero, by simp⟩) h
  exact key.2 hs

omit [Rounding] in
theorem mem_left {α β : Type} {a : List α} {b : List β} (hl : a.length = b.length) {x : α} (hx : x ∈ a) : ∃ y, (x, y) ∈ a.zip b := by
  obtain ⟨k, hk, e⟩ := List.mem_iff_getElem.1 hx
  refine ⟨b[k]'(by omega), List.mem_iff_getElem.2 ⟨k, by simp; omega, by simp [e]⟩⟩

omit [Rounding] in
theorem mem_right {α β : Type} {a : List α} {b : List β} (hl : a.length = b.length) {y : β} (hy : y ∈ b) : ∃ x, (x, y) ∈ a.zip b := by
  obtain ⟨k, hk, e⟩ := List.mem_iff_getElem.1 hy
  refine ⟨a[k]'(by omega), List.mem_iff_getElem.2 ⟨k, by simp; omega, by simp [e]⟩⟩

/-- C128: the scalar product of real tensors. -/
theorem c128_scprod (a b : Tensor Fl) (hl : a.data.length = b.data.length) (ha : ∀ x ∈ a.data, x.WF)
    (hb : ∀ x ∈ b.data, x.WF) (s : Fl) (hr : Scprod a b (.ok s)) (hs : s.Finite) :
    (∀ x ∈ a.data, x.Finite) ∧ (∀ x ∈ b.data, x.Finite) ∧
    Near a.data.length (List.zipWith (fun x y => |x.val * y.val|) a.data b.data).sum
      (List.zipWith (fun x y => x.val * y.val) a.data b.data).sum s := by
  rw [Scprod, scprod_terms a b hl.le] at hr
  have k1 : GemmFl.size (a.data.zip b.data) = (List.zipWith (fun x y => |x.val * y.val|) a.data b.data).sum := by
    rw [GemmFl.size, List.zip, List.map_zipWith]
  have k2 : exact (a.data.zip b.data) = (List.zipWith (fun x y => x.val * y.val) a.data b.data).sum := by
    rw [exact, List.zip, List.map_zipWith]
  have k3 : (a.data.zip b.data).length = a.data.length := by simp [hl]
  obtain ⟨h1, h2⟩ := dot_fin (fun p hp => ⟨ha _ (List.of_mem_zip hp).1, hb _ (List.of_mem_zip hp).2⟩) hr hs
  rw [k1, k2, k3] at h2
  refine ⟨fun x hx => ?_, fun y hy => ?_, h2⟩
  · obtain ⟨y, hy⟩ := mem_left hl hx
    exact (h1 _ hy).1
  · obtain ⟨x, hx⟩ := mem_right hl hy
    exact (h1 _ hx).2

theorem sqrt_fin_inv {s : Fl} (hw : s.WF) (h : (sqrt s).Finite) : s.Finite := by
  cases s with
  | fin x => exact hw
  | nzero => trivial
  | _ => exact h.elim

/-- C128: if the norm of a real tensor is finite then so are the elements, and the error is that of C119. -/
theorem c128_norm2 (t : Tensor Fl) (hw : ∀ x ∈ t.data, x.WF) (z : Fl) (hr : Norm2 t (.ok z)) (hz : z.Finite) :
    (∀ x ∈ t.data, x.Finite) ∧
    |z.val - Real.sqrt (t.data.map fun x => x.val ^ 2).sum| ≤ ((1 + 2 ^ (-53 : ℤ)) ^ (t.data.length + 1) - 1) * Real.sqrt (t.data.map fun x => x.val ^ 2).sum +
        (1 + 2 ^ (-53 : ℤ)) * Real.sqrt ((t.data.length : ℕ) * (1 + 2 ^ (-53 : ℤ)) ^ (t.data.length - 1) * 2 ^ (-1075 : ℤ)) ∧
    (t.data.length ≤ 2 ^ 53 → (2 : ℝ) ^ (-969 : ℤ) ≤ (t.data.map fun x => x.val ^ 2).sum →
      |z.val - Real.sqrt (t.data.map fun x => x.val ^ 2).sum| ≤
        ((1 + 2 ^ (-53 : ℤ)) ^ (t.data.length + 2) - 1) * Real.sqrt (t.data.map fun x => x.val ^ 2).sum) := by
  obtain ⟨r, hs, e⟩ := hr
  cases r with
  | abort => cases e
  | ub => cases e
  | ok s =>
    cases e
    have hnn : nan ∉ t.data := fun h => by
      have := c119_nan t t rfl (.inl h) _ hs
      cases this
      exact hz
    obtain ⟨s', e', hp⟩ := c119_square t (fun x hx => ⟨hw x hx, fun e => hnn (e ▸ hx)⟩) _ hs
    cases e'
    rcases hp with rfl | ⟨hf, h0⟩
    · exact hz.elim
    obtain ⟨h1, -, h2⟩ := c128_scprod t t rfl hw hw s hs hf
    refine ⟨h1, ?_⟩
    have k1 : (List.zipWith (fun x y : Fl => |x.val * y.val|) t.data t.data).sum = (t.data.map fun x => x.val ^ 2).sum := by
      rw [List.zipWith_self]
      congr 1
      refine List.map_congr_left fun x _ => ?_
      rw [abs_mul_self, sq]
    have k2 : (List.zipWith (fun x y : Fl => x.val * y.val) t.data t.data).sum = (t.data.map fun x => x.val ^ 2).sum := by
      rw [List.zipWith_self]
      congr 1
      exact List.map_congr_left fun x _ => (sq _).symm
    rw [k1, k2] at h2
    refine ⟨(near_sqrt_any h2 h0 ?_).2, fun hn hA => (near_sqrt h2 h0 hn hA).2⟩
    refine List.sum_nonneg fun y hy => ?_
    obtain ⟨x, -, rfl⟩ := List.mem_map.1 hy
    positivity

/-- C128: each element of the product of a sparse matrix and a tensor. -/
theorem c128_sparse (s : Sparse Fl) (t : Tensor Fl) (wf : t.WF) (hsw : ∀ x ∈ s.data, x.WF) (htw : ∀ x ∈ t.data, x.WF)
    (hs : ValidCsr s.rows s.cols s.rowStart s.column s.data) (ds : List Nat) (hd : t.dims = s.cols :: ds)
    (u : Tensor Fl) (hr : SMmult s t (.ok u)) (i : Nat) (is : List Nat) (hi : i < s.rows) (his : InB is ds) (z : Fl)
    (hz : elem u.dims u.data (i :: is) = some z) (hf : z.Finite) (row : List (Nat × Fl)) (hrow : Sparse.IsRow s i row)
    (g : Nat → Fl) (hg : ∀ p ∈ row, elem t.dims t.data (p.1 :: is) = some (g p.1)) :
    (∀ p ∈ row, p.2.Finite ∧ (g p.1).Finite) ∧
    Near row.length (row.map fun p => |p.2.val * (g p.1).val|).sum (row.map fun p => p.2.val * (g p.1).val).sum z := by
  obtain ⟨U, e, wfU, hdU, hel⟩ := Sparse.c104_order (sterms s) (terms t) (by
    show (t.data.map Term.num).length = _
    rw [List.length_map]; exact wf) (valid_map _ hs) ds hd
  rw [SMmult, e] at hr
  obtain ⟨hdu, hE⟩ := hr
  obtain ⟨rowT, hrowT, h⟩ := hel i is hi his
  cases (isRow_map Term.num hrow).unique hrowT
  have hT := h (fun j => .num (g j)) (by
    intro p hp
    obtain ⟨q, hq, rfl⟩ := List.mem_map.1 hp
    exact elem_map _ (hg q hq))
  obtain ⟨z', hz', hzE⟩ := forall₂_elem hE hT
  rw [hdu, hz'] at hz
  cases hz
  have e2 : List.foldl (fun x p => x + p.2 * (fun j => Term.num (g j)) p.1) 0 (row.map fun p => (p.1, Term.num p.2)) =
      Fused.dot (row.map fun p => (p.2, g p.1)) 0 := by
    rw [Fused.dot, List.foldl_map, List.foldl_map]
  rw [e2] at hzE
  have k1 : GemmFl.size (row.map fun p => (p.2, g p.1)) = (row.map fun p => |p.2.val * (g p.1).val|).sum := by
    rw [GemmFl.size, List.map_map]; rfl
  have k2 : exact (row.map fun p => (p.2, g p.1)) = (row.map fun p => p.2.val * (g p.1).val).sum := by
    rw [exact, List.map_map]; rfl
  obtain ⟨h1, h2⟩ := dot_fin (by
    intro p hp
    obtain ⟨q, hq, rfl⟩ := List.mem_map.1 hp
    constructor
    · obtain ⟨a, b, k, -, -, -, -, -, h6⟩ := (hrow.2 q.1 q.2).1 hq
      exact hsw _ (List.mem_of_getElem? h6)
    · have := hg q hq
      unfold elem at this
      split at this
      · exact htw _ (List.mem_of_getElem? this)
      · cases this) hzE hf
  rw [k1, k2, List.length_map] at h2
  exact ⟨fun p hp => h1 _ (List.mem_map.2 ⟨p, hp, rfl⟩), h2⟩

/-! ### Contractions -/

theorem computes_fin {l : List (Fl × Fl)} {s : Fl} (h : Computes (formal l) s) (hw : ∀ p ∈ l, p.1.WF ∧ p.2.WF) (hs : s.Finite) :
    (∀ p ∈ l, Harmless p) ∧ Near l.length (GemmFl.size l) (exact l) s := by
  obtain ⟨l', e, hsum⟩ := h
  have e1 : exact l = exact l' := by
    have := congrArg (MvPolynomial.eval₂ (Nat.castRingHom ℝ) val) e
    rwa [formal_eval, formal_eval] at this
  have e2 : GemmFl.size l = GemmFl.size l' := by
    have := congrArg (MvPolynomial.eval₂ (Nat.castRingHom ℝ) fun x => |val x|) e
    rw [formal_eval, formal_eval] at this
    simpa only [GemmFl.size, abs_mul] using this
  have e3 : l.length = l'.length := by
    have := congrArg (MvPolynomial.eval₂ (Nat.castRingHom ℕ) fun _ => 1) e
    rw [formal_eval, formal_eval] at this
    simpa using this
  obtain ⟨h1, h2⟩ := sums_fin hsum (by
    rintro ⟨x, y⟩ hp
    rcases pair_mem e.symm hp with hq | hq
    · exact hw _ hq
    · exact ⟨(hw _ hq).2, (hw _ hq).1⟩) hs
  rw [e1, e2, e3]
  refine ⟨?_, hs, h2⟩
  rintro ⟨x, y⟩ hp
  rcases pair_mem e hp with hq | hq
  · exact h1 _ hq
  · rcases h1 _ hq with ⟨q1, q2⟩ | q | q
    · exact .inl ⟨q2, q1⟩
    · exact .inr (.inr q)
    · exact .inr (.inl q)

theorem pairs_fin {f g : Nat → Fl} {L : Nat} {z : Fl} (h : Computes (formal (pairs f g L)) z)
    (hw : ∀ l < L, (f l).WF ∧ (g l).WF) (hz : z.Finite) :
    (∀ l < L, ((f l).Finite ∧ (g l).Finite) ∨ IsZero (f l) ∨ IsZero (g l)) ∧
    Near L (∑ l ∈ Finset.range L, |(f l).val * (g l).val|) (∑ l ∈ Finset.range L, (f l).val * (g l).val) z := by
  obtain ⟨h1, h2⟩ := computes_fin h (by
    intro x hx
    obtain ⟨l, hl, rfl⟩ := List.mem_map.1 hx
    exact hw l (List.mem_range.1 hl)) hz
  rw [length_pairs, size_pairs, exact_pairs] at h2
  exact ⟨fun l hl => h1 _ (List.mem_map.2 ⟨l, List.mem_range.2 hl, rfl⟩), h2⟩

omit [Rounding] in
theorem elem_wf {t : Tensor Fl} (hw : ∀ x ∈ t.data, x.WF) {is : List Nat} {x : Fl} (h : elem t.dims t.data is = some x) : x.WF := by
  unfold elem at h
  split at h
  · exact hw _ (List.mem_of_getElem? h)
  · cases h

/-- C128: each element of a contraction. Factors which are multiplied with zero need not be finite, as some libraries leave out
such products. -/
theorem c128_fold (a b : Tensor Fl) (wfa : a.WF) (wfb : b.WF) (ha : ∀ x ∈ a.data, x.WF) (hb : ∀ x ∈ b.data, x.WF)
    (ndx1 ndx2 : Int) (P Q R S : List Nat) (L : Nat) (hda : a.dims = P ++ L :: Q) (hdb : b.dims = R ++ L :: S)
    (h1 : Spec.norm a.dims.length ndx1 = some P.length) (h2 : Spec.norm b.dims.length ndx2 = some R.length)
    (c : Tensor Fl) (hr : Fold a ndx1 b ndx2 (.ok c)) (p q r s : List Nat) (hp : InB p P) (hq : InB q Q) (hrr : InB r R)
    (hs : InB s S) (f g : Nat → Fl) (hf : ∀ l < L, elem a.dims a.data (p ++ l :: q) = some (f l))
    (hg : ∀ l < L, elem b.dims b.data (r ++ l :: s) = some (g l)) (z : Fl)
    (hz : elem c.dims c.data (outIdx (p ++ q ++ (r ++ s))) = some z) (hfin : z.Finite) :
    (∀ l < L, ((f l).Finite ∧ (g l).Finite) ∨ IsZero (f l) ∨ IsZero (g l)) ∧
    Near L (∑ l ∈ Finset.range L, |(f l).val * (g l).val|) (∑ l ∈ Finset.range L, (f l).val * (g l).val) z := by
  obtain ⟨k1, k2⟩ := c19_fold (vars a) (vars b) (vars_wf wfa) (vars_wf wfb) ndx1 ndx2 P Q R S L L hda hdb h1 h2
  unfold Fold at hr
  by_cases hL : L = 0
  · rw [k2 (.inr hL)] at hr
    exact hr.elim
  obtain ⟨t, ht, wft, hdt, hel⟩ := k1 rfl hL
  rw [ht] at hr
  obtain ⟨hd, hc⟩ := hr
  obtain ⟨z', hz', hcz⟩ := result_elem hd hc (hel p q r s hp hq hrr hs _ _ (fun l hl => vars_elem (hf l hl))
    (fun l hl => vars_elem (hg l hl)))
  rw [hz'] at hz
  cases hz
  rw [formal_pairs] at hcz
  exact pairs_fin hcz (fun l hl => ⟨elem_wf ha (hf l hl), elem_wf hb (hg l hl)⟩) hfin

/-- C128: each element of foldin. -/
theorem c128_foldin (a b : Tensor Fl) (wfa : a.WF) (wfb : b.WF) (ha : ∀ x ∈ a.data, x.WF) (hb : ∀ x ∈ b.data, x.WF)
    (ndx1 ndx2 : Int) (P Q R S : List Nat) (L : Nat) (hda : a.dims = P ++ L :: Q) (hdb : b.dims = R ++ L :: S)
    (h1 : Spec.norm a.dims.length ndx1 = some P.length) (h2 : Spec.norm b.dims.length ndx2 = some R.length)
    (hne : ¬ (a.dims.length = 1 ∧ b.dims.length = 1))
    (c : Tensor Fl) (hr : Foldin a ndx1 b ndx2 (.ok c)) (p q r s : List Nat) (hp : InB p P) (hq : InB q Q) (hrr : InB r R)
    (hs : InB s S) (f g : Nat → Fl) (hf : ∀ l < L, elem a.dims a.data (p ++ l :: q) = some (f l))
    (hg : ∀ l < L, elem b.dims b.data (r ++ l :: s) = some (g l)) (z : Fl)
    (hz : elem c.dims c.data (r ++ (p ++ (q ++ s))) = some z) (hfin : z.Finite) :
    (∀ l < L, ((f l).Finite ∧ (g l).Finite) ∨ IsZero (f l) ∨ IsZero (g l)) ∧
    Near L (∑ l ∈ Finset.range L, |(f l).val * (g l).val|) (∑ l ∈ Finset.range L, (f l).val * (g l).val) z := by
  obtain ⟨k1, -⟩ := c21_foldin_partial (vars a) (vars b) (vars_wf wfa) (vars_wf wfb) ndx1 ndx2 P Q R S L L hda hdb
    h1 h2 hne
  unfold Foldin at hr
  obtain ⟨t, ht, wft, hdt, hel⟩ := k1 rfl
  rw [ht] at hr
  obtain ⟨hd, hc⟩ := hr
  obtain ⟨z', hz', hcz⟩ := result_elem hd hc (hel p q r s hp hq hrr hs _ _ (fun l hl => vars_elem (hf l hl))
    (fun l hl => vars_elem (hg l hl)))
  rw [hz'] at hz
  cases hz
  rw [formal_pairs] at hcz
  exact pairs_fin hcz (fun l hl => ⟨elem_wf ha (hf l hl), elem_wf hb (hg l hl)⟩) hfin

/-- C128: each element of a product of matrices. -/
theorem c128_mmult (a b : Tensor Fl) (wfa : a.WF) (wfb : b.WF) (ha : ∀ x ∈ a.data, x.WF) (hb : ∀ x ∈ b.data, x.WF)
    (m n p : Nat) (hda : a.dims = [m, n]) (hdb : b.dims = [n, p]) (c : Tensor Fl) (hr : Mmult a b (.ok c))
    (i j : Nat) (hi : i < m) (hj : j < p) (f g : Nat → Fl) (hf : ∀ l < n, elem a.dims a.data [i, l] = some (f l))
    (hg : ∀ l < n, elem b.dims b.data [l, j] = some (g l)) (z : Fl) (hz : elem c.dims c.data [i, j] = some z)
    (hfin : z.Finite) :
    (∀ l < n, ((f l).Finite ∧ (g l).Finite) ∨ IsZero (f l) ∨ IsZero (g l)) ∧
    Near n (∑ l ∈ Finset.range n, |(f l).val * (g l).val|) (∑ l ∈ Finset.range n, (f l).val * (g l).val) z :=
  c128_fold a b wfa wfb ha hb (-1) 0 [m] [] [] [p] n hda hdb (by rw [hda]; simp [Spec.norm]) (by rw [hdb]; simp [Spec.norm])
    c hr [i] [] [] [j] (by simp [hi]) trivial trivial (by simp [hj]) f g hf hg z (by simpa [outIdx] using hz) hfin

/-! ### Complex numbers -/

/-- `recover` does not make up finite numbers. -/
def NoFinite [Recover] : Prop := ∀ x y : CFl, ∀ z, z = (Recover.recover x y).re ∨ z = (Recover.recover x y).im → z.WF ∧ ¬ z.Finite

/-- Compilers without annex G. -/
theorem noFinite_plain : @NoFinite _ CFl.plain := by
  rintro x y z (rfl | rfl) <;> exact ⟨trivial, id⟩

theorem pinf_mul (x : Fl) : ¬ (pinf * x).Finite := by
  show ¬ (mul pinf x).Finite
  rw [mul]
  split
  · exact id
  · rw [if_pos (.inl rfl)]
    split
    · exact id
    · exact infS_not _

/-- Compilers with annex G. -/
theorem noFinite_iso (s : Fl → Bool) : @NoFinite _ (CFl.iso s) := by
  intro x y z hz
  have key : ∀ w : CFl, (∃ a b, w = ⟨pinf * a, pinf * b⟩) ∨ w = ⟨nan, nan⟩ → z = w.re ∨ z = w.im → z.WF ∧ ¬ z.Finite := by
    rintro w (⟨a, b, rfl⟩ | rfl) (rfl | rfl)
    · exact ⟨mul_wf _ _, pinf_mul _⟩
    · exact ⟨mul_wf _ _, pinf_mul _⟩
    · exact ⟨trivial, id⟩
    · exact ⟨trivial, id⟩
  refine key (CFl.annexG s x y) ?_ hz
  unfold CFl.annexG
  dsimp only
  repeat' split
  all_goals first
    | exact .inl ⟨_, _, rfl⟩
    | exact .inr rfl

/-- Any number of the format. -/
def CWF (x : CFl) : Prop := x.re.WF ∧ x.im.WF

theorem reOf_wf {x y : CFl} {r : Fl} (h : ReOf x y r) : r.WF := by
  cases h with
  | plain => exact add_wf (mul_wf _ _) (neg_wf (mul_wf _ _))
  | first => exact fma_wf (neg_wf (mul_wf _ _))
  | second => exact fma_wf (mul_wf _ _)

theorem imOf_wf {x y : CFl} {r : Fl} (h : ImOf x y r) : r.WF := by
  cases h with
  | plain => exact add_wf (mul_wf _ _) (mul_wf _ _)
  | first => exact fma_wf (mul_wf _ _)
  | second => exact fma_wf (mul_wf _ _)

theorem reOf_fin {x y : CFl} (hx : CWF x) (hy : CWF y) {r : Fl} (h : ReOf x y r) (hr : r.Finite) : CFinite x ∧ CFinite y := by
  have key : ∀ {a b : Fl}, a.WF → b.WF → (-(a * b)).Finite → a.Finite ∧ b.Finite := fun ha hb hf =>
    let ⟨h1, h2, _⟩ := mul_inv ha hb (neg_fin_inv (mul_wf _ _) hf)
    ⟨h1, h2⟩
  cases h with
  | plain =>
    obtain ⟨h1, h2, -⟩ := add_inv (mul_wf _ _) (neg_wf (mul_wf _ _)) hr
    obtain ⟨h3, h4, -⟩ := mul_inv hx.1 hy.1 h1
    obtain ⟨h5, h6⟩ := key hx.2 hy.2 h2
    exact ⟨⟨h3, h5⟩, ⟨h4, h6⟩⟩
  | first =>
    obtain ⟨h3, h4, h2, -⟩ := fma_near hx.1 hy.1 (neg_wf (mul_wf _ _)) hr
    obtain ⟨h5, h6⟩ := key hx.2 hy.2 h2
    exact ⟨⟨h3, h5⟩, ⟨h4, h6⟩⟩
  | second =>
    obtain ⟨h5, h6, h2, -⟩ := fma_near (neg_wf hx.2) hy.2 (mul_wf _ _) hr
    obtain ⟨h3, h4, -⟩ := mul_inv hx.1 hy.1 h2
    exact ⟨⟨h3, neg_fin_inv hx.2 h5⟩, ⟨h4, h6⟩⟩

theorem imOf_fin {x y : CFl} (hx : CWF x) (hy : CWF y) {r : Fl} (h : ImOf x y r) (hr : r.Finite) : CFinite x ∧ CFinite y := by
  cases h with
  | plain =>
    obtain ⟨h1, h2, -⟩ := add_inv (mul_wf _ _) (mul_wf _ _) hr
    obtain ⟨h3, h4, -⟩ := mul_inv hx.1 hy.2 h1
    obtain ⟨h5, h6, -⟩ := mul_inv hx.2 hy.1 h2
    exact ⟨⟨h3, h5⟩, ⟨h6, h4⟩⟩
  | first =>
    obtain ⟨h3, h4, h2, -⟩ := fma_near hx.1 hy.2 (mul_wf _ _) hr
    obtain ⟨h5, h6, -⟩ := mul_inv hx.2 hy.1 h2
    exact ⟨⟨h3, h5⟩, ⟨h6, h4⟩⟩
  | second =>
    obtain ⟨h5, h6, h2, -⟩ := fma_near hx.2 hy.1 (mul_wf _ _) hr
    obtain ⟨h3, h4, -⟩ := mul_inv hx.1 hy.2 h2
    exact ⟨⟨h3, h5⟩, ⟨h6, h4⟩⟩

variable [Recover]

theorem finish_cases (hR : NoFinite) {x y : CFl} (hx : CWF x) (hy : CWF y) {r i : Fl} (hr : ReOf x y r) (hi : ImOf x y i) :
    CWF (Fused.finish x y r i) ∧ ((Fused.finish x y r i).re.Finite ∨ (Fused.finish x y r i).im.Finite →
      (CFinite x ∧ CFinite y) ∧ Fused.finish x y r i = ⟨r, i⟩) := by
  rw [Fused.finish]
  split
  · refine ⟨⟨(hR x y _ (.inl rfl)).1, (hR x y _ (.inr rfl)).1⟩, ?_⟩
    rintro (h | h)
    · exact absurd h (hR x y _ (.inl rfl)).2
    · exact absurd h (hR x y _ (.inr rfl)).2
  · refine ⟨⟨reOf_wf hr, imOf_wf hi⟩, fun h => ⟨?_, rfl⟩⟩
    rcases h with h | h
    · exact reOf_fin hx hy hr h
    · exact imOf_fin hx hy hi h

/-- A loop with a result one part of which is finite. -/
theorem cdot_fin (hR : NoFinite) {B : CFl → CTerm} {φ : CFl → CFl} (hB : ∀ y v, CEval (B y) v → v = φ y) {l : List (CFl × CFl)}
    (hw : ∀ p ∈ l, CWF p.1 ∧ CWF (φ p.2)) {s : CFl} (h : CEval (cdot B l 0) s) :
    CWF s ∧ (s.re.Finite ∨ s.im.Finite → ∀ p ∈ l, CFinite p.1 ∧ CFinite (φ p.2)) ∧
    (s.re.Finite →
      Near (2 * l.length) (l.map fun p => reAbs p.1 (φ p.2)).sum (l.map fun p => toC p.1 * toC (φ p.2)).sum.re s.re) ∧
    (s.im.Finite →
      Near (2 * l.length) (l.map fun p => imAbs p.1 (φ p.2)).sum (l.map fun p => toC p.1 * toC (φ p.2)).sum.im s.im) := by
  have key := cdot_induct hB (fun l z => CWF z ∧ (z.re.Finite ∨ z.im.Finite → (∀ p ∈ l, CFinite p.1 ∧ CFinite (φ p.2)) ∧
    Sums (rePairs (l.map fun p => (p.1, φ p.2))) z.re ∧ Sums (imPairs (l.map fun p => (p.1, φ p.2))) z.im)) l [] (by
      rintro l' p z r i hp ⟨hz, ih⟩ hr hi
      obtain ⟨w1, w2⟩ := hw p hp
      obtain ⟨w3, hc⟩ := finish_cases hR w1 w2 hr hi
      refine ⟨⟨add_wf hz.1 w3.1, add_wf hz.2 w3.2⟩, fun hf => ?_⟩
      have hf' : (z.re.Finite ∨ z.im.Finite) ∧
          ((Fused.finish p.1 (φ p.2) r i).re.Finite ∨ (Fused.finish p.1 (φ p.2) r i).im.Finite) := by
        rcases hf with hf | hf
        · obtain ⟨f1, f2, -⟩ := add_inv hz.1 w3.1 hf
          exact ⟨.inl f1, .inl f2⟩
        · obtain ⟨f1, f2, -⟩ := add_inv hz.2 w3.2 hf
          exact ⟨.inr f1, .inr f2⟩
      obtain ⟨t1, t2, t3⟩ := ih hf'.1
      obtain ⟨t4, t5⟩ := hc hf'.2
      rw [t5]
      refine ⟨?_, ?_, ?_⟩
      · intro q hq
        rcases List.mem_append.1 hq with hq | hq
        · exact t1 q hq
        · rw [List.mem_singleton.1 hq]
          exact t4
      · rw [List.map_append, show ∀ a b : List (CFl × CFl), rePairs (a ++ b) = rePairs a ++ rePairs b by simp [rePairs]]
        exact Sums.add t2 (reOf_sums hr)
      · rw [List.map_append, show ∀ a b : List (CFl × CFl), imPairs (a ++ b) = imPairs a ++ imPairs b by simp [imPairs]]
        exact Sums.add t3 (imOf_sums hi)) (T := 0) (by
    intro z hz
    cases hz
    exact ⟨⟨isDouble_zero, isDouble_zero⟩, fun _ => ⟨by simp, Sums.zero, Sums.zero⟩⟩) h
  rw [List.nil_append] at key
  obtain ⟨hsw, key⟩ := key
  have hfin : s.re.Finite ∨ s.im.Finite → ∀ p ∈ l.map fun p => (p.1, φ p.2), CFinite p.1 ∧ CFinite p.2 := by
    intro hf q hq
    obtain ⟨p, hp, rfl⟩ := List.mem_map.1 hq
    exact (key hf).1 p hp
  refine ⟨hsw, fun hf => (key hf).1, fun hf => ⟨hf, ?_⟩, fun hf => ⟨hf, ?_⟩⟩
  · have := (sums_fin (key (.inl hf)).2.1 (fun p hp =>
      have := rePairs_finite (hfin (.inl hf)) p hp
      ⟨this.1.wf, this.2.wf⟩) hf).2
    rw [length_rePairs, size_rePairs, exact_rePairs, List.length_map, List.map_map, List.map_map] at this
    exact this
  · have := (sums_fin (key (.inr hf)).2.2 (fun p hp =>
      have := imPairs_finite (hfin (.inr hf)) p hp
      ⟨this.1.wf, this.2.wf⟩) hf).2
    rw [length_imPairs, size_imPairs, exact_imPairs, List.length_map, List.map_map, List.map_map] at this
    exact this

/-- C128: the scalar product of complex tensors. If one part is finite then all elements are; each finite part is accurate. -/
theorem c128_complex_scprod (hR : NoFinite) (a b : Tensor CFl) (hl : a.data.length = b.data.length) (ha : ∀ x ∈ a.data, CWF x)
    (hb : ∀ x ∈ b.data, CWF x) (s : CFl) (hr : CScprod a b (.ok s)) :
    CWF s ∧ (s.re.Finite ∨ s.im.Finite → (∀ x ∈ a.data, CFinite x) ∧ (∀ x ∈ b.data, CFinite x)) ∧
    (s.re.Finite → Near (2 * a.data.length) (List.zipWith (fun x y => reAbs x y) a.data b.data).sum
      (List.zipWith (fun x y => toC x * star (toC y)) a.data b.data).sum.re s.re) ∧
    (s.im.Finite → Near (2 * a.data.length) (List.zipWith (fun x y => imAbs x y) a.data b.data).sum
      (List.zipWith (fun x y => toC x * star (toC y)) a.data b.data).sum.im s.im) := by
  have v : ∀ y : CFl, y.conj.re.val = y.re.val ∧ y.conj.im.val = -y.im.val := fun y => ⟨rfl, val_neg _⟩
  have k1 : ∀ p : CFl × CFl, reAbs p.1 p.2.conj = reAbs p.1 p.2 := fun p => by
    simp [reAbs, (v p.2).1, (v p.2).2, abs_mul]
  have k2 : ∀ p : CFl × CFl, imAbs p.1 p.2.conj = imAbs p.1 p.2 := fun p => by
    simp [imAbs, (v p.2).1, (v p.2).2, abs_mul]
  have k3 : ∀ y : CFl, toC y.conj = star (toC y) := fun y => by
    apply Complex.ext
    · simp [toC, (v y).1]
    · simp [toC, (v y).2]
  rw [CScprod, scprod_cterms a b hl.le] at hr
  have hlen : (a.data.zip b.data).length = a.data.length := by simp [hl]
  obtain ⟨h0, h1, h2, h3⟩ := cdot_fin hR (φ := CFl.conj) (fun y v hv => ceval_conj hv) (l := a.data.zip b.data) (fun p hp =>
    ⟨ha _ (List.of_mem_zip hp).1, (hb _ (List.of_mem_zip hp).2).1, neg_wf (hb _ (List.of_mem_zip hp).2).2⟩) hr
  simp only [k1, k2, k3, hlen] at h2 h3
  simp only [List.zip, List.map_zipWith] at h2 h3
  refine ⟨h0, fun hf => ⟨fun x hx => ?_, fun y hy => ?_⟩, h2, h3⟩
  · obtain ⟨y, hy⟩ := mem_left hl hx
    exact (h1 hf _ hy).1
  · obtain ⟨x, hx⟩ := mem_right hl hy
    have := (h1 hf _ hx).2
    exact ⟨this.1, neg_fin_inv (hb y hy).2 this.2⟩

/-- C128: the norm of a complex tensor. -/
theorem c128_complex_norm2 (hR : NoFinite) (t : Tensor CFl) (hw : ∀ x ∈ t.data, CWF x) (z : Fl) (hr : CNorm2 t (.ok z))
    (hz : z.Finite) :
    (∀ x ∈ t.data, CFinite x) ∧
    |z.val - Real.sqrt (t.data.map fun x => x.re.val ^ 2 + x.im.val ^ 2).sum| ≤ ((1 + 2 ^ (-53 : ℤ)) ^ (2 * t.data.length + 1) - 1) * Real.sqrt (t.data.map fun x => x.re.val ^ 2 + x.im.val ^ 2).sum +
        (1 + 2 ^ (-53 : ℤ)) * Real.sqrt ((2 * t.data.length : ℕ) * (1 + 2 ^ (-53 : ℤ)) ^ (2 * t.data.length - 1) * 2 ^ (-1075 : ℤ)) ∧
    (2 * t.data.length ≤ 2 ^ 53 → (2 : ℝ) ^ (-969 : ℤ) ≤ (t.data.map fun x => x.re.val ^ 2 + x.im.val ^ 2).sum →
      |z.val - Real.sqrt (t.data.map fun x => x.re.val ^ 2 + x.im.val ^ 2).sum| ≤
        ((1 + 2 ^ (-53 : ℤ)) ^ (2 * t.data.length + 2) - 1) *
          Real.sqrt (t.data.map fun x => x.re.val ^ 2 + x.im.val ^ 2).sum) := by
  obtain ⟨r, hs, e⟩ := hr
  cases r with
  | abort => cases e
  | ub => cases e
  | ok s =>
    cases e
    obtain ⟨h0, h1, h2, -⟩ := c128_complex_scprod hR t t rfl hw hw s hs
    have hf := sqrt_fin_inv h0.1 hz
    have hc := (h1 (.inl hf)).1
    refine ⟨hc, ?_⟩
    have h3 := h2 hf
    have k1 : (List.zipWith (fun x y => reAbs x y) t.data t.data).sum = (t.data.map fun x => x.re.val ^ 2 + x.im.val ^ 2).sum := by
      rw [List.zipWith_self]
      congr 1
      refine List.map_congr_left fun x _ => ?_
      rw [reAbs, abs_mul_self, abs_mul_self, sq, sq]
    have k3 : (List.zipWith (fun x y => toC x * star (toC y)) t.data t.data).sum.re =
        (t.data.map fun x => x.re.val ^ 2 + x.im.val ^ 2).sum := by
      rw [List.zipWith_self]
      clear * -
      induction t.data with
      | nil => simp
      | cons x l ih =>
        rw [List.map_cons, List.map_cons, List.sum_cons, List.sum_cons, Complex.add_re, ih]
        simp [toC, sq]
    rw [k1, k3] at h3
    obtain ⟨s', e', hp⟩ := c119_complex_square t (fun x hx =>
      ⟨(hw x hx).1, (hw x hx).2, (hc x hx).1.ne_nan, (hc x hx).2.ne_nan⟩) _ hs
    cases e'
    rcases hp with hp | ⟨-, hp⟩
    · rw [hp] at hf
      exact hf.elim
    refine ⟨(near_sqrt_any h3 hp ?_).2, fun hn hA => (near_sqrt h3 hp hn hA).2⟩
    refine List.sum_nonneg fun y hy => ?_
    obtain ⟨x, -, rfl⟩ := List.mem_map.1 hy
    positivity

/-- C128: each element of the product of a sparse matrix and a tensor of complex numbers. -/
theorem c128_complex_sparse (hR : NoFinite) (s : Sparse CFl) (t : Tensor CFl) (wf : t.WF) (hsw : ∀ x ∈ s.data, CWF x)
    (htw : ∀ x ∈ t.data, CWF x) (hs : ValidCsr s.rows s.cols s.rowStart s.column s.data) (ds : List Nat)
    (hd : t.dims = s.cols :: ds) (u : Tensor CFl) (hr : CSMmult s t (.ok u)) (i : Nat) (is : List Nat) (hi : i < s.rows)
    (his : InB is ds) (z : CFl) (hz : elem u.dims u.data (i :: is) = some z) (row : List (Nat × CFl))
    (hrow : Sparse.IsRow s i row) (g : Nat → CFl) (hg : ∀ p ∈ row, elem t.dims t.data (p.1 :: is) = some (g p.1)) :
    (z.re.Finite ∨ z.im.Finite → ∀ p ∈ row, CFinite p.2 ∧ CFinite (g p.1)) ∧
    (z.re.Finite → Near (2 * row.length) (row.map fun p => reAbs p.2 (g p.1)).sum
      (row.map fun p => toC p.2 * toC (g p.1)).sum.re z.re) ∧
    (z.im.Finite → Near (2 * row.length) (row.map fun p => imAbs p.2 (g p.1)).sum
      (row.map fun p => toC p.2 * toC (g p.1)).sum.im z.im) := by
  obtain ⟨U, e, wfU, hdU, hel⟩ := Sparse.c104_order (csterms s) (cterms t) (by
    show (t.data.map CTerm.num).length = _
    rw [List.length_map]; exact wf) (valid_map _ hs) ds hd
  rw [CSMmult, e] at hr
  obtain ⟨hdu, hE⟩ := hr
  obtain ⟨rowT, hrowT, h⟩ := hel i is hi his
  cases (isRow_map CTerm.num hrow).unique hrowT
  have hT := h (fun j => .num (g j)) (by
    intro p hp
    obtain ⟨q, hq, rfl⟩ := List.mem_map.1 hp
    exact elem_map _ (hg q hq))
  obtain ⟨z', hz', hzE⟩ := forall₂_elem hE hT
  rw [hdu, hz'] at hz
  cases hz
  have e2 : List.foldl (fun x p => x + p.2 * (fun j => CTerm.num (g j)) p.1) 0 (row.map fun p => (p.1, CTerm.num p.2)) =
      cdot .num (row.map fun p => (p.2, g p.1)) 0 := by
    rw [cdot, List.foldl_map, List.foldl_map]
  rw [e2] at hzE
  obtain ⟨-, h1, h2, h3⟩ := cdot_fin hR (B := .num) (φ := id) (fun y v hv => ceval_num hv) (l := row.map fun p => (p.2, g p.1)) (by
    intro p hp
    obtain ⟨q, hq, rfl⟩ := List.mem_map.1 hp
    constructor
    · obtain ⟨a, b, k, -, -, -, -, -, h6⟩ := (hrow.2 q.1 q.2).1 hq
      exact hsw _ (List.mem_of_getElem? h6)
    · have := hg q hq
      unfold elem at this
      split at this
      · exact htw _ (List.mem_of_getElem? this)
      · cases this) hzE
  simp only [List.length_map, List.map_map, Function.comp_def, id] at h2 h3
  exact ⟨fun hf p hp => h1 hf _ (List.mem_map.2 ⟨p, hp, rfl⟩), h2, h3⟩

end

section
variable [Rounding]

/-! ### What does not hold -/

/-- C128: finite operands and a finite sum are not enough: 2^1023 + 2^1023 - 2^1023 is infinite, in this order. -/
theorem c128_negation_overflow :
    (∀ x ∈ [fin ((2 : ℝ) ^ 1023), fin ((2 : ℝ) ^ 1023), fin (-(2 : ℝ) ^ 1023)], x.Finite) ∧
    sumAll ⟨[3], [fin ((2 : ℝ) ^ 1023), fin ((2 : ℝ) ^ 1023), fin (-(2 : ℝ) ^ 1023)]⟩ = pinf ∧
    (sumAll ⟨[3], [fin ((2 : ℝ) ^ 1023), fin (-(2 : ℝ) ^ 1023), fin ((2 : ℝ) ^ 1023)]⟩).Finite := by
  have hd : IsDouble ((2 : ℝ) ^ 1023) := ⟨2 ^ 52, 971, by norm_num, by norm_num, by norm_num, by
    rw [show ((2 ^ 52 : ℤ) : ℝ) = (2 : ℝ) ^ (52 : ℤ) by norm_num, ← zpow_add₀ (by norm_num), ← zpow_natCast]
    norm_num⟩
  have e : (2 : ℝ) ^ 1023 + 2 ^ 1023 = 2 ^ 1024 := by rw [← two_mul, ← pow_succ']
  have hp : (0 : ℝ) < 2 ^ 1023 := by positivity
  have hq : (0 : ℝ) < 2 ^ 1024 := by positivity
  have t : IsTarget ((2 : ℝ) ^ 1024) := .inr (abs_of_pos hq)
  have hr : ∀ y : ℝ, y = 2 ^ 1024 → Fl.round y = pinf := fun y hy => by
    rw [hy, Fl.round, rnd_exact t, if_pos le_rfl]
  generalize (2 : ℝ) ^ 1023 = B at *
  generalize (2 : ℝ) ^ 1024 = C at *
  have s0 : (0 : Fl) + fin B = fin B := zero_add_fin hd hp.ne'
  have s1 : fin B + fin B = pinf := by
    rw [add_def (a := fin B) (b := fin B) hd hd (.inl nofun), if_neg (by show ¬ B + B = 0; linarith)]
    exact hr _ e
  have s2 : fin B + fin (-B) = fin 0 := add_fin_zero B
  refine ⟨?_, ?_, ?_⟩
  · intro x hx
    simp only [List.mem_cons, List.not_mem_nil, or_false] at hx
    rcases hx with rfl | rfl | rfl
    · exact hd
    · exact hd
    · exact hd.neg
  · show ((0 : Fl) + fin B + fin B) + fin (-B) = pinf
    rw [s0, s1]
    rfl
  · show (((0 : Fl) + fin B + fin (-B)) + fin B).Finite
    rw [s0, s2]
    have : fin 0 + fin B = fin B := s0
    rw [this]
    exact hd

/-- C128: a finite element of a contraction does not mean that all operands are finite, if gemm leaves out products with zero. -/
theorem c128_negation_operands : Fold ⟨[1], [fin 0]⟩ 0 ⟨[1], [pinf]⟩ 0 (.ok ⟨[1], [0]⟩) := by
  obtain ⟨t, ht, wft, hdt, hel⟩ := (c19_fold (vars (⟨[1], [fin 0]⟩ : Tensor Fl)) (vars ⟨[1], [pinf]⟩) (vars_wf rfl) (vars_wf rfl) 0 0
    [] [] [] [] 1 1 rfl rfl rfl rfl).1 rfl (by norm_num)
  have h := hel [] [] [] [] trivial trivial trivial trivial (fun _ => MvPolynomial.X (fin 0)) (fun _ => MvPolynomial.X pinf)
    (by intro l hl; obtain rfl : l = 0 := by omega
        rfl)
    (by intro l hl; obtain rfl : l = 0 := by omega
        rfl)
  have hd1 : t.dims = [1] := hdt
  obtain ⟨d, D⟩ := t
  cases hd1
  have hlen : D.length = 1 := wft
  obtain ⟨x, rfl⟩ := List.length_eq_one_iff.1 hlen
  have hx : some x = _ := h
  cases hx
  rw [Fold, ht]
  refine ⟨rfl, .cons ⟨[(fin 0, pinf)], by simp [formal], Sums.skip _ _ (.inl (.inr rfl)) Sums.zero⟩ .nil⟩

/-! ### The hypotheses can be met -/

example : (∀ x ∈ (⟨[1], [fin (3 : ℤ)]⟩ : Tensor Fl).data, x.WF) ∧ (sumAll (⟨[1], [fin (3 : ℤ)]⟩ : Tensor Fl)).Finite := by
  have h := finite_int (n := 3) (by norm_num)
  refine ⟨by simpa using h.wf, ?_⟩
  exact (zero_add_finite h).1

/-- A mean which is finite. -/
example : (meanAll (fun s n => s / (n : Fl)) (⟨[1], [fin (3 : ℤ)]⟩ : Tensor Fl)).Finite := by
  have h := finite_int (n := 3) (by norm_num)
  obtain ⟨n1, n2⟩ := ofNat_exact (n := 1) (by norm_num)
  have hz := zero_add_finite h
  have hm : meanAll (fun s n => s / (n : Fl)) (⟨[1], [fin (3 : ℤ)]⟩ : Tensor Fl) = ((0 : Fl) + fin (3 : ℤ)) / ((1 : ℕ) : Fl) := rfl
  rw [hm]
  refine (div_finite hz.1 n1 (by rw [n2]; norm_num) ?_).1
  rw [n2, Nat.cast_one, div_one, rnd_exact (.inl hz.1.val_double)]
  exact hz.1.val_double.lt

example : ∃ s, Scprod ⟨[2], [fin (1 : ℤ), fin (2 : ℤ)]⟩ ⟨[2], [fin (3 : ℤ), fin (4 : ℤ)]⟩ (.ok s) ∧ s.Finite := by
  have hr := c119_plain ⟨[2], [fin (1 : ℤ), fin (2 : ℤ)]⟩ ⟨[2], [fin (3 : ℤ), fin (4 : ℤ)]⟩
  obtain ⟨s, e, h, -⟩ := c119_scprod_partial ⟨[2], [fin (1 : ℤ), fin (2 : ℤ)]⟩ ⟨[2], [fin (3 : ℤ), fin (4 : ℤ)]⟩ rfl (by
    intro x hx
    rcases List.mem_cons.1 hx with rfl | hx
    · exact finite_int (by norm_num)
    · rw [List.mem_singleton.1 hx]; exact finite_int (by norm_num)) (by
    intro x hx
    rcases List.mem_cons.1 hx with rfl | hx
    · exact finite_int (by norm_num)
    · rw [List.mem_singleton.1 hx]; exact finite_int (by norm_num)) _ hr
      (small_few (by simp) (by simp [val]; norm_num) (by simp [val]; norm_num))
  rw [e] at hr
  exact ⟨s, hr, h⟩

example : ∃ z, Norm2 ⟨[1], [fin (3 : ℤ)]⟩ (.ok z) ∧ z.Finite ∧
    (2 : ℝ) ^ (-969 : ℤ) ≤ ((⟨[1], [fin (3 : ℤ)]⟩ : Tensor Fl).data.map fun x => x.val ^ 2).sum := by
  have hA : (2 : ℝ) ^ (-969 : ℤ) ≤ ((⟨[1], [fin (3 : ℤ)]⟩ : Tensor Fl).data.map fun x => x.val ^ 2).sum := by
    have : (2 : ℝ) ^ (-969 : ℤ) ≤ 1 := zpow_le_one_of_nonpos₀ (by norm_num) (by norm_num)
    refine this.trans ?_
    simp only [List.map_cons, List.map_nil, List.sum_cons, List.sum_nil, val]
    norm_num
  have hr : ∃ r, Norm2 ⟨[1], [fin (3 : ℤ)]⟩ r := ⟨_, _, c119_plain _ _, rfl⟩
  obtain ⟨r, hr⟩ := hr
  obtain ⟨z, rfl, h, -⟩ := c119_norm2_error_partial _ (by simpa using finite_int (n := 3) (by norm_num))
    (small_few (by simp) (by simp [val]) (by simp [val]; norm_num)) _ hr
  exact ⟨z, hr, h, hA⟩

/-- A contraction with a finite element. -/
example : ∃ c, Fold ⟨[1], [fin 0]⟩ 0 ⟨[1], [pinf]⟩ 0 (.ok c) ∧ elem c.dims c.data (outIdx ([] ++ [] ++ ([] ++ []))) = some 0 ∧
    (0 : Fl).Finite := ⟨_, c128_negation_operands, rfl, finite_zero⟩

/-- `recover` of all compilers. -/
example : (∃ h : Recover, @NoFinite _ h) ∧ ∀ s, @NoFinite _ (CFl.iso s) := ⟨⟨_, noFinite_plain⟩, noFinite_iso⟩

end

end Verif.FiniteResults
