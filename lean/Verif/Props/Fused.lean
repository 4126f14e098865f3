import Verif.Model.Fused
import Verif.Props.SparseFloat
import Verif.Props.FloatSum
import Verif.Props.Reduce
/-
C119: sums of products with fused operations.
-/
namespace Verif.Fused

open Verif Verif.Spec Fl Rounding GemmFl GemmFl.Spec

/-- `row` are the stored elements of row `i`, also with terms. -/
theorem isRow_map {α β : Type} (f : α → β) {s : Sparse α} {i : Nat} {row : List (Nat × α)} (h : Sparse.IsRow s i row) :
    Sparse.IsRow (⟨s.rows, s.cols, s.rowStart, s.column, s.data.map f⟩ : Sparse β) i (row.map fun p => (p.1, f p.2)) := by
  refine ⟨by simpa [List.map_map, Function.comp_def] using h.1, fun j v => ?_⟩
  constructor
  · intro hm
    obtain ⟨p, hp, e⟩ := List.mem_map.1 hm
    simp only [Prod.mk.injEq] at e
    obtain ⟨rfl, rfl⟩ := e
    obtain ⟨a, b, k, h1, h2, h3, h4, h5, h6⟩ := (h.2 p.1 p.2).1 hp
    exact ⟨a, b, k, h1, h2, h3, h4, h5, by simp [h6]⟩
  · rintro ⟨a, b, k, h1, h2, h3, h4, h5, h6⟩
    simp only [List.getElem?_map, Option.map_eq_some_iff] at h6
    obtain ⟨v', h6, rfl⟩ := h6
    exact List.mem_map.2 ⟨(j, v'), (h.2 j v').2 ⟨a, b, k, h1, h2, h3, h4, h5, h6⟩, rfl⟩

theorem valid_map {α β : Type} (f : α → β) {r c : Nat} {rs cs : List Nat} {d : List α} (h : ValidCsr r c rs cs d) :
    ValidCsr r c rs cs (d.map f) :=
  ⟨h.len, h.first, h.mono, h.last, by simpa using h.data, h.incr, h.range⟩

theorem elem_map {α β : Type} (f : α → β) {ds : List Nat} {d : List α} {is : List Nat} {x : α} (h : elem ds d is = some x) :
    elem ds (d.map f) is = some (f x) := by
  unfold elem at h ⊢
  split at h
  · rename_i hb
    rw [if_pos hb, List.getElem?_map, h]; rfl
  · simp at h

theorem forall₂_elem {T V : Type} {E : T → V → Prop} {ds : List Nat} {d : List T} {c : List V} (h : List.Forall₂ E d c)
    {is : List Nat} {t : T} (ht : elem ds d is = some t) : ∃ v, elem ds c is = some v ∧ E t v := by
  unfold elem at ht ⊢
  split at ht
  · rename_i hb
    rw [if_pos hb]
    obtain ⟨hk, e⟩ := List.getElem?_eq_some_iff.1 ht
    have hk' : colPos ds is < c.length := by rw [← h.length_eq]; exact hk
    refine ⟨c[colPos ds is], List.getElem?_eq_getElem hk', ?_⟩
    have := h.get hk hk'
    simp only [List.get_eq_getElem] at this
    rwa [e] at this
  · simp at ht

section
variable [Rounding]

theorem eval_num {x s : Fl} (h : Eval (.num x) s) : s = x := by cases h; rfl

theorem eval_prod {x y s : Fl} (h : Eval (.mul (.num x) (.num y)) s) : s = x * y := by
  cases h with
  | mul h1 h2 => rw [eval_num h1, eval_num h2]

/-- One more product. -/
theorem eval_step {T : Term} (hT : ∀ a b, T ≠ .mul a b) {x y s : Fl} (h : Eval (T + .num x * .num y) s) :
    ∃ z, Eval T z ∧ (s = z + x * y ∨ s = fma x y z) := by
  have e : T + .num x * .num y = Term.add T (.mul (.num x) (.num y)) := rfl
  rw [e] at h
  cases h with
  | add h1 h2 => exact ⟨_, h1, .inl (by rw [eval_prod h2])⟩
  | fmaR h1 h2 h3 => exact ⟨_, h3, .inr (by rw [eval_num h1, eval_num h2])⟩
  | fmaL h1 h2 h3 => exact absurd rfl (hT _ _)

/-- What is computed by the loops. -/
def dot (l : List (Fl × Fl)) (T : Term) : Term := l.foldl (fun t p => t + .num p.1 * .num p.2) T

/-- A property which is kept by both operations. -/
theorem dot_induct (P : List (Fl × Fl) → Fl → Prop) (l l0 : List (Fl × Fl))
    (hP : ∀ l' p z, p ∈ l → P l' z → P (l' ++ [p]) (z + p.1 * p.2) ∧ P (l' ++ [p]) (fma p.1 p.2 z)) {T : Term}
    (hT : ∀ a b, T ≠ .mul a b) (h0 : ∀ z, Eval T z → P l0 z) {s : Fl} (h : Eval (dot l T) s) : P (l0 ++ l) s := by
  induction l generalizing T l0 with
  | nil => simpa using h0 s h
  | cons p l ih =>
    have := ih (l0 ++ [p]) (fun l' q z hq => hP l' q z (by simp [hq])) (T := T + Term.num p.1 * Term.num p.2) (by
      intro a b e
      cases e) (by
      intro z hz
      obtain ⟨w, hw, rfl | rfl⟩ := eval_step hT hz
      · exact (hP l0 p w (by simp) (h0 w hw)).1
      · exact (hP l0 p w (by simp) (h0 w hw)).2) h
    simpa using this

theorem dot_zero_sums {l : List (Fl × Fl)} {s : Fl} (h : Eval (dot l 0) s) : Sums l s := by
  refine dot_induct Sums l [] ?_ ?_ ?_ h
  · intro l' p z _ hz
    refine ⟨Sums.add hz (Sums.prod p.1 p.2), Sums.perm ?_ (Sums.fma p.1 p.2 hz)⟩
    exact (List.perm_append_singleton p l').symm
  · intro a b e; cases e
  · intro z hz
    cases hz
    exact Sums.zero

/-- scprod with terms. -/
theorem scprod_terms (a b : Tensor Fl) (hl : a.data.length ≤ b.data.length) :
    Tensor.scprod id (terms a) (terms b) = .ok (dot (a.data.zip b.data) 0) := by
  rw [scprod_fold _ _ _ (by simpa [terms] using hl), dot]
  congr 1
  have e : List.zipWith (fun x y : Term => x * id y) (terms a).data (terms b).data =
      (a.data.zip b.data).map fun p => .num p.1 * .num p.2 := by
    simp only [terms, List.zipWith_map, List.zip, List.map_zipWith]
    rfl
  rw [e, List.foldl_map]

/-- **C119 (partial)**: the scalar product of real tensors with or without fused operations: if it is far from overflow, it is
finite and differs from the exact one by at most `n` roundings of the sum of the absolute values and `n` underflows.
Missing: sums near overflow. -/
theorem c119_scprod_partial (a b : Tensor Fl) (hl : a.data.length = b.data.length) (ha : ∀ x ∈ a.data, x.Finite)
    (hb : ∀ x ∈ b.data, x.Finite) (r : Res Fl) (hr : Scprod a b r)
    (hM : Small a.data.length (List.zipWith (fun x y => |x.val * y.val|) a.data b.data).sum) :
    ∃ s, r = .ok s ∧ Near a.data.length (List.zipWith (fun x y => |x.val * y.val|) a.data b.data).sum
      (List.zipWith (fun x y => x.val * y.val) a.data b.data).sum s := by
  rw [Scprod, scprod_terms a b hl.le] at hr
  cases r with
  | ok s =>
    refine ⟨s, rfl, ?_⟩
    have hs := dot_zero_sums hr
    have k1 : size (a.data.zip b.data) = (List.zipWith (fun x y => |x.val * y.val|) a.data b.data).sum := by
      rw [size, List.zip, List.map_zipWith]
    have k2 : exact (a.data.zip b.data) = (List.zipWith (fun x y => x.val * y.val) a.data b.data).sum := by
      rw [exact, List.zip, List.map_zipWith]
    have k3 : (a.data.zip b.data).length = a.data.length := by simp [hl]
    have := sums_err hs (fun p hp => ⟨ha _ (List.of_mem_zip hp).1, hb _ (List.of_mem_zip hp).2⟩) (by
      rw [k1, k3]; exact hM)
    rw [k1, k2, k3] at this
    exact this
  | abort => exact hr.elim
  | ub => exact hr.elim

/-- NaN stays NaN. -/
theorem fma_nan {x y z : Fl} (h : x = nan ∨ y = nan ∨ z = nan) : fma x y z = nan := by
  rw [fma, if_pos (by tauto)]
  rcases h with rfl | rfl | rfl
  · rw [nan_mul, nan_add]
  · rw [mul_nan, nan_add]
  · rw [add_nan]

/-- C119: NaN in one of the tensors gives NaN. -/
theorem c119_nan (a b : Tensor Fl) (hl : a.data.length = b.data.length) (h : nan ∈ a.data ∨ nan ∈ b.data) (r : Res Fl)
    (hr : Scprod a b r) : r = .ok nan := by
  rw [Scprod, scprod_terms a b hl.le] at hr
  cases r with
  | ok s =>
    refine congrArg _ (dot_induct (fun l z => (∃ p ∈ l, p.1 = nan ∨ p.2 = nan) → z = nan) _ [] ?_ ?_ ?_ hr ?_)
    · rintro l p z - ih
      constructor
      · rintro ⟨q, hq, hn⟩
        rcases List.mem_append.1 hq with hq | hq
        · rw [ih ⟨q, hq, hn⟩, nan_add]
        · rw [List.mem_singleton.1 hq] at hn
          rcases hn with hn | hn
          · rw [hn, nan_mul, add_nan]
          · rw [hn, mul_nan, add_nan]
      · rintro ⟨q, hq, hn⟩
        rcases List.mem_append.1 hq with hq | hq
        · exact fma_nan (.inr (.inr (ih ⟨q, hq, hn⟩)))
        · rw [List.mem_singleton.1 hq] at hn
          exact fma_nan (by tauto)
    · intro a b e; cases e
    · rintro z - ⟨p, hp, -⟩; simp at hp
    · rw [List.nil_append]
      rcases h with h | h
      · obtain ⟨k, hk, e⟩ := List.mem_iff_getElem.1 h
        refine ⟨(a.data[k], b.data[k]'(by omega)), ?_, .inl e⟩
        rw [List.mem_iff_getElem]
        exact ⟨k, by simp; omega, by simp⟩
      · obtain ⟨k, hk, e⟩ := List.mem_iff_getElem.1 h
        refine ⟨(a.data[k]'(by omega), b.data[k]), ?_, .inr e⟩
        rw [List.mem_iff_getElem]
        exact ⟨k, by simp; omega, by simp⟩
  | abort => exact hr.elim
  | ub => exact hr.elim

theorem nonNeg_fma_sq {x z : Fl} (hw : x.WF) (hx : x ≠ nan) (hz : NonNeg z) : NonNeg (fma x x z) := by
  rw [fma]
  split
  · exact nonNeg_add (nonNeg_sq hw hx) hz
  split
  · exact hz
  split
  · exact nonNeg_add (nonNeg_sq hw hx) hz
  split
  · exact CFl.nonNeg_zero
  · rename_i h1 h2 _ _
    refine round_nonNeg (add_nonneg (mul_self_nonneg _) ?_)
    rcases hz with rfl | hz
    · exact absurd rfl h2
    · exact hz.2

/-- C119: the product of a tensor with itself is not negative, and not NaN, if no element is NaN. -/
theorem c119_square (t : Tensor Fl) (hw : ∀ x ∈ t.data, x.WF ∧ x ≠ nan) (r : Res Fl) (hr : Scprod t t r) :
    ∃ s, r = .ok s ∧ (s = pinf ∨ s.Finite ∧ 0 ≤ s.val) := by
  rw [Scprod, scprod_terms t t le_rfl] at hr
  cases r with
  | ok s =>
    refine ⟨s, rfl, dot_induct (fun _ z => NonNeg z) _ [] ?_ ?_ ?_ hr⟩
    · intro l p z hp hz
      rw [List.zip, List.zipWith_self] at hp
      obtain ⟨x, hx, rfl⟩ := List.mem_map.1 hp
      exact ⟨nonNeg_add hz (nonNeg_sq (hw x hx).1 (hw x hx).2), nonNeg_fma_sq (hw x hx).1 (hw x hx).2 hz⟩
    · intro a b e; cases e
    · intro z hz
      cases hz
      exact CFl.nonNeg_zero
  | abort => exact hr.elim
  | ub => exact hr.elim

/-- C119: the norm is NaN exactly if an element is. -/
theorem c119_norm2 (t : Tensor Fl) (hw : ∀ x ∈ t.data, x.WF) (r : Res Fl) (hr : Norm2 t r) :
    ∃ z, r = .ok z ∧ (z = nan ↔ nan ∈ t.data) := by
  obtain ⟨s, hs, rfl⟩ := hr
  by_cases h : nan ∈ t.data
  · rw [c119_nan t t rfl (.inl h) s hs]
    exact ⟨nan, rfl, by simp [h]⟩
  · obtain ⟨z, rfl, hz⟩ := c119_square t (fun x hx => ⟨hw x hx, fun e => h (e ▸ hx)⟩) s hs
    exact ⟨_, rfl, by simp [h, CFl.sqrt_nonNeg hz]⟩

/-- The root of a sum of squares. -/
theorem near_sqrt {n : ℕ} {A : ℝ} {s : Fl} (h : Near n A A s) (h0 : 0 ≤ s.val) (hn : n ≤ 2 ^ 53)
    (hA : (2 : ℝ) ^ (-969 : ℤ) ≤ A) :
    (sqrt s).Finite ∧ |(sqrt s).val - Real.sqrt A| ≤ ((1 + 2 ^ (-53 : ℤ)) ^ (n + 2) - 1) * Real.sqrt A := by
  obtain ⟨h1, h2⟩ := h
  have e1 : (2 : ℝ) ^ (-53 : ℤ) = eps := rfl
  rw [e1] at h2 ⊢
  have he := eps_pos
  have hA0 : 0 < A := lt_of_lt_of_le (by positivity) hA
  have hτ : (2 : ℝ) ^ (-1075 : ℤ) ≤ eps * eps * A := by
    have : (2 : ℝ) ^ (-1075 : ℤ) = eps * eps * 2 ^ (-969 : ℤ) := by
      rw [← e1, ← zpow_add₀ (by norm_num), ← zpow_add₀ (by norm_num)]; norm_num
    rw [this]
    exact mul_le_mul_of_nonneg_left hA (by positivity)
  have hne : (n : ℝ) * eps ≤ 1 := by
    have h3 : (n : ℝ) ≤ 2 ^ 53 := by exact_mod_cast hn
    have h4 : eps = ((2 : ℝ) ^ 53)⁻¹ := by rw [← e1, zpow_neg]; norm_cast
    rw [h4, ← div_eq_mul_inv, div_le_one (by positivity)]
    exact h3
  have hp : (0 : ℝ) ≤ (1 + eps) ^ (n - 1) := by positivity
  have hmono := pow_eps_mono (show n - 1 ≤ n by omega)
  have hk : (n : ℝ) * (1 + eps) ^ (n - 1) * 2 ^ (-1075 : ℤ) ≤ eps * (1 + eps) ^ n * A := by
    calc (n : ℝ) * (1 + eps) ^ (n - 1) * 2 ^ (-1075 : ℤ) ≤ n * (1 + eps) ^ (n - 1) * (eps * eps * A) :=
          mul_le_mul_of_nonneg_left hτ (by positivity)
      _ = (n * eps) * ((1 + eps) ^ (n - 1) * (eps * A)) := by ring
      _ ≤ 1 * ((1 + eps) ^ (n - 1) * (eps * A)) := mul_le_mul_of_nonneg_right hne (by positivity)
      _ ≤ 1 * ((1 + eps) ^ n * (eps * A)) := by
          have := mul_le_mul_of_nonneg_right hmono (show 0 ≤ eps * A by positivity)
          linarith
      _ = _ := by ring
  have hone : 1 ≤ (1 + eps) ^ (n + 1) := one_le_pow₀ (by linarith)
  have := sqrt_rel (Q := A) h1 h0 hA0.le hone (by
    refine h2.trans ?_
    rw [pow_succ]
    nlinarith)
  rwa [← pow_succ] at this

/-- The root of a sum of squares, which may be tiny. -/
theorem near_sqrt_any {n : ℕ} {A : ℝ} {s : Fl} (h : Near n A A s) (h0 : 0 ≤ s.val) (hA : 0 ≤ A) :
    (sqrt s).Finite ∧ |(sqrt s).val - Real.sqrt A| ≤ ((1 + 2 ^ (-53 : ℤ)) ^ (n + 1) - 1) * Real.sqrt A +
      (1 + 2 ^ (-53 : ℤ)) * Real.sqrt (n * (1 + 2 ^ (-53 : ℤ)) ^ (n - 1) * 2 ^ (-1075 : ℤ)) := by
  obtain ⟨h1, h2⟩ := h
  have e1 : (2 : ℝ) ^ (-53 : ℤ) = eps := rfl
  rw [e1] at h2 ⊢
  have he := eps_pos
  have hτ : (0 : ℝ) ≤ n * (1 + eps) ^ (n - 1) * 2 ^ (-1075 : ℤ) :=
    mul_nonneg (by positivity) (zpow_nonneg (by norm_num) _)
  have hone : 1 ≤ (1 + eps) ^ n := one_le_pow₀ (by linarith)
  rw [pow_succ]
  obtain ⟨r1, hrel⟩ := sqrt_rounded h1 h0
  refine ⟨r1, ?_⟩
  generalize (n : ℝ) * (1 + eps) ^ (n - 1) * 2 ^ (-1075 : ℤ) = τ at h2 hτ ⊢
  generalize (1 + eps) ^ n = G at h2 hone ⊢
  generalize (sqrt s).val = z at hrel ⊢
  generalize s.val = v at h0 h2 hrel
  clear h1 r1 e1
  have hv := Real.sqrt_nonneg v
  have ha := Real.sqrt_nonneg A
  have ht := Real.sqrt_nonneg τ
  have v2 := Real.sq_sqrt h0
  have a2 := Real.sq_sqrt hA
  have t2 := Real.sq_sqrt hτ
  generalize Real.sqrt v = x at *
  generalize Real.sqrt A = y at *
  generalize Real.sqrt τ = w at *
  subst v2 a2 t2
  obtain ⟨h3, h4⟩ := abs_le.1 h2
  obtain ⟨r3, r4⟩ := abs_le.1 hrel
  have hg : 0 ≤ (G - 1) * y := mul_nonneg (by linarith) ha
  have up : x ≤ G * y + w := by
    have hGy : 0 ≤ G * y := mul_nonneg (by linarith) ha
    refine abs_le_of_sq_le_sq' ?_ (by linarith) |>.2
    nlinarith [mul_nonneg hg hGy, mul_nonneg hGy ht]
  have lo : y ≤ x + (G - 1) * y + w := by
    by_contra hc
    rw [not_le] at hc
    have h5 : w < y := by linarith
    have h6 : 0 < y := by linarith
    have h7 : y * x ≤ y * (y - (G - 1) * y - w) := mul_le_mul_of_nonneg_left (by linarith) ha
    have h8 : x * x < y * x + 0 ∨ x = 0 := by
      rcases eq_or_lt_of_le hv with h | h
      · exact .inr h.symm
      · exact .inl (by nlinarith)
    have h9 : w * w ≤ w * y := mul_le_mul_of_nonneg_left h5.le ht
    rcases h8 with h8 | h8
    · nlinarith
    · rw [h8] at hc h3
      have : w * w < y * y := by nlinarith
      nlinarith
  rw [abs_le]
  constructor
  · nlinarith [mul_nonneg he.le (sub_nonneg.2 up)]
  · nlinarith [mul_le_mul_of_nonneg_left up he.le]

/-- **C119 (partial)**: the error of the norm of `n` elements is at most `n + 1` roundings and the root of `n` underflows; the
relative error is at most `n + 2` roundings unless the squares are tiny. Missing: sums of squares near overflow (C128). -/
theorem c119_norm2_error_partial (t : Tensor Fl) (hf : ∀ x ∈ t.data, x.Finite)
    (hM : Small t.data.length (t.data.map fun x => x.val ^ 2).sum) (r : Res Fl) (hr : Norm2 t r) :
    ∃ z, r = .ok z ∧ z.Finite ∧
      |z.val - Real.sqrt (t.data.map fun x => x.val ^ 2).sum| ≤ ((1 + 2 ^ (-53 : ℤ)) ^ (t.data.length + 1) - 1) * Real.sqrt (t.data.map fun x => x.val ^ 2).sum +
        (1 + 2 ^ (-53 : ℤ)) * Real.sqrt ((t.data.length : ℕ) * (1 + 2 ^ (-53 : ℤ)) ^ (t.data.length - 1) * 2 ^ (-1075 : ℤ)) ∧
      (t.data.length ≤ 2 ^ 53 → (2 : ℝ) ^ (-969 : ℤ) ≤ (t.data.map fun x => x.val ^ 2).sum → |z.val - Real.sqrt (t.data.map fun x => x.val ^ 2).sum| ≤
        ((1 + 2 ^ (-53 : ℤ)) ^ (t.data.length + 2) - 1) * Real.sqrt (t.data.map fun x => x.val ^ 2).sum) := by
  obtain ⟨s, hs, rfl⟩ := hr
  have k1 : (List.zipWith (fun x y : Fl => |x.val * y.val|) t.data t.data).sum = (t.data.map fun x => x.val ^ 2).sum := by
    rw [List.zipWith_self]
    congr 1
    refine List.map_congr_left fun x _ => ?_
    rw [abs_mul_self, sq]
  have k2 : (List.zipWith (fun x y : Fl => x.val * y.val) t.data t.data).sum = (t.data.map fun x => x.val ^ 2).sum := by
    rw [List.zipWith_self]
    congr 1
    exact List.map_congr_left fun x _ => (sq _).symm
  obtain ⟨z, rfl, hz⟩ := c119_scprod_partial t t rfl hf hf s hs (by rw [k1]; exact hM)
  obtain ⟨z', e, hz'⟩ := c119_square t (fun x hx => ⟨(hf x hx).wf, (hf x hx).ne_nan⟩) _ hs
  cases e
  rw [k1, k2] at hz
  have h0 : 0 ≤ z.val := by
    rcases hz' with rfl | h
    · exact hz.1.elim
    · exact h.2
  have hQ : 0 ≤ (t.data.map fun x => x.val ^ 2).sum := by
    refine List.sum_nonneg fun y hy => ?_
    obtain ⟨x, -, rfl⟩ := List.mem_map.1 hy
    positivity
  have := near_sqrt_any hz h0 hQ
  exact ⟨_, rfl, this.1, this.2, fun hn hA => (near_sqrt hz h0 hn hA).2⟩

/-- **C119 (partial)**: mmult of a sparse matrix and a tensor with or without fused operations has the same bounds as in C104.
Missing: sums near overflow. -/
theorem c119_mmult_partial (s : Sparse Fl) (t : Tensor Fl) (wf : t.WF)
    (hs : ValidCsr s.rows s.cols s.rowStart s.column s.data) (ds : List Nat) (hd : t.dims = s.cols :: ds)
    (r : Res (Tensor Fl)) (hr : SMmult s t r) :
    ∃ u : Tensor Fl, r = .ok u ∧ u.WF ∧ u.dims = s.rows :: ds ∧
      ∀ i is, i < s.rows → InB is ds → ∀ row, Sparse.IsRow s i row → ∀ g : Nat → Fl,
        (∀ p ∈ row, elem t.dims t.data (p.1 :: is) = some (g p.1) ∧ p.2.Finite ∧ (g p.1).Finite) →
        Small row.length (row.map fun p => |p.2.val * (g p.1).val|).sum →
        ∃ z, elem u.dims u.data (i :: is) = some z ∧ Near row.length (row.map fun p => |p.2.val * (g p.1).val|).sum
            (row.map fun p => p.2.val * (g p.1).val).sum z := by
  obtain ⟨U, e, wfU, hdU, hel⟩ := Sparse.c104_order (sterms s) (terms t) (by
    show (t.data.map Term.num).length = _
    rw [List.length_map]; exact wf) (valid_map _ hs) ds hd
  rw [SMmult, e] at hr
  cases r with
  | ok u =>
    obtain ⟨hdu, hE⟩ := hr
    refine ⟨u, rfl, ?_, by rw [hdu, hdU]; rfl, ?_⟩
    · show u.data.length = _
      rw [← hE.length_eq, hdu]
      exact wfU
    intro i is hi his row hrow g hg hM
    obtain ⟨rowT, hrowT, h⟩ := hel i is hi his
    cases (isRow_map Term.num hrow).unique hrowT
    have hT := h (fun j => .num (g j)) (by
      intro p hp
      obtain ⟨q, hq, rfl⟩ := List.mem_map.1 hp
      exact elem_map _ (hg q hq).1)
    obtain ⟨z, hz, hzE⟩ := forall₂_elem hE hT
    rw [hdu]
    refine ⟨z, hz, ?_⟩
    have e2 : List.foldl (fun x p => x + p.2 * (fun j => Term.num (g j)) p.1) 0 (row.map fun p => (p.1, Term.num p.2)) =
        dot (row.map fun p => (p.2, g p.1)) 0 := by
      rw [dot, List.foldl_map, List.foldl_map]
    rw [e2] at hzE
    have hsum := dot_zero_sums hzE
    have k1 : size (row.map fun p => (p.2, g p.1)) = (row.map fun p => |p.2.val * (g p.1).val|).sum := by
      rw [size, List.map_map]; rfl
    have k2 : exact (row.map fun p => (p.2, g p.1)) = (row.map fun p => p.2.val * (g p.1).val).sum := by
      rw [exact, List.map_map]; rfl
    have := sums_err hsum (by
      intro p hp
      obtain ⟨q, hq, rfl⟩ := List.mem_map.1 hp
      exact (hg q hq).2) (by
      rw [k1, List.length_map]
      exact hM)
    rw [k1, k2, List.length_map] at this
    exact this
  | abort => exact hr.elim
  | ub => exact hr.elim

/-- Without fused operations. -/
theorem dot_plain (l : List (Fl × Fl)) {T : Term} {z : Fl} (h : Eval T z) :
    Eval (dot l T) (l.foldl (fun z p => z + p.1 * p.2) z) := by
  induction l generalizing T z with
  | nil => exact h
  | cons p l ih => exact ih (.add h (.mul (.num _) (.num _)))

/-- C119: what Model/Reduce.lean says is one of the possible results. -/
theorem c119_plain (a b : Tensor Fl) : Scprod a b (Tensor.scprod id a b) := by
  by_cases hl : a.data.length ≤ b.data.length
  · rw [Scprod, scprod_terms a b hl, scprod_fold _ _ _ hl]
    have e : (List.zipWith (fun x y : Fl => x * id y) a.data b.data).foldl (· + ·) 0 =
        (a.data.zip b.data).foldl (fun z p => z + p.1 * p.2) 0 := by
      rw [show List.zipWith (fun x y : Fl => x * id y) a.data b.data = (a.data.zip b.data).map fun p => p.1 * p.2 by
        rw [List.zip, List.map_zipWith]; rfl, List.foldl_map]
    rw [e]
    exact dot_plain _ (.num 0)
  · rw [Scprod, Tensor.c33_scprod_out_of_bounds id (terms a) (terms b) (by simpa [terms] using hl)]
    trivial

/-- C119: what Model/Sparse.lean says is one of the possible results. -/
theorem c119_mmult_plain (s : Sparse Fl) (t : Tensor Fl) (wf : t.WF)
    (hs : ValidCsr s.rows s.cols s.rowStart s.column s.data) (ds : List Nat) (hd : t.dims = s.cols :: ds) :
    SMmult s t (Sparse.mmultST s t) := by
  obtain ⟨U, e, wfU, hdU, hel⟩ := Sparse.c104_order (sterms s) (terms t) (by
    show (t.data.map Term.num).length = _
    rw [List.length_map]; exact wf) (valid_map _ hs) ds hd
  obtain ⟨u, e', wfu, hdu, hel'⟩ := Sparse.c104_order s t wf hs ds hd
  rw [SMmult, e, e']
  refine ⟨hdu.trans hdU.symm, List.forall₂_iff_get.2 ⟨?_, ?_⟩⟩
  · have h1 : U.data.length = _ := wfU
    have h2 : u.data.length = _ := wfu
    rw [h1, h2, hdU, hdu]; rfl
  intro k hk hk'
  have hk2 : k < prod (s.rows :: ds) := by
    have h2 : u.data.length = _ := wfu
    rw [h2, hdu, totalSize_of_ne (by simp)] at hk'
    exact hk'
  obtain ⟨is, his, rfl⟩ := colPos_surj (s.rows :: ds) k hk2
  cases is with
  | nil => exact his.elim
  | cons i is =>
    obtain ⟨hi, his'⟩ := his
    obtain ⟨row, hrow, h⟩ := hel' i is hi his'
    obtain ⟨rowT, hrowT, hT⟩ := hel i is hi his'
    cases (isRow_map Term.num hrow).unique hrowT
    have hg : ∀ p ∈ row, ∃ x, elem t.dims t.data (p.1 :: is) = some x := by
      intro p hp
      have hc : p.1 < s.cols := by
        obtain ⟨a, b, k, -, -, -, -, h5, -⟩ := (hrow.2 p.1 p.2).1 hp
        exact hs.range _ (List.mem_of_getElem? h5)
      obtain ⟨x, hx, -⟩ := Tensor.elem_some wf (js := p.1 :: is) (by rw [hd]; exact ⟨hc, his'⟩) (by simp)
      exact ⟨x, hx⟩
    obtain ⟨g, hg⟩ : ∃ g : Nat → Fl, ∀ p ∈ row, elem t.dims t.data (p.1 :: is) = some (g p.1) := by
      refine ⟨fun j => (elem t.dims t.data (j :: is)).getD 0, fun p hp => ?_⟩
      obtain ⟨x, hx⟩ := hg p hp
      simp only [hx, Option.getD_some]
    have e1 := h g hg
    have e2 := hT (fun j => .num (g j)) (by
      intro p hp
      obtain ⟨q, hq, rfl⟩ := List.mem_map.1 hp
      exact elem_map _ (hg q hq))
    rw [hdu, elem, if_pos ⟨hi, his'⟩] at e1
    rw [hdU, show (sterms s).rows = s.rows from rfl, elem, if_pos ⟨hi, his'⟩] at e2
    rw [List.get_eq_getElem, List.get_eq_getElem]
    simp only
    rw [(List.getElem?_eq_some_iff.1 e1).2, (List.getElem?_eq_some_iff.1 e2).2]
    have e3 : List.foldl (fun x p => x + p.2 * (fun j => Term.num (g j)) p.1) 0 (row.map fun p => (p.1, Term.num p.2)) =
        dot (row.map fun p => (p.2, g p.1)) 0 := by
      rw [dot, List.foldl_map, List.foldl_map]
    rw [e3]
    have := dot_plain (row.map fun p => (p.2, g p.1)) (.num 0)
    rwa [List.foldl_map] at this

/-- C119: a tensor with the wrong first dimension is refused. -/
theorem c119_refused (s : Sparse Fl) (t : Tensor Fl) (d : Nat) (ds : List Nat) (hd : t.dims = d :: ds) (hne : d ≠ s.cols)
    (r : Res (Tensor Fl)) (hr : SMmult s t r) : r = .abort := by
  have hdim : (terms t).dimension 0 = .ok d := by
    rw [Tensor.dimension, Tensor.rank, show (terms t).dims = d :: ds from hd, Res.assert_pos (by simp), Res.ok_bind,
      Res.assert_pos (by omega), Res.ok_bind]
    rfl
  have e : Sparse.mmultST (sterms s) (terms t) = .abort := by
    rw [Sparse.mmultST, hdim, Res.ok_bind, Res.assert_neg (show ¬ d = (sterms s).cols from hne)]
    rfl
  rw [SMmult, e] at hr
  cases r with
  | abort => rfl
  | ok u => exact hr.elim
  | ub => exact hr.elim

/-! ### What fused operations change -/

/-- The numbers of the witnesses: 1 + 2^-27, its square, and the rounded square. -/
theorem square_rounded : IsDouble (1 + 2 ^ (-27 : ℤ)) ∧ IsDouble (1 + 2 ^ (-26 : ℤ)) ∧
    rnd ((1 + 2 ^ (-27 : ℤ)) * (1 + 2 ^ (-27 : ℤ))) = 1 + 2 ^ (-26 : ℤ) ∧
    (1 + (2 : ℝ) ^ (-27 : ℤ)) * (1 + 2 ^ (-27 : ℤ)) = 1 + 2 ^ (-26 : ℤ) + 2 ^ (-54 : ℤ) := by
  refine ⟨⟨2 ^ 27 + 1, -27, by norm_num, by norm_num, by norm_num, by norm_num⟩,
    ⟨2 ^ 26 + 1, -26, by norm_num, by norm_num, by norm_num, by norm_num⟩, ?_, by norm_num⟩
  rw [rnd_eq_of (m := 2 ^ 52 + 2 ^ 26) (e := -52) (by norm_num) (by norm_num) (by norm_num) (by norm_num) (by norm_num)]
  norm_num

theorem isDouble_tiny : IsDouble ((2 : ℝ) ^ (-54 : ℤ)) := ⟨1, -54, by norm_num, by norm_num, by norm_num, by norm_num⟩

theorem mul_fin {x y z : ℝ} (hz : IsDouble z) (h : rnd (x * y) = z) (h0 : z ≠ 0) : fin x * fin y = fin z := by
  show mul (fin x) (fin y) = fin z
  have hl := abs_lt.1 hz.lt
  have h1 : ¬ (fin x).val * (fin y).val = 0 := by
    intro e
    rw [show x * y = 0 from e, rnd_zero] at h
    exact h0 h.symm
  rw [mul, if_neg (by simp), if_neg (by simp [isInf]), if_neg h1]
  show Fl.round (x * y) = _
  rw [Fl.round, h, if_neg (not_le.2 hl.2), if_neg (not_le.2 hl.1), if_neg h0]

theorem fma_fin {x y z w : ℝ} (hw : IsDouble w) (h : x * y + z = w) (h0 : w ≠ 0) (h1 : x * y ≠ 0) :
    fma (fin x) (fin y) (fin z) = fin w := by
  have hl := abs_lt.1 hw.lt
  have h2 : ¬ (fin x).val * (fin y).val = 0 := h1
  have h3 : ¬ (fin x).val * (fin y).val + (fin z).val = 0 := by
    show ¬ x * y + z = 0
    rw [h]; exact h0
  rw [fma, if_neg (by simp [isInf]), if_neg (by simp [isInf]), if_neg h2, if_neg h3]
  show Fl.round (x * y + z) = _
  rw [h, Fl.round, rnd_exact (.inl hw), if_neg (not_le.2 hl.2), if_neg (not_le.2 hl.1), if_neg h0]

/-- C119: what a product which is added to a number may be computed as, on both sides. -/
theorem c119_sum_right (x y z s : Fl) :
    Eval (.add (.num z) (.mul (.num x) (.num y))) s ↔ s = z + x * y ∨ s = fma x y z := by
  constructor
  · intro h
    cases h with
    | add h1 h2 => cases h1; cases h2 with | mul h3 h4 => cases h3; cases h4; exact Or.inl rfl
    | fmaR h1 h2 h3 => cases h1; cases h2; cases h3; exact Or.inr rfl
  · rintro (rfl | rfl)
    · exact .add (.num _) (.mul (.num _) (.num _))
    · exact .fmaR (.num _) (.num _) (.num _)

theorem c119_sum_left (x y z s : Fl) :
    Eval (.add (.mul (.num x) (.num y)) (.num z)) s ↔ s = x * y + z ∨ s = fma x y z := by
  constructor
  · intro h
    cases h with
    | add h1 h2 => cases h2; cases h1 with | mul h3 h4 => cases h3; cases h4; exact Or.inl rfl
    | fmaL h1 h2 h3 => cases h1; cases h2; cases h3; exact Or.inr rfl
  · rintro (rfl | rfl)
    · exact .add (.mul (.num _) (.num _)) (.num _)
    · exact .fmaL (.num _) (.num _) (.num _)
/-- C119: the result depends on the compiler. The tensors (-(1 + 2^-26), 1 + 2^-27) and (1, 1 + 2^-27) are orthogonal for one and
not for another. -/
theorem c119_negation_same :
    ∃ a b : Tensor Fl, a = ⟨[2], [fin (-(1 + 2 ^ (-26 : ℤ))), fin (1 + 2 ^ (-27 : ℤ))]⟩ ∧
      b = ⟨[2], [fin 1, fin (1 + 2 ^ (-27 : ℤ))]⟩ ∧ Scprod a b (.ok (fin 0)) ∧ Scprod a b (.ok (fin (2 ^ (-54 : ℤ)))) := by
  obtain ⟨d1, d2, hr, hs⟩ := square_rounded
  have c0 : (0 : ℝ) < 1 + 2 ^ (-26 : ℤ) := by positivity
  have t0 : (0 : ℝ) < 2 ^ (-54 : ℤ) := by positivity
  have x0 : (1 + 2 ^ (-27 : ℤ)) * (1 + 2 ^ (-27 : ℤ)) ≠ (0 : ℝ) := by positivity
  have dt := isDouble_tiny
  generalize (1 : ℝ) + 2 ^ (-27 : ℤ) = x at *
  generalize (1 : ℝ) + 2 ^ (-26 : ℤ) = c at *
  generalize (2 : ℝ) ^ (-54 : ℤ) = τ at *
  have p1 : fin (-c) * fin 1 = fin (-c) := mul_fin d2.neg (by rw [mul_one]; exact rnd_exact (.inl d2.neg)) (by linarith)
  have p2 : fin x * fin x = fin c := mul_fin d2 hr c0.ne'
  have p3 : (0 : Fl) + fin (-c) = fin (-c) := zero_add_fin d2.neg (by linarith)
  have p4 : fin (-c) + fin c = fin 0 := by
    have := add_fin_zero (-c)
    rwa [neg_neg] at this
  have p5 : fma (fin x) (fin x) (fin (-c)) = fin τ := fma_fin dt (by rw [hs]; ring) t0.ne' x0
  have q1 : Eval (.add (.num 0) (.mul (.num (fin (-c))) (.num (fin 1)))) (fin (-c)) := by
    have := Eval.add (.num 0) (Eval.mul (.num (fin (-c))) (.num (fin 1)))
    rwa [p1, p3] at this
  refine ⟨_, _, rfl, rfl, ?_, ?_⟩
  · have := Eval.add q1 (Eval.mul (.num (fin x)) (.num (fin x)))
    rw [p2, p4] at this
    exact this
  · have := Eval.fmaR (.num (fin x)) (.num (fin x)) q1
    rw [p5] at this
    exact this

/-! ### Complex numbers -/

theorem reOf_sums {x y : CFl} {r : Fl} (h : ReOf x y r) : Sums (rePairs [(x, y)]) r := by
  have hn : Sums [(-x.im, y.im)] (-(x.im * y.im)) := Sums.neg (by
    have := Sums.prod x.im y.im
    simpa [neg_neg_fl] using this)
  cases h with
  | plain => exact (Sparse.mul_sums x y).1
  | first => exact Sums.fma x.re y.re hn
  | second => exact Sums.perm (List.Perm.swap _ _ _) (Sums.fma (-x.im) y.im (Sums.prod x.re y.re))

theorem imOf_sums {x y : CFl} {r : Fl} (h : ImOf x y r) : Sums (imPairs [(x, y)]) r := by
  cases h with
  | plain => exact (Sparse.mul_sums x y).2
  | first => exact Sums.fma x.re y.im (Sums.prod x.im y.re)
  | second => exact Sums.perm (List.Perm.swap _ _ _) (Sums.fma x.im y.re (Sums.prod x.re y.im))

variable [Recover]

theorem ceval_num {x s : CFl} (h : CEval (.num x) s) : s = x := by cases h; rfl

theorem ceval_conj {x s : CFl} (h : CEval (.conj (.num x)) s) : s = x.conj := by
  cases h with
  | conj h => rw [ceval_num h]

/-- What is computed by the loops; `B` is what is done with the second factors. -/
def cdot (B : CFl → CTerm) (l : List (CFl × CFl)) (T : CTerm) : CTerm := l.foldl (fun t p => t + .num p.1 * B p.2) T

/-- A property which is kept by the operations. -/
theorem cdot_induct {B : CFl → CTerm} {φ : CFl → CFl} (hB : ∀ y v, CEval (B y) v → v = φ y)
    (P : List (CFl × CFl) → CFl → Prop) (l l0 : List (CFl × CFl))
    (hP : ∀ l' p z r i, p ∈ l → P l' z → ReOf p.1 (φ p.2) r → ImOf p.1 (φ p.2) i →
      P (l' ++ [p]) ⟨z.re + (finish p.1 (φ p.2) r i).re, z.im + (finish p.1 (φ p.2) r i).im⟩) {T : CTerm}
    (h0 : ∀ z, CEval T z → P l0 z) {s : CFl} (h : CEval (cdot B l T) s) : P (l0 ++ l) s := by
  induction l generalizing T l0 with
  | nil => simpa using h0 s h
  | cons p l ih =>
    have := ih (l0 ++ [p]) (fun l' q z r i hq => hP l' q z r i (by simp [hq])) (T := T + CTerm.num p.1 * B p.2) (by
      intro z hz
      have e : T + CTerm.num p.1 * B p.2 = CTerm.add T (.mul (.num p.1) (B p.2)) := rfl
      rw [e] at hz
      cases hz with
      | add h1 h2 =>
        cases h2 with
        | mul h3 h4 h5 h6 =>
          have e3 := ceval_num h3
          have e4 := hB _ _ h4
          subst e3 e4
          exact hP l0 p _ _ _ (by simp) (h0 _ h1) h5 h6) h
    simpa using this

/-- The loop computes the sums of the parts, if these do not overflow. -/
theorem cdot_zero_sums {B : CFl → CTerm} {φ : CFl → CFl} (hB : ∀ y v, CEval (B y) v → v = φ y) {l : List (CFl × CFl)}
    (hf : ∀ p ∈ l, CFinite p.1 ∧ CFinite (φ p.2)) (hM : Small (2 * l.length) (l.map fun p => reAbs p.1 (φ p.2)).sum) {s : CFl}
    (h : CEval (cdot B l 0) s) :
    Sums (rePairs (l.map fun p => (p.1, φ p.2))) s.re ∧ Sums (imPairs (l.map fun p => (p.1, φ p.2))) s.im := by
  refine cdot_induct hB (fun l s => Sums (rePairs (l.map fun p => (p.1, φ p.2))) s.re ∧
    Sums (imPairs (l.map fun p => (p.1, φ p.2))) s.im) l [] ?_ ?_ h
  · rintro l' p z r i hp ⟨h1, h2⟩ hr hi
    have hfin : r.Finite := by
      refine (sums_err (reOf_sums hr) (rePairs_finite (by simpa using hf p hp)) (lt_of_le_of_lt ?_ hM)).1
      refine maxSum_mono ?_ (size_nonneg _) ?_
      · have := List.length_pos_of_mem hp
        simp [rePairs]
        omega
      · rw [size_rePairs]
        simp only [List.map_cons, List.map_nil, List.sum_cons, List.sum_nil, add_zero]
        refine List.single_le_sum ?_ _ (List.mem_map_of_mem (f := fun p => reAbs p.1 (φ p.2)) hp)
        intro x hx
        obtain ⟨q, -, rfl⟩ := List.mem_map.1 hx
        exact add_nonneg (abs_nonneg _) (abs_nonneg _)
    rw [finish, if_neg (fun hh => hfin.ne_nan hh.1)]
    constructor
    · rw [List.map_append, show ∀ a b : List (CFl × CFl), rePairs (a ++ b) = rePairs a ++ rePairs b by simp [rePairs]]
      exact Sums.add h1 (reOf_sums hr)
    · rw [List.map_append, show ∀ a b : List (CFl × CFl), imPairs (a ++ b) = imPairs a ++ imPairs b by simp [imPairs]]
      exact Sums.add h2 (imOf_sums hi)
  · intro z hz
    cases hz
    exact ⟨Sums.zero, Sums.zero⟩

/-- The error. -/
theorem cdot_near {B : CFl → CTerm} {φ : CFl → CFl} (hB : ∀ y v, CEval (B y) v → v = φ y) {l : List (CFl × CFl)}
    (hf : ∀ p ∈ l, CFinite p.1 ∧ CFinite (φ p.2)) (hM1 : Small (2 * l.length) (l.map fun p => reAbs p.1 (φ p.2)).sum)
    (hM2 : Small (2 * l.length) (l.map fun p => imAbs p.1 (φ p.2)).sum) {s : CFl} (h : CEval (cdot B l 0) s) :
    Near (2 * l.length) (l.map fun p => reAbs p.1 (φ p.2)).sum (l.map fun p => toC p.1 * toC (φ p.2)).sum.re s.re ∧
    Near (2 * l.length) (l.map fun p => imAbs p.1 (φ p.2)).sum (l.map fun p => toC p.1 * toC (φ p.2)).sum.im s.im := by
  obtain ⟨s1, s2⟩ := cdot_zero_sums hB hf hM1 h
  have k : CComputes (formal (l.map fun p => (p.1, φ p.2))) s := ⟨_, rfl, fun _ => ⟨_, s1, s2, fun _ => rfl⟩⟩
  have := ccomputes_near k (by
    intro x hx
    obtain ⟨q, hq, rfl⟩ := List.mem_map.1 hx
    exact hf q hq)
  simp only [List.length_map, List.map_map, Function.comp_def] at this
  exact this hM1 hM2

theorem scprod_cterms (a b : Tensor CFl) (hl : a.data.length ≤ b.data.length) :
    Tensor.scprod .conj (cterms a) (cterms b) = .ok (cdot (fun y => .conj (.num y)) (a.data.zip b.data) 0) := by
  rw [scprod_fold _ _ _ (by simpa [cterms] using hl), cdot]
  congr 1
  have e : List.zipWith (fun x y : CTerm => x * .conj y) (cterms a).data (cterms b).data =
      (a.data.zip b.data).map fun p => .num p.1 * .conj (.num p.2) := by
    simp only [cterms, List.zipWith_map, List.zip, List.map_zipWith]
  rw [e, List.foldl_map]

theorem conj_finite {y : CFl} (h : CFinite y) : CFinite y.conj := ⟨h.1, (negate_finite h.2).1⟩

/-- **C119 (partial)**: the scalar product of complex tensors. -/
theorem c119_complex_scprod_partial (a b : Tensor CFl) (hl : a.data.length = b.data.length) (ha : ∀ x ∈ a.data, CFinite x)
    (hb : ∀ x ∈ b.data, CFinite x) (r : Res CFl) (hr : CScprod a b r)
    (h1 : Small (2 * a.data.length) (List.zipWith (fun x y => reAbs x y) a.data b.data).sum)
    (h2 : Small (2 * a.data.length) (List.zipWith (fun x y => imAbs x y) a.data b.data).sum) :
    ∃ s, r = .ok s ∧
      Near (2 * a.data.length) (List.zipWith (fun x y => reAbs x y) a.data b.data).sum
        (List.zipWith (fun x y => toC x * star (toC y)) a.data b.data).sum.re s.re ∧
      Near (2 * a.data.length) (List.zipWith (fun x y => imAbs x y) a.data b.data).sum
        (List.zipWith (fun x y => toC x * star (toC y)) a.data b.data).sum.im s.im := by
  have v : ∀ y : CFl, y.conj.re.val = y.re.val ∧ y.conj.im.val = -y.im.val := fun y => ⟨rfl, val_neg _⟩
  have k1 : ∀ p : CFl × CFl, reAbs p.1 p.2.conj = reAbs p.1 p.2 := fun p => by
    simp [reAbs, (v p.2).1, (v p.2).2, abs_mul]
  have k2 : ∀ p : CFl × CFl, imAbs p.1 p.2.conj = imAbs p.1 p.2 := fun p => by
    simp [imAbs, (v p.2).1, (v p.2).2, abs_mul]
  have k3 : ∀ y : CFl, toC y.conj = star (toC y) := fun y => by
    apply Complex.ext
    · simp [toC, (v y).1]
    · simp [toC, (v y).2]
  rw [CScprod, scprod_cterms a b hl.le] at hr
  cases r with
  | ok s =>
    refine ⟨s, rfl, ?_⟩
    have hlen : (a.data.zip b.data).length = a.data.length := by simp [hl]
    have := cdot_near (φ := CFl.conj) (fun y v hv => ceval_conj hv) (l := a.data.zip b.data) (fun p hp =>
      ⟨ha _ (List.of_mem_zip hp).1, conj_finite (hb _ (List.of_mem_zip hp).2)⟩)
    simp only [k1, k2, k3, hlen] at this
    simp only [List.zip, List.map_zipWith] at this
    exact this h1 h2 hr
  | abort => exact hr.elim
  | ub => exact hr.elim

theorem reOf_square {x : CFl} (hr : x.re.WF) (hi : x.im.WF) (nr : x.re ≠ nan) (ni : x.im ≠ nan) {r : Fl} (h : ReOf x x.conj r) :
    NonNeg r := by
  have h2 := CFl.nonNeg_conj hi ni
  cases h with
  | plain => exact nonNeg_add (nonNeg_sq hr nr) h2
  | first => exact nonNeg_fma_sq hr nr h2
  | second =>
    refine nonNeg_fma_sq ?_ ?_ (nonNeg_sq hr nr)
    · cases hx : x.im with
      | fin y =>
        rw [hx] at hi
        show (negate (fin y)).WF
        rw [negate]
        split
        · trivial
        · exact IsDouble.neg hi
      | nzero => exact isDouble_zero
      | _ => trivial
    · cases hx : x.im with
      | nan => exact absurd hx ni
      | fin y =>
        show negate (fin y) ≠ nan
        rw [negate]
        split <;> exact nofun
      | _ => exact nofun

/-- C119: the real part of the product of a tensor with itself is not negative, and not NaN, if no part of an element is NaN. -/
theorem c119_complex_square (t : Tensor CFl) (hw : ∀ x ∈ t.data, x.re.WF ∧ x.im.WF ∧ x.re ≠ nan ∧ x.im ≠ nan) (r : Res CFl)
    (hr : CScprod t t r) : ∃ s, r = .ok s ∧ (s.re = pinf ∨ s.re.Finite ∧ 0 ≤ s.re.val) := by
  rw [CScprod, scprod_cterms t t le_rfl] at hr
  cases r with
  | ok s =>
    refine ⟨s, rfl, cdot_induct (φ := CFl.conj) (fun y v hv => ceval_conj hv) (fun _ z => NonNeg z.re) _ [] ?_ ?_ hr⟩
    · intro l p z r i hp hz h1 h2
      rw [List.zip, List.zipWith_self] at hp
      obtain ⟨x, hx, rfl⟩ := List.mem_map.1 hp
      obtain ⟨w1, w2, w3, w4⟩ := hw x hx
      have hn := reOf_square w1 w2 w3 w4 h1
      have hnn : r ≠ nan := by
        rcases hn with rfl | h
        · exact nofun
        · exact h.1.ne_nan
      rw [finish, if_neg (fun hh => hnn hh.1)]
      exact nonNeg_add hz hn
    · intro z hz
      cases hz
      exact CFl.nonNeg_zero
  | abort => exact hr.elim
  | ub => exact hr.elim

/-- C119: the norm of a complex tensor is not NaN if no part of an element is. -/
theorem c119_complex_norm2 (t : Tensor CFl) (hw : ∀ x ∈ t.data, x.re.WF ∧ x.im.WF ∧ x.re ≠ nan ∧ x.im ≠ nan) (r : Res Fl)
    (hr : CNorm2 t r) : ∃ z, r = .ok z ∧ z ≠ nan := by
  obtain ⟨s, hs, rfl⟩ := hr
  obtain ⟨z, rfl, hz⟩ := c119_complex_square t hw s hs
  exact ⟨_, rfl, CFl.sqrt_nonNeg hz⟩

/-- **C119 (partial)**: the error of the norm of `n` complex elements is at most `2 n + 1` roundings and the root of `2 n` underflows;
the relative error is at most `2 n + 2` roundings unless the squares are tiny. Missing: sums of squares near overflow (C128). -/
theorem c119_complex_norm2_error_partial (t : Tensor CFl) (hf : ∀ x ∈ t.data, CFinite x)
    (hM : Small (2 * t.data.length) (t.data.map fun x => x.re.val ^ 2 + x.im.val ^ 2).sum) (r : Res Fl) (hr : CNorm2 t r) :
    ∃ z, r = .ok z ∧ z.Finite ∧
      |z.val - Real.sqrt (t.data.map fun x => x.re.val ^ 2 + x.im.val ^ 2).sum| ≤ ((1 + 2 ^ (-53 : ℤ)) ^ (2 * t.data.length + 1) - 1) * Real.sqrt (t.data.map fun x => x.re.val ^ 2 + x.im.val ^ 2).sum +
        (1 + 2 ^ (-53 : ℤ)) * Real.sqrt ((2 * t.data.length : ℕ) * (1 + 2 ^ (-53 : ℤ)) ^ (2 * t.data.length - 1) * 2 ^ (-1075 : ℤ)) ∧
      (2 * t.data.length ≤ 2 ^ 53 → (2 : ℝ) ^ (-969 : ℤ) ≤ (t.data.map fun x => x.re.val ^ 2 + x.im.val ^ 2).sum → |z.val - Real.sqrt (t.data.map fun x => x.re.val ^ 2 + x.im.val ^ 2).sum| ≤
        ((1 + 2 ^ (-53 : ℤ)) ^ (2 * t.data.length + 2) - 1) * Real.sqrt (t.data.map fun x => x.re.val ^ 2 + x.im.val ^ 2).sum) := by
  obtain ⟨s, hs, rfl⟩ := hr
  have hn1 : ∀ x ∈ t.data, |x.re.val * x.re.val| + |x.im.val * x.im.val| = x.re.val ^ 2 + x.im.val ^ 2 := fun x _ => by
    rw [abs_mul_self, abs_mul_self, sq, sq]
  have k1 : (List.zipWith (fun x y => reAbs x y) t.data t.data).sum = (t.data.map fun x => x.re.val ^ 2 + x.im.val ^ 2).sum := by
    rw [List.zipWith_self]
    congr 1
    exact List.map_congr_left hn1
  have k2 : (List.zipWith (fun x y => imAbs x y) t.data t.data).sum ≤ (t.data.map fun x => x.re.val ^ 2 + x.im.val ^ 2).sum := by
    rw [List.zipWith_self]
    refine List.sum_le_sum fun x _ => ?_
    have := sq_nonneg (|x.re.val| - |x.im.val|)
    have e1 := sq_abs x.re.val
    have e2 := sq_abs x.im.val
    rw [imAbs, abs_mul, abs_mul]
    nlinarith
  have k3 : (List.zipWith (fun x y => toC x * star (toC y)) t.data t.data).sum.re =
      (t.data.map fun x => x.re.val ^ 2 + x.im.val ^ 2).sum := by
    rw [List.zipWith_self]
    clear * -
    induction t.data with
    | nil => simp
    | cons x l ih =>
      rw [List.map_cons, List.map_cons, List.sum_cons, List.sum_cons, Complex.add_re, ih]
      simp [toC, sq]
  have hpos : 0 ≤ (List.zipWith (fun x y => imAbs x y) t.data t.data).sum := by
    refine List.sum_nonneg fun x hx => ?_
    rw [List.zipWith_self] at hx
    obtain ⟨q, -, rfl⟩ := List.mem_map.1 hx
    exact add_nonneg (abs_nonneg _) (abs_nonneg _)
  obtain ⟨z, rfl, hz, -⟩ := c119_complex_scprod_partial t t rfl hf hf s hs (by rw [k1]; exact hM)
    (lt_of_le_of_lt (maxSum_mono le_rfl hpos k2) hM)
  obtain ⟨z', e, hz'⟩ := c119_complex_square t (fun x hx =>
    ⟨(hf x hx).1.wf, (hf x hx).2.wf, (hf x hx).1.ne_nan, (hf x hx).2.ne_nan⟩) _ hs
  cases e
  rw [k1, k3] at hz
  have h0 : 0 ≤ z.re.val := by
    rcases hz' with h | h
    · rw [h] at hz; exact hz.1.elim
    · exact h.2
  have hQ : 0 ≤ (t.data.map fun x => x.re.val ^ 2 + x.im.val ^ 2).sum := by
    refine List.sum_nonneg fun y hy => ?_
    obtain ⟨x, -, rfl⟩ := List.mem_map.1 hy
    positivity
  have := near_sqrt_any hz h0 hQ
  exact ⟨_, rfl, this.1, this.2, fun hn hA => (near_sqrt hz h0 hn hA).2⟩

/-- **C119 (partial)**: mmult of a sparse matrix and a tensor of complex numbers. -/
theorem c119_complex_mmult_partial (s : Sparse CFl) (t : Tensor CFl) (wf : t.WF)
    (hs : ValidCsr s.rows s.cols s.rowStart s.column s.data) (ds : List Nat) (hd : t.dims = s.cols :: ds)
    (r : Res (Tensor CFl)) (hr : CSMmult s t r) :
    ∃ u : Tensor CFl, r = .ok u ∧ u.WF ∧ u.dims = s.rows :: ds ∧
      ∀ i is, i < s.rows → InB is ds → ∀ row, Sparse.IsRow s i row → ∀ g : Nat → CFl,
        (∀ p ∈ row, elem t.dims t.data (p.1 :: is) = some (g p.1) ∧ CFinite p.2 ∧ CFinite (g p.1)) →
        Small (2 * row.length) (row.map fun p => reAbs p.2 (g p.1)).sum →
        Small (2 * row.length) (row.map fun p => imAbs p.2 (g p.1)).sum →
        ∃ z, elem u.dims u.data (i :: is) = some z ∧
          Near (2 * row.length) (row.map fun p => reAbs p.2 (g p.1)).sum
            (row.map fun p => toC p.2 * toC (g p.1)).sum.re z.re ∧
          Near (2 * row.length) (row.map fun p => imAbs p.2 (g p.1)).sum
            (row.map fun p => toC p.2 * toC (g p.1)).sum.im z.im := by
  obtain ⟨U, e, wfU, hdU, hel⟩ := Sparse.c104_order (csterms s) (cterms t) (by
    show (t.data.map CTerm.num).length = _
    rw [List.length_map]; exact wf) (valid_map _ hs) ds hd
  rw [CSMmult, e] at hr
  cases r with
  | ok u =>
    obtain ⟨hdu, hE⟩ := hr
    refine ⟨u, rfl, ?_, by rw [hdu, hdU]; rfl, ?_⟩
    · show u.data.length = _
      rw [← hE.length_eq, hdu]
      exact wfU
    intro i is hi his row hrow g hg hM1 hM2
    obtain ⟨rowT, hrowT, h⟩ := hel i is hi his
    cases (isRow_map CTerm.num hrow).unique hrowT
    have hT := h (fun j => .num (g j)) (by
      intro p hp
      obtain ⟨q, hq, rfl⟩ := List.mem_map.1 hp
      exact elem_map _ (hg q hq).1)
    obtain ⟨z, hz, hzE⟩ := forall₂_elem hE hT
    rw [hdu]
    refine ⟨z, hz, ?_⟩
    have e2 : List.foldl (fun x p => x + p.2 * (fun j => CTerm.num (g j)) p.1) 0 (row.map fun p => (p.1, CTerm.num p.2)) =
        cdot .num (row.map fun p => (p.2, g p.1)) 0 := by
      rw [cdot, List.foldl_map, List.foldl_map]
    rw [e2] at hzE
    have := cdot_near (φ := id) (fun y v hv => ceval_num hv) (l := row.map fun p => (p.2, g p.1)) (by
      intro p hp
      obtain ⟨q, hq, rfl⟩ := List.mem_map.1 hp
      exact (hg q hq).2)
    simp only [List.length_map, List.map_map, Function.comp_def, id] at this
    exact this hM1 hM2 hzE
  | abort => exact hr.elim
  | ub => exact hr.elim

/-- Without fused operations. -/
theorem cdot_plain (l : List (CFl × CFl)) {T : CTerm} {z : CFl} (h : CEval T z) :
    CEval (cdot (fun y => .conj (.num y)) l T) (l.foldl (fun z p => z + p.1 * p.2.conj) z) := by
  induction l generalizing T z with
  | nil => exact h
  | cons p l ih => exact ih (.add h (.mul (.num _) (.conj (.num _)) .plain .plain))

/-- C119: what Model/Reduce.lean says is one of the possible results. -/
theorem c119_complex_plain (a b : Tensor CFl) : CScprod a b (Tensor.scprod CFl.conj a b) := by
  by_cases hl : a.data.length ≤ b.data.length
  · rw [CScprod, scprod_cterms a b hl, scprod_fold _ _ _ hl]
    have e : (List.zipWith (fun x y : CFl => x * y.conj) a.data b.data).foldl (· + ·) 0 =
        (a.data.zip b.data).foldl (fun z p => z + p.1 * p.2.conj) 0 := by
      rw [show List.zipWith (fun x y : CFl => x * y.conj) a.data b.data = (a.data.zip b.data).map fun p => p.1 * p.2.conj by
        rw [List.zip, List.map_zipWith], List.foldl_map]
    rw [e]
    exact cdot_plain _ (.num 0)
  · rw [CScprod, Tensor.c33_scprod_out_of_bounds .conj (cterms a) (cterms b) (by simpa [cterms] using hl)]
    trivial

omit [Recover] in
theorem neg_negate {b : Fl} (h : b.Finite) : (-b).neg = !b.neg := by
  cases b with
  | fin x =>
    show (negate (fin x)).neg = _
    rw [negate]
    split
    · rename_i h0; rw [h0]; simp [Fl.neg]
    · rename_i h0
      rcases lt_or_gt_of_ne h0 with h1 | h1
      · simp [Fl.neg, h1, h1.le]
      · simp [Fl.neg, h1, h1.le]
  | nzero => simp [Fl.neg, show (-nzero : Fl) = fin 0 from rfl]
  | _ => exact h.elim

omit [Recover] in
theorem round_neg (hodd : ∀ x, rnd (-x) = -rnd x) {p : ℝ} (h : p ≠ 0) : Fl.round (-p) = -Fl.round p := by
  have hb : (0 : ℝ) < 2 ^ 1024 := by positivity
  rw [Fl.round, Fl.round, hodd]
  generalize (2 : ℝ) ^ 1024 = B at *
  generalize rnd p = q
  by_cases h1 : B ≤ q
  · rw [if_neg (by linarith), if_pos (by linarith), if_pos h1]; rfl
  by_cases h2 : q ≤ -B
  · rw [if_pos (by linarith), if_neg h1, if_pos h2]; rfl
  rw [if_neg (by linarith), if_neg (by linarith), if_neg h1, if_neg h2]
  by_cases h3 : q = 0
  · rw [if_pos (by simp [h3]), if_pos h3]
    rcases lt_or_gt_of_ne h with h4 | h4
    · simp [zeroS, h4, h4.le, show (-nzero : Fl) = fin 0 from rfl]
    · have : (-fin 0 : Fl) = nzero := by show negate (fin 0) = _; simp [negate]
      simp [zeroS, h4, not_lt.2 h4.le, this]
  · rw [if_neg (by simpa using h3), if_neg h3]
    show _ = negate (fin q)
    rw [negate, if_neg h3]

omit [Recover] in
theorem mul_neg_swap (hodd : ∀ x, rnd (-x) = -rnd x) {a b : Fl} (ha : a.Finite) (hb : b.Finite) : a * -b = -(b * a) := by
  obtain ⟨nb, vb⟩ := negate_finite hb
  show mul a (-b) = negate (mul b a)
  have e1 : mul a (-b) = if a.val * (-b).val = 0 then zeroS (a.neg ^^ (-b).neg) else Fl.round (a.val * (-b).val) := by
    rw [mul, if_neg (by simp [ha.ne_nan, nb.ne_nan]), if_neg (by simp [ha.not_inf, nb.not_inf])]
  have e2 : mul b a = if b.val * a.val = 0 then zeroS (b.neg ^^ a.neg) else Fl.round (b.val * a.val) := by
    rw [mul, if_neg (by simp [ha.ne_nan, hb.ne_nan]), if_neg (by simp [ha.not_inf, hb.not_inf])]
  rw [e1, e2, vb, neg_negate hb, mul_neg, mul_comm a.val]
  by_cases h : b.val * a.val = 0
  · rw [if_pos (by rw [h, neg_zero]), if_pos h]
    have : negate (fin 0) = nzero := by simp [negate]
    cases a.neg <;> cases b.neg <;> simp [zeroS, this, show negate nzero = fin 0 from rfl]
  · rw [if_neg (neg_ne_zero.2 h), if_neg h, round_neg hodd h]; rfl

omit [Recover] in
theorem neg_add_self {c : Fl} (h : c.Finite) : -c + c = fin 0 := by
  cases c with
  | fin x =>
    show add (negate (fin x)) (fin x) = fin 0
    rw [negate]
    split
    · rename_i h0; rw [h0]; simp [add, val]
    · simp [add, val]
  | nzero => show add (fin 0) nzero = fin 0; simp [add, val]
  | _ => exact h.elim

/-- **C119 (partial)**: without fused operations, the product of a finite complex tensor with itself is real: the imaginary part
is exactly zero, if the products of the parts do not overflow and opposite numbers are rounded to opposite numbers (as
they are with ties to even). -/
theorem c119_real_partial (hodd : ∀ x, rnd (-x) = -rnd x) (t : Tensor CFl) (hf : ∀ x ∈ t.data, CFinite x)
    (hp : ∀ x ∈ t.data, (x.im * x.re).Finite) : ∃ s, Tensor.scprod CFl.conj t t = .ok s ∧ s.im = fin 0 := by
  obtain ⟨s, hs, -, h2⟩ := CFl.scprod_parts t t le_rfl
  refine ⟨s, hs, ?_⟩
  rw [h2, List.zip, List.map_zipWith, List.zipWith_self]
  have key : ∀ x ∈ t.data, (x * CFl.conj x).im = fin 0 := by
    intro x hx
    have e : CFl.mulIm x x.conj = fin 0 := by
      show x.re * -x.im + x.im * x.re = fin 0
      rw [mul_neg_swap hodd (hf x hx).1 (hf x hx).2]
      exact neg_add_self (hp x hx)
    rw [(CFl.mul_re (x := x) (y := x.conj) (.inr (by rw [e]; exact nofun))).2, e]
  clear h2 hs
  have h0 : (0 : Fl) + fin 0 = 0 := by show add (fin 0) (fin 0) = fin 0; simp [add, val]
  show List.foldl _ 0 _ = (0 : Fl)
  revert key
  generalize t.data = l
  intro key
  induction l with
  | nil => rfl
  | cons x l ih =>
    rw [List.map_cons, List.foldl_cons, key x (by simp), h0]
    exact ih fun y hy => key y (by simp [hy])

/-- C119: with them it is not. For the only element (1 + 2^-27) (1 + i) the imaginary part may be computed as -2^-54. -/
theorem c119_negation_real :
    ∃ s, CScprod ⟨[1], [⟨fin (1 + 2 ^ (-27 : ℤ)), fin (1 + 2 ^ (-27 : ℤ))⟩]⟩
      ⟨[1], [⟨fin (1 + 2 ^ (-27 : ℤ)), fin (1 + 2 ^ (-27 : ℤ))⟩]⟩ (.ok s) ∧ s.im = fin (-2 ^ (-54 : ℤ)) := by
  obtain ⟨d1, d2, hr, hs⟩ := square_rounded
  have c0 : (0 : ℝ) < 1 + 2 ^ (-26 : ℤ) := by positivity
  have t0 : (0 : ℝ) < 2 ^ (-54 : ℤ) := by positivity
  have xp : (0 : ℝ) < 1 + 2 ^ (-27 : ℤ) := by positivity
  have dt := isDouble_tiny
  generalize (1 : ℝ) + 2 ^ (-27 : ℤ) = x at *
  generalize (1 : ℝ) + 2 ^ (-26 : ℤ) = c at *
  generalize (2 : ℝ) ^ (-54 : ℤ) = τ at *
  have x0 : x * -x ≠ 0 := mul_ne_zero xp.ne' (neg_ne_zero.2 xp.ne')
  have p2 : fin x * fin x = fin c := mul_fin d2 hr c0.ne'
  have pn : (-fin x : Fl) = fin (-x) := by show negate (fin x) = _; rw [negate, if_neg xp.ne']
  have p5 : fma (fin x) (fin (-x)) (fin c) = fin (-τ) := fma_fin dt.neg (by rw [mul_neg, hs]; ring) (by linarith) x0
  have p6 : (0 : Fl) + fin (-τ) = fin (-τ) := zero_add_fin dt.neg (by linarith)
  have hi := ImOf.first (x := ⟨fin x, fin x⟩) (y := CFl.conj ⟨fin x, fin x⟩)
  have hi' : ImOf ⟨fin x, fin x⟩ (CFl.conj ⟨fin x, fin x⟩) (fin (-τ)) := by
    have e : fma (fin x) (-fin x) (fin x * fin x) = fin (-τ) := by rw [pn, p2, p5]
    rw [← e]
    exact hi
  have := CEval.add (.num 0) (CEval.mul (.num ⟨fin x, fin x⟩) (.conj (.num ⟨fin x, fin x⟩)) .plain hi')
  refine ⟨_, this, ?_⟩
  rw [finish, if_neg (fun hh => nomatch hh.2)]
  exact p6

/-! ### The hypotheses can be met -/

omit [Rounding] [Recover] in
theorem small_few {n : ℕ} {A : ℝ} (hn : n ≤ 4) (h0 : 0 ≤ A) (hA : A ≤ 100) : Small n A := by
  have h5 : (10000 : ℝ) < 2 ^ 1024 :=
    lt_of_lt_of_le (by norm_num) (pow_le_pow_right₀ (by norm_num) (show 14 ≤ 1024 by norm_num))
  refine lt_of_le_of_lt ?_ h5
  have h1 : (2 : ℝ) ^ (-1075 : ℤ) ≤ 1 := zpow_le_one_of_nonpos₀ (by norm_num) (by norm_num)
  have h2 : (2 : ℝ) ^ (-53 : ℤ) ≤ 1 := zpow_le_one_of_nonpos₀ (by norm_num) (by norm_num)
  have h3 := two_zpow_pos (-53)
  have h4 := two_zpow_pos (-1075)
  generalize (2 : ℝ) ^ (-53 : ℤ) = u at *
  generalize (2 : ℝ) ^ (-1075 : ℤ) = v at *
  have p : ∀ m ≤ 4, (1 + u) ^ m ≤ 16 := by
    intro m hm
    calc (1 + u) ^ m ≤ 2 ^ m := pow_le_pow_left₀ (by linarith) (by linarith) _
      _ ≤ 2 ^ 4 := pow_le_pow_right₀ (by norm_num) hm
      _ = 16 := by norm_num
  have hn' : (n : ℝ) ≤ 4 := by exact_mod_cast hn
  have q0 : (0 : ℝ) ≤ (1 + u) ^ (n - 1) := by positivity
  calc (1 + u) ^ n * A + n * (1 + u) ^ (n - 1) * v ≤ 16 * 100 + 4 * 16 * 1 := by
        refine add_le_add (mul_le_mul (p n hn) hA h0 (by norm_num)) (mul_le_mul ?_ h1 h4.le (by norm_num))
        exact mul_le_mul hn' (p (n - 1) (by omega)) q0 (by norm_num)
    _ ≤ 10000 := by norm_num

omit [Rounding] [Recover] in
theorem finite_int {n : ℤ} (h : |n| < 2 ^ 53) : (fin n).Finite := ⟨n, 0, h, by norm_num, by norm_num, by simp⟩

/-- Two tensors, and what must be computed for their scalar product. -/
example (r : Res Fl) (hr : Scprod ⟨[2], [fin (1 : ℤ), fin (2 : ℤ)]⟩ ⟨[2], [fin (3 : ℤ), fin (4 : ℤ)]⟩ r) :
    ∃ s, r = .ok s ∧ s.Finite ∧ |s.val - 11| ≤ ((1 + 2 ^ (-53 : ℤ)) ^ 2 - 1) * 11 + 2 * (1 + 2 ^ (-53 : ℤ)) ^ 1 * 2 ^ (-1075 : ℤ) := by
  obtain ⟨s, rfl, h1, h2⟩ := c119_scprod_partial ⟨[2], [fin (1 : ℤ), fin (2 : ℤ)]⟩ ⟨[2], [fin (3 : ℤ), fin (4 : ℤ)]⟩ rfl (by
    intro x hx
    rcases List.mem_cons.1 hx with rfl | hx
    · exact finite_int (by norm_num)
    · rw [List.mem_singleton.1 hx]; exact finite_int (by norm_num)) (by
    intro x hx
    rcases List.mem_cons.1 hx with rfl | hx
    · exact finite_int (by norm_num)
    · rw [List.mem_singleton.1 hx]; exact finite_int (by norm_num)) r hr (small_few (by simp) (by simp [val]; norm_num) (by simp [val]; norm_num))
  refine ⟨s, rfl, h1, ?_⟩
  have e : ((1 : ℤ) : ℝ) * (3 : ℤ) + ((2 : ℤ) : ℝ) * (4 : ℤ) = 11 := by norm_num
  simp only [List.zipWith_cons_cons, List.zipWith_nil_right, List.sum_cons, List.sum_nil, add_zero, val] at h2
  rw [e, show |((1 : ℤ) : ℝ) * (3 : ℤ)| + |((2 : ℤ) : ℝ) * (4 : ℤ)| = 11 by norm_num] at h2
  exact h2

/-- A norm. -/
example (r : Res Fl) (hr : Norm2 ⟨[1], [fin (3 : ℤ)]⟩ r) : ∃ z, r = .ok z ∧ z ≠ nan ∧ z.Finite := by
  obtain ⟨z, rfl, h⟩ := c119_norm2 _ (by simpa using (finite_int (n := 3) (by norm_num)).wf) r hr
  obtain ⟨z', e, h', -⟩ := c119_norm2_error_partial _ (by simpa using finite_int (n := 3) (by norm_num)) (small_few (by simp) (by simp [val]) (by simp [val]; norm_num)) _ hr
  cases e
  exact ⟨z, rfl, by rw [Ne, h]; simp, h'⟩

/-- There are results of all programs. -/
example (a b : Tensor Fl) : ∃ r, Scprod a b r := ⟨_, c119_plain a b⟩
example (t : Tensor Fl) : ∃ r, Norm2 t r := ⟨_, _, c119_plain t t, rfl⟩
example (a b : Tensor CFl) : ∃ r, CScprod a b r := ⟨_, c119_complex_plain a b⟩
example (t : Tensor CFl) : ∃ r, CNorm2 t r := ⟨_, _, c119_complex_plain t t, rfl⟩

/-- A matrix with two rows. -/
example : ValidCsr 2 2 [0, 1, 2] [1, 0] [fin (3 : ℤ), fin (4 : ℤ)] ∧
    SMmult ⟨2, 2, [0, 1, 2], [1, 0], [fin (3 : ℤ), fin (4 : ℤ)]⟩ ⟨[2], [fin (5 : ℤ), fin (6 : ℤ)]⟩
      (Sparse.mmultST ⟨2, 2, [0, 1, 2], [1, 0], [fin (3 : ℤ), fin (4 : ℤ)]⟩ ⟨[2], [fin (5 : ℤ), fin (6 : ℤ)]⟩) := by
  have h : ValidCsr 2 2 [0, 1, 2] [1, 0] [fin (3 : ℤ), fin (4 : ℤ)] := by
    refine ⟨rfl, rfl, by simp, rfl, rfl, ?_, by simp⟩
    intro i a b h1 h2
    match i with
    | 0 => cases h1; cases h2; simp
    | 1 => cases h1; cases h2; simp
    | 2 => cases h2
    | n + 3 => simp at h1
  exact ⟨h, c119_mmult_plain _ _ rfl h [] rfl⟩

omit [Rounding] [Recover] in
/-- There is a way to round for which opposite numbers are rounded to opposite numbers. -/
theorem exists_odd : ∃ R : Rounding, ∀ x, R.rnd (-x) = -R.rnd x := by
  obtain ⟨R⟩ := exists_rounding
  have hn : ∀ y, IsTarget y → IsTarget (-y) := by
    rintro y (h | h)
    · exact .inl h.neg
    · exact .inr (by rw [abs_neg]; exact h)
  refine ⟨⟨fun x => if 0 ≤ x then R.rnd x else -R.rnd (-x), fun x => ?_, fun x y hy => ?_⟩, fun x => ?_⟩
  · split
    · exact R.target x
    · exact hn _ (R.target _)
  · split
    · exact R.nearest x y hy
    · have := R.nearest (-x) (-y) (hn y hy)
      rw [show x - -R.rnd (-x) = -(-x - R.rnd (-x)) by ring, abs_neg, show x - y = -(-x - -y) by ring, abs_neg]
      exact this
  · show (if 0 ≤ -x then R.rnd (-x) else -R.rnd (- -x)) = -(if 0 ≤ x then R.rnd x else -R.rnd (-x))
    have z : R.rnd 0 = 0 := @rnd_zero R
    rcases lt_trichotomy x 0 with h | rfl | h
    · rw [if_pos (by linarith), if_neg (by linarith), neg_neg]
    · simp [z]
    · rw [if_neg (by linarith), if_pos h.le, neg_neg]

end

end Verif.Fused
