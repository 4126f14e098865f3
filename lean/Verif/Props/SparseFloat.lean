import Verif.Props.SparseMult
import Verif.Props.GemmFloat
import Verif.Props.GemmCFloat
import Verif.Props.CFloat
/-
C104: products of sparse matrices and tensors of doubles.
-/
namespace Verif.Sparse

open Verif Verif.Spec Fl Rounding GemmFl

variable {α : Type}

/-- `row` are the stored elements of row `i` in the order of their columns. -/
def IsRow (s : Sparse α) (i : Nat) (row : List (Nat × α)) : Prop :=
  (row.map (·.1)).Pairwise (· < ·) ∧ ∀ j v, (j, v) ∈ row ↔ Stored s.rowStart s.column s.data i j v

theorem IsRow.unique {s : Sparse α} {i : Nat} {r1 r2 : List (Nat × α)} (h1 : IsRow s i r1) (h2 : IsRow s i r2) :
    r1 = r2 := by
  have key : ∀ r1 r2 : List (Nat × α), (r1.map (·.1)).Pairwise (· < ·) → (r2.map (·.1)).Pairwise (· < ·) →
      (∀ p, p ∈ r1 ↔ p ∈ r2) → r1 = r2 := by
    intro r1
    induction r1 with
    | nil =>
      intro r2 _ _ h
      cases r2 with
      | nil => rfl
      | cons p r2 => have := (h p).2 (by simp); simp at this
    | cons p r1 ih =>
      intro r2 s1 s2 h
      cases r2 with
      | nil => have := (h p).1 (by simp); simp at this
      | cons q r2 =>
        rw [List.map_cons, List.pairwise_cons] at s1 s2
        have l1 : ∀ x ∈ r1, p.1 < x.1 := fun x hx => s1.1 x.1 (List.mem_map_of_mem hx)
        have l2 : ∀ x ∈ r2, q.1 < x.1 := fun x hx => s2.1 x.1 (List.mem_map_of_mem hx)
        have e : p = q := by
          rcases List.mem_cons.1 ((h p).1 (by simp)) with e | e
          · exact e
          · rcases List.mem_cons.1 ((h q).2 (by simp)) with e' | e'
            · exact e'.symm
            · have := l1 q e'; have := l2 p e; omega
        subst e
        congr 1
        refine ih r2 s1.2 s2.2 fun x => ⟨fun hx => ?_, fun hx => ?_⟩
        · rcases List.mem_cons.1 ((h x).1 (by simp [hx])) with e | e
          · subst e; exact absurd (l1 x hx) (lt_irrefl _)
          · exact e
        · rcases List.mem_cons.1 ((h x).2 (by simp [hx])) with e | e
          · subst e; exact absurd (l2 x hx) (lt_irrefl _)
          · exact e
  exact key r1 r2 h1.1 h2.1 fun p => (h1.2 p.1 p.2).trans (h2.2 p.1 p.2).symm

/-- **C104**, for numbers of any kind and with no law of arithmetic: each element of mmult(S, T) is the sum of the products with the
stored elements of a row, in the order of the columns and starting with zero. Other elements of T are not used. -/
theorem c104_order [Zero α] [Add α] [Mul α] (s : Sparse α) (t : Tensor α) (wf : t.WF)
    (hs : ValidCsr s.rows s.cols s.rowStart s.column s.data) (ds : List Nat) (hd : t.dims = s.cols :: ds) :
    ∃ u : Tensor α, mmultST s t = .ok u ∧ u.WF ∧ u.dims = s.rows :: ds ∧
      ∀ i is, i < s.rows → InB is ds → ∃ row, IsRow s i row ∧ ∀ g : Nat → α,
        (∀ p ∈ row, elem t.dims t.data (p.1 :: is) = some (g p.1)) →
        elem u.dims u.data (i :: is) = some (row.foldl (fun x p => x + p.2 * g p.1) 0) := by
  obtain ⟨L, hL, hok⟩ := (valid_iff s).mp hs
  obtain ⟨u, e, wfu, hdu, hel⟩ := mmultST_ok s t wf s.cols ds hd rfl L hL hok
  refine ⟨u, e, wfu, hdu, ?_⟩
  intro i is hi his
  have hrow : L[i]? = some (L[i]'(by rw [hL.1]; exact hi)) := List.getElem?_eq_getElem _
  refine ⟨_, ⟨(hok _ (List.mem_of_getElem? hrow)).1, fun j v => ?_⟩, hel i is _ hrow his⟩
  rw [stored_iff hL]
  constructor
  · intro h; exact ⟨_, hrow, h⟩
  · rintro ⟨row, hr, h⟩
    rw [hrow] at hr; cases hr; exact h

variable [Rounding]

/-- The loop is one of the ways to compute the sum. -/
theorem dot_sums (row : List (Nat × Fl)) (g : Nat → Fl) {l : List (Fl × Fl)} {acc : Fl} (h : Sums l acc) :
    Sums (l ++ row.map fun p => (p.2, g p.1)) (row.foldl (fun x p => x + p.2 * g p.1) acc) := by
  induction row generalizing l acc with
  | nil => simpa using h
  | cons p row ih =>
    have := ih (Sums.add h (Sums.prod p.2 (g p.1)))
    simpa using this

/-- **C104 (partial).** mmult(S, T) of doubles: if a sum is far from overflow, it is finite and differs from the exact one by at most
`n` roundings of the sum of the absolute values of the products and `n` underflows, where `n` is the number of the elements
stored in the row (not that of the columns). Missing: sums near overflow. Compilers which use fused operations: C119. -/
theorem c104_error_partial (s : Sparse Fl) (t : Tensor Fl) (wf : t.WF)
    (hs : ValidCsr s.rows s.cols s.rowStart s.column s.data) (ds : List Nat) (hd : t.dims = s.cols :: ds) :
    ∃ u : Tensor Fl, mmultST s t = .ok u ∧ u.WF ∧ u.dims = s.rows :: ds ∧
      ∀ i is, i < s.rows → InB is ds → ∀ row, IsRow s i row → ∀ g : Nat → Fl,
        (∀ p ∈ row, elem t.dims t.data (p.1 :: is) = some (g p.1) ∧ p.2.Finite ∧ (g p.1).Finite) →
        GemmFl.Spec.Small row.length (row.map fun p => |p.2.val * (g p.1).val|).sum →
        ∃ z, elem u.dims u.data (i :: is) = some z ∧
          GemmFl.Spec.Near row.length (row.map fun p => |p.2.val * (g p.1).val|).sum
            (row.map fun p => p.2.val * (g p.1).val).sum z := by
  obtain ⟨u, e, wfu, hdu, hel⟩ := c104_order s t wf hs ds hd
  refine ⟨u, e, wfu, hdu, ?_⟩
  intro i is hi his row hrow g hg hM
  obtain ⟨row', hrow', h⟩ := hel i is hi his
  cases hrow.unique hrow'
  refine ⟨_, h g (fun p hp => (hg p hp).1), ?_⟩
  have k1 : size (row.map fun p => (p.2, g p.1)) = (row.map fun p => |p.2.val * (g p.1).val|).sum := by
    rw [size, List.map_map]; rfl
  have k2 : exact (row.map fun p => (p.2, g p.1)) = (row.map fun p => p.2.val * (g p.1).val).sum := by
    rw [exact, List.map_map]; rfl
  have := sums_err (dot_sums row g Sums.zero) (by
    rintro p hp
    simp only [List.nil_append, List.mem_map] at hp
    obtain ⟨q, hq, rfl⟩ := hp
    exact (hg q hq).2) (by
    simp only [List.nil_append]
    rw [k1, List.length_map]
    exact hM)
  simp only [List.nil_append] at this
  rw [k1, k2, List.length_map] at this
  exact this

/-- **C104 (partial)**: NaN among the stored elements or the elements multiplied with them gives NaN (also if it is multiplied with a stored zero). -/
theorem c104_nan (s : Sparse Fl) (t : Tensor Fl) (wf : t.WF)
    (hs : ValidCsr s.rows s.cols s.rowStart s.column s.data) (ds : List Nat) (hd : t.dims = s.cols :: ds) (i j : Nat)
    (is : List Nat) (hi : i < s.rows) (his : InB is ds) (v w : Fl) (hv : Stored s.rowStart s.column s.data i j v)
    (hw : elem t.dims t.data (j :: is) = some w) (hn : v = nan ∨ w = nan) :
    ∃ u : Tensor Fl, mmultST s t = .ok u ∧ elem u.dims u.data (i :: is) = some nan := by
  obtain ⟨u, e, wfu, hdu, hel⟩ := c104_order s t wf hs ds hd
  obtain ⟨row, hrow, h⟩ := hel i is hi his
  refine ⟨u, e, ?_⟩
  obtain ⟨g, hg⟩ : ∃ g : Nat → Fl, ∀ j' < s.cols, elem t.dims t.data (j' :: is) = some (g j') := by
    have : ∀ j', ∃ x, j' < s.cols → elem t.dims t.data (j' :: is) = some x := by
      intro j'
      by_cases hj : j' < s.cols
      · obtain ⟨x, hx, -⟩ := Tensor.elem_some wf (js := j' :: is) (by rw [hd]; exact ⟨hj, his⟩) (by simp)
        exact ⟨x, fun _ => hx⟩
      · exact ⟨0, fun h => absurd h hj⟩
    choose g hg using this
    exact ⟨g, hg⟩
  have hcol : ∀ p ∈ row, p.1 < s.cols := by
    intro p hp
    obtain ⟨a, b, k, -, -, -, -, hk, -⟩ := (hrow.2 p.1 p.2).1 hp
    exact hs.range _ (List.mem_of_getElem? hk)
  rw [h g fun p hp => hg p.1 (hcol p hp)]
  have hm : (j, v) ∈ row := (hrow.2 j v).2 hv
  have hgj : g j = w := by
    have := hg j (hcol _ hm)
    rw [hw] at this
    exact (Option.some.inj this).symm
  have fold_nan : ∀ (r : List (Nat × Fl)), r.foldl (fun x p => x + p.2 * g p.1) nan = nan := by
    intro r
    induction r with
    | nil => rfl
    | cons p r ih => rw [List.foldl_cons, nan_add]; exact ih
  have key : ∀ (r : List (Nat × Fl)) (acc : Fl), (j, v) ∈ r → r.foldl (fun x p => x + p.2 * g p.1) acc = nan := by
    intro r
    induction r with
    | nil => intro _ h; simp at h
    | cons p r ih =>
      intro acc h
      rw [List.foldl_cons]
      rcases List.mem_cons.1 h with rfl | h
      · have : v * g j = nan := by
          rw [hgj]
          rcases hn with rfl | rfl
          · exact nan_mul _
          · exact mul_nan _
        simp only
        rw [this, add_nan]
        exact fold_nan r
      · exact ih _ h
  rw [key row 0 hm]

/-- The conditions can be met: the matrix (0 2) with one stored element and the vector (NaN, 1) have the product 2. -/
example : ∃ u : Tensor Fl, mmultST ⟨1, 2, [0, 1], [1], [fin 2]⟩ ⟨[2], [nan, fin 1]⟩ = .ok u ∧ ∃ z, elem u.dims u.data [0] = some z ∧
    GemmFl.Spec.Near 1 2 2 z := by
  have hv : ValidCsr 1 2 [0, 1] [1] [fin 2] := by
    refine ⟨rfl, rfl, by simp, rfl, rfl, ?_, by simp⟩
    intro i a b h1 h2
    match i, h1, h2 with
    | 0, h1, h2 => cases h1; cases h2; simp
    | 1, h1, h2 => simp at h2
    | i + 2, h1, h2 => simp at h2
  have hr : IsRow (⟨1, 2, [0, 1], [1], [fin 2]⟩ : Sparse Fl) 0 [(1, fin 2)] := by
    refine ⟨by simp, fun j v => ?_⟩
    constructor
    · intro h
      simp only [List.mem_singleton, Prod.mk.injEq] at h
      obtain ⟨rfl, rfl⟩ := h
      exact ⟨0, 1, 0, rfl, rfl, le_refl _, by norm_num, rfl, rfl⟩
    · rintro ⟨a, b, k, h1, h2, h3, h4, h5, h6⟩
      cases h1; cases h2
      have : k = 0 := by omega
      subst this
      cases h5; cases h6
      simp
  have f1 : IsDouble 1 := by simpa using isDouble_int (n := 1) (by norm_num)
  have f2 : IsDouble 2 := by simpa using isDouble_int (n := 2) (by norm_num)
  have hsm : GemmFl.Spec.Small 1 2 := by
    unfold GemmFl.Spec.Small
    have h1 : (2 : ℝ) ^ (-1075 : ℤ) ≤ 1 := zpow_le_one_of_nonpos₀ (by norm_num) (by norm_num)
    have h2 : (2 : ℝ) ^ (-53 : ℤ) ≤ 1 := zpow_le_one_of_nonpos₀ (by norm_num) (by norm_num)
    have h5 : (100 : ℝ) < 2 ^ 1024 :=
      lt_of_lt_of_le (by norm_num) (pow_le_pow_right₀ (by norm_num) (show 10 ≤ 1024 by norm_num))
    refine lt_trans ?_ h5
    generalize (2 : ℝ) ^ (-53 : ℤ) = u at *
    generalize (2 : ℝ) ^ (-1075 : ℤ) = v at *
    norm_num
    linarith
  obtain ⟨u, e, -, -, h⟩ := c104_error_partial ⟨1, 2, [0, 1], [1], [fin 2]⟩ ⟨[2], [nan, fin 1]⟩ rfl hv [] rfl
  refine ⟨u, e, ?_⟩
  obtain ⟨z, hz, hn⟩ := h 0 [] (by norm_num) trivial _ hr (fun _ => fin 1) (by
    intro p hp
    simp only [List.mem_singleton] at hp
    subst hp
    exact ⟨rfl, f2, f1⟩) (by
    simpa [val] using hsm)
  refine ⟨z, hz, ?_⟩
  simpa [val] using hn

/-- **C104, negation**: the product with the full matrix may be another one. A matrix without stored elements makes zero of
infinity; the full matrix has zeros, and zero times infinity may be NaN. -/
theorem c104_negation_full :
    mmultST (⟨1, 1, [0, 0], [], []⟩ : Sparse Fl) ⟨[1], [pinf]⟩ = .ok ⟨[1], [0]⟩ ∧
    full (⟨1, 1, [0, 0], [], []⟩ : Sparse Fl) = .ok ⟨[1, 1], [0]⟩ ∧
    Mmult ⟨[1, 1], [0]⟩ ⟨[1], [pinf]⟩ (.ok ⟨[1], [nan]⟩) := by
  refine ⟨rfl, rfl, ?_⟩
  obtain ⟨T, ht, wft, hdt, he⟩ := (Tensor.c19_fold (vars (⟨[1, 1], [0]⟩ : Tensor Fl)) (vars ⟨[1], [pinf]⟩) rfl rfl (-1) 0 [1] [] [] []
    1 1 rfl rfl rfl rfl).1 rfl (by norm_num)
  have := he [0] [] [] [] (by simp) trivial trivial trivial (fun _ => MvPolynomial.X 0) (fun _ => MvPolynomial.X pinf)
    (by intro l hl; have : l = 0 := by omega
        subst this; rfl) (by intro l hl; have : l = 0 := by omega
                             subst this; rfl)
  obtain ⟨d, data⟩ := T
  simp only at hdt wft
  subst hdt
  have hlen : data.length = 1 := wft
  obtain ⟨x, rfl⟩ := List.length_eq_one_iff.1 hlen
  unfold Mmult Tensor.mmult
  rw [ht]
  refine ⟨rfl, .cons ⟨[(0, pinf)], ?_, ?_⟩ .nil⟩
  · have e : x = ∑ l ∈ Finset.range 1, (MvPolynomial.X (0 : Fl) * MvPolynomial.X pinf : Formal Fl) := Option.some.inj this
    rw [e]
    simp [formal]
  · have := Sums.prod (0 : Fl) pinf
    rwa [show (0 : Fl) * pinf = nan by
      show mul (fin 0) pinf = nan
      simp [mul, isInf, val]] at this

/-! ### Complex numbers -/

/-- The parts of a product are sums of two products. -/
theorem mul_sums (x y : CFl) : Sums (rePairs [(x, y)]) (CFl.mulRe x y) ∧ Sums (imPairs [(x, y)]) (CFl.mulIm x y) := by
  constructor
  · have h : Sums [(-x.im, y.im)] (-(x.im * y.im)) := Sums.neg (by
      have := Sums.prod x.im y.im
      simpa [neg_neg_fl] using this)
    have := Sums.add (Sums.prod x.re y.re) h
    exact this
  · have := Sums.add (Sums.prod x.re y.im) (Sums.prod x.im y.re)
    exact this

variable [Recover]

/-- The loop computes the sums of the parts, if these do not overflow. -/
theorem cdot_sums (row : List (Nat × CFl)) (g : Nat → CFl) (hf : ∀ p ∈ row, CFinite p.2 ∧ CFinite (g p.1)) {M : ℕ} {A : ℝ}
    (hM : Spec.Small M A) (hl : 2 ≤ M ∨ row = [])
    (hA : ∀ p ∈ row, GemmFl.Spec.reAbs p.2 (g p.1) ≤ A) {l : List (CFl × CFl)} {acc : CFl} (h1 : Sums (rePairs l) acc.re)
    (h2 : Sums (imPairs l) acc.im) :
    Sums (rePairs (l ++ row.map fun p => (p.2, g p.1))) (row.foldl (fun x p => x + p.2 * g p.1) acc).re ∧
    Sums (imPairs (l ++ row.map fun p => (p.2, g p.1))) (row.foldl (fun x p => x + p.2 * g p.1) acc).im := by
  induction row generalizing l acc with
  | nil => simpa using ⟨h1, h2⟩
  | cons p row ih =>
    obtain ⟨m1, m2⟩ := mul_sums p.2 (g p.1)
    have hp := hf p (by simp)
    have hM2 : 2 ≤ M := hl.resolve_right (by simp)
    have hfin : (CFl.mulRe p.2 (g p.1)).Finite := by
      refine (sums_err m1 (rePairs_finite (by simpa using hp)) (lt_of_le_of_lt ?_ hM)).1
      refine maxSum_mono (by simpa [rePairs] using hM2) (size_nonneg _) ?_
      rw [size_rePairs]
      simpa using hA p (by simp)
    obtain ⟨e1, e2⟩ := CFl.mul_re (x := p.2) (y := g p.1) (.inl hfin.ne_nan)
    have k1 : Sums (rePairs (l ++ [(p.2, g p.1)])) (acc + p.2 * g p.1).re := by
      rw [show rePairs (l ++ [(p.2, g p.1)]) = rePairs l ++ rePairs [(p.2, g p.1)] by simp [rePairs]]
      have := Sums.add h1 m1
      rw [← e1] at this
      exact this
    have k2 : Sums (imPairs (l ++ [(p.2, g p.1)])) (acc + p.2 * g p.1).im := by
      rw [show imPairs (l ++ [(p.2, g p.1)]) = imPairs l ++ imPairs [(p.2, g p.1)] by simp [imPairs]]
      have := Sums.add h2 m2
      rw [← e2] at this
      exact this
    have := ih (fun q hq => hf q (by simp [hq])) (.inl hM2) (fun q hq => hA q (by simp [hq])) k1 k2
    simpa using this

/-- **C104 (partial)**: the same for complex numbers, where each part of an element is a sum of `2 n` products. -/
theorem c104_complex_partial (s : Sparse CFl) (t : Tensor CFl) (wf : t.WF)
    (hs : ValidCsr s.rows s.cols s.rowStart s.column s.data) (ds : List Nat) (hd : t.dims = s.cols :: ds) :
    ∃ u : Tensor CFl, mmultST s t = .ok u ∧ u.WF ∧ u.dims = s.rows :: ds ∧
      ∀ i is, i < s.rows → InB is ds → ∀ row, IsRow s i row → ∀ g : Nat → CFl,
        (∀ p ∈ row, elem t.dims t.data (p.1 :: is) = some (g p.1) ∧ CFinite p.2 ∧ CFinite (g p.1)) →
        GemmFl.Spec.Small (2 * row.length) (row.map fun p => GemmFl.Spec.reAbs p.2 (g p.1)).sum →
        GemmFl.Spec.Small (2 * row.length) (row.map fun p => GemmFl.Spec.imAbs p.2 (g p.1)).sum →
        ∃ z, elem u.dims u.data (i :: is) = some z ∧
          GemmFl.Spec.Near (2 * row.length) (row.map fun p => GemmFl.Spec.reAbs p.2 (g p.1)).sum
            (row.map fun p => GemmFl.Spec.toC p.2 * GemmFl.Spec.toC (g p.1)).sum.re z.re ∧
          GemmFl.Spec.Near (2 * row.length) (row.map fun p => GemmFl.Spec.imAbs p.2 (g p.1)).sum
            (row.map fun p => GemmFl.Spec.toC p.2 * GemmFl.Spec.toC (g p.1)).sum.im z.im := by
  obtain ⟨u, e, wfu, hdu, hel⟩ := c104_order s t wf hs ds hd
  refine ⟨u, e, wfu, hdu, ?_⟩
  intro i is hi his row hrow g hg hM1 hM2
  obtain ⟨row', hrow', h⟩ := hel i is hi his
  cases hrow.unique hrow'
  refine ⟨_, h g (fun p hp => (hg p hp).1), ?_⟩
  obtain ⟨s1, s2⟩ := cdot_sums row g (fun p hp => (hg p hp).2) hM1 (by
    cases row with
    | nil => exact .inr rfl
    | cons p row => left; simp) (by
    intro p hp
    refine List.single_le_sum ?_ _ (List.mem_map_of_mem hp)
    intro x hx
    obtain ⟨q, -, rfl⟩ := List.mem_map.1 hx
    exact add_nonneg (abs_nonneg _) (abs_nonneg _)) (l := []) (acc := 0) Sums.zero Sums.zero
  rw [List.nil_append] at s1 s2
  have k : CComputes (formal (row.map fun p => (p.2, g p.1))) (row.foldl (fun x p => x + p.2 * g p.1) 0) :=
    ⟨_, rfl, fun _ => ⟨_, s1, s2, fun _ => rfl⟩⟩
  have := ccomputes_near k (by
    intro x hx
    obtain ⟨q, hq, rfl⟩ := List.mem_map.1 hx
    exact (hg q hq).2)
  simp only [List.length_map, List.map_map, Function.comp_def] at this
  exact this hM1 hM2

end Verif.Sparse
