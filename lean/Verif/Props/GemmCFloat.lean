import Verif.Model.GemmCFloat
import Verif.Spec.GemmCFloat
import Verif.Props.GemmFloat
import Mathlib.Data.Complex.BigOperators
/-
C102: contractions of tensors of complex doubles.
-/
namespace Verif.GemmFl

open Verif Fl Rounding Tensor

open Spec (toC Small Near reAbs imAbs)

/-! ### Parts of sums -/

theorem exact_rePairs (l : List (CFl × CFl)) : exact (rePairs l) = ((l.map fun p => toC p.1 * toC p.2).sum).re := by
  induction l with
  | nil => simp [exact, rePairs]
  | cons p l ih =>
    have e : rePairs (p :: l) = (p.1.re, p.2.re) :: (-p.1.im, p.2.im) :: rePairs l := rfl
    have e' : exact (rePairs (p :: l)) = p.1.re.val * p.2.re.val + ((-p.1.im).val * p.2.im.val + exact (rePairs l)) := by
      rw [e]; simp [exact]
    rw [e', ih, val_neg, List.map_cons, List.sum_cons, Complex.add_re, Complex.mul_re]
    simp only [toC]
    ring

theorem exact_imPairs (l : List (CFl × CFl)) : exact (imPairs l) = ((l.map fun p => toC p.1 * toC p.2).sum).im := by
  induction l with
  | nil => simp [exact, imPairs]
  | cons p l ih =>
    have e : imPairs (p :: l) = (p.1.re, p.2.im) :: (p.1.im, p.2.re) :: imPairs l := rfl
    have e' : exact (imPairs (p :: l)) = p.1.re.val * p.2.im.val + (p.1.im.val * p.2.re.val + exact (imPairs l)) := by
      rw [e]; simp [exact]
    rw [e', ih, List.map_cons, List.sum_cons, Complex.add_im, Complex.mul_im]
    simp only [toC]
    ring

theorem size_rePairs (l : List (CFl × CFl)) : size (rePairs l) = (l.map fun p => reAbs p.1 p.2).sum := by
  induction l with
  | nil => simp [size, rePairs]
  | cons p l ih =>
    have e : rePairs (p :: l) = (p.1.re, p.2.re) :: (-p.1.im, p.2.im) :: rePairs l := rfl
    have e' : size (rePairs (p :: l)) =
        |p.1.re.val * p.2.re.val| + (|(-p.1.im).val * p.2.im.val| + size (rePairs l)) := by rw [e]; simp [size]
    rw [e', ih, val_neg, neg_mul, abs_neg, List.map_cons, List.sum_cons, reAbs]
    ring

theorem size_imPairs (l : List (CFl × CFl)) : size (imPairs l) = (l.map fun p => imAbs p.1 p.2).sum := by
  induction l with
  | nil => simp [size, imPairs]
  | cons p l ih =>
    have e : imPairs (p :: l) = (p.1.re, p.2.im) :: (p.1.im, p.2.re) :: imPairs l := rfl
    have e' : size (imPairs (p :: l)) =
        |p.1.re.val * p.2.im.val| + (|p.1.im.val * p.2.re.val| + size (imPairs l)) := by rw [e]; simp [size]
    rw [e', ih, List.map_cons, List.sum_cons, imAbs]
    ring

theorem length_rePairs (l : List (CFl × CFl)) : (rePairs l).length = 2 * l.length := by
  induction l with
  | nil => rfl
  | cons p l ih =>
    have e : rePairs (p :: l) = (p.1.re, p.2.re) :: (-p.1.im, p.2.im) :: rePairs l := rfl
    rw [e]; simp [ih]; ring

theorem length_imPairs (l : List (CFl × CFl)) : (imPairs l).length = 2 * l.length := by
  induction l with
  | nil => rfl
  | cons p l ih =>
    have e : imPairs (p :: l) = (p.1.re, p.2.im) :: (p.1.im, p.2.re) :: imPairs l := rfl
    rw [e]; simp [ih]; ring

/-- Sums of functions of products are determined by formal sums. -/
theorem sum_formal {V R : Type} [CommSemiring R] (g : V → R) {l l' : List (V × V)} (e : formal l = formal l') :
    (l.map fun p => g p.1 * g p.2).sum = (l'.map fun p => g p.1 * g p.2).sum := by
  have := congrArg (MvPolynomial.eval₂ (Nat.castRingHom R) g) e
  rwa [formal_eval, formal_eval] at this

theorem sum_reAbs {l l' : List (CFl × CFl)} (e : formal l = formal l') :
    (l.map fun p => reAbs p.1 p.2).sum = (l'.map fun p => reAbs p.1 p.2).sum := by
  have h1 := sum_formal (fun z : CFl => |z.re.val|) e
  have h2 := sum_formal (fun z : CFl => |z.im.val|) e
  have k : ∀ l : List (CFl × CFl), (l.map fun p => reAbs p.1 p.2).sum =
      (l.map fun p => |p.1.re.val| * |p.2.re.val|).sum + (l.map fun p => |p.1.im.val| * |p.2.im.val|).sum := by
    intro l
    rw [← List.sum_map_add]
    simp only [reAbs, abs_mul]
  rw [k, k, h1, h2]

theorem sum_imAbs {l l' : List (CFl × CFl)} (e : formal l = formal l') :
    (l.map fun p => imAbs p.1 p.2).sum = (l'.map fun p => imAbs p.1 p.2).sum := by
  have h1 := sum_formal (fun z : CFl => |z.re.val|) e
  have h2 := sum_formal (fun z : CFl => |z.im.val|) e
  have h3 := sum_formal (fun z : CFl => |z.re.val| + |z.im.val|) e
  have k : ∀ l : List (CFl × CFl), (l.map fun p => (|p.1.re.val| + |p.1.im.val|) * (|p.2.re.val| + |p.2.im.val|)).sum =
      (l.map fun p => imAbs p.1 p.2).sum + ((l.map fun p => |p.1.re.val| * |p.2.re.val|).sum +
        (l.map fun p => |p.1.im.val| * |p.2.im.val|).sum) := by
    intro l
    rw [← List.sum_map_add, ← List.sum_map_add]
    congr 1
    refine List.map_congr_left fun p _ => ?_
    simp only [imAbs, abs_mul]
    ring
  rw [k, k, h1, h2] at h3
  exact add_right_cancel h3

theorem rePairs_finite {l : List (CFl × CFl)} (h : ∀ p ∈ l, CFinite p.1 ∧ CFinite p.2) :
    ∀ q ∈ rePairs l, q.1.Finite ∧ q.2.Finite := by
  intro q hq
  obtain ⟨p, hp, hq⟩ := List.mem_flatMap.1 hq
  obtain ⟨⟨h1, h2⟩, h3, h4⟩ := h p hp
  simp only [List.mem_cons, List.not_mem_nil, or_false] at hq
  rcases hq with rfl | rfl
  · exact ⟨h1, h3⟩
  · exact ⟨(negate_finite h2).1, h4⟩

theorem imPairs_finite {l : List (CFl × CFl)} (h : ∀ p ∈ l, CFinite p.1 ∧ CFinite p.2) :
    ∀ q ∈ imPairs l, q.1.Finite ∧ q.2.Finite := by
  intro q hq
  obtain ⟨p, hp, hq⟩ := List.mem_flatMap.1 hq
  obtain ⟨⟨h1, h2⟩, h3, h4⟩ := h p hp
  simp only [List.mem_cons, List.not_mem_nil, or_false] at hq
  rcases hq with rfl | rfl
  · exact ⟨h1, h4⟩
  · exact ⟨h2, h3⟩

section
variable [Rounding]

/-- The error of an element, whatever the order of the products is. -/
theorem ccomputes_near {l : List (CFl × CFl)} {s : CFl} (h : CComputes (formal l) s)
    (hf : ∀ p ∈ l, CFinite p.1 ∧ CFinite p.2) (h1 : Small (2 * l.length) (l.map fun p => reAbs p.1 p.2).sum)
    (h2 : Small (2 * l.length) (l.map fun p => imAbs p.1 p.2).sum) :
    Near (2 * l.length) (l.map fun p => reAbs p.1 p.2).sum (l.map fun p => toC p.1 * toC p.2).sum.re s.re ∧
    Near (2 * l.length) (l.map fun p => imAbs p.1 p.2).sum (l.map fun p => toC p.1 * toC p.2).sum.im s.im := by
  obtain ⟨l', e, hs⟩ := h
  have e1 := sum_formal toC e
  have e2 := sum_reAbs e
  have e3 := sum_imAbs e
  have e4 : l.length = l'.length := by
    have := sum_formal (fun _ : CFl => (1 : ℕ)) e
    simpa using this
  have hf' : ∀ p ∈ l', CFinite p.1 ∧ CFinite p.2 := by
    rintro ⟨x, y⟩ hp
    rcases pair_mem e.symm hp with hq | hq
    · exact hf _ hq
    · exact ⟨(hf _ hq).2, (hf _ hq).1⟩
  obtain ⟨z, z1, z2, z3⟩ := hs hf'
  rw [e2, e4] at h1
  rw [e3, e4] at h2
  rw [e1, e2, e3, e4]
  obtain ⟨f1, d1⟩ := sums_err z1 (rePairs_finite hf') (by rw [length_rePairs, size_rePairs]; exact h1)
  obtain ⟨f2, d2⟩ := sums_err z2 (imPairs_finite hf') (by rw [length_imPairs, size_imPairs]; exact h2)
  rw [z3 ⟨f1, f2⟩]
  rw [length_rePairs, size_rePairs, exact_rePairs] at d1
  rw [length_imPairs, size_imPairs, exact_imPairs] at d2
  exact ⟨⟨f1, d1⟩, f2, d2⟩

theorem ccomputes_pairs {L : Nat} {f g : Nat → CFl} {s : CFl} (h : CComputes (formal (pairs f g L)) s)
    (hf : ∀ l < L, CFinite (f l) ∧ CFinite (g l)) (h1 : Small (2 * L) (∑ l ∈ Finset.range L, reAbs (f l) (g l)))
    (h2 : Small (2 * L) (∑ l ∈ Finset.range L, imAbs (f l) (g l))) :
    Near (2 * L) (∑ l ∈ Finset.range L, reAbs (f l) (g l)) (∑ l ∈ Finset.range L, toC (f l) * toC (g l)).re s.re ∧
    Near (2 * L) (∑ l ∈ Finset.range L, imAbs (f l) (g l)) (∑ l ∈ Finset.range L, toC (f l) * toC (g l)).im s.im := by
  have k : ∀ {R : Type} [AddCommMonoid R] (φ : CFl → CFl → R),
      ((pairs f g L).map fun p => φ p.1 p.2).sum = ∑ l ∈ Finset.range L, φ (f l) (g l) := by
    intro R _ φ
    rw [pairs, List.map_map, ← sum_range]
    rfl
  have := ccomputes_near h (by
    intro x hx
    obtain ⟨l, hl, rfl⟩ := List.mem_map.1 hx
    exact hf l (List.mem_range.1 hl))
  rw [length_pairs, k reAbs, k imAbs, k fun x y => toC x * toC y] at this
  exact this h1 h2

/-- C102: fold of complex doubles. The real and the imaginary part of each element are finite, and their errors are
bounded by 2 n roundings (n is the length of the contracted index) of the sum of the absolute values of the products
in them, and 2 n underflows, if these sums are far enough from overflow. -/
theorem c102_fold_partial (a b : Tensor CFl) (wfa : a.WF) (wfb : b.WF) (ndx1 ndx2 : Int) (P Q R S : List Nat)
    (L L' : Nat) (hda : a.dims = P ++ L :: Q) (hdb : b.dims = R ++ L' :: S)
    (h1 : Verif.Spec.norm a.dims.length ndx1 = some P.length) (h2 : Verif.Spec.norm b.dims.length ndx2 = some R.length)
    (res : Res (Tensor CFl)) (hr : CFold a ndx1 b ndx2 res) :
    (L = L' → L ≠ 0 → ∃ c : Tensor CFl, res = .ok c ∧ c.WF ∧ c.dims = Verif.Spec.outDims (P ++ Q ++ (R ++ S)) ∧
      ∀ p q r s, Verif.Spec.InB p P → Verif.Spec.InB q Q → Verif.Spec.InB r R → Verif.Spec.InB s S → ∀ f g : Nat → CFl,
        (∀ l < L, Verif.Spec.elem a.dims a.data (p ++ l :: q) = some (f l)) →
        (∀ l < L, Verif.Spec.elem b.dims b.data (r ++ l :: s) = some (g l)) →
        (∀ l < L, CFinite (f l) ∧ CFinite (g l)) →
        Small (2 * L) (∑ l ∈ Finset.range L, reAbs (f l) (g l)) →
        Small (2 * L) (∑ l ∈ Finset.range L, imAbs (f l) (g l)) →
        ∃ z, Verif.Spec.elem c.dims c.data (Verif.Spec.outIdx (p ++ q ++ (r ++ s))) = some z ∧
          Near (2 * L) (∑ l ∈ Finset.range L, reAbs (f l) (g l)) (∑ l ∈ Finset.range L, toC (f l) * toC (g l)).re z.re ∧
          Near (2 * L) (∑ l ∈ Finset.range L, imAbs (f l) (g l)) (∑ l ∈ Finset.range L, toC (f l) * toC (g l)).im z.im) ∧
    (L ≠ L' ∨ L = 0 → res = .abort) := by
  obtain ⟨k1, k2⟩ := c19_fold (vars a) (vars b) (vars_wf wfa) (vars_wf wfb) ndx1 ndx2 P Q R S L L' hda hdb h1 h2
  unfold CFold at hr
  constructor
  · intro e1 e2
    obtain ⟨t, ht, wft, hdt, hel⟩ := k1 e1 e2
    rw [ht] at hr
    cases res with
    | abort => exact hr.elim
    | ub => exact hr.elim
    | ok c =>
      obtain ⟨hd, hc⟩ := hr
      refine ⟨c, rfl, result_wf hd hc wft, hd.trans hdt, ?_⟩
      intro p q r s hp hq hr hs f g hf hg hfin hM hM'
      obtain ⟨z, hz, hcz⟩ := result_elem hd hc (hel p q r s hp hq hr hs _ _ (fun l hl => vars_elem (hf l hl))
        (fun l hl => vars_elem (hg l hl)))
      rw [formal_pairs] at hcz
      exact ⟨z, hz, ccomputes_pairs hcz hfin hM hM'⟩
  · intro h
    rw [k2 h] at hr
    cases res with
    | abort => rfl
    | ub => exact hr.elim
    | ok c => exact hr.elim

omit [Rounding] in
theorem neg_neg_fl (x : Fl) : - -x = x := by
  show negate (negate x) = x
  cases x with
  | fin y =>
    by_cases h : y = 0
    · subst h; simp [negate]
    · simp [negate, h]
  | _ => simp [negate]

omit [Rounding] in
theorem conj_conj (z : CFl) : z.conj.conj = z := by
  unfold CFl.conj
  rw [neg_neg_fl]

omit [Rounding] in
theorem conjF_conjF (x : Formal CFl) : conjF (conjF x) = x := by
  show MvPolynomial.rename CFl.conj (MvPolynomial.rename CFl.conj x) = x
  rw [MvPolynomial.rename_rename, show CFl.conj ∘ CFl.conj = id from funext conj_conj, MvPolynomial.rename_id]
  rfl

/-- foldc has the results which fold has for the conjugate of the first tensor. -/
theorem cfoldc_iff (a b : Tensor CFl) (wfa : a.WF) (wfb : b.WF) (ndx1 ndx2 : Int) (res : Res (Tensor CFl)) :
    CFoldc a ndx1 b ndx2 res ↔ CFold ⟨a.dims, a.data.map CFl.conj⟩ ndx1 b ndx2 res := by
  unfold CFoldc CFold
  rw [c20_foldc conjF conjF_conjF (vars a) (vars b) (vars_wf wfa) (vars_wf wfb) ndx1 ndx2, unop_ok _ _ (vars_wf wfa),
    Res.ok_bind]
  have e : (⟨(vars a).dims, (vars a).data.map conjF⟩ : Tensor (Formal CFl)) = vars ⟨a.dims, a.data.map CFl.conj⟩ := by
    unfold vars
    simp only [List.map_map]
    congr 1
    refine List.map_congr_left fun z _ => ?_
    exact MvPolynomial.rename_X _ _
  rw [e]

/-- C102: foldc of complex doubles. -/
theorem c102_foldc_partial (a b : Tensor CFl) (wfa : a.WF) (wfb : b.WF) (ndx1 ndx2 : Int) (P Q R S : List Nat)
    (L L' : Nat) (hda : a.dims = P ++ L :: Q) (hdb : b.dims = R ++ L' :: S)
    (h1 : Verif.Spec.norm a.dims.length ndx1 = some P.length) (h2 : Verif.Spec.norm b.dims.length ndx2 = some R.length)
    (res : Res (Tensor CFl)) (hr : CFoldc a ndx1 b ndx2 res) :
    (L = L' → L ≠ 0 → ∃ c : Tensor CFl, res = .ok c ∧ c.WF ∧ c.dims = Verif.Spec.outDims (P ++ Q ++ (R ++ S)) ∧
      ∀ p q r s, Verif.Spec.InB p P → Verif.Spec.InB q Q → Verif.Spec.InB r R → Verif.Spec.InB s S → ∀ f g : Nat → CFl,
        (∀ l < L, Verif.Spec.elem a.dims a.data (p ++ l :: q) = some (f l)) →
        (∀ l < L, Verif.Spec.elem b.dims b.data (r ++ l :: s) = some (g l)) →
        (∀ l < L, CFinite (f l) ∧ CFinite (g l)) →
        Small (2 * L) (∑ l ∈ Finset.range L, reAbs (f l) (g l)) →
        Small (2 * L) (∑ l ∈ Finset.range L, imAbs (f l) (g l)) →
        ∃ z, Verif.Spec.elem c.dims c.data (Verif.Spec.outIdx (p ++ q ++ (r ++ s))) = some z ∧
          Near (2 * L) (∑ l ∈ Finset.range L, reAbs (f l) (g l))
            (∑ l ∈ Finset.range L, starRingEnd ℂ (toC (f l)) * toC (g l)).re z.re ∧
          Near (2 * L) (∑ l ∈ Finset.range L, imAbs (f l) (g l))
            (∑ l ∈ Finset.range L, starRingEnd ℂ (toC (f l)) * toC (g l)).im z.im) ∧
    (L ≠ L' ∨ L = 0 → res = .abort) := by
  rw [cfoldc_iff a b wfa wfb] at hr
  obtain ⟨k1, k2⟩ := c102_fold_partial ⟨a.dims, a.data.map CFl.conj⟩ b
    (by unfold Tensor.WF at *; simpa using wfa) wfb ndx1 ndx2 P Q R S L L' hda hdb h1 h2 res hr
  refine ⟨fun e1 e2 => ?_, k2⟩
  obtain ⟨c, hc, wf, hd, hel⟩ := k1 e1 e2
  refine ⟨c, hc, wf, hd, ?_⟩
  intro p q r s hp hq hr hs f g hf hg hfin hM hM'
  have r1 : ∀ x y : CFl, reAbs x.conj y = reAbs x y := by
    intro x y
    simp [reAbs, CFl.conj, val_neg]
  have r2 : ∀ x y : CFl, imAbs x.conj y = imAbs x y := by
    intro x y
    simp [imAbs, CFl.conj, val_neg]
  have r3 : ∀ x : CFl, toC x.conj = starRingEnd ℂ (toC x) := by
    intro x
    simp only [toC, CFl.conj, val_neg]
    rfl
  have := hel p q r s hp hq hr hs (fun l => (f l).conj) g (by
      intro l hl
      have := hf l hl
      unfold Verif.Spec.elem at *
      split at this
      · rename_i hi
        show (if Verif.Spec.InB (p ++ l :: q) a.dims then _ else none) = _
        rw [if_pos hi, List.getElem?_map, this]
        rfl
      · cases this) hg (fun l hl => ⟨⟨(hfin l hl).1.1, (negate_finite (hfin l hl).1.2).1⟩, (hfin l hl).2⟩)
  simp only [r1, r2, r3] at this
  exact this hM hM'

/-- C102: foldin of complex doubles. -/
theorem c102_foldin_partial (a b : Tensor CFl) (wfa : a.WF) (wfb : b.WF) (ndx1 ndx2 : Int) (P Q R S : List Nat)
    (L L' : Nat) (hda : a.dims = P ++ L :: Q) (hdb : b.dims = R ++ L' :: S)
    (h1 : Verif.Spec.norm a.dims.length ndx1 = some P.length) (h2 : Verif.Spec.norm b.dims.length ndx2 = some R.length)
    (hne : ¬ (a.dims.length = 1 ∧ b.dims.length = 1)) (res : Res (Tensor CFl)) (hr : CFoldin a ndx1 b ndx2 res) :
    (L = L' → ∃ c : Tensor CFl, res = .ok c ∧ c.WF ∧ c.dims = R ++ (P ++ (Q ++ S)) ∧
      ∀ p q r s, Verif.Spec.InB p P → Verif.Spec.InB q Q → Verif.Spec.InB r R → Verif.Spec.InB s S → ∀ f g : Nat → CFl,
        (∀ l < L, Verif.Spec.elem a.dims a.data (p ++ l :: q) = some (f l)) →
        (∀ l < L, Verif.Spec.elem b.dims b.data (r ++ l :: s) = some (g l)) →
        (∀ l < L, CFinite (f l) ∧ CFinite (g l)) →
        Small (2 * L) (∑ l ∈ Finset.range L, reAbs (f l) (g l)) →
        Small (2 * L) (∑ l ∈ Finset.range L, imAbs (f l) (g l)) →
        ∃ z, Verif.Spec.elem c.dims c.data (r ++ (p ++ (q ++ s))) = some z ∧
          Near (2 * L) (∑ l ∈ Finset.range L, reAbs (f l) (g l)) (∑ l ∈ Finset.range L, toC (f l) * toC (g l)).re z.re ∧
          Near (2 * L) (∑ l ∈ Finset.range L, imAbs (f l) (g l)) (∑ l ∈ Finset.range L, toC (f l) * toC (g l)).im z.im) ∧
    (L ≠ L' → res = .abort) := by
  obtain ⟨k1, k2⟩ := c21_foldin_partial (vars a) (vars b) (vars_wf wfa) (vars_wf wfb) ndx1 ndx2 P Q R S L L' hda hdb
    h1 h2 hne
  unfold CFoldin at hr
  constructor
  · intro e1
    obtain ⟨t, ht, wft, hdt, hel⟩ := k1 e1
    rw [ht] at hr
    cases res with
    | abort => exact hr.elim
    | ub => exact hr.elim
    | ok c =>
      obtain ⟨hd, hc⟩ := hr
      refine ⟨c, rfl, result_wf hd hc wft, hd.trans hdt, ?_⟩
      intro p q r s hp hq hr hs f g hf hg hfin hM hM'
      obtain ⟨z, hz, hcz⟩ := result_elem hd hc (hel p q r s hp hq hr hs _ _ (fun l hl => vars_elem (hf l hl))
        (fun l hl => vars_elem (hg l hl)))
      rw [formal_pairs] at hcz
      exact ⟨z, hz, ccomputes_pairs hcz hfin hM hM'⟩
  · intro h
    rw [k2 h] at hr
    cases res with
    | abort => rfl
    | ub => exact hr.elim
    | ok c => exact hr.elim

/-- C102: the product of two matrices of complex doubles. -/
theorem c102_mmult_partial (a b : Tensor CFl) (wfa : a.WF) (wfb : b.WF) (m n p : Nat) (ha : a.dims = [m, n])
    (hb : b.dims = [n, p]) (hn : n ≠ 0) (res : Res (Tensor CFl)) (hr : CMmult a b res) :
    ∃ c : Tensor CFl, res = .ok c ∧ c.WF ∧ c.dims = [m, p] ∧
      ∀ i j, i < m → j < p → ∀ f g : Nat → CFl,
        (∀ l < n, Verif.Spec.elem a.dims a.data [i, l] = some (f l)) →
        (∀ l < n, Verif.Spec.elem b.dims b.data [l, j] = some (g l)) →
        (∀ l < n, CFinite (f l) ∧ CFinite (g l)) →
        Small (2 * n) (∑ l ∈ Finset.range n, reAbs (f l) (g l)) →
        Small (2 * n) (∑ l ∈ Finset.range n, imAbs (f l) (g l)) →
        ∃ z, Verif.Spec.elem c.dims c.data [i, j] = some z ∧
          Near (2 * n) (∑ l ∈ Finset.range n, reAbs (f l) (g l)) (∑ l ∈ Finset.range n, toC (f l) * toC (g l)).re z.re ∧
          Near (2 * n) (∑ l ∈ Finset.range n, imAbs (f l) (g l)) (∑ l ∈ Finset.range n, toC (f l) * toC (g l)).im z.im := by
  obtain ⟨c, e, wf, hd, hel⟩ := (c102_fold_partial a b wfa wfb (-1) 0 [m] [] [] [p] n n ha hb
    (by rw [ha]; simp [Verif.Spec.norm]) (by rw [hb]; simp [Verif.Spec.norm]) res hr).1 rfl hn
  refine ⟨c, e, wf, hd, ?_⟩
  intro i j hi hj f g hf hg hfin hM hM'
  have := hel [i] [] [] [j] (by simp [hi]) trivial trivial (by simp [hj]) f g hf hg hfin hM hM'
  simpa [Verif.Spec.outIdx] using this

/-- There is a result for all tensors and positions. -/
theorem c102_exists (a b : Tensor CFl) (wfa : a.WF) (wfb : b.WF) (ndx1 ndx2 : Int) : ∃ r, CFold a ndx1 b ndx2 r := by
  have : Inhabited CFl := ⟨0⟩
  refine exists_result (fun l => ?_) a b wfa wfb ndx1 ndx2
  obtain ⟨x, hx⟩ := exists_sums (rePairs l)
  obtain ⟨y, hy⟩ := exists_sums (imPairs l)
  exact ⟨⟨x, y⟩, l, rfl, fun _ => ⟨⟨x, y⟩, hx, hy, fun _ => rfl⟩⟩

/-- The conditions can be met: the square of 1 + 2 i is -3 + 4 i, with the errors of the theorems. -/
example : ∃ c : Tensor CFl, CFold ⟨[1], [⟨fin 1, fin 2⟩]⟩ 0 ⟨[1], [⟨fin 1, fin 2⟩]⟩ 0 (.ok c) ∧ c.dims = [1] ∧
    ∃ z, Verif.Spec.elem c.dims c.data [0] = some z ∧ Near 2 5 (-3) z.re ∧ Near 2 4 4 z.im := by
  have wf : (⟨[1], [⟨fin 1, fin 2⟩]⟩ : Tensor CFl).WF := rfl
  have d1 : IsDouble 1 := by simpa using isDouble_int (n := 1) (by norm_num)
  have d2 : IsDouble 2 := by simpa using isDouble_int (n := 2) (by norm_num)
  obtain ⟨r, hr⟩ := c102_exists ⟨[1], [⟨fin 1, fin 2⟩]⟩ ⟨[1], [⟨fin 1, fin 2⟩]⟩ wf wf 0 0
  obtain ⟨c, rfl, -, hd, hel⟩ := (c102_fold_partial _ _ wf wf 0 0 [] [] [] [] 1 1 rfl rfl rfl rfl r hr).1 rfl one_ne_zero
  refine ⟨c, hr, hd, ?_⟩
  have hs : ∀ A : ℝ, 0 ≤ A → A ≤ 5 → Small 2 A := by
    intro A hA hA'
    unfold Spec.Small
    have e1 : (2 : ℝ) ^ (-53 : ℤ) ≤ 1 := zpow_le_one_of_nonpos₀ (by norm_num) (by norm_num)
    have e2 : (2 : ℝ) ^ (-1075 : ℤ) ≤ 1 := zpow_le_one_of_nonpos₀ (by norm_num) (by norm_num)
    have e3 : (0 : ℝ) < 2 ^ (-53 : ℤ) := by positivity
    have e4 : (0 : ℝ) < 2 ^ (-1075 : ℤ) := by positivity
    have e5 : (2 : ℝ) ^ 10 ≤ 2 ^ 1024 := pow_le_pow_right₀ (by norm_num) (by norm_num)
    generalize (2 : ℝ) ^ 1024 = M at *
    generalize (2 : ℝ) ^ (-53 : ℤ) = u at *
    generalize (2 : ℝ) ^ (-1075 : ℤ) = v at *
    have e6 : (1 + u) ^ 2 ≤ 4 := by nlinarith
    have e7 : (1 + u) ^ 2 * A ≤ 4 * 5 := mul_le_mul e6 hA' hA (by norm_num)
    have e8 : (1 + u) * v ≤ 2 * 1 := mul_le_mul (by linarith) e2 e4.le (by norm_num)
    norm_num at e5 ⊢
    linarith
  have := hel [] [] [] [] trivial trivial trivial trivial (fun _ => ⟨fin 1, fin 2⟩) (fun _ => ⟨fin 1, fin 2⟩)
    (by intro l hl; obtain rfl : l = 0 := by omega
        rfl) (by intro l hl; obtain rfl : l = 0 := by omega
                 rfl) (fun _ _ => ⟨⟨d1, d2⟩, d1, d2⟩)
  have v1 : reAbs ⟨fin 1, fin 2⟩ ⟨fin 1, fin 2⟩ = 5 := by simp [reAbs, val]; norm_num
  have v2 : imAbs ⟨fin 1, fin 2⟩ ⟨fin 1, fin 2⟩ = 4 := by simp [imAbs, val]; norm_num
  have v3 : (toC ⟨fin 1, fin 2⟩ * toC ⟨fin 1, fin 2⟩).re = -3 := by simp [toC, val]; norm_num
  have v4 : (toC ⟨fin 1, fin 2⟩ * toC ⟨fin 1, fin 2⟩).im = 4 := by simp [toC, val]; norm_num
  simp only [Finset.range_one, Finset.sum_singleton, v1, v2, v3, v4] at this
  exact this (hs 5 (by norm_num) (by norm_num)) (hs 4 (by norm_num) (by norm_num))

theorem cfold_vectors {L : Nat} (hL : L ≠ 0) (f g : Nat → CFl) {s : CFl} (h : CSums (pairs f g L) s) :
    CFold ⟨[L], (List.range L).map f⟩ 0 ⟨[L], (List.range L).map g⟩ 0 (.ok ⟨[1], [s]⟩) :=
  result_vectors hL f g ⟨_, rfl, h⟩

/-- Products which overflow. -/
theorem mul_overflow {B : ℝ} (hB : 0 < B) (h : 2 ^ 1024 ≤ B * B) :
    fin B * fin B = pinf ∧ fin (-B) * fin B = ninf := by
  have ht : IsTarget (2 ^ 1024) := .inr (abs_of_pos (by positivity))
  have M0 : (0 : ℝ) < 2 ^ 1024 := by positivity
  have hp : 2 ^ 1024 ≤ rnd (B * B) := le_rnd ht h
  have hm : rnd (-B * B) ≤ -2 ^ 1024 := rnd_le ht.neg (by linarith)
  have hne : ¬ (B * B = 0) := (mul_pos hB hB).ne'
  have hne' : ¬ (-B * B = 0) := by rw [neg_mul, neg_eq_zero]; exact hne
  have e : (2 : ℝ) ^ 1024 ≤ rnd (B * B) → Fl.round (B * B) = pinf := fun h => by rw [Fl.round, if_pos h]
  have e' : rnd (-B * B) ≤ -2 ^ 1024 → Fl.round (-B * B) = ninf := fun h => by
    have M0 : (0 : ℝ) < 2 ^ 1024 := by positivity
    rw [Fl.round, if_neg (lt_of_le_of_lt h (lt_trans (neg_neg_of_pos M0) M0)).not_ge, if_pos h]
  constructor
  · show mul (fin B) (fin B) = pinf
    rw [mul, if_neg (by simp), if_neg (by simp [isInf])]
    rw [if_neg (by exact hne)]
    exact e hp
  · show mul (fin (-B)) (fin B) = ninf
    rw [mul, if_neg (by simp), if_neg (by simp [isInf])]
    rw [if_neg (by exact hne')]
    exact e' hm

/-- C102 is false with overflow, even if the real part of the exact result is far from it: the square of B + B i for
large B, whose real part is zero, may have the real part NaN. -/
theorem c102_negation_overflow (B : ℝ) (dB : IsDouble B) (B0 : 0 < B) (hlt : 2 ^ 1024 ≤ B * B) :
    CFinite ⟨fin B, fin B⟩ ∧ (toC ⟨fin B, fin B⟩ * toC ⟨fin B, fin B⟩).re = 0 ∧
      CFold ⟨[1], [⟨fin B, fin B⟩]⟩ 0 ⟨[1], [⟨fin B, fin B⟩]⟩ 0 (.ok ⟨[1], [⟨nan, pinf⟩]⟩) := by
  obtain ⟨hpp, hmm⟩ := mul_overflow B0 hlt
  refine ⟨⟨dB, dB⟩, by simp [toC, val], ?_⟩
  have hneg : -(fin B) = fin (-B) := by
    show negate _ = _
    rw [negate, if_neg B0.ne']
  refine cfold_vectors (L := 1) (by decide) (fun _ => ⟨fin B, fin B⟩)
    (fun _ => ⟨fin B, fin B⟩) fun _ => ⟨⟨nan, pinf⟩, ?_, ?_, fun _ => rfl⟩
  · have := (Sums.prod (fin B) (fin B)).add (Sums.prod (fin (-B)) (fin B))
    rw [hpp, hmm, ← hneg] at this
    exact this
  · have := (Sums.prod (fin B) (fin B)).add (Sums.prod (fin B) (fin B))
    rw [hpp] at this
    exact this

end

/-- There are such numbers. -/
example : IsDouble (2 ^ 600) ∧ (0 : ℝ) < 2 ^ 600 ∧ (2 : ℝ) ^ 1024 ≤ 2 ^ 600 * 2 ^ 600 :=
  ⟨⟨1, 600, by norm_num, by norm_num, by norm_num, by rw [Int.cast_one, one_mul]; exact (zpow_natCast 2 600).symm⟩,
    by positivity, by rw [← pow_add]; exact pow_le_pow_right₀ (by norm_num) (by norm_num)⟩

end Verif.GemmFl
