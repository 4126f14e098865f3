import Verif.Lemmas.GemmFloat
import Verif.Props.Fold
import Mathlib.Analysis.SpecialFunctions.Exp
import Mathlib.Analysis.Complex.Exponential
/-
C95: contractions of tensors of doubles.
-/
namespace Verif.GemmFl

open Verif Fl Rounding Spec Tensor

/-! ### Formal sums -/

theorem formal_eval {V R : Type} [CommSemiring R] (g : V → R) (l : List (V × V)) :
    MvPolynomial.eval₂ (Nat.castRingHom R) g (formal l) = (l.map fun p => g p.1 * g p.2).sum := by
  show MvPolynomial.eval₂Hom (Nat.castRingHom R) g (formal l) = _
  rw [formal, map_list_sum, List.map_map]
  congr 1
  refine List.map_congr_left fun p _ => ?_
  simp

theorem single_pair {V : Type} {x y a b : V}
    (h : Finsupp.single x 1 + Finsupp.single y 1 = (Finsupp.single a 1 + Finsupp.single b 1 : V →₀ ℕ)) :
    (x = a ∧ y = b) ∨ (x = b ∧ y = a) := by
  have h' := congrArg Finsupp.toMultiset h
  simp only [map_add, Finsupp.toMultiset_single, one_smul] at h'
  have h'' : x ::ₘ ({y} : Multiset V) = a ::ₘ {b} := h'
  rw [Multiset.cons_eq_cons] at h''
  rcases h'' with ⟨rfl, h2⟩ | ⟨-, c, h2, h3⟩
  · exact .inl ⟨rfl, Multiset.singleton_inj.1 h2⟩
  · have c0 : c = 0 := by
      have := congrArg Multiset.card h2
      simp at this
      exact this
    subst c0
    exact .inr ⟨(Multiset.singleton_inj.1 h3).symm, Multiset.singleton_inj.1 h2⟩

/-- The pairs of a formal sum are determined, up to their order. -/
theorem pair_mem {V : Type} {l l0 : List (V × V)} (h : formal l0 = formal l) {x y : V} (hm : (x, y) ∈ l0) :
    (x, y) ∈ l ∨ (y, x) ∈ l := by
  classical
  set d : V →₀ ℕ := Finsupp.single x 1 + Finsupp.single y 1 with hd
  have hc : ∀ l : List (V × V), MvPolynomial.coeff d (formal l) =
      (l.map fun p => if Finsupp.single p.1 1 + Finsupp.single p.2 1 = d then 1 else 0).sum := by
    intro l
    induction l with
    | nil => simp [formal]
    | cons p l ih =>
      rw [show formal (p :: l) = MvPolynomial.X p.1 * MvPolynomial.X p.2 + formal l by simp [formal],
        MvPolynomial.coeff_add, ih, List.map_cons, List.sum_cons]
      congr 1
      rw [MvPolynomial.X, MvPolynomial.X, MvPolynomial.monomial_mul, MvPolynomial.coeff_monomial, one_mul]
  have h0 : MvPolynomial.coeff d (formal l0) ≠ 0 := by
    rw [hc]
    intro hz
    have := List.sum_eq_zero_iff.1 hz 1 (List.mem_map.2 ⟨(x, y), hm, by simp [hd]⟩)
    omega
  rw [h, hc] at h0
  have : ∃ p ∈ l, Finsupp.single p.1 1 + Finsupp.single p.2 1 = d := by
    by_contra hn
    push Not at hn
    apply h0
    rw [List.sum_eq_zero_iff]
    intro z hz
    obtain ⟨p, hp, rfl⟩ := List.mem_map.1 hz
    rw [if_neg (hn p hp)]
  obtain ⟨⟨a, b⟩, hp, hpe⟩ := this
  rcases single_pair hpe with ⟨rfl, rfl⟩ | ⟨rfl, rfl⟩
  · exact .inl hp
  · exact .inr hp

/-- The pairs of a sum. -/
def pairs {V : Type} (f g : Nat → V) (L : Nat) : List (V × V) := (List.range L).map fun l => (f l, g l)

theorem sum_range {R : Type} [AddCommMonoid R] (g : Nat → R) (L : Nat) :
    ((List.range L).map g).sum = ∑ l ∈ Finset.range L, g l := by
  induction L with
  | zero => simp
  | succ n ih => rw [List.range_succ, List.map_append, List.sum_append, ih, Finset.sum_range_succ]; simp

theorem formal_pairs {V : Type} (f g : Nat → V) (L : Nat) :
    ∑ l ∈ Finset.range L, (MvPolynomial.X (f l) * MvPolynomial.X (g l) : Formal V) = formal (pairs f g L) := by
  rw [formal, pairs, List.map_map, ← sum_range]
  rfl

theorem exact_pairs (f g : Nat → Fl) (L : Nat) :
    exact (pairs f g L) = ∑ l ∈ Finset.range L, (f l).val * (g l).val := by
  rw [exact, pairs, List.map_map, ← sum_range]
  rfl

theorem size_pairs (f g : Nat → Fl) (L : Nat) :
    size (pairs f g L) = ∑ l ∈ Finset.range L, |(f l).val * (g l).val| := by
  rw [size, pairs, List.map_map, ← sum_range]
  rfl

theorem length_pairs {V : Type} (f g : Nat → V) (L : Nat) : (pairs f g L).length = L := by simp [pairs]

variable [Rounding]

/-- The error of an element, whatever the order of the products is. -/
theorem computes_err {l : List (Fl × Fl)} {s : Fl} (h : Computes (formal l) s)
    (hf : ∀ p ∈ l, p.1.Finite ∧ p.2.Finite) (hM : maxSum l.length (size l) < 2 ^ 1024) :
    s.Finite ∧ |s.val - exact l| ≤ maxErr l.length (size l) := by
  obtain ⟨l', e, hs⟩ := h
  have e1 : exact l = exact l' := by
    have := congrArg (MvPolynomial.eval₂ (Nat.castRingHom ℝ) val) e
    rwa [formal_eval, formal_eval] at this
  have e2 : size l = size l' := by
    have := congrArg (MvPolynomial.eval₂ (Nat.castRingHom ℝ) fun x => |val x|) e
    rw [formal_eval, formal_eval] at this
    simpa only [size, abs_mul] using this
  have e3 : l.length = l'.length := by
    have := congrArg (MvPolynomial.eval₂ (Nat.castRingHom ℕ) fun _ => 1) e
    rw [formal_eval, formal_eval] at this
    simpa using this
  rw [e1, e2, e3]
  rw [e2, e3] at hM
  refine sums_err hs ?_ hM
  rintro ⟨x, y⟩ hp
  rcases pair_mem e.symm hp with hq | hq
  · exact hf _ hq
  · exact ⟨(hf _ hq).2, (hf _ hq).1⟩

omit [Rounding] in
theorem neg_nonzero {x : Fl} (h : ¬ IsZero x) : ¬ IsZero (-x) := by
  intro h'
  have e : (-x) = negate x := rfl
  rw [e] at h'
  cases x with
  | fin y =>
    rw [negate] at h'
    split at h'
    · rename_i hy
      rw [hy] at h
      exact h (.inr rfl)
    · rename_i hy
      rcases h' with h' | h'
      · cases h'
      · exact hy (neg_eq_zero.1 (Fl.fin.inj h'))
  | nzero => exact h (.inl rfl)
  | _ => rcases h' with h' | h' <;> cases h'

/-- Not a number is passed on to the sum, unless it is multiplied with zero. -/
theorem sums_nan {l : List (Fl × Fl)} {s : Fl} (h : Sums l s) {x : Fl} (hx : ¬ IsZero x)
    (hm : (nan, x) ∈ l ∨ (x, nan) ∈ l) : s = nan := by
  have n1 : ∀ y : Fl, nan + y = nan := fun y => rfl
  have n2 : ∀ y : Fl, y + nan = nan := fun y => by cases y <;> rfl
  have n3 : ∀ y : Fl, nan * y = nan := fun y => by show mul nan y = nan; rw [mul, if_pos (.inl rfl)]
  have n4 : ∀ y : Fl, y * nan = nan := fun y => by show mul y nan = nan; rw [mul, if_pos (.inr rfl)]
  have n5 : ∀ y z : Fl, GemmFl.fma nan y z = nan := fun y z => by rw [GemmFl.fma, if_pos (.inl rfl), n3, n1]
  have n6 : ∀ y z : Fl, GemmFl.fma y nan z = nan := fun y z => by
    rw [GemmFl.fma, if_pos (.inr (.inl rfl)), n4, n1]
  have n7 : ∀ y z : Fl, GemmFl.fma y z nan = nan := fun y z => by
    rw [GemmFl.fma, if_pos (.inr (.inr (.inl rfl))), n2]
  have n0 : ¬ IsZero nan := by rintro (h | h) <;> cases h
  induction h generalizing x with
  | zero => simp at hm
  | prod a b =>
    simp only [List.mem_singleton, Prod.mk.injEq] at hm
    rcases hm with ⟨rfl, rfl⟩ | ⟨rfl, rfl⟩
    · exact n3 _
    · exact n4 _
  | add h1 h2 i1 i2 =>
    simp only [List.mem_append] at hm
    rcases hm with (hm | hm) | (hm | hm)
    · rw [i1 hx (.inl hm), n1]
    · rw [i2 hx (.inl hm), n2]
    · rw [i1 hx (.inr hm), n1]
    · rw [i2 hx (.inr hm), n2]
  | fma a b h1 i1 =>
    simp only [List.mem_cons, Prod.mk.injEq] at hm
    rcases hm with (⟨rfl, rfl⟩ | hm) | (⟨rfl, rfl⟩ | hm)
    · exact n5 _ _
    · rw [i1 hx (.inl hm), n7]
    · exact n6 _ _
    · rw [i1 hx (.inr hm), n7]
  | skip a b h0 h1 i1 =>
    simp only [List.mem_cons, Prod.mk.injEq] at hm
    rcases hm with (⟨rfl, rfl⟩ | hm) | (⟨rfl, rfl⟩ | hm)
    · exact (h0.elim n0 hx).elim
    · exact i1 hx (.inl hm)
    · exact (h0.elim hx n0).elim
    · exact i1 hx (.inr hm)
  | perm p h1 i1 => exact i1 hx (hm.imp p.mem_iff.2 p.mem_iff.2)
  | neg h1 i1 =>
    have := hm.elim (fun hm => i1 hx (.inl (List.mem_map.2 ⟨_, hm, rfl⟩)))
      (fun hm => i1 (neg_nonzero hx) (.inr (List.mem_map.2 ⟨_, hm, rfl⟩)))
    rw [this]
    rfl
  | @sign l s a b h1 i1 =>
    simp only [List.mem_cons, Prod.mk.injEq] at hm
    rcases hm with (⟨rfl, rfl⟩ | hm) | (⟨rfl, rfl⟩ | hm)
    · exact i1 (neg_nonzero hx) (.inl (List.mem_cons_self ..))
    · exact i1 hx (.inl (List.mem_cons_of_mem _ hm))
    · exact i1 (neg_nonzero hx) (.inr (List.mem_cons_self ..))
    · exact i1 hx (.inr (List.mem_cons_of_mem _ hm))
  | flip h1 h0 h0' i1 =>
    rw [i1 hx hm] at h0
    exact (n0 h0).elim

theorem computes_nan {l : List (Fl × Fl)} {s : Fl} (h : Computes (formal l) s) {x : Fl} (hx : ¬ IsZero x)
    (hm : (nan, x) ∈ l ∨ (x, nan) ∈ l) : s = nan := by
  obtain ⟨l', e, hs⟩ := h
  refine sums_nan hs hx ?_
  rcases hm with hm | hm
  · exact pair_mem e hm
  · exact (pair_mem e hm).symm

/-- Every sum can be computed. -/
theorem exists_sums (l : List (Fl × Fl)) : ∃ s, Sums l s := by
  induction l with
  | nil => exact ⟨_, .zero⟩
  | cons p l ih =>
    obtain ⟨s, hs⟩ := ih
    exact ⟨_, .fma p.1 p.2 hs⟩

/-! ### Contractions -/

omit [Rounding] in
theorem vars_wf {V : Type} {a : Tensor V} (h : a.WF) : (vars a).WF := by
  unfold Tensor.WF at *
  simpa [vars] using h

omit [Rounding] in
theorem vars_elem {V : Type} {a : Tensor V} {idx : List Nat} {x : V} (h : elem a.dims a.data idx = some x) :
    elem (vars a).dims (vars a).data idx = some (MvPolynomial.X x) := by
  unfold elem at *
  split at h
  · rename_i hi
    show (if InB idx a.dims then (a.data.map MvPolynomial.X)[colPos a.dims idx]? else none) = _
    rw [if_pos hi, List.getElem?_map, h]
    rfl
  · cases h

omit [Rounding] in
theorem result_elem {V : Type} {C : Formal V → V → Prop} {t : Tensor (Formal V)} {c : Tensor V} (hd : c.dims = t.dims)
    (h : List.Forall₂ C t.data c.data) {idx : List Nat} {p : Formal V} (he : elem t.dims t.data idx = some p) :
    ∃ z, elem c.dims c.data idx = some z ∧ C p z := by
  unfold elem at *
  rw [hd]
  split at he
  · rename_i hi
    rw [if_pos hi]
    obtain ⟨hl, hp⟩ := List.getElem?_eq_some_iff.1 he
    rw [List.forall₂_iff_get] at h
    obtain ⟨h1, h2⟩ := h
    refine ⟨c.data[colPos t.dims idx]'(h1 ▸ hl), List.getElem?_eq_getElem _, ?_⟩
    have := h2 _ hl (h1 ▸ hl)
    simp only [List.get_eq_getElem] at this
    rwa [hp] at this
  · cases he

omit [Rounding] in
theorem result_wf {V : Type} {C : Formal V → V → Prop} {t : Tensor (Formal V)} {c : Tensor V} (hd : c.dims = t.dims)
    (h : List.Forall₂ C t.data c.data) (wf : t.WF) : c.WF := by
  unfold Tensor.WF at *
  rw [hd, ← wf, h.length_eq]

/-- C95: fold of doubles. If the exact products and sums are far enough from overflow then each element is finite,
and its error is at most n roundings (n is the length of the contracted index) of the sum of the absolute values of
the products, and n times the smallest rounding error (products may underflow). This holds whatever the order of
the sums is, with fused operations or without. -/
theorem c95_fold_partial (a b : Tensor Fl) (wfa : a.WF) (wfb : b.WF) (ndx1 ndx2 : Int) (P Q R S : List Nat)
    (L L' : Nat) (hda : a.dims = P ++ L :: Q) (hdb : b.dims = R ++ L' :: S)
    (h1 : Spec.norm a.dims.length ndx1 = some P.length) (h2 : Spec.norm b.dims.length ndx2 = some R.length)
    (res : Res (Tensor Fl)) (hr : Fold a ndx1 b ndx2 res) :
    (L = L' → L ≠ 0 → ∃ c : Tensor Fl, res = .ok c ∧ c.WF ∧ c.dims = outDims (P ++ Q ++ (R ++ S)) ∧
      ∀ p q r s, InB p P → InB q Q → InB r R → InB s S → ∀ f g : Nat → Fl,
        (∀ l < L, elem a.dims a.data (p ++ l :: q) = some (f l)) →
        (∀ l < L, elem b.dims b.data (r ++ l :: s) = some (g l)) →
        (∀ l < L, (f l).Finite ∧ (g l).Finite) →
        (1 + 2 ^ (-53 : ℤ)) ^ L * ∑ l ∈ Finset.range L, |(f l).val * (g l).val| +
          L * (1 + 2 ^ (-53 : ℤ)) ^ (L - 1) * 2 ^ (-1075 : ℤ) < (2 : ℝ) ^ 1024 →
        ∃ z, elem c.dims c.data (outIdx (p ++ q ++ (r ++ s))) = some z ∧ z.Finite ∧
          |z.val - ∑ l ∈ Finset.range L, (f l).val * (g l).val| ≤
            ((1 + 2 ^ (-53 : ℤ)) ^ L - 1) * ∑ l ∈ Finset.range L, |(f l).val * (g l).val| +
              L * (1 + 2 ^ (-53 : ℤ)) ^ (L - 1) * 2 ^ (-1075 : ℤ)) ∧
    (L ≠ L' ∨ L = 0 → res = .abort) := by
  obtain ⟨k1, k2⟩ := c19_fold (vars a) (vars b) (vars_wf wfa) (vars_wf wfb) ndx1 ndx2 P Q R S L L' hda hdb h1 h2
  unfold Fold at hr
  constructor
  · intro e1 e2
    obtain ⟨t, ht, wft, hdt, hel⟩ := k1 e1 e2
    rw [ht] at hr
    cases res with
    | abort => exact hr.elim
    | ub => exact hr.elim
    | ok c =>
      obtain ⟨hd, hc⟩ := hr
      refine ⟨c, rfl, result_wf hd hc wft, hd.trans hdt, ?_⟩
      intro p q r s hp hq hr hs f g hf hg hfin hM
      obtain ⟨z, hz, hcz⟩ := result_elem hd hc (hel p q r s hp hq hr hs _ _ (fun l hl => vars_elem (hf l hl))
        (fun l hl => vars_elem (hg l hl)))
      refine ⟨z, hz, ?_⟩
      rw [formal_pairs] at hcz
      have := computes_err hcz (by
        intro x hx
        obtain ⟨l, hl, rfl⟩ := List.mem_map.1 hx
        exact hfin l (List.mem_range.1 hl)) (by
        rw [length_pairs, size_pairs]
        exact hM)
      rw [length_pairs, size_pairs, exact_pairs] at this
      exact this
  · intro h
    rw [k2 h] at hr
    cases res with
    | abort => rfl
    | ub => exact hr.elim
    | ok c => exact hr.elim

/-- C95: foldin of doubles. -/
theorem c95_foldin_partial (a b : Tensor Fl) (wfa : a.WF) (wfb : b.WF) (ndx1 ndx2 : Int) (P Q R S : List Nat)
    (L L' : Nat) (hda : a.dims = P ++ L :: Q) (hdb : b.dims = R ++ L' :: S)
    (h1 : Spec.norm a.dims.length ndx1 = some P.length) (h2 : Spec.norm b.dims.length ndx2 = some R.length)
    (hne : ¬ (a.dims.length = 1 ∧ b.dims.length = 1))
    (res : Res (Tensor Fl)) (hr : Foldin a ndx1 b ndx2 res) :
    (L = L' → ∃ c : Tensor Fl, res = .ok c ∧ c.WF ∧ c.dims = R ++ (P ++ (Q ++ S)) ∧
      ∀ p q r s, InB p P → InB q Q → InB r R → InB s S → ∀ f g : Nat → Fl,
        (∀ l < L, elem a.dims a.data (p ++ l :: q) = some (f l)) →
        (∀ l < L, elem b.dims b.data (r ++ l :: s) = some (g l)) →
        (∀ l < L, (f l).Finite ∧ (g l).Finite) →
        (1 + 2 ^ (-53 : ℤ)) ^ L * ∑ l ∈ Finset.range L, |(f l).val * (g l).val| +
          L * (1 + 2 ^ (-53 : ℤ)) ^ (L - 1) * 2 ^ (-1075 : ℤ) < (2 : ℝ) ^ 1024 →
        ∃ z, elem c.dims c.data (r ++ (p ++ (q ++ s))) = some z ∧ z.Finite ∧
          |z.val - ∑ l ∈ Finset.range L, (f l).val * (g l).val| ≤
            ((1 + 2 ^ (-53 : ℤ)) ^ L - 1) * ∑ l ∈ Finset.range L, |(f l).val * (g l).val| +
              L * (1 + 2 ^ (-53 : ℤ)) ^ (L - 1) * 2 ^ (-1075 : ℤ)) ∧
    (L ≠ L' → res = .abort) := by
  obtain ⟨k1, k2⟩ := c21_foldin_partial (vars a) (vars b) (vars_wf wfa) (vars_wf wfb) ndx1 ndx2 P Q R S L L' hda hdb
    h1 h2 hne
  unfold Foldin at hr
  constructor
  · intro e1
    obtain ⟨t, ht, wft, hdt, hel⟩ := k1 e1
    rw [ht] at hr
    cases res with
    | abort => exact hr.elim
    | ub => exact hr.elim
    | ok c =>
      obtain ⟨hd, hc⟩ := hr
      refine ⟨c, rfl, result_wf hd hc wft, hd.trans hdt, ?_⟩
      intro p q r s hp hq hr hs f g hf hg hfin hM
      obtain ⟨z, hz, hcz⟩ := result_elem hd hc (hel p q r s hp hq hr hs _ _ (fun l hl => vars_elem (hf l hl))
        (fun l hl => vars_elem (hg l hl)))
      refine ⟨z, hz, ?_⟩
      rw [formal_pairs] at hcz
      have := computes_err hcz (by
        intro x hx
        obtain ⟨l, hl, rfl⟩ := List.mem_map.1 hx
        exact hfin l (List.mem_range.1 hl)) (by
        rw [length_pairs, size_pairs]
        exact hM)
      rw [length_pairs, size_pairs, exact_pairs] at this
      exact this
  · intro h
    rw [k2 h] at hr
    cases res with
    | abort => rfl
    | ub => exact hr.elim
    | ok c => exact hr.elim

/-- C95: an element of fold is not a number if one of its factors is not, unless it is multiplied with zero. -/
theorem c95_nan_partial (a b : Tensor Fl) (wfa : a.WF) (wfb : b.WF) (ndx1 ndx2 : Int) (P Q R S : List Nat)
    (L : Nat) (hda : a.dims = P ++ L :: Q) (hdb : b.dims = R ++ L :: S)
    (h1 : Spec.norm a.dims.length ndx1 = some P.length) (h2 : Spec.norm b.dims.length ndx2 = some R.length)
    (c : Tensor Fl) (hr : Fold a ndx1 b ndx2 (.ok c)) (p q r s : List Nat) (hp : InB p P) (hq : InB q Q) (hrr : InB r R)
    (hs : InB s S) (f g : Nat → Fl) (hf : ∀ l < L, elem a.dims a.data (p ++ l :: q) = some (f l))
    (hg : ∀ l < L, elem b.dims b.data (r ++ l :: s) = some (g l)) (l : Nat) (hl : l < L)
    (hn : f l = nan ∧ ¬ IsZero (g l) ∨ g l = nan ∧ ¬ IsZero (f l)) :
    elem c.dims c.data (outIdx (p ++ q ++ (r ++ s))) = some nan := by
  obtain ⟨t, ht, wft, hdt, hel⟩ := (c19_fold (vars a) (vars b) (vars_wf wfa) (vars_wf wfb) ndx1 ndx2 P Q R S L L hda
    hdb h1 h2).1 rfl (by omega)
  unfold Fold at hr
  rw [ht] at hr
  obtain ⟨hd, hc⟩ := hr
  obtain ⟨z, hz, hcz⟩ := result_elem hd hc (hel p q r s hp hq hrr hs _ _ (fun l hl => vars_elem (hf l hl))
    (fun l hl => vars_elem (hg l hl)))
  rw [hz]
  rw [formal_pairs] at hcz
  have hm : (f l, g l) ∈ pairs f g L := List.mem_map.2 ⟨l, List.mem_range.2 hl, rfl⟩
  rcases hn with ⟨e, hx⟩ | ⟨e, hx⟩
  · rw [e] at hm
    rw [computes_nan hcz hx (.inl hm)]
  · rw [e] at hm
    rw [computes_nan hcz hx (.inr hm)]

/-- C95: the product of two matrices of doubles. -/
theorem c95_mmult_partial (a b : Tensor Fl) (wfa : a.WF) (wfb : b.WF) (m n p : Nat) (ha : a.dims = [m, n])
    (hb : b.dims = [n, p]) (hn : n ≠ 0) (res : Res (Tensor Fl)) (hr : Mmult a b res) :
    ∃ c : Tensor Fl, res = .ok c ∧ c.WF ∧ c.dims = [m, p] ∧
      ∀ i j, i < m → j < p → ∀ f g : Nat → Fl,
        (∀ l < n, elem a.dims a.data [i, l] = some (f l)) → (∀ l < n, elem b.dims b.data [l, j] = some (g l)) →
        (∀ l < n, (f l).Finite ∧ (g l).Finite) →
        (1 + 2 ^ (-53 : ℤ)) ^ n * ∑ l ∈ Finset.range n, |(f l).val * (g l).val| +
          n * (1 + 2 ^ (-53 : ℤ)) ^ (n - 1) * 2 ^ (-1075 : ℤ) < (2 : ℝ) ^ 1024 →
        ∃ z, elem c.dims c.data [i, j] = some z ∧ z.Finite ∧
          |z.val - ∑ l ∈ Finset.range n, (f l).val * (g l).val| ≤
            ((1 + 2 ^ (-53 : ℤ)) ^ n - 1) * ∑ l ∈ Finset.range n, |(f l).val * (g l).val| +
              n * (1 + 2 ^ (-53 : ℤ)) ^ (n - 1) * 2 ^ (-1075 : ℤ) := by
  obtain ⟨c, e, wf, hd, hel⟩ := (c95_fold_partial a b wfa wfb (-1) 0 [m] [] [] [p] n n ha hb
    (by rw [ha]; simp [Spec.norm]) (by rw [hb]; simp [Spec.norm]) res hr).1 rfl hn
  refine ⟨c, e, wf, hd, ?_⟩
  intro i j hi hj f g hf hg hfin hM
  have := hel [i] [] [] [j] (by simp [hi]) trivial trivial (by simp [hj]) f g hf hg hfin hM
  simpa [outIdx] using this

omit [Rounding] in
/-- There is a result if all sums can be computed. -/
theorem exists_result {V : Type} [Inhabited V] {C : Formal V → V → Prop} (hC : ∀ l : List (V × V), ∃ z, C (formal l) z)
    (a b : Tensor V) (wfa : a.WF) (wfb : b.WF) (ndx1 ndx2 : Int) :
    ∃ r, Result C (Tensor.fold (vars a) ndx1 (vars b) ndx2) r := by
  cases h1 : Spec.norm a.dims.length ndx1 with
  | none =>
    rw [c19_fold_positions (vars a) (vars b) ndx1 ndx2 (.inl h1)]
    exact ⟨.abort, trivial⟩
  | some n1 =>
    cases h2 : Spec.norm b.dims.length ndx2 with
    | none =>
      rw [c19_fold_positions (vars a) (vars b) ndx1 ndx2 (.inr h2)]
      exact ⟨.abort, trivial⟩
    | some n2 =>
      obtain ⟨P, L, Q, hda, hn1⟩ := c19_fold_covers a ndx1 n1 h1
      obtain ⟨R, L', S, hdb, hn2⟩ := c19_fold_covers b ndx2 n2 h2
      obtain ⟨k1, k2⟩ := c19_fold (vars a) (vars b) (vars_wf wfa) (vars_wf wfb) ndx1 ndx2 P Q R S L L' hda hdb hn1 hn2
      by_cases hL : L ≠ L' ∨ L = 0
      · rw [k2 hL]
        exact ⟨.abort, trivial⟩
      · push Not at hL
        obtain ⟨rfl, hL⟩ := hL
        obtain ⟨t, ht, wft, hdt, hel⟩ := k1 rfl hL
        rw [ht]
        suffices H : ∀ x ∈ t.data, ∃ z, C x z by
          have : ∃ l, List.Forall₂ C t.data l := by
            clear hel ht wft
            generalize t.data = d at H
            induction d with
            | nil => exact ⟨[], .nil⟩
            | cons x d ih =>
              obtain ⟨z, hz⟩ := H x (by simp)
              obtain ⟨l, hl⟩ := ih fun y hy => H y (by simp [hy])
              exact ⟨z :: l, .cons hz hl⟩
          obtain ⟨l, hl⟩ := this
          exact ⟨.ok ⟨t.dims, l⟩, rfl, hl⟩
        intro x hx
        obtain ⟨k, hk, rfl⟩ := List.mem_iff_getElem.1 hx
        have hne : t.dims ≠ [] := by
          rw [hdt, outDims]
          split
          · simp
          · assumption
        have hk' : k < prod t.dims := by
          unfold Tensor.WF at wft
          rw [totalSize_of_ne hne] at wft
          omega
        obtain ⟨idx, hi, hpos⟩ := colPos_surj t.dims k hk'
        have he : elem t.dims t.data idx = some t.data[k] := by
          rw [elem, if_pos hi, hpos]
          exact List.getElem?_eq_getElem hk
        have hsplit : ∃ p q r s, InB p P ∧ InB q Q ∧ InB r R ∧ InB s S ∧ idx = outIdx (p ++ q ++ (r ++ s)) := by
          rw [hdt] at hi
          unfold outDims at hi
          split at hi
          · rename_i hz
            simp only [List.append_eq_nil_iff] at hz
            obtain ⟨⟨rfl, rfl⟩, rfl, rfl⟩ := hz
            refine ⟨[], [], [], [], trivial, trivial, trivial, trivial, ?_⟩
            cases idx with
            | nil => exact hi.elim
            | cons i is =>
              cases is with
              | nil =>
                rw [InB_cons] at hi
                simp [outIdx]
                omega
              | cons _ _ => exact hi.2.elim
          · rename_i hz
            have hlen := hi.length
            simp only [List.length_append] at hlen
            obtain ⟨u, v, rfl, hu⟩ : ∃ u v, idx = u ++ v ∧ u.length = P.length + Q.length :=
              ⟨idx.take _, idx.drop _, (List.take_append_drop (P.length + Q.length) idx).symm, by simp; omega⟩
            rw [InB_append (by simp [hu])] at hi
            obtain ⟨iu, iv⟩ := hi
            obtain ⟨p, q, rfl, hp⟩ : ∃ p q, u = p ++ q ∧ p.length = P.length :=
              ⟨u.take _, u.drop _, (List.take_append_drop P.length u).symm, by simp; omega⟩
            have hv := iv.length
            simp only [List.length_append] at hv
            obtain ⟨r, s, rfl, hr⟩ : ∃ r s, v = r ++ s ∧ r.length = R.length :=
              ⟨v.take _, v.drop _, (List.take_append_drop R.length v).symm, by simp; omega⟩
            rw [InB_append hp] at iu
            rw [InB_append hr] at iv
            refine ⟨p, q, r, s, iu.1, iu.2, iv.1, iv.2, ?_⟩
            rw [outIdx, if_neg]
            intro e
            apply hz
            simp only [List.append_eq_nil_iff] at e ⊢
            obtain ⟨⟨rfl, rfl⟩, rfl, rfl⟩ := e
            have z1 := iu.1.length
            have z2 := iu.2.length
            have z3 := iv.1.length
            have z4 := iv.2.length
            simp only [List.length_nil] at z1 z2 z3 z4
            exact ⟨⟨List.length_eq_zero_iff.1 z1.symm, List.length_eq_zero_iff.1 z2.symm⟩,
              List.length_eq_zero_iff.1 z3.symm, List.length_eq_zero_iff.1 z4.symm⟩
        obtain ⟨p, q, r, s, ip, iq, ir, is, rfl⟩ := hsplit
        have hget : ∀ (t : Tensor V) (wf : t.WF) (idx : List Nat), InB idx t.dims → t.dims ≠ [] →
            ∃ x, elem t.dims t.data idx = some x := by
          intro t wf idx hi hne
          unfold Tensor.WF at wf
          rw [totalSize_of_ne hne] at wf
          have := colPos_lt hi
          rw [elem, if_pos hi]
          exact ⟨_, List.getElem?_eq_getElem (by omega)⟩
        have hfa : ∀ l : Nat, ∃ x, l < L → elem a.dims a.data (p ++ l :: q) = some x := by
          intro l
          by_cases hl : l < L
          · obtain ⟨x, hx⟩ := hget a wfa (p ++ l :: q) (by rw [hda]; exact ip.append ⟨hl, iq⟩) (by rw [hda]; simp)
            exact ⟨x, fun _ => hx⟩
          · exact ⟨default, fun h => absurd h hl⟩
        have hfb : ∀ l : Nat, ∃ x, l < L → elem b.dims b.data (r ++ l :: s) = some x := by
          intro l
          by_cases hl : l < L
          · obtain ⟨x, hx⟩ := hget b wfb (r ++ l :: s) (by rw [hdb]; exact ir.append ⟨hl, is⟩) (by rw [hdb]; simp)
            exact ⟨x, fun _ => hx⟩
          · exact ⟨default, fun h => absurd h hl⟩
        choose f hf using hfa
        choose g hg using hfb
        have := hel p q r s ip iq ir is _ _ (fun l hl => vars_elem (hf l hl)) (fun l hl => vars_elem (hg l hl))
        rw [he, formal_pairs] at this
        rw [Option.some.inj this]
        exact hC _

/-- There is a result for all tensors and positions. -/
theorem c95_exists (a b : Tensor Fl) (wfa : a.WF) (wfb : b.WF) (ndx1 ndx2 : Int) : ∃ r, Fold a ndx1 b ndx2 r := by
  have : Inhabited Fl := ⟨0⟩
  refine exists_result (fun l => ?_) a b wfa wfb ndx1 ndx2
  obtain ⟨z, hz⟩ := exists_sums l
  exact ⟨z, l, rfl, hz⟩

omit [Rounding] in
/-- C95: the factor in the bounds is about L 2^-53. -/
theorem c95_bound (L : Nat) (h : L ≤ 2 ^ 53) : (1 + 2 ^ (-53 : ℤ)) ^ L - 1 ≤ 2 * (L * (2 : ℝ) ^ (-53 : ℤ)) := by
  have h0 : (0 : ℝ) ≤ L * 2 ^ (-53 : ℤ) := by positivity
  have h1 : (L : ℝ) * 2 ^ (-53 : ℤ) ≤ 1 := by
    have : (L : ℝ) ≤ 2 ^ 53 := by exact_mod_cast h
    rw [zpow_neg, ← div_eq_mul_inv, div_le_one (by positivity)]
    exact_mod_cast this
  have h2 : (1 + 2 ^ (-53 : ℤ)) ^ L ≤ Real.exp (L * 2 ^ (-53 : ℤ)) := by
    rw [Real.exp_nat_mul]
    refine pow_le_pow_left₀ (by positivity) ?_ _
    rw [add_comm]
    exact Real.add_one_le_exp _
  have h3 := Real.abs_exp_sub_one_le (x := L * 2 ^ (-53 : ℤ)) (by rw [abs_of_nonneg h0]; exact h1)
  rw [abs_of_nonneg h0] at h3
  linarith [(abs_le.1 h3).2]

/-- The hypotheses of C95 can be met. -/
example : (∃ res, Fold ⟨[2], [fin 1, fin 2]⟩ 0 ⟨[2], [fin 3, fin 0]⟩ 0 res) ∧
    (⟨[2], [fin 1, fin 2]⟩ : Tensor Fl).WF ∧ Spec.norm 1 0 = some ([] : List Nat).length ∧
    (1 + 2 ^ (-53 : ℤ)) ^ 2 * ∑ l ∈ Finset.range 2, |(if l = 0 then fin 1 else fin 2).val * (if l = 0 then fin 3 else fin 0).val| +
      (2 : Nat) * (1 + 2 ^ (-53 : ℤ)) ^ (2 - 1) * 2 ^ (-1075 : ℤ) < (2 : ℝ) ^ 1024 := by
  refine ⟨c95_exists _ _ (by rfl) (by rfl) 0 0, by rfl, rfl, ?_⟩
  have h1 : (2 : ℝ) ^ (-1075 : ℤ) ≤ 1 := zpow_le_one_of_nonpos₀ (by norm_num) (by norm_num)
  have h2 : (2 : ℝ) ^ (-53 : ℤ) ≤ 1 := zpow_le_one_of_nonpos₀ (by norm_num) (by norm_num)
  have h3 := two_zpow_pos (-53)
  have h4 := two_zpow_pos (-1075)
  have h5 : (100 : ℝ) < 2 ^ 1024 := lt_of_lt_of_le (by norm_num) (pow_le_pow_right₀ (by norm_num) (show 10 ≤ 1024 by norm_num))
  refine lt_trans ?_ h5
  rw [Finset.sum_range_succ, Finset.sum_range_one]
  simp only [if_true, one_ne_zero, if_false, val]
  norm_num only
  generalize (2 : ℝ) ^ (-53 : ℤ) = u at *
  generalize (2 : ℝ) ^ (-1075 : ℤ) = v at *
  nlinarith [mul_le_mul h2 h1 h4.le (by norm_num), mul_pos h3 h4, mul_le_mul h2 h2 h3.le (by norm_num)]

omit [Rounding] in
/-- The contraction of two vectors. -/
theorem result_vectors {V : Type} {C : Formal V → V → Prop} {L : Nat} (hL : L ≠ 0) (f g : Nat → V) {s : V}
    (h : C (formal (pairs f g L)) s) :
    Result C (Tensor.fold (vars ⟨[L], (List.range L).map f⟩) 0 (vars ⟨[L], (List.range L).map g⟩) 0)
      (.ok ⟨[1], [s]⟩) := by
  have hn : Spec.norm [L].length 0 = some ([] : List Nat).length := rfl
  have wf : ∀ f : Nat → V, (⟨[L], (List.range L).map f⟩ : Tensor V).WF := fun f => by
    unfold Tensor.WF
    rw [totalSize_of_ne (by simp)]
    simp [prod]
  have hel : ∀ (f : Nat → V), ∀ l < L, elem [L] ((List.range L).map f) [l] = some (f l) := by
    intro f l hl
    rw [elem, if_pos ⟨hl, trivial⟩]
    simp [hl]
  obtain ⟨t, ht, wft, hdt, he⟩ := (c19_fold (vars ⟨[L], (List.range L).map f⟩) (vars ⟨[L], (List.range L).map g⟩)
    (vars_wf (wf f)) (vars_wf (wf g)) 0 0 [] [] [] [] L L rfl rfl hn hn).1 rfl hL
  have := he [] [] [] [] trivial trivial trivial trivial _ _ (fun l hl => vars_elem (hel f l hl))
    (fun l hl => vars_elem (hel g l hl))
  obtain ⟨d, data⟩ := t
  simp only at hdt wft
  subst hdt
  have hlen : data.length = 1 := wft
  obtain ⟨x, rfl⟩ := List.length_eq_one_iff.1 hlen
  rw [ht]
  refine ⟨rfl, .cons ?_ .nil⟩
  rw [formal_pairs] at this
  have e : x = formal (pairs f g L) := Option.some.inj this
  rw [e]
  exact h

theorem fold_vectors {L : Nat} (hL : L ≠ 0) (f g : Nat → Fl) {s : Fl} (h : Sums (pairs f g L) s) :
    Fold ⟨[L], (List.range L).map f⟩ 0 ⟨[L], (List.range L).map g⟩ 0 (.ok ⟨[1], [s]⟩) :=
  result_vectors hL f g ⟨_, rfl, h⟩

/-! ### What the library leaves open -/

/-- Sums of numbers. -/
theorem mul_one_fin {x : ℝ} (hx : IsDouble x) (h0 : x ≠ 0) : fin 1 * fin x = fin x := by
  show mul (fin 1) (fin x) = fin x
  have hl := abs_lt.1 hx.lt
  have hr : rnd x = x := rnd_exact (.inl hx)
  rw [mul, if_neg (by simp), if_neg (by simp [isInf])]
  simp only [val, one_mul]
  rw [if_neg h0, Fl.round, hr, if_neg (not_le.2 hl.2), if_neg (not_le.2 hl.1), if_neg h0]

theorem add_fin {x y z : ℝ} (hz : IsDouble z) (h : rnd (x + y) = z) (h0 : z ≠ 0) : fin x + fin y = fin z := by
  show add (fin x) (fin y) = fin z
  have hl := abs_lt.1 hz.lt
  show (if x + y = 0 then fin 0 else Fl.round (x + y)) = fin z
  rw [if_neg, Fl.round, h, if_neg (not_le.2 hl.2), if_neg (not_le.2 hl.1), if_neg h0]
  intro e
  rw [e, rnd_zero] at h
  exact h0 h.symm

theorem add_fin_zero (x : ℝ) : fin x + fin (-x) = fin 0 := by
  show add (fin x) (fin (-x)) = fin 0
  simp [add, val]

theorem zero_add_fin {x : ℝ} (hx : IsDouble x) (h0 : x ≠ 0) : (fin 0 : Fl) + fin x = fin x :=
  add_fin hx (by rw [zero_add]; exact rnd_exact (.inl hx)) h0

/-- The vectors of the next theorems. -/
noncomputable def three (x y z : Fl) : Nat → Fl
  | 0 => x
  | 1 => y
  | _ => z

/-- C95 cannot be had with a small relative error: the contraction of (1, 1, 1) and (B, 1, -B) for B = 3 2^53, which
is 1, may be computed as 1 or as 0. -/
theorem c95_negation_order :
    ∃ a b : Tensor Fl, a = ⟨[3], [fin 1, fin 1, fin 1]⟩ ∧ b = ⟨[3], [fin (3 * 2 ^ 53), fin 1, fin (-(3 * 2 ^ 53))]⟩ ∧
      Fold a 0 b 0 (.ok ⟨[1], [fin 1]⟩) ∧ Fold a 0 b 0 (.ok ⟨[1], [fin 0]⟩) := by
  have d1 : IsDouble 1 := by simpa using isDouble_int (n := 1) (by norm_num)
  have dB : IsDouble (3 * 2 ^ 53) := ⟨3, 53, by norm_num, by norm_num, by norm_num, by norm_num⟩
  have hB : rnd (3 * 2 ^ 53 + 1) = 3 * 2 ^ 53 := by
    have := rnd_eq_of (x := 3 * 2 ^ 53 + 1) (m := 3 * 2 ^ 51) (e := 2) (by norm_num) (by norm_num) (by norm_num)
      (by norm_num) (by norm_num)
    rw [this]
    norm_num
  set B : ℝ := 3 * 2 ^ 53 with hBd
  have B0 : B ≠ 0 := by rw [hBd]; norm_num
  have p1 : fin 1 * fin B = fin B := mul_one_fin dB B0
  have p2 : fin 1 * fin 1 = (fin 1 : Fl) := mul_one_fin d1 one_ne_zero
  have p3 : fin 1 * fin (-B) = fin (-B) := mul_one_fin dB.neg (neg_ne_zero.2 B0)
  have q1 := Sums.prod (fin 1) (fin B)
  have q2 := Sums.prod (fin 1) (fin 1)
  have q3 := Sums.prod (fin 1) (fin (-B))
  rw [p1] at q1
  rw [p2] at q2
  rw [p3] at q3
  refine ⟨_, _, rfl, rfl, ?_, ?_⟩
  · refine fold_vectors (L := 3) (by decide) (three (fin 1) (fin 1) (fin 1)) (three (fin B) (fin 1) (fin (-B))) ?_
    have := (q1.add q3).add q2
    rw [add_fin_zero, zero_add_fin d1 one_ne_zero] at this
    refine this.perm ?_
    exact List.Perm.cons _ (List.Perm.swap _ _ _)
  · refine fold_vectors (L := 3) (by decide) (three (fin 1) (fin 1) (fin 1)) (three (fin B) (fin 1) (fin (-B))) ?_
    have := (q1.add q2).add q3
    rwa [add_fin dB hB B0, add_fin_zero] at this

/-- C95 is false with overflow: the contraction of (1, 1, 1) and (B, B, -B) for B = 2^1023, which is B, may be
computed as B or as infinity. -/
theorem c95_negation_overflow :
    ∃ a b : Tensor Fl, a = ⟨[3], [fin 1, fin 1, fin 1]⟩ ∧ b = ⟨[3], [fin (2 ^ 1023), fin (2 ^ 1023), fin (-2 ^ 1023)]⟩ ∧
      Fold a 0 b 0 (.ok ⟨[1], [fin (2 ^ 1023)]⟩) ∧ Fold a 0 b 0 (.ok ⟨[1], [pinf]⟩) := by
  have dB : IsDouble (2 ^ 1023) := ⟨2 ^ 52, 971, by norm_num, by norm_num, by norm_num, by
    rw [show ((2 : ℝ) ^ (971 : ℤ)) = 2 ^ (971 : ℕ) from zpow_natCast 2 971, Int.cast_pow, Int.cast_ofNat, ← pow_add]⟩
  have hs : (2 : ℝ) ^ 1023 + 2 ^ 1023 = 2 ^ 1024 := by rw [← two_mul, ← pow_succ']
  have B0 : (2 : ℝ) ^ 1023 ≠ 0 := by positivity
  have hB : fin (2 ^ 1023) + fin (2 ^ 1023) = pinf := by
    show add (fin (2 ^ 1023)) (fin (2 ^ 1023)) = pinf
    have ht : IsTarget (2 ^ 1024) := .inr (abs_of_pos (by positivity))
    show (if (2 : ℝ) ^ 1023 + 2 ^ 1023 = 0 then fin 0 else Fl.round (2 ^ 1023 + 2 ^ 1023)) = pinf
    rw [hs, if_neg (by positivity), Fl.round, rnd_exact ht, if_pos (le_refl _)]
  generalize (2 : ℝ) ^ 1023 = B at *
  have p1 : fin 1 * fin B = fin B := mul_one_fin dB B0
  have p3 : fin 1 * fin (-B) = fin (-B) := mul_one_fin dB.neg (neg_ne_zero.2 B0)
  have q1 := Sums.prod (fin 1) (fin B)
  have q3 := Sums.prod (fin 1) (fin (-B))
  rw [p1] at q1
  rw [p3] at q3
  refine ⟨_, _, rfl, rfl, ?_, ?_⟩
  · refine fold_vectors (L := 3) (by decide) (three (fin 1) (fin 1) (fin 1)) (three (fin B) (fin B) (fin (-B))) ?_
    have := (q1.add q3).add q1
    rw [add_fin_zero, zero_add_fin dB B0] at this
    refine this.perm ?_
    exact List.Perm.cons _ (List.Perm.swap _ _ _)
  · refine fold_vectors (L := 3) (by decide) (three (fin 1) (fin 1) (fin 1)) (three (fin B) (fin B) (fin (-B))) ?_
    have := (q1.add q1).add q3
    rw [hB] at this
    exact this

/-- Without the condition in `c95_nan_partial` the result may be a number: a library may leave out products with
zero. -/
theorem c95_negation_nan :
    Fold ⟨[1], [nan]⟩ 0 ⟨[1], [fin 0]⟩ 0 (.ok ⟨[1], [nan]⟩) ∧ Fold ⟨[1], [nan]⟩ 0 ⟨[1], [fin 0]⟩ 0 (.ok ⟨[1], [fin 0]⟩) := by
  constructor
  · refine fold_vectors (L := 1) (by decide) (fun _ => nan) (fun _ => fin 0) ?_
    have := Sums.prod nan (fin 0)
    rwa [show nan * fin 0 = nan by show mul nan (fin 0) = nan; rw [mul, if_pos (.inl rfl)]] at this
  · exact fold_vectors (L := 1) (by decide) (fun _ => nan) (fun _ => fin 0) (.skip _ _ (.inr (.inr rfl)) .zero)

end Verif.GemmFl
