import Verif.Model.FloatCompare
import Verif.Spec.FloatCompare
import Verif.Props.Indices
import Verif.Props.Sort
/-
C91: comparisons and sorting of real tensors with NaN, infinities and both zeros.
-/
namespace Verif.FlCmp

open Verif Indices

/-- What `x op y` should be. -/
def Holds (op : Op) (a b : Fl) : Prop :=
  match ext a, ext b with
  | some x, some y =>
    match op with
    | .eq => x = y
    | .lt => x < y
    | .gt => x > y
    | .le => x ≤ y
    | .ge => x ≥ y
    | .ne => x ≠ y
  | _, _ => op = .ne

theorem lt_iff {a b : Fl} {x y : EReal} (ha : ext a = some x) (hb : ext b = some y) : a < b ↔ x < y := by
  show Fl.lt a b ↔ _
  cases a <;> cases b <;> simp only [ext, Option.some.injEq, reduceCtorEq] at ha hb <;> subst ha <;> subst hb <;>
    simp [Fl.lt, Fl.val, EReal.coe_lt_coe_iff, EReal.bot_lt_coe, EReal.coe_lt_top]
  all_goals first
    | exact EReal.coe_lt_top _
    | exact EReal.bot_lt_coe _
    | skip

theorem not_lt_nan {a b : Fl} (h : ext a = none ∨ ext b = none) : ¬ a < b := by
  show ¬ Fl.lt a b
  cases a <;> cases b <;> simp_all [ext, Fl.lt]

theorem nan_iff {a : Fl} : a = .nan ↔ ext a = none := by
  cases a <;> simp [ext]

theorem le_iff {a b : Fl} {x y : EReal} (ha : ext a = some x) (hb : ext b = some y) : a ≤ b ↔ x ≤ y := by
  show Fl.le a b ↔ _
  rw [Fl.le, Ne, Ne, nan_iff, nan_iff, ha, hb, lt_iff hb ha]
  simp

theorem not_le_nan {a b : Fl} (h : ext a = none ∨ ext b = none) : ¬ a ≤ b := by
  show ¬ Fl.le a b
  rw [Fl.le, Ne, Ne, nan_iff, nan_iff]
  tauto

/-- The operators of C++ are those of IEEE 754. -/
theorem ev_iff (op : Op) (a b : Fl) : ev op a b = true ↔ Holds op a b := by
  rw [Holds]
  cases ha : ext a with
  | none =>
    have h1 := not_lt_nan (a := a) (b := b) (Or.inl ha)
    have h2 := not_lt_nan (a := b) (b := a) (Or.inr ha)
    have h3 := not_le_nan (a := a) (b := b) (Or.inl ha)
    have h4 := not_le_nan (a := b) (b := a) (Or.inr ha)
    cases op <;> simp [ev, h1, h2, h3, h4]
  | some x =>
    cases hb : ext b with
    | none =>
      have h1 := not_lt_nan (a := a) (b := b) (Or.inr hb)
      have h2 := not_lt_nan (a := b) (b := a) (Or.inl hb)
      have h3 := not_le_nan (a := a) (b := b) (Or.inr hb)
      have h4 := not_le_nan (a := b) (b := a) (Or.inl hb)
      cases op <;> simp [ev, h1, h2, h3, h4]
    | some y =>
      cases op <;> simp [ev, lt_iff ha hb, lt_iff hb ha, le_iff ha hb, le_iff hb ha]
      · exact le_antisymm_iff.symm
      · rw [eq_comm]

/-- C91: tensor with tensor and tensor with number are compared element by element, as IEEE 754 says. -/
theorem c91_tensor_first (op : Op) (a b : Tensor Fl) (x : Fl) :
    (a.data.length = b.data.length → ∃ r, cmpTT op a b = .ok r ∧ r.length = a.data.length ∧
      ∀ (k : Nat) (u v : Fl), a.data[k]? = some u → b.data[k]? = some v →
        ∃ t, r[k]? = some t ∧ (t = true ↔ Holds op u v)) ∧
    (a.data.length ≠ b.data.length → cmpTT op a b = .abort) ∧
    (cmpTN op a x).length = a.data.length ∧
    ∀ (k : Nat) (u : Fl), a.data[k]? = some u → ∃ t, (cmpTN op a x)[k]? = some t ∧ (t = true ↔ Holds op u x) := by
  refine ⟨fun h => ?_, fun h => ?_, by simp [cmpTN], fun k u hu => ?_⟩
  · have key : ∀ l m : List Fl, l.length = m.length → ∃ r, transform2 (ev op) l m = .ok r ∧ r.length = l.length ∧
        ∀ (k : Nat) (u v : Fl), l[k]? = some u → m[k]? = some v → ∃ t, r[k]? = some t ∧ (t = true ↔ Holds op u v) := by
      intro l
      induction l with
      | nil =>
        intro m _
        exact ⟨[], rfl, rfl, by simp⟩
      | cons p l ih =>
        intro m hm
        cases m with
        | nil => simp at hm
        | cons q m =>
          obtain ⟨r, h1, h2, h3⟩ := ih m (by simpa using hm)
          refine ⟨ev op p q :: r, ?_, by simp [h2], ?_⟩
          · rw [transform2, h1]
            rfl
          · intro k u v hu hv
            cases k with
            | zero =>
              simp only [List.getElem?_cons_zero, Option.some.injEq] at hu hv ⊢
              exact ⟨_, rfl, by rw [ev_iff, hu, hv]⟩
            | succ k =>
              simp only [List.getElem?_cons_succ] at hu hv ⊢
              exact h3 k u v hu hv
    obtain ⟨r, h1, h2⟩ := key _ _ h
    refine ⟨r, ?_, h2⟩
    rw [cmpTT, Res.assert, if_pos h]
    exact h1
  · rw [cmpTT, Res.assert, if_neg h]
    rfl
  · exact ⟨ev op u x, by simp [cmpTN, hu], ev_iff op u x⟩

/-- C91 with the number first: right for == and !=, and for the others at all elements which are NaN or are
not equal to the number. What is missing is false, `c91_negation_number_first`. -/
theorem c91_number_first_partial (op : Op) (x : Fl) (a : Tensor Fl) :
    (cmpNT op x a).length = a.data.length ∧
    ∀ (k : Nat) (u : Fl), a.data[k]? = some u → (op = .eq ∨ op = .ne ∨ ext x = none ∨ ext x ≠ ext u) →
      ∃ t, (cmpNT op x a)[k]? = some t ∧ (t = true ↔ Holds op x u) := by
  refine ⟨by cases op <;> simp [cmpNT, cmpTN], fun k u hu h => ?_⟩
  have hk : ∀ op', ∃ t, (cmpTN op' a x)[k]? = some t ∧ (t = true ↔ Holds op' u x) := fun op' =>
    ⟨ev op' u x, by simp [cmpTN, hu], ev_iff op' u x⟩
  have conv : ∀ op', (Holds op' u x ↔ Holds op x u) → ∃ t, (cmpTN op' a x)[k]? = some t ∧ (t = true ↔ Holds op x u) := by
    intro op' hop
    obtain ⟨t, h1, h2⟩ := hk op'
    exact ⟨t, h1, h2.trans hop⟩
  have hne : ∀ {p q : EReal}, ext x = some p → ext u = some q → (op = .eq ∨ op = .ne ∨ p ≠ q) := by
    intro p q hp hq
    rw [hp, hq] at h
    simpa using h
  cases op
  · refine conv .eq ?_
    rw [Holds, Holds]
    cases hx : ext x <;> cases hu' : ext u <;> simp [eq_comm]
  · refine conv .ge ?_
    rw [Holds, Holds]
    cases hx : ext x with
    | none => cases hu' : ext u <;> simp
    | some p =>
      cases hu' : ext u with
      | none => simp
      | some q =>
        have := hne hx hu'
        simp only [reduceCtorEq, false_or] at this
        simp only [ge_iff_le]
        exact ⟨fun h => lt_of_le_of_ne h this, le_of_lt⟩
  · refine conv .le ?_
    rw [Holds, Holds]
    cases hx : ext x with
    | none => cases hu' : ext u <;> simp
    | some p =>
      cases hu' : ext u with
      | none => simp
      | some q =>
        have := hne hx hu'
        simp only [reduceCtorEq, false_or] at this
        simp only [gt_iff_lt]
        exact ⟨fun h => lt_of_le_of_ne h this.symm, le_of_lt⟩
  · refine conv .gt ?_
    rw [Holds, Holds]
    cases hx : ext x with
    | none => cases hu' : ext u <;> simp
    | some p =>
      cases hu' : ext u with
      | none => simp
      | some q =>
        have := hne hx hu'
        simp only [reduceCtorEq, false_or] at this
        simp only [gt_iff_lt]
        exact ⟨le_of_lt, fun h => lt_of_le_of_ne h this⟩
  · refine conv .lt ?_
    rw [Holds, Holds]
    cases hx : ext x with
    | none => cases hu' : ext u <;> simp
    | some p =>
      cases hu' : ext u with
      | none => simp
      | some q =>
        have := hne hx hu'
        simp only [reduceCtorEq, false_or] at this
        simp only [ge_iff_le]
        exact ⟨le_of_lt, fun h => lt_of_le_of_ne h this.symm⟩
  · refine conv .ne ?_
    rw [Holds, Holds]
    cases hx : ext x <;> cases hu' : ext u <;> simp [eq_comm]

/-- C91, negation: with the number first, all four comparisons are wrong at each element which is equal to
the number, also for infinities and for the two zeros. -/
theorem c91_negation_number_first (op : Op) (h1 : op ≠ .eq) (h2 : op ≠ .ne) (x : Fl) (hx : x ≠ .nan) (a : Tensor Fl)
    (k : Nat) (u : Fl) (hu : a.data[k]? = some u) (h : ext x = ext u) :
    ∃ t, (cmpNT op x a)[k]? = some t ∧ ¬ (t = true ↔ Holds op x u) := by
  rw [Ne, nan_iff] at hx
  obtain ⟨p, hp⟩ := Option.ne_none_iff_exists'.1 hx
  have hq : ext u = some p := by rw [← h, hp]
  have hk : ∀ op', (cmpTN op' a x)[k]? = some (ev op' u x) := fun op' => by simp [cmpTN, hu]
  cases op
  · exact absurd rfl h1
  · exact ⟨_, hk .ge, by rw [ev_iff, Holds, Holds, hp, hq]; simp⟩
  · exact ⟨_, hk .le, by rw [ev_iff, Holds, Holds, hp, hq]; simp⟩
  · exact ⟨_, hk .gt, by rw [ev_iff, Holds, Holds, hp, hq]; simp⟩
  · exact ⟨_, hk .lt, by rw [ev_iff, Holds, Holds, hp, hq]; simp⟩
  · exact absurd rfl h2

example : ext (.fin 0) = ext .nzero ∧ ext .pinf ≠ ext .ninf ∧ Holds .ne .nan .nan ∧ ¬ Holds .le .nan .nan := by
  simp [ext, Holds]

theorem stdEqual_iff (l m : List Fl) (h : l.length = m.length) :
    ∃ e, stdEqual l m = .ok e ∧ (e = true ↔ List.Forall₂ (fun u v => Holds .eq u v) l m) := by
  induction l generalizing m with
  | nil =>
    cases m with
    | nil => exact ⟨true, rfl, by simp⟩
    | cons _ _ => simp at h
  | cons a l ih =>
    cases m with
    | nil => simp at h
    | cons b m =>
      rw [stdEqual]
      by_cases hab : ev .eq a b = true
      · rw [if_pos hab]
        obtain ⟨e, h1, h2⟩ := ih m (by simpa using h)
        refine ⟨e, h1, ?_⟩
        rw [h2, List.forall₂_cons]
        exact ⟨fun h => ⟨(ev_iff _ _ _).1 hab, h⟩, fun h => h.2⟩
      · rw [if_neg hab]
        refine ⟨false, rfl, ?_⟩
        rw [List.forall₂_cons, ← ev_iff]
        simp [hab]

/-- C91: all_equal is true exactly if the dimensions are the same and all elements are equal for ==. -/
theorem c91_all_equal (a b : Tensor Fl) (ha : a.WF) (hb : b.WF) (x : Fl) :
    (∃ e, allEqualT a b = .ok e ∧
      (e = true ↔ a.dims = b.dims ∧ List.Forall₂ (fun u v => Holds .eq u v) a.data b.data)) ∧
    (allEqualN a x = true ↔ ∀ u ∈ a.data, Holds .eq u x) := by
  constructor
  · have hd := (c10_all_equal a.dims b.dims ⟨[0], []⟩ ⟨[0], []⟩ rfl rfl 0).1
    by_cases hdims : a.dims = b.dims
    · have hlen : a.data.length = b.data.length := by
        rw [ha, hb, hdims]
      obtain ⟨e, h1, h2⟩ := stdEqual_iff a.data b.data hlen
      refine ⟨e, ?_, by rw [h2]; simp [hdims]⟩
      have he : allEqual a.dims b.dims = .ok true := by
        rw [hd]
        simp [hdims]
      rw [allEqualT, he]
      simp only [Res.ok_bind]
      rw [if_neg (by simp [hdims]), h1]
      simp only [Res.ok_bind]
      cases e <;> rfl
    · refine ⟨false, ?_, by simp [hdims]⟩
      have he : allEqual a.dims b.dims = .ok false := by
        rw [hd]
        simp [hdims]
      rw [allEqualT, he]
      simp only [Res.ok_bind]
      rw [if_pos (by simp)]
      rfl
  · rw [allEqualN]
    cases hf : a.data.find? (fun x' => !ev .eq x' x) with
    | some u =>
      have h1 := List.find?_some hf
      have h2 := List.mem_of_find?_eq_some hf
      simp only [Bool.false_eq_true, false_iff, not_forall]
      refine ⟨u, h2, ?_⟩
      rw [← ev_iff]
      simpa using h1
    | none =>
      simp only [true_iff]
      intro u hu
      rw [List.find?_eq_none] at hf
      have := hf u hu
      rw [← ev_iff]
      simpa using this

/-- C91: a tensor is equal to itself for all_equal exactly if it has no NaN. -/
theorem c91_self (a : Tensor Fl) (ha : a.WF) :
    ∃ e, allEqualT a a = .ok e ∧ (e = true ↔ Fl.nan ∉ a.data) := by
  obtain ⟨e, h1, h2⟩ := (c91_all_equal a a ha ha .nan).1
  refine ⟨e, h1, ?_⟩
  rw [h2]
  simp only [true_and]
  rw [List.forall₂_same]
  constructor
  · intro h hn
    have := h _ hn
    simp [Holds, ext] at this
  · intro h u hu
    cases u <;> simp_all [Holds, ext]

/-! ### Sorting -/

/-- The elements can be sorted: NaN does not occur beside two different numbers. -/
def Sortable (l : List Fl) : Prop := Fl.nan ∈ l → ∀ a ∈ l, ∀ b ∈ l, ¬ Holds .lt a b

theorem holds_lt {a b : Fl} : Holds .lt a b ↔ a < b := by
  have := ev_iff .lt a b
  rw [← this]
  simp [ev]

theorem lt_trans' {a b c : Fl} (h1 : a < b) (h2 : b < c) : a < c := by
  rw [← holds_lt, Holds] at *
  cases ha : ext a <;> cases hb : ext b <;> cases hc : ext c <;> simp_all
  exact h1.trans h2

theorem strictWeakOn_iff (reverse : Bool) (l : List Fl) : StrictWeakOn (before reverse) l ↔ Sortable l := by
  have nolt : ∀ a, ¬ a < Fl.nan ∧ ¬ Fl.nan < a := fun a => ⟨not_lt_nan (Or.inr rfl), not_lt_nan (Or.inl rfl)⟩
  constructor
  · intro h hn a ha b hb hab
    rw [holds_lt] at hab
    have := h.incomp a ha .nan hn b hb
    cases reverse <;> simp only [before, Bool.false_eq_true, if_false, if_true] at this
    · exact (this (nolt a).1 (nolt a).2 (nolt b).2 (nolt b).1).1 hab
    · exact (this (nolt a).2 (nolt a).1 (nolt b).1 (nolt b).2).2 hab
  · intro h
    have irr : ∀ a : Fl, ¬ a < a := by
      intro a
      rw [← holds_lt, Holds]
      cases ext a <;> simp
    have inc : ∀ a ∈ l, ∀ b ∈ l, ∀ c ∈ l, ¬ a < b → ¬ b < a → ¬ b < c → ¬ c < b → ¬ a < c := by
      intro a ha b hb c hc h1 h2 h3 h4 h5
      by_cases hn : Fl.nan ∈ l
      · exact h hn a ha c hc (holds_lt.2 h5)
      · have e : ∀ x ∈ l, ∃ p, ext x = some p := by
          intro x hx
          apply Option.ne_none_iff_exists'.1
          rw [Ne, ← nan_iff]
          rintro rfl
          exact hn hx
        obtain ⟨p, hp⟩ := e a ha
        obtain ⟨q, hq⟩ := e b hb
        obtain ⟨r, hr⟩ := e c hc
        rw [lt_iff hp hq] at h1
        rw [lt_iff hq hp] at h2
        rw [lt_iff hq hr] at h3
        rw [lt_iff hr hq] at h4
        rw [lt_iff hp hr] at h5
        rw [not_lt] at h1 h2 h3 h4
        exact absurd (h5.trans_le (h3.trans h1)) (lt_irrefl _)
    cases reverse
    · exact ⟨fun a _ => irr a, fun a _ b _ c _ => lt_trans', fun a ha b hb c hc h1 h2 h3 h4 =>
        ⟨inc a ha b hb c hc h1 h2 h3 h4, inc c hc b hb a ha h4 h3 h2 h1⟩⟩
    · exact ⟨fun a _ => irr a, fun a _ b _ c _ h1 h2 => lt_trans' h2 h1, fun a ha b hb c hc h1 h2 h3 h4 =>
        ⟨inc c hc b hb a ha h3 h4 h1 h2, inc a ha b hb c hc h2 h1 h4 h3⟩⟩

/-- C91: sort is defined exactly if NaN does not occur beside two different numbers; then the result has the
same elements (the two zeros and NaN as often as before), and no element is before one which is less, or
greater if `reverse`. -/
theorem c91_sort (v : Tensor Fl) (reverse : Bool) (r : Res (Tensor Fl)) (h : SortRes v reverse r) :
    (r = .ub ↔ ¬ Sortable v.data) ∧
    ∀ out, r = .ok out → out.dims = v.dims ∧ out.data.Perm v.data ∧
      out.data.Pairwise fun a b => if reverse then ¬ Holds .lt a b else ¬ Holds .lt b a := by
  rcases h with ⟨h1, out, rfl, h2⟩ | ⟨h1, rfl⟩
  · rw [strictWeakOn_iff] at h1
    refine ⟨by simp [h1], ?_⟩
    rintro o ⟨⟩
    obtain ⟨hd, h2⟩ := h2
    cases reverse
    · exact ⟨hd, h2.1, h2.2.imp fun h => by simpa [holds_lt] using h⟩
    · exact ⟨hd, h2.1, h2.2.imp fun h => by simpa [holds_lt] using h⟩
  · rw [strictWeakOn_iff] at h1
    exact ⟨by simp [h1], by simp⟩

/-- C91: without NaN the result is ordered as extended real numbers. -/
theorem c91_sort_numbers (v : Tensor Fl) (hv : Fl.nan ∉ v.data) (reverse : Bool) (r : Res (Tensor Fl))
    (h : SortRes v reverse r) :
    ∃ out, r = .ok out ∧ out.dims = v.dims ∧ out.data.Perm v.data ∧
      out.data.Pairwise fun a b => if reverse then Holds .ge a b else Holds .le a b := by
  have hs : Sortable v.data := fun hn => absurd hn hv
  obtain ⟨h1, h2⟩ := c91_sort v reverse r h
  rcases h with ⟨-, out, rfl, -⟩ | ⟨h', rfl⟩
  · obtain ⟨d, p, o⟩ := h2 out rfl
    refine ⟨out, rfl, d, p, ?_⟩
    have hn : ∀ a ∈ out.data, ext a ≠ none := by
      intro a ha
      rw [Ne, ← nan_iff]
      rintro rfl
      exact hv (p.mem_iff.1 ha)
    refine o.imp_of_mem ?_
    intro a b ha hb hab
    have ha := hn a ha
    have hb := hn b hb
    obtain ⟨x, hx⟩ := Option.ne_none_iff_exists'.1 ha
    obtain ⟨y, hy⟩ := Option.ne_none_iff_exists'.1 hb
    cases reverse <;> simp only [Bool.false_eq_true, if_false, if_true, Holds, hx, hy, not_lt] at hab ⊢ <;> exact hab
  · exact absurd hs (h1.1 rfl)

theorem comparePos_iff (reverse : Bool) (v : List Fl) {i j : Nat} {a b : Fl} (ha : v[i]? = some a)
    (hb : v[j]? = some b) : Tensor.comparePos reverse v (i : Int) (j : Int) ↔ before reverse a b := by
  rw [Tensor.comparePos, Int.toNat_natCast, Int.toNat_natCast, ha, hb]
  cases reverse <;> rfl

/-- C91: sort_indices is defined exactly if sort is; then the result is a permutation of the positions, and
no position is before that of an element which is less, or greater if `reverse`. -/
theorem c91_sort_indices (v : List Fl) (reverse : Bool) (r : Res (List Int)) (h : SortIndicesRes v reverse r) :
    (r = .ub ↔ ¬ Sortable v) ∧
    ∀ out, r = .ok out → out.Perm ((List.range v.length).map fun i : Nat => (i : Int)) ∧
      ∀ (m n : Nat) (i j : Int) (a b : Fl), m < n → out[m]? = some i → out[n]? = some j →
        v[i.toNat]? = some a → v[j.toNat]? = some b → if reverse then ¬ Holds .lt a b else ¬ Holds .lt b a := by
  rw [SortIndicesRes] at h
  by_cases hv : v.length = 0
  · rw [if_neg (by simpa using hv)] at h
    subst h
    have : v = [] := List.length_eq_zero_iff.1 hv
    subst this
    refine ⟨by simp [Sortable], ?_⟩
    rintro out ⟨⟩
    simp
  · rw [if_pos hv] at h
    obtain ⟨iota, h1, h⟩ := h
    rw [Tensor.iota_eq _ hv, Res.ok.injEq] at h1
    subst h1
    have hmem : ∀ {i : Int}, i ∈ ((List.range v.length).map fun i : Nat => (i : Int)) →
        ∃ k : Nat, i = k ∧ ∃ a, v[k]? = some a ∧ a ∈ v := by
      intro i hi
      obtain ⟨k, hk, rfl⟩ := List.mem_map.1 hi
      have hk := List.mem_range.1 hk
      exact ⟨k, rfl, v[k], List.getElem?_eq_getElem hk, List.getElem_mem hk⟩
    have hpos : ∀ {a : Fl}, a ∈ v → ∃ k : Nat, (k : Int) ∈ ((List.range v.length).map fun i : Nat => (i : Int)) ∧
        v[k]? = some a := by
      intro a ha
      obtain ⟨k, hk, e⟩ := List.mem_iff_getElem.1 ha
      exact ⟨k, List.mem_map.2 ⟨k, List.mem_range.2 hk, rfl⟩, by rw [List.getElem?_eq_getElem hk, e]⟩
    have hsw : StrictWeakOn (Tensor.comparePos reverse v) ((List.range v.length).map fun i : Nat => (i : Int)) ↔
        StrictWeakOn (before reverse) v := by
      constructor
      · rintro ⟨g1, g2, g3⟩
        refine ⟨?_, ?_, ?_⟩
        · intro a ha
          obtain ⟨i, hi, ei⟩ := hpos ha
          have := g1 _ hi
          rwa [comparePos_iff reverse v ei ei] at this
        · intro a ha b hb c hc
          obtain ⟨i, hi, ei⟩ := hpos ha
          obtain ⟨j, hj, ej⟩ := hpos hb
          obtain ⟨k, hk, ek⟩ := hpos hc
          have := g2 _ hi _ hj _ hk
          rwa [comparePos_iff reverse v ei ej, comparePos_iff reverse v ej ek, comparePos_iff reverse v ei ek] at this
        · intro a ha b hb c hc
          obtain ⟨i, hi, ei⟩ := hpos ha
          obtain ⟨j, hj, ej⟩ := hpos hb
          obtain ⟨k, hk, ek⟩ := hpos hc
          have := g3 _ hi _ hj _ hk
          rwa [comparePos_iff reverse v ei ej, comparePos_iff reverse v ej ei, comparePos_iff reverse v ej ek,
            comparePos_iff reverse v ek ej, comparePos_iff reverse v ei ek, comparePos_iff reverse v ek ei] at this
      · rintro ⟨g1, g2, g3⟩
        refine ⟨?_, ?_, ?_⟩
        · intro i hi
          obtain ⟨i, rfl, a, ei, ha⟩ := hmem hi
          rw [comparePos_iff reverse v ei ei]
          exact g1 _ ha
        · intro i hi j hj k hk
          obtain ⟨i, rfl, a, ei, ha⟩ := hmem hi
          obtain ⟨j, rfl, b, ej, hb⟩ := hmem hj
          obtain ⟨k, rfl, c, ek, hc⟩ := hmem hk
          rw [comparePos_iff reverse v ei ej, comparePos_iff reverse v ej ek, comparePos_iff reverse v ei ek]
          exact g2 _ ha _ hb _ hc
        · intro i hi j hj k hk
          obtain ⟨i, rfl, a, ei, ha⟩ := hmem hi
          obtain ⟨j, rfl, b, ej, hb⟩ := hmem hj
          obtain ⟨k, rfl, c, ek, hc⟩ := hmem hk
          rw [comparePos_iff reverse v ei ej, comparePos_iff reverse v ej ei, comparePos_iff reverse v ej ek,
            comparePos_iff reverse v ek ej, comparePos_iff reverse v ei ek, comparePos_iff reverse v ek ei]
          exact g3 _ ha _ hb _ hc
    rw [hsw, strictWeakOn_iff] at h
    rcases h with ⟨h1, out, rfl, h2, h3⟩ | ⟨h1, rfl⟩
    · refine ⟨by simp [h1], ?_⟩
      rintro o ⟨⟩
      refine ⟨h2, ?_⟩
      intro m n i j a b hmn hi hj ha hb
      obtain ⟨hm', hi⟩ := List.getElem?_eq_some_iff.1 hi
      obtain ⟨hn', hj⟩ := List.getElem?_eq_some_iff.1 hj
      have h4 := List.pairwise_iff_getElem.1 h3 m n hm' hn' hmn
      obtain ⟨i', rfl, -⟩ := hmem (h2.mem_iff.1 (hi ▸ List.getElem_mem hm'))
      obtain ⟨j', rfl, -⟩ := hmem (h2.mem_iff.1 (hj ▸ List.getElem_mem hn'))
      rw [Int.toNat_natCast] at ha hb
      rw [hi, hj, comparePos_iff reverse v hb ha] at h4
      cases reverse <;> simpa [before, holds_lt] using h4
    · exact ⟨by simp [h1], by simp⟩

/-- C91, negation: with NaN and two different numbers the behaviour of sort is undefined (of sort_indices too,
`c91_sort_indices`). -/
theorem c91_negation_nan (v : Tensor Fl) (hn : Fl.nan ∈ v.data) {a b : Fl} (ha : a ∈ v.data) (hb : b ∈ v.data)
    (hab : Holds .lt a b) (reverse : Bool) (r : Res (Tensor Fl)) (h : SortRes v reverse r) : r = .ub := by
  rw [(c91_sort v reverse r h).1]
  intro hs
  exact hs hn a ha b hb hab

example : ∃ v : Tensor Fl, Fl.nan ∈ v.data ∧ ∃ a ∈ v.data, ∃ b ∈ v.data, Holds .lt a b := by
  refine ⟨⟨[3], [.fin 1, .nan, .pinf]⟩, by simp, .fin 1, by simp, .pinf, by simp, ?_⟩
  simp only [Holds, ext]
  exact EReal.coe_lt_top 1

example : SortRes ⟨[2], [.fin 1, .pinf]⟩ false (.ok ⟨[2], [.fin 1, .pinf]⟩) := by
  refine Or.inl ⟨(strictWeakOn_iff _ _).2 (by intro h; simp at h), _, rfl, rfl, List.Perm.refl _, ?_⟩
  simp only [List.pairwise_cons, List.mem_singleton, forall_eq, List.not_mem_nil, false_imp_iff, implies_true,
    List.Pairwise.nil, and_true]
  rw [← holds_lt]
  simp [Holds, ext]

end Verif.FlCmp
