import Mathlib.Data.List.Sort
import Verif.Model.Sort
import Verif.Props.Indices
/-
C34: sorting.
-/
namespace Verif.Tensor

open Verif

variable {α : Type}

theorem strictWeak_key {β : Type} [LinearOrder β] (key : α → β) :
    StrictWeak (fun a b => key a < key b) ∧ StrictWeak (fun a b => key a > key b) := by
  constructor
  · refine ⟨fun a => lt_irrefl _, fun a b c => lt_trans, ?_⟩
    intro a b c h1 h2 h3 h4
    have e1 := le_antisymm (not_lt.mp h2) (not_lt.mp h1)
    have e2 := le_antisymm (not_lt.mp h4) (not_lt.mp h3)
    rw [e1, e2]; simp
  · refine ⟨fun a => lt_irrefl _, fun a b c h1 h2 => lt_trans h2 h1, ?_⟩
    intro a b c h1 h2 h3 h4
    have e1 := le_antisymm (not_lt.mp h2) (not_lt.mp h1)
    have e2 := le_antisymm (not_lt.mp h4) (not_lt.mp h3)
    rw [← e1, ← e2]; simp

/-- C34: sort returns the elements of its argument (each as often as it occurs), in increasing order,
or in decreasing order if `reverse`; the dimensions remain. -/
theorem c34_sort [LinearOrder α] (v out : Tensor α) (reverse : Bool) (h : SortD v reverse out) :
    out.dims = v.dims ∧ out.data.Perm v.data ∧
      (reverse = false → out.data.Pairwise (· ≤ ·)) ∧
      (reverse = true → out.data.Pairwise (· ≥ ·)) := by
  obtain ⟨hd, h⟩ := h
  cases reverse with
  | false =>
    obtain ⟨h1, h2⟩ := h
    exact ⟨hd, h1, fun _ => h2.imp fun h => not_lt.mp h, by simp⟩
  | true =>
    obtain ⟨h1, h2⟩ := h
    exact ⟨hd, h1, by simp, fun _ => h2.imp fun h => not_lt.mp h⟩

/-- C34: the requirement of std::sort is met, there is a result, and only one. -/
theorem c34_sort_defined [LinearOrder α] (v : Tensor α) (reverse : Bool) :
    StrictWeak (fun a b : α => a < b) ∧ StrictWeak (fun a b : α => a > b) ∧
    ∃! out, SortD v reverse out := by
  refine ⟨(strictWeak_key id).1, (strictWeak_key id).2, ?_⟩
  cases reverse with
  | false =>
    refine ⟨⟨v.dims, v.data.insertionSort (· ≤ ·)⟩, ⟨rfl, List.perm_insertionSort _ _, ?_⟩, ?_⟩
    · exact (List.pairwise_insertionSort (· ≤ ·) v.data).imp fun h => not_lt.mpr h
    · rintro ⟨d, l⟩ ⟨hd, h1, h2⟩
      simp only at hd h1 h2
      subst hd
      congr 1
      refine List.Perm.eq_of_pairwise' (r := (· ≤ ·)) (h2.imp fun h => not_lt.mp h)
        (List.pairwise_insertionSort (· ≤ ·) v.data) (h1.trans (List.perm_insertionSort _ _).symm)
  | true =>
    refine ⟨⟨v.dims, v.data.insertionSort (· ≥ ·)⟩, ⟨rfl, List.perm_insertionSort _ _, ?_⟩, ?_⟩
    · exact (List.pairwise_insertionSort (· ≥ ·) v.data).imp fun h => not_lt.mpr h
    · rintro ⟨d, l⟩ ⟨hd, h1, h2⟩
      simp only at hd h1 h2
      subst hd
      congr 1
      refine List.Perm.eq_of_pairwise' (r := (· ≥ ·)) (h2.imp fun h => not_lt.mp h)
        (List.pairwise_insertionSort (· ≥ ·) v.data) (h1.trans (List.perm_insertionSort _ _).symm)

/-- C34: sort of indices with absolute values up to 2^53. What is missing is `c34_sort_large`. -/
theorem c34_sort_integers_partial (v out : List Int) (reverse : Bool) (h : SortI v reverse out)
    (hv : ∀ x ∈ v, x.natAbs ≤ 2 ^ 53) :
    out.Perm v ∧ (reverse = false → out.Pairwise (· ≤ ·)) ∧
      (reverse = true → out.Pairwise (· ≥ ·)) := by
  cases reverse with
  | false =>
    obtain ⟨h1, h2⟩ := h
    refine ⟨h1, fun _ => ?_, by simp⟩
    refine h2.imp_of_mem ?_
    intro a b ha hb hab
    simp only at hab
    rw [toDouble_small (hv a (h1.mem_iff.mp ha)), toDouble_small (hv b (h1.mem_iff.mp hb))] at hab
    omega
  | true =>
    obtain ⟨h1, h2⟩ := h
    refine ⟨h1, by simp, fun _ => ?_⟩
    refine h2.imp_of_mem ?_
    intro a b ha hb hab
    simp only at hab
    rw [toDouble_small (hv a (h1.mem_iff.mp ha)), toDouble_small (hv b (h1.mem_iff.mp hb))] at hab
    show b ≤ a
    omega

/-- C34: sort of indices is always a rearrangement, and the requirement of std::sort is met. -/
theorem c34_sort_integers_defined (v : List Int) (reverse : Bool) :
    StrictWeak (fun a b => toDouble a < toDouble b) ∧
    StrictWeak (fun a b => toDouble a > toDouble b) ∧ ∃ out, SortI v reverse out := by
  refine ⟨(strictWeak_key toDouble).1, (strictWeak_key toDouble).2, ?_⟩
  cases reverse with
  | false =>
    let r : Int → Int → Prop := fun a b => toDouble a ≤ toDouble b
    have : Std.Total r := ⟨fun a b => le_total _ _⟩
    have : IsTrans Int r := ⟨fun a b c h1 h2 => le_trans h1 h2⟩
    have : DecidableRel r := fun a b => inferInstanceAs (Decidable (toDouble a ≤ toDouble b))
    exact ⟨v.insertionSort r, List.perm_insertionSort _ _,
      (List.pairwise_insertionSort r v).imp fun h => not_lt.mpr h⟩
  | true =>
    let r : Int → Int → Prop := fun a b => toDouble b ≤ toDouble a
    have : Std.Total r := ⟨fun a b => le_total _ _⟩
    have : IsTrans Int r := ⟨fun a b c h1 h2 => le_trans h2 h1⟩
    have : DecidableRel r := fun a b => inferInstanceAs (Decidable (toDouble b ≤ toDouble a))
    exact ⟨v.insertionSort r, List.perm_insertionSort _ _,
      (List.pairwise_insertionSort r v).imp fun h => not_lt.mpr h⟩

/-- C34 is false for large indices: they are compared after conversion to double. -/
theorem c34_sort_large :
    SortI [2 ^ 53 + 1, 2 ^ 53] false [2 ^ 53 + 1, 2 ^ 53] ∧
    ¬ ([2 ^ 53 + 1, 2 ^ 53] : List Int).Pairwise (· ≤ ·) := by
  refine ⟨⟨List.Perm.refl _, ?_⟩, by decide⟩
  simp only [List.pairwise_cons, List.mem_singleton, forall_eq, List.not_mem_nil,
    false_imp_iff, implies_true, List.Pairwise.nil, and_true]
  decide

theorem iota_eq (n : Nat) (hn : n ≠ 0) :
    Indices.range 0 ((n : Int) - 1) 1 = .ok ((List.range n).map fun i : Nat => (i : Int)) := by
  have key : ∀ k (m : Int), Indices.rangeLoop 1 k m = (List.range k).map fun i : Nat => m + (i : Int) := by
    intro k
    induction k with
    | zero => intro m; rfl
    | succ k ih =>
      intro m
      rw [Indices.rangeLoop, ih, List.range_succ_eq_map]
      simp only [List.map_cons, List.map_map, Nat.cast_zero, add_zero, List.cons.injEq, true_and]
      apply List.map_congr_left
      intro i _
      simp only [Function.comp_apply, Nat.cast_succ]
      ring
  rw [Indices.range, if_neg (by omega), if_neg (by omega)]
  simp only [Int.tdiv_one]
  rw [if_neg (by omega), key, show ((n : Int) - 1 - 0 + 1).toNat = n by omega]
  simp

/-- C34: sort_indices returns a permutation of the positions, and reading the argument in this order
gives an ordered sequence. -/
theorem c34_sort_indices [LinearOrder α] (v : List α) (reverse : Bool) (out : List Int)
    (h : SortIndices v reverse out) :
    out.Perm ((List.range v.length).map fun i : Nat => (i : Int)) ∧
    ∃ w : List α, out.map (fun i => v[i.toNat]?) = w.map some ∧ w.Perm v ∧
      (reverse = false → w.Pairwise (· ≤ ·)) ∧ (reverse = true → w.Pairwise (· ≥ ·)) := by
  have hp : out.Perm ((List.range v.length).map fun i : Nat => (i : Int)) ∧
      out.Pairwise fun a b => ¬ comparePos reverse v b a := by
    rw [SortIndices] at h
    split at h
    · rename_i hv
      obtain ⟨iota, e, h1, h2⟩ := h
      rw [iota_eq _ hv, Res.ok.injEq] at e
      rw [← e] at h1
      exact ⟨h1, h2⟩
    · rename_i hv
      have hv : v.length = 0 := by simpa using hv
      subst h
      simp [hv]
  obtain ⟨hp, hs⟩ := hp
  refine ⟨hp, ?_⟩
  have hmem : ∀ i ∈ out, ∃ k < v.length, i = (k : Int) := by
    intro i hi
    have := hp.mem_iff.mp hi
    simp only [List.mem_map, List.mem_range] at this
    obtain ⟨k, hk, rfl⟩ := this
    exact ⟨k, hk, rfl⟩
  have hall : ∀ o ∈ out.map (fun i => v[i.toNat]?), o.isSome := by
    intro o ho
    obtain ⟨i, hi, rfl⟩ := List.mem_map.mp ho
    obtain ⟨k, hk, rfl⟩ := hmem i hi
    simp [hk]
  refine ⟨out.filterMap fun i => v[i.toNat]?, ?_, ?_, ?_, ?_⟩
  · clear hp hs hmem h
    induction out with
    | nil => rfl
    | cons x xs ih =>
      simp only [List.map_cons, List.mem_cons, forall_eq_or_imp] at hall
      obtain ⟨y, hy⟩ := Option.isSome_iff_exists.mp hall.1
      rw [List.map_cons, List.filterMap_cons_some (f := fun i : Int => v[i.toNat]?) (b := y) hy, List.map_cons,
        ih hall.2, hy]
  · have h1 := hp.filterMap fun i => v[i.toNat]?
    have h2 : ((List.range v.length).map fun i : Nat => (i : Int)).filterMap (fun i => v[i.toNat]?) = v := by
      rw [List.filterMap_map]
      have : ∀ l : List α, (List.range l.length).filterMap (fun i => l[i]?) = l := by
        intro l
        induction l with
        | nil => rfl
        | cons x xs ih =>
          rw [List.length_cons, List.range_succ_eq_map, List.filterMap_cons_some (b := x) (by simp),
            List.filterMap_map]
          congr 1
      exact this v
    rw [h2] at h1
    exact h1
  · intro hr
    subst hr
    refine List.Pairwise.filterMap (R := fun a b => ¬ comparePos false v b a) _ ?_ hs
    intro a a' hc b hb b' hb'
    by_contra hlt
    have hlt := not_le.mp hlt
    exact hc (by rw [comparePos, Option.mem_def.mp hb, Option.mem_def.mp hb']; simpa using hlt)
  · intro hr
    subst hr
    refine List.Pairwise.filterMap (R := fun a b => ¬ comparePos true v b a) _ ?_ hs
    intro a a' hc b hb b' hb'
    by_contra hlt
    have hlt := not_le.mp hlt
    exact hc (by rw [comparePos, Option.mem_def.mp hb, Option.mem_def.mp hb']; simpa using hlt)

/-- sort_indices has a result. -/
theorem sort_indices_exists [LinearOrder α] (v : List α) (reverse : Bool) :
    ∃ out, SortIndices v reverse out := by
  by_cases hv : v.length = 0
  · exact ⟨[], by rw [SortIndices, if_neg (by simpa using hv)]⟩
  · obtain ⟨d, hd⟩ : ∃ d, d ∈ v := List.exists_mem_of_length_pos (Nat.pos_of_ne_zero hv)
    have key : ∀ (r : Int → Int → Prop), DecidableRel r → Std.Total r → IsTrans Int r →
        (∀ a b, r a b → ¬ comparePos reverse v b a) → ∃ out, SortIndices v reverse out := by
      intro r _ _ _ h
      refine ⟨((List.range v.length).map fun i : Nat => (i : Int)).insertionSort r, ?_⟩
      rw [SortIndices, if_pos (by simpa using hv)]
      exact ⟨_, iota_eq _ hv, List.perm_insertionSort _ _, (List.pairwise_insertionSort r _).imp fun {a b} => h a b⟩
    cases reverse
    · refine key (fun i j => v.getD i.toNat d ≤ v.getD j.toNat d) (fun a b => inferInstance)
        ⟨fun a b => le_total (v.getD a.toNat d) (v.getD b.toNat d)⟩ ⟨fun a b c h1 h2 => le_trans (α := α) h1 h2⟩
        fun a b h => ?_
      simp only [List.getD_eq_getElem?_getD] at h
      rw [comparePos]
      split
      · rename_i x y hx hy
        rw [hx, hy] at h
        simpa using h
      · exact not_false
    · refine key (fun i j => v.getD j.toNat d ≤ v.getD i.toNat d) (fun a b => inferInstance)
        ⟨fun a b => le_total (v.getD b.toNat d) (v.getD a.toNat d)⟩ ⟨fun a b c h1 h2 => le_trans (α := α) h2 h1⟩
        fun a b h => ?_
      simp only [List.getD_eq_getElem?_getD] at h
      rw [comparePos]
      split
      · rename_i x y hx hy
        rw [hx, hy] at h
        simpa using h
      · exact not_false

/-- Cases in which the hypotheses hold. -/
example : SortD (⟨[3], [3, 1, 2]⟩ : Tensor Int) true ⟨[3], [3, 2, 1]⟩ :=
  ⟨rfl, by decide, by simp⟩
example : SortIndices ([3, 1, 2] : List Int) false [1, 2, 0] :=
  ⟨[0, 1, 2], by decide, by decide, by simp [comparePos]⟩

end Verif.Tensor
