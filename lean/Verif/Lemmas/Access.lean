import Verif.Lemmas.Index
/-
Lemmas about element access.
-/
namespace Verif.Tensor

open Spec

variable {α : Type}

theorem normalizeIndex_eq (i : Int) (d : Nat) :
    normalizeIndex i d = match norm d i with
      | some j => .ok (j : Int)
      | none => .abort := by
  unfold normalizeIndex norm
  by_cases h1 : 0 ≤ i ∧ i < d
  · have h2 : ¬ i < 0 := by omega
    simp only [if_pos h1, if_neg h2]
    rw [Res.assert_pos ⟨h1.2, h1.1⟩]
    simp [h1.1]
  · by_cases h3 : -(d : Int) ≤ i ∧ i < 0
    · simp only [if_neg h1, if_pos h3, if_pos h3.2]
      rw [Res.assert_pos (by omega)]
      have : 0 ≤ i + (d : Int) := by omega
      simp [this]
    · simp only [if_neg h1, if_neg h3]
      rw [Res.assert_neg]
      · rfl
      · split <;> omega

theorem norm_lt {d : Nat} {i : Int} {j : Nat} (h : norm d i = some j) : j < d := by
  unfold norm at h
  split at h
  · simp at h; omega
  · split at h
    · simp at h; omega
    · simp at h

theorem normAll_InB {dims : List Nat} {idx : List Int} {js : List Nat}
    (h : normAll dims idx = some js) : InB js dims := by
  induction dims generalizing idx js with
  | nil => cases idx with
    | nil => simp [normAll] at h; subst h; trivial
    | cons => simp [normAll] at h
  | cons d ds ih => cases idx with
    | nil => simp [normAll] at h
    | cons i is =>
      simp only [normAll, Option.bind_eq_bind, Option.bind_eq_some_iff] at h
      obtain ⟨j, hj, r, hr, e⟩ := h
      simp at e; subst e
      exact ⟨norm_lt hj, ih hr⟩

/-- All `get` overloads at once. -/
def getGen (t : Tensor α) (idx : List Int) : Res α :=
  match normAll t.dims idx with
  | some js => t.dataAt (colPos t.dims js : Nat)
  | none => .abort

/-- All `set` overloads (except the one with a single index) at once. -/
def setGen (t : Tensor α) (idx : List Int) (v : α) : Res (Tensor α) :=
  match normAll t.dims idx with
  | some js => t.dataSet (colPos t.dims js : Nat) v
  | none => .abort

theorem get1_eq (t : Tensor α) (i1 : Int) : t.get1 i1 = getGen t [i1] := by
  obtain ⟨dims, data⟩ := t
  rcases dims with _ | ⟨d1, _ | ⟨d2, ds⟩⟩ <;> simp only [get1, getGen, normAll]
  · simp only [normalizeIndex_eq]
    cases h1 : norm d1 i1 <;> simp
  · cases h1 : norm d1 i1 <;> simp

theorem get2_eq (t : Tensor α) (i1 i2 : Int) : t.get2 i1 i2 = getGen t [i1, i2] := by
  obtain ⟨dims, data⟩ := t
  rcases dims with _ | ⟨d1, _ | ⟨d2, _ | ⟨d3, ds⟩⟩⟩ <;> simp only [get2, getGen, normAll]
  · cases h1 : norm d1 i1 <;> simp
  · simp only [normalizeIndex_eq]
    cases h1 : norm d1 i1 <;> cases h2 : norm d2 i2 <;> simp
    congr 1; ring
  · cases h1 : norm d1 i1 <;> cases h2 : norm d2 i2 <;> simp

theorem get3_eq (t : Tensor α) (i1 i2 i3 : Int) : t.get3 i1 i2 i3 = getGen t [i1, i2, i3] := by
  obtain ⟨dims, data⟩ := t
  rcases dims with _ | ⟨d1, _ | ⟨d2, _ | ⟨d3, _ | ⟨d4, ds⟩⟩⟩⟩ <;> simp only [get3, getGen, normAll]
  · cases h1 : norm d1 i1 <;> simp
  · cases h1 : norm d1 i1 <;> cases h2 : norm d2 i2 <;> simp
  · simp only [normalizeIndex_eq]
    cases h1 : norm d1 i1 <;> cases h2 : norm d2 i2 <;> cases h3 : norm d3 i3 <;> simp
    congr 1; ring
  · cases h1 : norm d1 i1 <;> cases h2 : norm d2 i2 <;> cases h3 : norm d3 i3 <;> simp

theorem get4_eq (t : Tensor α) (i1 i2 i3 i4 : Int) :
    t.get4 i1 i2 i3 i4 = getGen t [i1, i2, i3, i4] := by
  obtain ⟨dims, data⟩ := t
  rcases dims with _ | ⟨d1, _ | ⟨d2, _ | ⟨d3, _ | ⟨d4, _ | ⟨d5, ds⟩⟩⟩⟩⟩ <;>
    simp only [get4, getGen, normAll]
  · cases h1 : norm d1 i1 <;> simp
  · cases h1 : norm d1 i1 <;> cases h2 : norm d2 i2 <;> simp
  · cases h1 : norm d1 i1 <;> cases h2 : norm d2 i2 <;> cases h3 : norm d3 i3 <;> simp
  · simp only [normalizeIndex_eq]
    cases h1 : norm d1 i1 <;> cases h2 : norm d2 i2 <;> cases h3 : norm d3 i3 <;>
      cases h4 : norm d4 i4 <;> simp
    congr 1; ring
  · cases h1 : norm d1 i1 <;> cases h2 : norm d2 i2 <;> cases h3 : norm d3 i3 <;>
      cases h4 : norm d4 i4 <;> simp

theorem get5_eq (t : Tensor α) (i1 i2 i3 i4 i5 : Int) :
    t.get5 i1 i2 i3 i4 i5 = getGen t [i1, i2, i3, i4, i5] := by
  obtain ⟨dims, data⟩ := t
  rcases dims with _ | ⟨d1, _ | ⟨d2, _ | ⟨d3, _ | ⟨d4, _ | ⟨d5, _ | ⟨d6, ds⟩⟩⟩⟩⟩⟩ <;>
    simp only [get5, getGen, normAll]
  · cases h1 : norm d1 i1 <;> simp
  · cases h1 : norm d1 i1 <;> cases h2 : norm d2 i2 <;> simp
  · cases h1 : norm d1 i1 <;> cases h2 : norm d2 i2 <;> cases h3 : norm d3 i3 <;> simp
  · cases h1 : norm d1 i1 <;> cases h2 : norm d2 i2 <;> cases h3 : norm d3 i3 <;>
      cases h4 : norm d4 i4 <;> simp
  · simp only [normalizeIndex_eq]
    cases h1 : norm d1 i1 <;> cases h2 : norm d2 i2 <;> cases h3 : norm d3 i3 <;>
      cases h4 : norm d4 i4 <;> cases h5 : norm d5 i5 <;> simp
    congr 1; ring
  · cases h1 : norm d1 i1 <;> cases h2 : norm d2 i2 <;> cases h3 : norm d3 i3 <;>
      cases h4 : norm d4 i4 <;> cases h5 : norm d5 i5 <;> simp

theorem get6_eq (t : Tensor α) (i1 i2 i3 i4 i5 i6 : Int) :
    t.get6 i1 i2 i3 i4 i5 i6 = getGen t [i1, i2, i3, i4, i5, i6] := by
  obtain ⟨dims, data⟩ := t
  rcases dims with _ | ⟨d1, _ | ⟨d2, _ | ⟨d3, _ | ⟨d4, _ | ⟨d5, _ | ⟨d6, _ | ⟨d7, ds⟩⟩⟩⟩⟩⟩⟩ <;>
    simp only [get6, getGen, normAll]
  · cases h1 : norm d1 i1 <;> simp
  · cases h1 : norm d1 i1 <;> cases h2 : norm d2 i2 <;> simp
  · cases h1 : norm d1 i1 <;> cases h2 : norm d2 i2 <;> cases h3 : norm d3 i3 <;> simp
  · cases h1 : norm d1 i1 <;> cases h2 : norm d2 i2 <;> cases h3 : norm d3 i3 <;>
      cases h4 : norm d4 i4 <;> simp
  · cases h1 : norm d1 i1 <;> cases h2 : norm d2 i2 <;> cases h3 : norm d3 i3 <;>
      cases h4 : norm d4 i4 <;> cases h5 : norm d5 i5 <;> simp
  · simp only [normalizeIndex_eq]
    cases h1 : norm d1 i1 <;> cases h2 : norm d2 i2 <;> cases h3 : norm d3 i3 <;>
      cases h4 : norm d4 i4 <;> cases h5 : norm d5 i5 <;> cases h6 : norm d6 i6 <;> simp
    congr 1; ring
  · cases h1 : norm d1 i1 <;> cases h2 : norm d2 i2 <;> cases h3 : norm d3 i3 <;>
      cases h4 : norm d4 i4 <;> cases h5 : norm d5 i5 <;> cases h6 : norm d6 i6 <;> simp

theorem set2_eq (t : Tensor α) (i1 i2 : Int) (v : α) :
    t.set2 i1 i2 v = setGen t [i1, i2] v := by
  obtain ⟨dims, data⟩ := t
  rcases dims with _ | ⟨d1, _ | ⟨d2, _ | ⟨d3, ds⟩⟩⟩ <;> simp only [set2, setGen, normAll]
  · cases h1 : norm d1 i1 <;> simp
  · simp only [normalizeIndex_eq]
    cases h1 : norm d1 i1 <;> cases h2 : norm d2 i2 <;> simp
    congr 1; ring
  · cases h1 : norm d1 i1 <;> cases h2 : norm d2 i2 <;> simp

theorem set3_eq (t : Tensor α) (i1 i2 i3 : Int) (v : α) :
    t.set3 i1 i2 i3 v = setGen t [i1, i2, i3] v := by
  obtain ⟨dims, data⟩ := t
  rcases dims with _ | ⟨d1, _ | ⟨d2, _ | ⟨d3, _ | ⟨d4, ds⟩⟩⟩⟩ <;> simp only [set3, setGen, normAll]
  · cases h1 : norm d1 i1 <;> simp
  · cases h1 : norm d1 i1 <;> cases h2 : norm d2 i2 <;> simp
  · simp only [normalizeIndex_eq]
    cases h1 : norm d1 i1 <;> cases h2 : norm d2 i2 <;> cases h3 : norm d3 i3 <;> simp
    congr 1; ring
  · cases h1 : norm d1 i1 <;> cases h2 : norm d2 i2 <;> cases h3 : norm d3 i3 <;> simp

theorem set4_eq (t : Tensor α) (i1 i2 i3 i4 : Int) (v : α) :
    t.set4 i1 i2 i3 i4 v = setGen t [i1, i2, i3, i4] v := by
  obtain ⟨dims, data⟩ := t
  rcases dims with _ | ⟨d1, _ | ⟨d2, _ | ⟨d3, _ | ⟨d4, _ | ⟨d5, ds⟩⟩⟩⟩⟩ <;>
    simp only [set4, setGen, normAll]
  · cases h1 : norm d1 i1 <;> simp
  · cases h1 : norm d1 i1 <;> cases h2 : norm d2 i2 <;> simp
  · cases h1 : norm d1 i1 <;> cases h2 : norm d2 i2 <;> cases h3 : norm d3 i3 <;> simp
  · simp only [normalizeIndex_eq]
    cases h1 : norm d1 i1 <;> cases h2 : norm d2 i2 <;> cases h3 : norm d3 i3 <;>
      cases h4 : norm d4 i4 <;> simp
    congr 1; ring
  · cases h1 : norm d1 i1 <;> cases h2 : norm d2 i2 <;> cases h3 : norm d3 i3 <;>
      cases h4 : norm d4 i4 <;> simp

theorem set5_eq (t : Tensor α) (i1 i2 i3 i4 i5 : Int) (v : α) :
    t.set5 i1 i2 i3 i4 i5 v = setGen t [i1, i2, i3, i4, i5] v := by
  obtain ⟨dims, data⟩ := t
  rcases dims with _ | ⟨d1, _ | ⟨d2, _ | ⟨d3, _ | ⟨d4, _ | ⟨d5, _ | ⟨d6, ds⟩⟩⟩⟩⟩⟩ <;>
    simp only [set5, setGen, normAll]
  · cases h1 : norm d1 i1 <;> simp
  · cases h1 : norm d1 i1 <;> cases h2 : norm d2 i2 <;> simp
  · cases h1 : norm d1 i1 <;> cases h2 : norm d2 i2 <;> cases h3 : norm d3 i3 <;> simp
  · cases h1 : norm d1 i1 <;> cases h2 : norm d2 i2 <;> cases h3 : norm d3 i3 <;>
      cases h4 : norm d4 i4 <;> simp
  · simp only [normalizeIndex_eq]
    cases h1 : norm d1 i1 <;> cases h2 : norm d2 i2 <;> cases h3 : norm d3 i3 <;>
      cases h4 : norm d4 i4 <;> cases h5 : norm d5 i5 <;> simp
    congr 1; ring
  · cases h1 : norm d1 i1 <;> cases h2 : norm d2 i2 <;> cases h3 : norm d3 i3 <;>
      cases h4 : norm d4 i4 <;> cases h5 : norm d5 i5 <;> simp

theorem set6_eq (t : Tensor α) (i1 i2 i3 i4 i5 i6 : Int) (v : α) :
    t.set6 i1 i2 i3 i4 i5 i6 v = setGen t [i1, i2, i3, i4, i5, i6] v := by
  obtain ⟨dims, data⟩ := t
  rcases dims with _ | ⟨d1, _ | ⟨d2, _ | ⟨d3, _ | ⟨d4, _ | ⟨d5, _ | ⟨d6, _ | ⟨d7, ds⟩⟩⟩⟩⟩⟩⟩ <;>
    simp only [set6, setGen, normAll]
  · cases h1 : norm d1 i1 <;> simp
  · cases h1 : norm d1 i1 <;> cases h2 : norm d2 i2 <;> simp
  · cases h1 : norm d1 i1 <;> cases h2 : norm d2 i2 <;> cases h3 : norm d3 i3 <;> simp
  · cases h1 : norm d1 i1 <;> cases h2 : norm d2 i2 <;> cases h3 : norm d3 i3 <;>
      cases h4 : norm d4 i4 <;> simp
  · cases h1 : norm d1 i1 <;> cases h2 : norm d2 i2 <;> cases h3 : norm d3 i3 <;>
      cases h4 : norm d4 i4 <;> cases h5 : norm d5 i5 <;> simp
  · simp only [normalizeIndex_eq]
    cases h1 : norm d1 i1 <;> cases h2 : norm d2 i2 <;> cases h3 : norm d3 i3 <;>
      cases h4 : norm d4 i4 <;> cases h5 : norm d5 i5 <;> cases h6 : norm d6 i6 <;> simp
    congr 1; ring
  · cases h1 : norm d1 i1 <;> cases h2 : norm d2 i2 <;> cases h3 : norm d3 i3 <;>
      cases h4 : norm d4 i4 <;> cases h5 : norm d5 i5 <;> cases h6 : norm d6 i6 <;> simp

theorem get_eq_getGen (t : Tensor α) (idx : List Int) (h1 : 1 ≤ idx.length)
    (h6 : idx.length ≤ 6) : t.get idx = getGen t idx := by
  match idx, h1, h6 with
  | [i1], _, _ => exact get1_eq t i1
  | [i1, i2], _, _ => exact get2_eq t i1 i2
  | [i1, i2, i3], _, _ => exact get3_eq t i1 i2 i3
  | [i1, i2, i3, i4], _, _ => exact get4_eq t i1 i2 i3 i4
  | [i1, i2, i3, i4, i5], _, _ => exact get5_eq t i1 i2 i3 i4 i5
  | [i1, i2, i3, i4, i5, i6], _, _ => exact get6_eq t i1 i2 i3 i4 i5 i6
  | _ :: _ :: _ :: _ :: _ :: _ :: _ :: _, _, h => simp at h

theorem set_eq_setGen (t : Tensor α) (idx : List Int) (v : α) (h1 : 2 ≤ idx.length)
    (h6 : idx.length ≤ 6) : t.set idx v = setGen t idx v := by
  match idx, h1, h6 with
  | [i1, i2], _, _ => exact set2_eq t i1 i2 v
  | [i1, i2, i3], _, _ => exact set3_eq t i1 i2 i3 v
  | [i1, i2, i3, i4], _, _ => exact set4_eq t i1 i2 i3 i4 v
  | [i1, i2, i3, i4, i5], _, _ => exact set5_eq t i1 i2 i3 i4 i5 v
  | [i1, i2, i3, i4, i5, i6], _, _ => exact set6_eq t i1 i2 i3 i4 i5 i6 v
  | _ :: _ :: _ :: _ :: _ :: _ :: _ :: _, _, h => simp at h

theorem WF.length_eq {t : Tensor α} (h : t.WF) (hd : t.dims ≠ []) :
    t.data.length = prod t.dims := by
  rw [h, totalSize_of_ne hd]

/-- In a well formed tensor every valid index tuple has an element. -/
theorem elem_some {t : Tensor α} (h : t.WF) {js : List Nat} (hj : InB js t.dims)
    (hne : js ≠ []) :
    ∃ v, elem t.dims t.data js = some v ∧ t.data[colPos t.dims js]? = some v := by
  have hd : t.dims ≠ [] := by
    intro e
    have := hj.length
    simp [e] at this
    exact hne this
  have hlt : colPos t.dims js < t.data.length := by
    rw [h.length_eq hd]; exact colPos_lt hj
  refine ⟨t.data[colPos t.dims js], ?_, List.getElem?_eq_getElem hlt⟩
  simp [elem, hj, hlt]

theorem foldl_none (l : List Int) :
    l.foldl (fun (aux : Option Int) x => aux.bind fun a => if x < 0 then none else some (a * x))
      none = none := by
  induction l with
  | nil => rfl
  | cons x l ih => simp [ih]

theorem foldl_neg (l : List Int) (a : Option Int) (h : ∃ x ∈ l, x < 0) :
    l.foldl (fun (aux : Option Int) x => aux.bind fun a => if x < 0 then none else some (a * x))
      a = none := by
  induction l generalizing a with
  | nil => simp at h
  | cons x l ih =>
    rcases h with ⟨y, hy, hneg⟩
    rcases List.mem_cons.1 hy with rfl | hy
    · cases a <;> simp [hneg, foldl_none]
    · exact ih _ ⟨y, hy, hneg⟩

theorem foldl_nat (l : List Nat) (a : Nat) :
    (l.map Int.ofNat).foldl
      (fun (aux : Option Int) x => aux.bind fun a => if x < 0 then none else some (a * x))
      (some (a : Int)) = some ((a * prod l : Nat) : Int) := by
  induction l generalizing a with
  | nil => simp
  | cons x l ih =>
    have hx : ¬ (Int.ofNat x < 0) := by simp
    have := ih (a * x)
    simp only [List.map_cons, List.foldl_cons, Option.bind_some, if_neg hx, prod_cons]
    have e : ((a : Int) * Int.ofNat x) = ((a * x : Nat) : Int) := by simp
    rw [e, this]
    congr 2
    ring

end Verif.Tensor
