import Verif.Lemmas.Indices
/-
C07 - C10: index lists, generators, booleans and comparisons.
-/
namespace Verif.Indices

variable {α : Type}

/-- C07: for a positive step, Indices::range(min, max, step) succeeds, its elements are
min, min + step, ... in this order, and they are all the values min + k step (k natural) not above
max. In particular it is empty if max < min. -/
theorem c07_range (min max step : Int) (hs : 0 < step) :
    ∃ r, range min max step = .ok r ∧
      (∀ (i : Nat) x, r[i]? = some x → x = min + i * step) ∧
      (∀ x, x ∈ r ↔ ∃ k : Nat, x = min + k * step ∧ x ≤ max) ∧
      r.Pairwise (· < ·) := by
  unfold range
  by_cases h : max < min
  · refine ⟨[], by simp [h], by simp, ?_, by simp⟩
    intro x
    simp only [List.not_mem_nil, false_iff, not_exists, not_and]
    intro k hk
    have : 0 ≤ (k : Int) * step := by positivity
    omega
  · have hd : 0 ≤ max - min := by omega
    have hq : (max - min).tdiv step = (max - min) / step := Int.tdiv_eq_ediv_of_nonneg hd
    have hq0 : 0 ≤ (max - min) / step := Int.ediv_nonneg hd hs.le
    simp only [if_neg h, if_neg hs.ne', hq]
    rw [if_neg (by omega)]
    set n := ((max - min) / step + 1).toNat with hn
    have get := rangeLoop_get step n min
    have len := rangeLoop_length step n min
    refine ⟨_, rfl, ?_, ?_, ?_⟩
    · intro i x hx
      have hi : i < n := by
        rw [← len]
        exact (List.getElem?_eq_some_iff.1 hx).1
      rw [get i hi] at hx
      simp at hx
      exact hx.symm
    · intro x
      have hle : ∀ k : Nat, k < n ↔ min + k * step ≤ max := by
        intro k
        have : (k : Int) ≤ (max - min) / step ↔ k * step ≤ max - min := Int.le_ediv_iff_mul_le hs
        omega
      constructor
      · intro hx
        obtain ⟨i, hi, e⟩ := List.mem_iff_getElem.1 hx
        have hi' : i < n := by rw [← len]; exact hi
        have := get i hi'
        rw [List.getElem?_eq_getElem hi, e] at this
        simp at this
        exact ⟨i, this, this ▸ (hle i).1 hi'⟩
      · rintro ⟨k, rfl, hk⟩
        exact List.mem_of_getElem? (get k ((hle k).2 hk))
    · rw [List.pairwise_iff_getElem]
      intro i j hi hj hij
      rw [len] at hi hj
      have e1 := get i hi
      have e2 := get j hj
      rw [List.getElem?_eq_getElem (by rw [len]; exact hi)] at e1
      rw [List.getElem?_eq_getElem (by rw [len]; exact hj)] at e2
      simp only [Option.some.injEq] at e1 e2
      rw [e1, e2]
      have : (i : Int) * step < j * step := by
        apply Int.mul_lt_mul_of_pos_right _ hs
        omega
      omega

/-- C07, the other steps: a zero step is a division by zero unless max < min. -/
theorem c07_zero_step (min max : Int) (h : min ≤ max) : range min max 0 = .ub := by
  simp [range, not_lt.2 h]

/-- C08: `a << b` is the concatenation; it never fails. -/
theorem c08_concat (a b : List α) : concat a b = .ok (a ++ b) := by
  unfold concat
  rw [← List.length_append]
  apply runWrites_list
  · intro w hw
    rcases List.mem_append.1 hw with hw | hw
    · obtain ⟨i, x, h, rfl⟩ := (copyWrites_mem _ _ _).1 hw
      have : i < a.length := (List.getElem?_eq_some_iff.1 h).1
      simp only [Nat.zero_add, Option.isSome_some, true_and]
      rw [List.getElem?_append_left this, h]
    · obtain ⟨i, x, h, rfl⟩ := (copyWrites_mem _ _ _).1 hw
      simp only [Option.isSome_some, true_and]
      rw [List.getElem?_append_right (by omega)]
      simpa using h
  · intro p hp
    by_cases h : p < a.length
    · exact ⟨(p, some a[p]), List.mem_append_left _
        ((copyWrites_mem _ _ _).2 ⟨p, a[p], by simp [h], by simp⟩), rfl⟩
    · have hb : p - a.length < b.length := by simp at hp; omega
      exact ⟨(p, some b[p - a.length]), List.mem_append_right _
        ((copyWrites_mem _ _ _).2 ⟨p - a.length, b[p - a.length], by simp [hb], by
          simp; omega⟩), rfl⟩

/-- C08: `igen << x << xs[0] << ...` converts to the vector x, xs[0], ... -/
theorem c08_generator (x : α) (xs : List α) :
    (StaticVector.chain x xs).toVector = .ok (x :: xs) := by
  unfold StaticVector.toVector
  rw [StaticVector.n_chain, StaticVector.push_chain]
  exact runWrites_copy (x :: xs)

/-- C09: which(b) is strictly increasing and contains exactly the positions holding true. -/
theorem c09_which (b : List Bool) :
    ∃ r, which b = .ok r ∧ r.Pairwise (· < ·) ∧ ∀ k, k ∈ r ↔ b[k]? = some true := by
  refine ⟨whichList 0 b, ?_, whichList_sorted 0 b, ?_⟩
  · unfold which
    rw [whichWrites_eq, ← whichList_length 0 b]
    exact runWrites_copy _
  · intro k
    simp [whichList_mem]

/-- C09: the quantifiers. -/
theorem c09_quantifiers (b : List Bool) :
    (allOf b = true ↔ ∀ x ∈ b, x = true) ∧
    (anyOf b = true ↔ ∃ x ∈ b, x = true) ∧
    (noneOf b = true ↔ ∀ x ∈ b, x = false) := by
  have hany : anyOf b = true ↔ ∃ x ∈ b, x = true := by
    unfold anyOf
    simp only [bne_iff_ne, ne_eq]
    rw [List.findIdx_eq_length]
    simp
  refine ⟨?_, hany, ?_⟩
  · unfold allOf
    simp only [beq_iff_eq]
    rw [List.count_eq_length]
    constructor <;> intro h x hx <;> exact (h x hx).symm
  · unfold noneOf
    rw [Bool.not_eq_true', ← Bool.not_eq_true, hany]
    simp

/-- C09: the elementwise operators; operands of different sizes stop the program. -/
theorem c09_elementwise (a b : List Bool) :
    (a.length = b.length →
      and a b = .ok (List.zipWith (fun x y => x && y) a b) ∧
      or a b = .ok (List.zipWith (fun x y => x || y) a b)) ∧
    (a.length ≠ b.length → and a b = .abort ∧ or a b = .abort) ∧
    (∀ k : Nat, (not a)[k]? = (a[k]?).map fun x => !x) := by
  refine ⟨?_, ?_, ?_⟩
  · intro h
    simp [and, or, Res.assert_bind, h, transform2_eq _ a b h]
  · intro h
    simp [and, or, Res.assert_bind, h]
  · intro k
    simp [not]

/-- C09: De Morgan, and the relation of all_of with which. -/
theorem c09_de_morgan (a b : List Bool) :
    (and a b).bind (fun c => .ok (not c)) = or (not a) (not b) ∧
    (or a b).bind (fun c => .ok (not c)) = and (not a) (not b) ∧
    (allOf a = true ↔ which (not a) = .ok []) := by
  refine ⟨?_, ?_, ?_⟩
  · by_cases h : a.length = b.length
    · rw [((c09_elementwise a b).1 h).1, ((c09_elementwise (not a) (not b)).1 (by simp [not, h])).2]
      simp [Res.bind, not, List.map_zipWith, List.zipWith_map]
    · rw [((c09_elementwise a b).2.1 h).1,
        ((c09_elementwise (not a) (not b)).2.1 (by simp [not, h])).2]
      rfl
  · by_cases h : a.length = b.length
    · rw [((c09_elementwise a b).1 h).2, ((c09_elementwise (not a) (not b)).1 (by simp [not, h])).1]
      simp [Res.bind, not, List.map_zipWith, List.zipWith_map]
    · rw [((c09_elementwise a b).2.1 h).2,
        ((c09_elementwise (not a) (not b)).2.1 (by simp [not, h])).1]
      rfl
  · obtain ⟨r, hr, -, hm⟩ := c09_which (not a)
    rw [hr, (c09_quantifiers a).1]
    simp only [Res.ok.injEq]
    rw [List.eq_nil_iff_forall_not_mem]
    constructor
    · intro h k hk
      rw [hm, (c09_elementwise a a).2.2] at hk
      cases e : a[k]? with
      | none => simp [e] at hk
      | some x =>
        have := h x (List.mem_of_getElem? e)
        simp [e, this] at hk
    · intro h x hx
      obtain ⟨k, hk⟩ := List.mem_iff_getElem?.1 hx
      by_contra hne
      apply h k
      rw [hm, (c09_elementwise a a).2.2, hk]
      simpa using hne

/-- C10: comparisons of two containers and of a container with a number are elementwise. -/
theorem c10_container_first [LinearOrder α] (op : Op) (a b : List α) (x : α) :
    (a.length = b.length → cmpCC op a b = .ok (List.zipWith op.eval a b)) ∧
    (a.length ≠ b.length → cmpCC op a b = .abort) ∧
    (∀ k : Nat, (cmpCN op a x)[k]? = (a[k]?).map fun y => op.eval y x) := by
  refine ⟨?_, ?_, ?_⟩
  · intro h
    simp [cmpCC, Res.assert_bind, h, transform2_eq _ a b h]
  · intro h
    simp [cmpCC, Res.assert_bind, h]
  · intro k
    simp [cmpCN]

/-- C10 with the number first: `==` and `!=` are elementwise always; the four order comparisons
are elementwise when no element equals the number.  Missing: the case of equal elements, for which
the property is false (`c10_negation_number_first`). -/
theorem c10_number_first_partial [LinearOrder α] (op : Op) (x : α) (v : List α)
    (h : op = .eq ∨ op = .ne ∨ x ∉ v) :
    cmpNC op x v = v.map fun y => op.eval x y := by
  unfold cmpNC cmpCN
  cases op <;> simp only [Op.eval]
  case eq => exact List.map_congr_left fun y _ => by simp [eq_comm]
  case ne => exact List.map_congr_left fun y _ => by simp [bne, eq_comm]
  all_goals
    simp only [reduceCtorEq, false_or] at h
    refine List.map_congr_left fun y hy => ?_
    have hne : x ≠ y := fun e => h (e ▸ hy)
    rw [decide_eq_decide]
    constructor <;> intro h2
  · exact lt_of_le_of_ne h2 hne
  · exact h2.le
  · exact lt_of_le_of_ne h2 hne.symm
  · exact h2.le
  · exact h2.le
  · exact lt_of_le_of_ne h2 hne
  · exact h2.le
  · exact lt_of_le_of_ne h2 hne.symm

/-- C10 is false with the number first: whenever the number is one of the elements, the answers
of `<`, `<=`, `>`, `>=` at this element are all wrong. -/
theorem c10_negation_number_first [LinearOrder α] (x : α) (v : List α) (k : Nat)
    (hk : v[k]? = some x) :
    (cmpNC .lt x v)[k]? = some true ∧ (cmpNC .gt x v)[k]? = some true ∧
    (cmpNC .le x v)[k]? = some false ∧ (cmpNC .ge x v)[k]? = some false := by
  simp [cmpNC, cmpCN, Op.eval, hk]

/-- C10: all_equal compares all elements (and dimensions), and never reads out of bounds for
well formed tensors. -/
theorem c10_all_equal [DecidableEq α] (a b : List α) (s t : Tensor α) (hs : s.WF) (ht : t.WF)
    (x : α) :
    allEqual a b = .ok (decide (a = b)) ∧
    allEqualT s t = .ok (decide (s = t)) ∧
    (allEqualN s x = true ↔ ∀ y ∈ s.data, y = x) := by
  refine ⟨allEqual_eq a b, ?_, ?_⟩
  · unfold allEqualT
    rw [allEqual_eq]
    simp only [Res.ok_bind]
    by_cases h : s.dims = t.dims
    · have hl : s.data.length = t.data.length := by rw [hs, ht, h]
      rw [if_neg (by simp [h]), stdEqual_eq _ _ hl]
      obtain ⟨d1, e1⟩ := s
      obtain ⟨d2, e2⟩ := t
      simp only at h
      subst h
      by_cases e : e1 = e2 <;> simp [e]
    · rw [if_pos (by simp [h])]
      have : s ≠ t := fun e => h (by rw [e])
      simp [this]
  · unfold allEqualN
    cases e : s.data.find? (fun y => !(y == x)) with
    | none =>
      simp only [List.find?_eq_none] at e
      simp
      intro y hy
      simpa using e y hy
    | some y =>
      have h1 := List.find?_some e
      have h2 := List.mem_of_find?_eq_some e
      simp only [Bool.false_eq_true, false_iff, not_forall]
      exact ⟨y, h2, by simpa using h1⟩

section Examples

example : range 2 9 3 = .ok [2, 5, 8] := by decide
example : range (-3) 3 2 = .ok [-3, -1, 1, 3] := by decide
example : range 2 1 1 = .ok [] := by decide
example : concat [1, 2] [3] = .ok [1, 2, 3] := by decide
example : (StaticVector.chain 1 [5, 7]).toVector = .ok [1, 5, 7] := by decide
example : which [true, false, true] = .ok [0, 2] := by decide
example : and [true, false] [true, true] = .ok [true, false] := by decide
example : and [true, false] [true] = .abort := by decide
example : cmpCC .lt [1, 5] [2, 5] = .ok [true, false] := by decide
example : cmpNC .lt 3 [1, 5] = [false, true] := by decide
example : cmpNC .lt 3 [1, 3] = [false, true] := by decide   -- 3 < 3 is reported
example : (3 : Nat) ∉ [1, 5] := by decide
example : allEqualT (⟨[2], [1, 2]⟩ : Tensor Nat) ⟨[2, 1], [1, 2]⟩ = .ok false := by decide

end Examples

end Verif.Indices
