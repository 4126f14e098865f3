import Verif.Lemmas.Permute
/-
C17 and the first part of C18: permute, transpose, adjoint.
-/
namespace Verif.Tensor

open Verif Spec

variable {α : Type}

theorem ext_elem {a b : Tensor α} (ha : a.WF) (hb : b.WF) (hd : a.dims = b.dims)
    (h : ∀ idx, InB idx a.dims → elem a.dims a.data idx = elem b.dims b.data idx) : a = b := by
  obtain ⟨da, a⟩ := a
  obtain ⟨db, b⟩ := b
  simp only at hd h
  subst hd
  congr 1
  have hl : a.length = b.length := by
    have h1 : a.length = totalSize da := ha
    have h2 : b.length = totalSize da := hb
    omega
  apply List.ext_getElem?
  intro p
  by_cases hp : p < a.length
  · have hne : da ≠ [] := by
      rintro rfl
      have h1 : a.length = 0 := ha
      omega
    obtain ⟨idx, hi, rfl⟩ := colPos_surj da p (by
      have := WF.length_eq ha hne
      simp only at this
      omega)
    simpa [elem, hi] using h idx hi
  · rw [List.getElem?_eq_none (by omega), List.getElem?_eq_none (by omega)]

/-- C17: permute exchanges two indices, which may be counted from the end. Positions which do not
exist stop the program. -/
theorem c17_permute (t : Tensor α) (wf : t.WF) (ndx1 ndx2 : Int) :
    (∀ i j, norm t.dims.length ndx1 = some i → norm t.dims.length ndx2 = some j →
      ∃ b : Tensor α, permute t ndx1 ndx2 = .ok b ∧ b.WF ∧ b.dims = swapAt t.dims i j ∧
        ∀ idx, InB idx t.dims → InB (swapAt idx i j) b.dims ∧
          elem b.dims b.data (swapAt idx i j) = elem t.dims t.data idx) ∧
    (norm t.dims.length ndx1 = none ∨ norm t.dims.length ndx2 = none →
      permute t ndx1 ndx2 = .abort) := by
  constructor
  · intro i j hi hj
    have hi' := norm_lt hi
    have hj' := norm_lt hj
    simp only [permute, rank, normalizeIndex_eq, hi, hj, Res.ok_bind]
    rcases Nat.lt_trichotomy i j with h | h | h
    · obtain ⟨b, e, hb⟩ := permuteSorted_elem t wf i j h hj'
      refine ⟨b, ?_, hb⟩
      rw [if_neg (by omega), if_neg (by omega)]
      simpa using e
    · subst h
      refine ⟨t, by simp, wf, by rw [swapAt_self], ?_⟩
      intro idx h
      rw [swapAt_self]
      exact ⟨h, rfl⟩
    · obtain ⟨b, e, hb⟩ := permuteSorted_elem t wf j i h hi'
      refine ⟨b, ?_, ?_⟩
      · rw [if_pos (by omega)]
        simpa using e
      · simpa only [swapAt_comm _ j i] using hb
  · rintro (h | h)
    · simp [permute, rank, normalizeIndex_eq, h]
    · simp only [permute, rank, normalizeIndex_eq, h]
      cases norm t.dims.length ndx1 <;> rfl

/-- C17: permuting twice gives back the tensor. -/
theorem c17_involution (t : Tensor α) (wf : t.WF) (ndx1 ndx2 : Int) (b : Tensor α)
    (h : permute t ndx1 ndx2 = .ok b) : permute b ndx1 ndx2 = .ok t := by
  cases hi : norm t.dims.length ndx1 with
  | none => rw [(c17_permute t wf ndx1 ndx2).2 (Or.inl hi)] at h; cases h
  | some i =>
    cases hj : norm t.dims.length ndx2 with
    | none => rw [(c17_permute t wf ndx1 ndx2).2 (Or.inr hj)] at h; cases h
    | some j =>
      obtain ⟨b', e, wfb, hd, hel⟩ := (c17_permute t wf ndx1 ndx2).1 i j hi hj
      rw [h] at e
      cases e
      have hlen : b.dims.length = t.dims.length := by rw [hd, swapAt_length]
      obtain ⟨c, e2, wfc, hd2, hel2⟩ := (c17_permute b wfb ndx1 ndx2).1 i j
        (by rw [hlen]; exact hi) (by rw [hlen]; exact hj)
      have hdc : c.dims = t.dims := by rw [hd2, hd, swapAt_swapAt]
      have : c = t := by
        apply ext_elem wfc wf hdc
        intro idx hidx
        rw [hdc] at hidx
        have h1 := hel idx hidx
        have h2 := hel2 _ h1.1
        rw [swapAt_swapAt] at h2
        rw [h2.2, h1.2]
      rw [e2, this]

/-- C18: transpose(m)(j,i) = m(i,j), for every matrix, also without rows or columns; other ranks
stop the program. -/
theorem c18_transpose (m : Tensor α) (wf : m.WF) :
    (∀ rows cols, m.dims = [rows, cols] →
      ∃ b : Tensor α, transpose m = .ok b ∧ b.WF ∧ b.dims = [cols, rows] ∧
        ∀ i j, i < rows → j < cols →
          elem b.dims b.data [j, i] = elem m.dims m.data [i, j]) ∧
    (m.dims.length ≠ 2 → transpose m = .abort) := by
  constructor
  · intro rows cols hd
    have hl := wf.length_eq (by rw [hd]; simp)
    rw [hd] at hl
    simp only [prod_cons, prod_nil, Nat.mul_one] at hl
    simp only [transpose, hd]
    by_cases h : cols ≠ 0 ∧ rows ≠ 0
    · rw [if_pos h]
      obtain ⟨l, e, hll, hs⟩ := permute12_spec rows cols 1 m.data (by rw [hl]; ring)
      refine ⟨⟨[cols, rows], l⟩, filled_ok _ _ _ _ ?_, ?_, rfl, ?_⟩
      · have : totalSize [cols, rows] = rows * cols * 1 := by simp; ring
        rw [this]; exact e
      · show l.length = totalSize [cols, rows]
        rw [hll]; simp; ring
      · intro i j hi hj
        have := hs 0 i 0 j 0 (by omega) hi (by omega) hj (by omega)
        simpa [elem, hi, hj] using this
    · rw [if_neg h]
      have h0 : totalSize [cols, rows] = 0 := by
        simp; omega
      refine ⟨⟨[cols, rows], []⟩, ?_, ?_, rfl, ?_⟩
      · apply filled_ok
        rw [h0]; rfl
      · show 0 = _
        rw [h0]
      · intro i j hi hj
        omega
  · intro h
    unfold transpose
    split
    · rename_i e; rw [e] at h; simp at h
    · rfl

/-- C18: adjoint(m)(j,i) = conj(m(i,j)). -/
theorem c18_adjoint (conj : α → α) (m : Tensor α) (wf : m.WF) :
    (∀ rows cols, m.dims = [rows, cols] →
      ∃ b : Tensor α, adjoint conj m = .ok b ∧ b.WF ∧ b.dims = [cols, rows] ∧
        ∀ i j, i < rows → j < cols →
          elem b.dims b.data [j, i] = (elem m.dims m.data [i, j]).map conj) ∧
    (m.dims.length ≠ 2 → adjoint conj m = .abort) := by
  constructor
  · intro rows cols hd
    have hl := wf.length_eq (by rw [hd]; simp)
    rw [hd] at hl
    simp only [prod_cons, prod_nil, Nat.mul_one] at hl
    simp only [adjoint, hd]
    by_cases h : cols ≠ 0 ∧ rows ≠ 0
    · rw [if_pos h]
      obtain ⟨l, e, hll, hs⟩ := adjointPositions_spec rows cols (m.data.map conj) (by simpa using hl)
      refine ⟨⟨[cols, rows], l⟩, filled_ok _ _ _ _ ?_, ?_, rfl, ?_⟩
      · have : totalSize [cols, rows] = rows * cols := by simp; ring
        rw [this]; exact e
      · show l.length = totalSize [cols, rows]
        rw [hll]; simp; ring
      · intro i j hi hj
        have := hs i j hi hj
        simpa [elem, hi, hj] using this
    · rw [if_neg h]
      have h0 : totalSize [cols, rows] = 0 := by
        simp; omega
      refine ⟨⟨[cols, rows], []⟩, ?_, ?_, rfl, ?_⟩
      · apply filled_ok
        rw [h0]; rfl
      · show 0 = _
        rw [h0]
      · intro i j hi hj
        omega
  · intro h
    unfold adjoint
    split
    · rename_i e; rw [e] at h; simp at h
    · rfl

/-- C18: adjoint is an involution when the conjugation is one. -/
theorem c18_adjoint_involution (conj : α → α) (hc : ∀ x, conj (conj x) = x) (m b : Tensor α)
    (wf : m.WF) (h : adjoint conj m = .ok b) : adjoint conj b = .ok m := by
  by_cases hr : m.dims.length = 2
  · obtain ⟨rows, cols, hd⟩ : ∃ r c, m.dims = [r, c] := by
      match m.dims, hr with
      | [r, c], _ => exact ⟨r, c, rfl⟩
    obtain ⟨b', e, wfb, hdb, hel⟩ := (c18_adjoint conj m wf).1 rows cols hd
    rw [h] at e
    cases e
    obtain ⟨c, e2, wfc, hdc, hel2⟩ := (c18_adjoint conj b wfb).1 cols rows hdb
    have : c = m := by
      apply ext_elem wfc wf (by rw [hdc, hd])
      intro idx hidx
      rw [hdc] at hidx
      obtain ⟨i, j, rfl, hi, hj⟩ := inB2 hidx
      rw [hel2 j i hj hi, hel i j hi hj]
      cases elem m.dims m.data [i, j] <;> simp [hc]
    rw [e2, this]
  · rw [(c18_adjoint conj m wf).2 hr] at h
    cases h

/-- C18: transpose is an involution. -/
theorem c18_transpose_involution (m b : Tensor α) (wf : m.WF) (h : transpose m = .ok b) :
    transpose b = .ok m := by
  by_cases hr : m.dims.length = 2
  · obtain ⟨rows, cols, hd⟩ : ∃ r c, m.dims = [r, c] := by
      match m.dims, hr with
      | [r, c], _ => exact ⟨r, c, rfl⟩
    obtain ⟨b', e, wfb, hdb, hel⟩ := (c18_transpose m wf).1 rows cols hd
    rw [h] at e
    cases e
    obtain ⟨c, e2, wfc, hdc, hel2⟩ := (c18_transpose b wfb).1 cols rows hdb
    have : c = m := by
      apply ext_elem wfc wf (by rw [hdc, hd])
      intro idx hidx
      rw [hdc] at hidx
      obtain ⟨i, j, rfl, hi, hj⟩ := inB2 hidx
      rw [hel2 j i hj hi, hel i j hi hj]
    rw [e2, this]
  · rw [(c18_transpose m wf).2 hr] at h
    cases h

section Examples

/-- Elements 0 .. 23 in a 2 x 3 x 4 tensor. -/
private def t234 : Tensor Nat := ⟨[2, 3, 4], List.range 24⟩

example : t234.WF := by decide
example : norm t234.dims.length 0 = some 0 ∧ norm t234.dims.length (-1) = some 2 := by decide
example : InB [1, 2, 3] t234.dims ∧ swapAt [1, 2, 3] 0 2 = [3, 2, 1] := by decide
example : (match permute t234 0 (-1) with | .ok b => b.get [3, 2, 1] | _ => .abort) = .ok 23 := by
  decide
example : permute t234 0 3 = .abort := by decide
example : transpose (⟨[2, 2], [1, 2, 3, 4]⟩ : Tensor Nat) = .ok ⟨[2, 2], [1, 3, 2, 4]⟩ := by decide
example : adjoint (fun x => -x) (⟨[2, 2], [1, 2, 3, 4]⟩ : Tensor Int) =
    .ok ⟨[2, 2], [-1, -3, -2, -4]⟩ := by decide
example : transpose (⟨[0, 2], []⟩ : Tensor Nat) = .ok ⟨[2, 0], []⟩ := by decide

end Examples

end Verif.Tensor
