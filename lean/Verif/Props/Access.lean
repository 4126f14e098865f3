import Verif.Lemmas.Access
/-
C04, C05, C06: element access and reshaping.
-/
namespace Verif.Tensor

open Spec

variable {α : Type}

/-- C04, reading.  For a tensor and one to six integer indices: if the number of indices is the
rank and each one is in [-d, d), `t(i1,...,in)` is the element at the index tuple they mean (in
column-major order); in any other case the program stops.  It never reads outside of the tensor. -/
theorem c04_read (t : Tensor α) (wf : t.WF) (idx : List Int) (h1 : 1 ≤ idx.length)
    (h6 : idx.length ≤ 6) :
    (∀ js, normAll t.dims idx = some js →
      ∃ v, elem t.dims t.data js = some v ∧ t.get idx = .ok v) ∧
    (normAll t.dims idx = none → t.get idx = .abort) := by
  rw [get_eq_getGen t idx h1 h6]
  constructor
  · intro js hjs
    have hne : js ≠ [] := by
      rintro rfl
      have e1 := (normAll_InB hjs).length
      have hd : t.dims = [] := by simpa using e1.symm
      rw [hd] at hjs
      cases idx with
      | nil => simp at h1
      | cons => simp [normAll] at hjs
    obtain ⟨v, e, g⟩ := elem_some wf (normAll_InB hjs) hne
    exact ⟨v, e, by simp [getGen, hjs, dataAt, g]⟩
  · intro hn
    simp [getGen, hn]

/-- C04: index tuples and positions are in bijection. Different tuples address different positions
of the data, and each position is addressed by a tuple. -/
theorem c04_bijection (t : Tensor α) (wf : t.WF) (hd : t.dims ≠ []) :
    (∀ a b, InB a t.dims → InB b t.dims → colPos t.dims a = colPos t.dims b → a = b) ∧
    (∀ p, p < t.data.length → ∃ a, InB a t.dims ∧ colPos t.dims a = p ∧
      elem t.dims t.data a = t.data[p]?) ∧
    (∀ a, InB a t.dims → colPos t.dims a < t.data.length) := by
  have hl := wf.length_eq hd
  refine ⟨fun a b ha hb => colPos_inj ha hb, ?_, fun a ha => hl ▸ colPos_lt ha⟩
  intro p hp
  obtain ⟨a, h1, h2⟩ := colPos_surj t.dims p (hl ▸ hp)
  exact ⟨a, h1, h2, by simp [elem, h1, h2]⟩

/-- C04, meaning of one index: nonnegative indices count from the start, negative ones from the
end, everything else has no meaning. -/
theorem c04_norm (d : Nat) (i : Int) (j : Nat) :
    norm d i = some j ↔ j < d ∧ ((j : Int) = i ∨ (j : Int) = i + d ∧ i < 0) := by
  unfold norm
  constructor
  · intro h
    split at h
    · simp at h; omega
    · split at h
      · simp at h; omega
      · simp at h
  · intro h
    split
    · simp; omega
    · split
      · simp; omega
      · omega

/-- C05 (and C04 for writing), two to six indices: `t.at(i1,...,in) = v` stops the program unless
the indices mean an index tuple `js`; otherwise the dimensions stay the same, the element at `js` is
`v`, and the element at every other tuple is what it was. -/
theorem c05_write (t : Tensor α) (wf : t.WF) (idx : List Int) (v : α) (h2 : 2 ≤ idx.length)
    (h6 : idx.length ≤ 6) :
    (∀ js, normAll t.dims idx = some js →
      ∃ t', t.set idx v = .ok t' ∧ t'.dims = t.dims ∧ t'.WF ∧
        elem t'.dims t'.data js = some v ∧
        ∀ ks, ks ≠ js → elem t'.dims t'.data ks = elem t.dims t.data ks) ∧
    (normAll t.dims idx = none → t.set idx v = .abort) := by
  rw [set_eq_setGen t idx v h2 h6]
  constructor
  · intro js hjs
    have hb := normAll_InB hjs
    have hne : js ≠ [] := by
      rintro rfl
      have hd : t.dims = [] := by simpa using hb.length.symm
      rw [hd] at hjs
      cases idx with
      | nil => simp at h2
      | cons => simp [normAll] at hjs
    have hd : t.dims ≠ [] := by
      intro e
      have := hb.length
      simp [e] at this
      exact hne this
    have hlt : colPos t.dims js < t.data.length := by
      rw [wf.length_eq hd]; exact colPos_lt hb
    refine ⟨⟨t.dims, t.data.set (colPos t.dims js) v⟩, ?_, rfl, ?_, ?_, ?_⟩
    · simp [setGen, hjs, dataSet, hlt]
    · simpa [WF] using wf
    · simp [elem, hb, hlt]
    · intro ks hks
      simp only [elem]
      split
      · rename_i hk
        rw [List.getElem?_set_ne]
        intro e
        exact hks (colPos_inj hb hk e).symm
      · rfl
  · intro hn
    simp [setGen, hn]

/-- C05, one index: `t.at(i) = v` accepts a tensor of any rank, takes `i` as a position in the
column-major sequence of elements (from the end if negative) and changes just this position; any
other `i` stops the program. -/
theorem c05_write_one_index (t : Tensor α) (i : Int) (v : α) :
    (∀ p, norm t.data.length i = some p →
      ∃ t', t.set [i] v = .ok t' ∧ t'.dims = t.dims ∧ t'.data.length = t.data.length ∧
        t'.data[p]? = some v ∧ ∀ q, q ≠ p → t'.data[q]? = t.data[q]?) ∧
    (norm t.data.length i = none → t.set [i] v = .abort) := by
  constructor
  · intro p hp
    have hlt := norm_lt hp
    refine ⟨⟨t.dims, t.data.set p v⟩, ?_, rfl, by simp, by simp [hlt], ?_⟩
    · simp [set, set1, size, normalizeIndex_eq, hp, dataSet, hlt]
    · intro q hq
      simp [List.getElem?_set_ne (Ne.symm hq)]
  · intro hn
    simp [set, set1, size, normalizeIndex_eq, hn]

/-- C05 for reads: after a write with two to six indices, reading the same indices gives the
value, and reading any other indices gives the same outcome as before. -/
theorem c05_read_after_write (t t' : Tensor α) (wf : t.WF) (idx jdx : List Int) (v : α)
    (h2 : 2 ≤ idx.length) (h6 : idx.length ≤ 6) (g1 : 1 ≤ jdx.length) (g6 : jdx.length ≤ 6)
    (hs : t.set idx v = .ok t') :
    t'.get idx = .ok v ∧
    (normAll t.dims jdx ≠ normAll t.dims idx → t'.get jdx = t.get jdx) := by
  obtain ⟨hw, ha⟩ := c05_write t wf idx v h2 h6
  cases hn : normAll t.dims idx with
  | none => rw [ha hn] at hs; simp at hs
  | some js =>
    obtain ⟨t1, e1, hd, wf1, hv, hrest⟩ := hw js hn
    rw [hs] at e1
    simp only [Res.ok.injEq] at e1
    subst e1
    constructor
    · obtain ⟨w, e, g⟩ := (c04_read t' wf1 idx (by omega) h6).1 js (by rw [hd]; exact hn)
      rw [hv] at e
      simp at e
      rw [g, e]
    · intro hne
      cases hm : normAll t.dims jdx with
      | none =>
        rw [(c04_read t' wf1 jdx g1 g6).2 (by rw [hd]; exact hm), (c04_read t wf jdx g1 g6).2 hm]
      | some ks =>
        obtain ⟨w, e, g⟩ := (c04_read t' wf1 jdx g1 g6).1 ks (by rw [hd]; exact hm)
        obtain ⟨w2, e2, g2⟩ := (c04_read t wf jdx g1 g6).1 ks hm
        rw [g, g2]
        rw [hrest ks (by rintro rfl; exact hne hm), e2] at e
        simp at e
        rw [e]

/-- C06: reshape succeeds exactly when the total sizes match; the elements and their order do not
change; reshaping back gives the original tensor. -/
theorem c06_reshape (t : Tensor α) (wf : t.WF) (dims : List Nat) :
    (t.data.length = (if dims = [] then 0 else prod dims) →
      ∃ t', t.reshape dims = .ok t' ∧ t'.WF ∧ t'.dims = dims ∧ t'.data = t.data ∧
        t'.reshape t.dims = .ok t) ∧
    (t.data.length ≠ (if dims = [] then 0 else prod dims) → t.reshape dims = .abort) := by
  have ht : totalSize dims = (if dims = [] then 0 else prod dims) := by
    split
    · rename_i h; simp [h]
    · rename_i h; exact totalSize_of_ne h
  rw [← ht]
  constructor
  · intro h
    refine ⟨⟨dims, t.data⟩, ?_, h, rfl, rfl, ?_⟩
    · simp [reshape, size, Res.assert_bind, h]
    · have : totalSize t.dims = t.data.length := wf.symm
      simp [reshape, size, Res.assert_bind, this]
  · intro h
    simp [reshape, size, Res.assert_bind, Ne.symm h]

/-- C06: flatten never fails; it is the one-dimensional tensor of all elements, whose p-th element
is the element at the index tuple with column-major position p. -/
theorem c06_flatten (t : Tensor α) (wf : t.WF) :
    ∃ t', t.flatten = .ok t' ∧ t'.WF ∧ t'.dims = [t.data.length] ∧ t'.data = t.data ∧
      ∀ idx, InB idx t.dims →
        elem t'.dims t'.data [colPos t.dims idx] = elem t.dims t.data idx := by
  obtain ⟨t', h1, h2, h3, h4, -⟩ := (c06_reshape t wf [t.data.length]).1 (by simp)
  refine ⟨t', h1, h2, h3, h4, ?_⟩
  intro idx hi
  by_cases hd : t.dims = []
  · have : t.data.length = 0 := by rw [wf, hd]; rfl
    have h0 : t.data = [] := by simpa using this
    simp [elem, h3, h0]
  · have := colPos_lt hi
    rw [← wf.length_eq hd] at this
    simp [elem, h3, h4, hi, this]

/-- C06, integer dimensions: a list with a negative entry has total size 0, so only tensors without
elements can be reshaped to it (the check does not reject it in that case). -/
theorem c06_negative_dimensions (d : List Int) (h : ∃ x ∈ d, x < 0) : totalSizeI d = 0 := by
  unfold totalSizeI
  rw [foldl_neg d _ h]
  simp

/-- C06: for nonnegative dimensions the size computed on integers is their product. -/
theorem c06_total_size (d : List Nat) :
    totalSizeI (d.map Int.ofNat) = if d = [] then 0 else (prod d : Int) := by
  unfold totalSizeI
  have h := foldl_nat d 1
  simp only [Nat.cast_one, Nat.one_mul] at h
  rw [h]
  cases d <;> simp

/-- C06: `zeros`, `ones` and `fill_with`: all elements equal the value and the dimensions are as
requested. -/
theorem c06_fill (dims : List Nat) (v : α) (idx : List Nat) (hne : idx ≠ [])
    (h : InB idx dims) :
    (fill dims v).WF ∧ elem (fill dims v).dims (fill dims v).data idx = some v := by
  have wf : (fill dims v).WF := by simp [fill, WF]
  refine ⟨wf, ?_⟩
  obtain ⟨w, e, g⟩ := elem_some (t := fill dims v) wf h hne
  rw [e]
  simp only [fill] at g
  exact (List.mem_replicate.1 (List.mem_of_getElem? g)).2 ▸ rfl

section Examples

/-- A 2 x 3 matrix with elements 10 .. 15 in column-major order. -/
private def m23 : Tensor Nat := ⟨[2, 3], [10, 11, 12, 13, 14, 15]⟩

example : m23.WF := by decide
example : normAll m23.dims [-1, 2] = some [1, 2] := by decide
example : m23.get [-1, 2] = .ok 15 := by decide
example : m23.get [1, 3] = .abort := by decide
example : normAll m23.dims [1, 3] = none := by decide
example : m23.get [1] = .abort := by decide
example : m23.set [0, -1] 7 = .ok ⟨[2, 3], [10, 11, 12, 13, 7, 15]⟩ := by decide
example : m23.set [-1] 7 = .ok ⟨[2, 3], [10, 11, 12, 13, 14, 7]⟩ := by decide
example : m23.reshape [3, 1, 2] = .ok ⟨[3, 1, 2], m23.data⟩ := by decide
example : m23.reshape [4, 2] = .abort := by decide
example : m23.flatten = .ok ⟨[6], m23.data⟩ := by decide
example : ∃ x ∈ [(2 : Int), -3], x < 0 := by decide
example : InB [1, 2] [2, 3] := by decide

end Examples

end Verif.Tensor
