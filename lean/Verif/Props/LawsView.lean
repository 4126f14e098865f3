import Verif.Props.View
import Verif.Props.Arith
import Verif.Props.Permute
import Verif.Lemmas.Matrix
/-
C124: laws of slices: slices of slices, of results of other functions, and of tensors to which slices were
assigned.
-/
namespace Verif.View

open Verif Spec Tensor

variable {α β γ : Type}

/-- The ranges are within the tensor, which has elements. -/
structure Fits (t : Tensor α) (rs : List View.Spec) : Prop where
  ne : rs ≠ []
  pos : ∀ d ∈ limits t.dims t.data.length rs, d ≠ 0
  valid : ValidAll rs (limits t.dims t.data.length rs)

/-- `s = t(r1, ..., rn)` ends and gives the tensor `s`. -/
def Gives (t : Tensor α) (rs : List View.Spec) (s : Tensor α) : Prop :=
  Finishes (fun n => slice n t rs) (.ok (s.dims.map Int.ofNat, s.data))

/-- `t.at(r1, ..., rn) = s` ends and leaves `t'` in the variable. -/
def Becomes (t : Tensor α) (rs : List View.Spec) (s t' : Tensor α) : Prop :=
  Finishes (fun n => assign n t rs s) (.ok t')

/-- The selection of the ranges. -/
abbrev sels (t : Tensor α) (rs : List View.Spec) : List (List Int) := selAll rs (limits t.dims t.data.length rs)

/-- No position is selected twice. -/
def Once (t : Tensor α) (rs : List View.Spec) : Prop := ∀ l ∈ sels t rs, l.Nodup

theorem map_ofNat_inj {a b : List Nat} (h : a.map Int.ofNat = b.map Int.ofNat) : a = b :=
  List.map_injective_iff.2 (fun _ _ e => Int.ofNat.inj e) h

theorem sels_ne {t : Tensor α} {rs : List View.Spec} (h : Fits t rs) : (sels t rs).map List.length ≠ [] := by
  have h1 := ValidAll.length h.valid
  have h2 := (ValidAll.selFor h.valid).length
  intro e
  have h3 : (sels t rs).length = 0 := by rw [← List.length_map (f := List.length), e]; rfl
  have h4 : rs.length = 0 := by
    unfold sels at h3; omega
  exact h.ne (by simpa using h4)

theorem gives_pos {t s : Tensor α} {rs : List View.Spec} (wf : t.WF) (h : Fits t rs) (hs : Gives t rs s) :
    s.WF ∧ s.dims = (sels t rs).map List.length ∧
      ∀ j i, Picks (sels t rs) j i →
        s.data[colPos s.dims j]? = t.data[colPos (limits t.dims t.data.length rs) i]? := by
  obtain ⟨s', f, w, d, -, e⟩ := c11_slice t wf rs h.ne h.pos h.valid
  have hu := Finishes.unique f hs
  obtain ⟨h1, h2⟩ := Prod.mk.inj (Res.ok.inj hu)
  have h1 := map_ofNat_inj h1
  have : s' = s := by cases s'; cases s; simp_all
  subst this
  refine ⟨w, d, fun j i p => ?_⟩
  obtain ⟨a, b, c⟩ := e j i p
  simpa [elem, a, b] using c

theorem gives_of_pos {t s : Tensor α} {rs : List View.Spec} (wf : t.WF) (h : Fits t rs) (wfs : s.WF)
    (hd : s.dims = (sels t rs).map List.length)
    (hp : ∀ j i, Picks (sels t rs) j i →
      s.data[colPos s.dims j]? = t.data[colPos (limits t.dims t.data.length rs) i]?) : Gives t rs s := by
  obtain ⟨s', f, w, d, c, e⟩ := c11_slice t wf rs h.ne h.pos h.valid
  have : s' = s := by
    refine ext_elem w wfs (by rw [d, hd]) fun j hj => ?_
    obtain ⟨i, p⟩ := c j hj
    obtain ⟨a, b, k⟩ := e j i p
    rw [k]
    have : InB j s.dims := by rw [hd, ← d]; exact a
    simp [elem, b, this, hp j i p]
  subst this
  exact f

theorem gives_exists {t : Tensor α} {rs : List View.Spec} (wf : t.WF) (h : Fits t rs) : ∃ s, Gives t rs s := by
  obtain ⟨s', f, -⟩ := c11_slice t wf rs h.ne h.pos h.valid
  exact ⟨s', f⟩

theorem Gives.unique {t s s' : Tensor α} {rs : List View.Spec} (h : Gives t rs s) (h' : Gives t rs s') : s = s' := by
  obtain ⟨h1, h2⟩ := Prod.mk.inj (Res.ok.inj (Finishes.unique h h'))
  have h1 := map_ofNat_inj h1
  cases s; cases s'; simp_all

theorem length_limits {t : Tensor α} {rs : List View.Spec} (wf : t.WF) (h : Fits t rs) :
    t.data.length = prod (limits t.dims t.data.length rs) :=
  limits_prod t wf rs h.ne (ValidAll.length h.valid)

theorem Fits.congr {t : Tensor α} {t' : Tensor β} {rs : List View.Spec} (h : Fits t rs) (hd : t'.dims = t.dims)
    (hl : t'.data.length = t.data.length) : Fits t' rs ∧ sels t' rs = sels t rs ∧
      limits t'.dims t'.data.length rs = limits t.dims t.data.length rs := by
  refine ⟨⟨h.ne, ?_, ?_⟩, ?_, ?_⟩
  · rw [hd, hl]; exact h.pos
  · rw [hd, hl]; exact h.valid
  · simp only [sels, hd, hl]
  · rw [hd, hl]

theorem gives_length {t s : Tensor α} {rs : List View.Spec} (wf : t.WF) (h : Fits t rs) (hs : Gives t rs s) :
    s.data.length = prod ((sels t rs).map List.length) := by
  obtain ⟨w, d, -⟩ := gives_pos wf h hs
  have : s.data.length = Tensor.totalSize s.dims := w
  rw [this, d, totalSize_of_ne (sels_ne h)]

/-- What `t.at(rs) = s` does to the elements. -/
theorem becomes_iff {t s t' : Tensor α} {rs : List View.Spec} (wf : t.WF) (wfs : s.WF) (h : Fits t rs)
    (hn : Once t rs) :
    Becomes t rs s t' ↔ s.data.length = prod ((sels t rs).map List.length) ∧ t'.dims = t.dims ∧
      t'.data.length = t.data.length ∧
      (∀ j i, Picks (sels t rs) j i → t'.data[colPos (limits t.dims t.data.length rs) i]? =
        s.data[colPos ((sels t rs).map List.length) j]?) ∧
      (∀ i, InB i (limits t.dims t.data.length rs) → (¬ ∃ j, Picks (sels t rs) j i) →
        t'.data[colPos (limits t.dims t.data.length rs) i]? = t.data[colPos (limits t.dims t.data.length rs) i]?) := by
  have hsf := ValidAll.selFor h.valid
  have key := c12_assign_tensor t s wf wfs rs h.ne h.pos h.valid hn
  constructor
  · intro hb
    by_cases hlen : s.data.length = prod ((sels t rs).map List.length)
    · obtain ⟨u, f, w, d, a1, a2⟩ := key.1 hlen
      have hu := Res.ok.inj (Finishes.unique f hb)
      subst hu
      have w' : u.data.length = Tensor.totalSize u.dims := w
      have wf' : t.data.length = Tensor.totalSize t.dims := wf
      refine ⟨hlen, d, by rw [w', wf', d], fun j i p => ?_, fun i hi hno => ?_⟩
      · have := (a1 j i p).1
        rwa [elem, if_pos (Picks.inB hsf p).2] at this
      · have := a2 i hi hno
        rwa [elem, elem, if_pos hi, if_pos hi] at this
    · exact absurd (Finishes.unique (key.2 hlen) hb) (by simp)
  · rintro ⟨hlen, hd, hl, h1, h2⟩
    obtain ⟨u, f, w, d, a1, a2⟩ := key.1 hlen
    have w' : u.data.length = Tensor.totalSize u.dims := w
    have wf' : t.data.length = Tensor.totalSize t.dims := wf
    have hul : u.data.length = t.data.length := by rw [w', wf', d]
    have : u = t' := by
      have e : u.data = t'.data := by
        apply List.ext_getElem?
        intro p
        by_cases hp : p < prod (limits t.dims t.data.length rs)
        · obtain ⟨i, hi, rfl⟩ := colPos_surj _ p hp
          by_cases hj : ∃ j, Picks (sels t rs) j i
          · obtain ⟨j, pj⟩ := hj
            have := (a1 j i pj).1
            rw [elem, if_pos hi] at this
            rw [this, h1 j i pj]
          · have := a2 i hi hj
            rw [elem, elem, if_pos hi, if_pos hi] at this
            rw [this, h2 i hi hj]
        · rw [← length_limits wf h] at hp
          rw [List.getElem?_eq_none (by omega), List.getElem?_eq_none (by omega)]
      cases u; cases t'; simp_all
    subst this
    exact f

/-- C124: the slice only depends on the selected positions. -/
theorem c124_same_selection (t : Tensor α) (wf : t.WF) (rs qs : List View.Spec) (hr : Fits t rs) (hq : Fits t qs)
    (hl : rs.length = qs.length) (h : sels t rs = sels t qs) : ∃ s, Gives t rs s ∧ Gives t qs s := by
  obtain ⟨s, hs⟩ := gives_exists wf hr
  obtain ⟨w, d, e⟩ := gives_pos wf hr hs
  have hlim : limits t.dims t.data.length rs = limits t.dims t.data.length qs := by simp [limits, hl]
  exact ⟨s, hs, gives_of_pos wf hq w (by rw [d, h]) fun j i p => by rw [e j i (by rw [h]; exact p), hlim]⟩

/-- C124: what was written is read. -/
theorem c124_write_read (t s t' : Tensor α) (wf : t.WF) (wfs : s.WF) (rs : List View.Spec) (h : Fits t rs)
    (hn : Once t rs) (hb : Becomes t rs s t') : ∃ v, Gives t' rs v ∧ v.data = s.data := by
  obtain ⟨hlen, hd, hl, h1, -⟩ := (becomes_iff wf wfs h hn).1 hb
  obtain ⟨h', es, el⟩ := h.congr hd hl
  have wf' : t'.WF := by
    show t'.data.length = _
    rw [hl, hd]; exact wf
  refine ⟨⟨(sels t rs).map List.length, s.data⟩, gives_of_pos wf' h' ?_ (by rw [es]) ?_, rfl⟩
  · show s.data.length = Tensor.totalSize ((sels t rs).map List.length)
    rw [hlen, totalSize_of_ne (sels_ne h)]
  · intro j i p
    rw [es] at p
    rw [el, h1 j i p]

/-- C124: writing what was read changes nothing. -/
theorem c124_read_write (t s : Tensor α) (wf : t.WF) (rs : List View.Spec) (h : Fits t rs) (hn : Once t rs)
    (hs : Gives t rs s) : Becomes t rs s t := by
  obtain ⟨w, d, e⟩ := gives_pos wf h hs
  refine (becomes_iff wf w h hn).2 ⟨gives_length wf h hs, rfl, rfl, fun j i p => ?_, fun _ _ _ => rfl⟩
  rw [← e j i p, d]

theorem becomes_wf {t s t' : Tensor α} {rs : List View.Spec} (wf : t.WF) (wfs : s.WF) (h : Fits t rs)
    (hn : Once t rs) (hb : Becomes t rs s t') : t'.WF := by
  obtain ⟨-, hd, hl, -⟩ := (becomes_iff wf wfs h hn).1 hb
  show t'.data.length = _
  rw [hl, hd]; exact wf

/-- C124: the last of two assignments to the same slice counts. -/
theorem c124_write_write (t s s' t' t'' : Tensor α) (wf : t.WF) (wfs : s.WF) (wfs' : s'.WF) (rs : List View.Spec)
    (h : Fits t rs) (hn : Once t rs) (hb : Becomes t rs s t') (hb' : Becomes t' rs s' t'') : Becomes t rs s' t'' := by
  obtain ⟨-, hd, hl, -, h2⟩ := (becomes_iff wf wfs h hn).1 hb
  obtain ⟨h', es, el⟩ := h.congr hd hl
  have hn' : Once t' rs := by unfold Once; rw [es]; exact hn
  obtain ⟨k0, kd, kl, k1, k2⟩ := (becomes_iff (becomes_wf wf wfs h hn hb) wfs' h' hn').1 hb'
  rw [es] at k0 k1 k2
  rw [el] at k1 k2
  refine (becomes_iff wf wfs' h hn).2 ⟨k0, by rw [kd, hd], by rw [kl, hl], k1, fun i hi hno => ?_⟩
  rw [k2 i hi hno, h2 i hi hno]

/-- The two selections have no element in common. -/
def Disjoint (t : Tensor α) (rs qs : List View.Spec) : Prop :=
  ∀ j i j' i', Picks (sels t rs) j i → Picks (sels t qs) j' i' →
    colPos (limits t.dims t.data.length rs) i ≠ colPos (limits t.dims t.data.length qs) i'

/-- C124: a slice without common elements is read as before. -/
theorem c124_write_elsewhere (t s t' : Tensor α) (wf : t.WF) (wfs : s.WF) (rs qs : List View.Spec) (h : Fits t rs)
    (hn : Once t rs) (hq : Fits t qs) (hx : Disjoint t rs qs) (hb : Becomes t rs s t') :
    ∃ v, Gives t qs v ∧ Gives t' qs v := by
  obtain ⟨-, hd, hl, -, h2⟩ := (becomes_iff wf wfs h hn).1 hb
  obtain ⟨h', es, el⟩ := hq.congr hd hl
  obtain ⟨v, hv⟩ := gives_exists wf hq
  obtain ⟨w, d, e⟩ := gives_pos wf hq hv
  refine ⟨v, hv, gives_of_pos (becomes_wf wf wfs h hn hb) h' w (by rw [d, es]) fun j i p => ?_⟩
  rw [es] at p
  rw [el, e j i p]
  have hlt : colPos (limits t.dims t.data.length qs) i < prod (limits t.dims t.data.length rs) := by
    have h1 := colPos_lt (Picks.inB (ValidAll.selFor hq.valid) p).2
    have h2 := length_limits wf h
    have h3 := length_limits wf hq
    omega
  obtain ⟨i', hi', ep⟩ := colPos_surj _ _ hlt
  rw [← ep]
  refine (h2 i' hi' ?_).symm
  rintro ⟨j', p'⟩
  exact hx j' i' j i p' p ep

theorem becomes_at {t s t' : Tensor α} {rs : List View.Spec} (wf : t.WF) (wfs : s.WF) (h : Fits t rs)
    (hn : Once t rs) (hb : Becomes t rs s t') (p : Nat) :
    (∃ j i, Picks (sels t rs) j i ∧ p = colPos (limits t.dims t.data.length rs) i ∧
      t'.data[p]? = s.data[colPos ((sels t rs).map List.length) j]?) ∨
    ((∀ j i, Picks (sels t rs) j i → colPos (limits t.dims t.data.length rs) i ≠ p) ∧ t'.data[p]? = t.data[p]?) := by
  obtain ⟨-, hd, hl, h1, h2⟩ := (becomes_iff wf wfs h hn).1 hb
  by_cases hp : ∃ j i, Picks (sels t rs) j i ∧ p = colPos (limits t.dims t.data.length rs) i
  · obtain ⟨j, i, pk, rfl⟩ := hp
    exact Or.inl ⟨j, i, pk, rfl, h1 j i pk⟩
  · refine Or.inr ⟨fun j i pk e => hp ⟨j, i, pk, e.symm⟩, ?_⟩
    by_cases hlt : p < prod (limits t.dims t.data.length rs)
    · obtain ⟨i, hi, rfl⟩ := colPos_surj _ p hlt
      exact h2 i hi fun ⟨j, pk⟩ => hp ⟨j, i, pk, rfl⟩
    · rw [← length_limits wf h] at hlt
      rw [List.getElem?_eq_none (by omega), List.getElem?_eq_none (by omega)]

theorem once_congr {t t' : Tensor α} {rs : List View.Spec} (hn : Once t rs) (e : sels t' rs = sels t rs) :
    Once t' rs := by
  unfold Once; rw [e]; exact hn

theorem becomes_exists {t s : Tensor α} {rs : List View.Spec} (wf : t.WF) (wfs : s.WF) (h : Fits t rs)
    (hn : Once t rs) (hl : s.data.length = prod ((sels t rs).map List.length)) : ∃ t', Becomes t rs s t' := by
  obtain ⟨t', f, -⟩ := (c12_assign_tensor t s wf wfs rs h.ne h.pos h.valid hn).1 hl
  exact ⟨t', f⟩

/-- C124: assignments to slices without common elements can be exchanged. -/
theorem c124_write_commute (t s s' t1 t12 : Tensor α) (wf : t.WF) (wfs : s.WF) (wfs' : s'.WF)
    (rs qs : List View.Spec) (h : Fits t rs) (hn : Once t rs) (hq : Fits t qs) (hnq : Once t qs)
    (hx : Disjoint t rs qs) (h1 : Becomes t rs s t1) (h12 : Becomes t1 qs s' t12) :
    ∃ t2, Becomes t qs s' t2 ∧ Becomes t2 rs s t12 := by
  obtain ⟨hlen, hd, hl, -⟩ := (becomes_iff wf wfs h hn).1 h1
  obtain ⟨hq1, esq, elq⟩ := hq.congr hd hl
  have wf1 := becomes_wf wf wfs h hn h1
  have hnq1 := once_congr hnq esq
  obtain ⟨klen, kd, kl, k1, k2⟩ := (becomes_iff wf1 wfs' hq1 hnq1).1 h12
  rw [esq] at klen k1 k2
  rw [elq] at k1 k2
  obtain ⟨t2, h2⟩ := becomes_exists wf wfs' hq hnq klen
  refine ⟨t2, h2, ?_⟩
  obtain ⟨-, hd2, hl2, m1, m2⟩ := (becomes_iff wf wfs' hq hnq).1 h2
  obtain ⟨hr2, esr, elr⟩ := h.congr hd2 hl2
  have wf2 := becomes_wf wf wfs' hq hnq h2
  have hn2 := once_congr hn esr
  refine (becomes_iff wf2 wfs hr2 hn2).2 ⟨by rw [esr]; exact hlen, by rw [kd, hd, hd2], by rw [kl, hl, hl2], ?_, ?_⟩
  · intro j i p
    rw [esr] at p ⊢
    rw [elr]
    rcases becomes_at wf1 wfs' hq1 hnq1 h12 (colPos (limits t.dims t.data.length rs) i) with
      ⟨j', i', p', e, -⟩ | ⟨-, e⟩
    · rw [esq] at p'
      rw [elq] at e
      exact absurd e (hx j i j' i' p p')
    · rw [e]
      exact ((becomes_iff wf wfs h hn).1 h1).2.2.2.1 j i p
  · intro i hi hno
    rw [elr] at hi ⊢
    rw [esr] at hno
    have e1 : t1.data[colPos (limits t.dims t.data.length rs) i]? = t.data[colPos (limits t.dims t.data.length rs) i]? :=
      ((becomes_iff wf wfs h hn).1 h1).2.2.2.2 i hi hno
    rcases becomes_at wf wfs' hq hnq h2 (colPos (limits t.dims t.data.length rs) i) with
      ⟨j', i', p', e, e'⟩ | ⟨no, e⟩
    · rw [e', e, k1 j' i' p']
    · rw [e]
      rcases becomes_at wf1 wfs' hq1 hnq1 h12 (colPos (limits t.dims t.data.length rs) i) with
        ⟨j', i', p', ee, -⟩ | ⟨-, ee⟩
      · rw [esq] at p'
        rw [elq] at ee
        exact absurd ee.symm (no j' i' p')
      · rw [ee, e1]

/-- C124: assigning a number is assigning a tensor filled with it. -/
theorem c124_number (t : Tensor α) (x : α) (wf : t.WF) (rs : List View.Spec) (h : Fits t rs) (hn : Once t rs) :
    ∃ t', Finishes (fun n => assignNumber n t rs x) (.ok t') ∧
      Becomes t rs (fill ((sels t rs).map List.length) x) t' := by
  obtain ⟨t', f, w, d, h1, h2⟩ := c12_assign_number t x wf rs h.ne h.pos h.valid hn
  refine ⟨t', f, (becomes_iff wf ?_ h hn).2 ?_⟩
  · show (fill _ x).data.length = _
    simp [fill]
  · have hsf := ValidAll.selFor h.valid
    have e : (fill ((sels t rs).map List.length) x).data.length = prod ((sels t rs).map List.length) := by
      simp [fill, totalSize_of_ne (sels_ne h)]
    have w' : t'.data.length = Tensor.totalSize t'.dims := w
    have wf' : t.data.length = Tensor.totalSize t.dims := wf
    refine ⟨e, d, by rw [w', wf', d], fun j i p => ?_, fun i hi hno => ?_⟩
    · obtain ⟨a, b⟩ := Picks.inB hsf p
      have := h1 j i p
      rw [elem, if_pos b] at this
      rw [this]
      have hlt := colPos_lt a
      rw [← e] at hlt
      rw [List.getElem?_eq_getElem hlt]
      simp [fill]
    · have := h2 i hi hno
      rwa [elem, elem, if_pos hi, if_pos hi] at this

/-- C124: assigning a slice is assigning the tensor which this slice gives. -/
theorem c124_view (t s v : Tensor α) (wf : t.WF) (wfs : s.WF) (rs qs : List View.Spec) (h : Fits t rs)
    (hn : Once t rs) (hq : Fits s qs) (hv : Gives s qs v) (r : Res (Tensor α)) :
    Finishes (fun n => assignView n t rs s qs) r ↔ Finishes (fun n => assign n t rs v) r := by
  obtain ⟨v', f, k1, k2⟩ := c12_assign_slice t s wf wfs rs qs h.ne hq.ne h.pos hq.pos h.valid hq.valid hn
  have : v' = v := Gives.unique f hv
  subst this
  have wv := (gives_pos wfs hq hv).1
  have key := c12_assign_tensor t v' wf wv rs h.ne h.pos h.valid hn
  by_cases hl : v'.data.length = prod ((sels t rs).map List.length)
  · obtain ⟨t1, f1, w1, d1, a1⟩ := k1 hl
    have e1 : Finishes (fun n => assign n t rs v') (.ok t1) := by
      refine (becomes_iff wf wv h hn).2 ⟨hl, d1, ?_, fun j i p => ?_, fun i hi hno => ?_⟩
      · have w' : t1.data.length = Tensor.totalSize t1.dims := w1
        have wf' : t.data.length = Tensor.totalSize t.dims := wf
        rw [w', wf', d1]
      · have := (a1.1 j i p).1
        rwa [elem, if_pos (Picks.inB (ValidAll.selFor h.valid) p).2] at this
      · have := a1.2 i hi hno
        rwa [elem, elem, if_pos hi, if_pos hi] at this
    exact ⟨fun hr => by rw [Finishes.unique hr f1]; exact e1, fun hr => by rw [Finishes.unique hr e1]; exact f1⟩
  · have f1 := k2 hl
    have e1 := key.2 hl
    exact ⟨fun hr => by rw [Finishes.unique hr f1]; exact e1, fun hr => by rw [Finishes.unique hr e1]; exact f1⟩

/-- C124: operations on each element and slices can be exchanged. -/
theorem c124_unary (f : α → β) (t s : Tensor α) (wf : t.WF) (rs : List View.Spec) (h : Fits t rs)
    (hs : Gives t rs s) : ∃ t' s', unop f t = .ok t' ∧ unop f s = .ok s' ∧ Gives t' rs s' := by
  obtain ⟨w, d, e⟩ := gives_pos wf h hs
  refine ⟨_, _, unop_ok f t wf, unop_ok f s w, ?_⟩
  obtain ⟨h', es, el⟩ := h.congr (t' := (⟨t.dims, t.data.map f⟩ : Tensor β)) rfl (by simp)
  refine gives_of_pos ?_ h' ?_ (by rw [es]; exact d) fun j i p => ?_
  · show (t.data.map f).length = _
    rw [List.length_map]; exact wf
  · show (s.data.map f).length = _
    rw [List.length_map]; exact w
  · rw [es] at p
    rw [el]
    simp only [List.getElem?_map, e j i p]

/-- C124: the same for operators of two tensors. -/
theorem c124_binary (f : α → β → γ) (a x : Tensor α) (b y : Tensor β) (wfa : a.WF) (wfb : b.WF)
    (hd : a.dims = b.dims) (rs : List View.Spec) (h : Fits a rs) (hx : Gives a rs x) (hy : Gives b rs y) :
    ∃ c z, binopTT f a b = .ok c ∧ binopTT f x y = .ok z ∧ Gives c rs z := by
  have hl : a.data.length = b.data.length := by
    have h1 : a.data.length = Tensor.totalSize a.dims := wfa
    have h2 : b.data.length = Tensor.totalSize b.dims := wfb
    rw [h1, h2, hd]
  obtain ⟨hb, esb, elb⟩ := h.congr (t' := b) hd.symm hl.symm
  obtain ⟨wx, dx, ex⟩ := gives_pos wfa h hx
  obtain ⟨wy, dy, ey⟩ := gives_pos wfb hb hy
  have hlxy : x.data.length = y.data.length := by
    rw [gives_length wfa h hx, gives_length wfb hb hy, esb]
  refine ⟨_, _, binopTT_ok f a b wfa hl, binopTT_ok f x y wx hlxy, ?_⟩
  have hlen : (List.zipWith f a.data b.data).length = a.data.length := by simp [hl]
  obtain ⟨h', es, el⟩ := h.congr (t' := (⟨a.dims, List.zipWith f a.data b.data⟩ : Tensor γ)) rfl hlen
  refine gives_of_pos (hlen.trans wfa) h' ?_ (by rw [es]; exact dx) fun j i p => ?_
  · show (List.zipWith f x.data y.data).length = Tensor.totalSize x.dims
    have : x.data.length = Tensor.totalSize x.dims := wx
    rw [← this]; simp [hlxy]
  · rw [es] at p
    rw [el]
    have e1 := ex j i p
    have e2 := ey j i (by rw [esb]; exact p)
    rw [elb, dy, esb, ← dx] at e2
    simp only [List.getElem?_zipWith, e1, e2]

/-- The range which selects the positions `q` among those of `r`. -/
def compose (r q : View.Spec) (d : Nat) : View.Spec :=
  .list ((sel q (sel r d).length).filterMap fun p => (sel r d)[p.toNat]?)

/-- The same for each dimension. -/
def composeAll : List View.Spec → List View.Spec → List Nat → List View.Spec
  | r :: rs, q :: qs, d :: ds => compose r q d :: composeAll rs qs ds
  | _, _, _ => []

theorem filterMap_get {s : List Int} : {l : List Int} → (∀ x ∈ l, 0 ≤ x ∧ x < s.length) → (k : Nat) →
    (l.filterMap fun p => s[p.toNat]?)[k]? = l[k]?.bind fun p => s[p.toNat]?
  | [], _, k => by simp
  | x :: l, h, k => by
    have hx := h x (by simp)
    have hlt : x.toNat < s.length := by omega
    rw [List.filterMap_cons_some (f := fun p : Int => s[p.toNat]?) (List.getElem?_eq_getElem hlt)]
    cases k with
    | zero => simp [List.getElem?_eq_getElem hlt]
    | succ k =>
      simp only [List.getElem?_cons_succ]
      exact filterMap_get (fun y hy => h y (by simp [hy])) k

theorem filterMap_len {s : List Int} : {l : List Int} → (∀ x ∈ l, 0 ≤ x ∧ x < s.length) →
    (l.filterMap fun p => s[p.toNat]?).length = l.length
  | [], _ => rfl
  | x :: l, h => by
    have hx := h x (by simp)
    have hlt : x.toNat < s.length := by omega
    rw [List.filterMap_cons_some (f := fun p : Int => s[p.toNat]?) (List.getElem?_eq_getElem hlt), List.length_cons,
      filterMap_len fun y hy => h y (by simp [hy]), List.length_cons]

theorem sel_bound {r : View.Spec} {d : Nat} (h : Valid r d) : ∀ x ∈ sel r d, 0 ≤ x ∧ x < d := by
  have : SelFor (selAll [r] [d]) [d] := ValidAll.selFor (sps := [r]) (ds := [d]) ⟨h, trivial⟩
  exact this.1

theorem compose_all {rs qs : List View.Spec} {ds : List Nat} (hr : ValidAll rs ds)
    (hq : ValidAll qs ((selAll rs ds).map List.length)) :
    ValidAll (composeAll rs qs ds) ds ∧
    (selAll (composeAll rs qs ds) ds).map List.length =
      (selAll qs ((selAll rs ds).map List.length)).map List.length ∧
    ∀ j i, Picks (selAll (composeAll rs qs ds) ds) j i →
      ∃ k, Picks (selAll qs ((selAll rs ds).map List.length)) j k ∧ Picks (selAll rs ds) k i := by
  induction rs generalizing qs ds with
  | nil =>
    cases ds with
    | cons => exact hr.elim
    | nil =>
      cases qs with
      | cons => exact hq.elim
      | nil =>
        refine ⟨trivial, rfl, fun j i p => ⟨[], ?_⟩⟩
        match j, i, p with
        | [], [], _ => exact ⟨trivial, trivial⟩
        | _ :: _, _, p => simp [composeAll, selAll, Picks] at p
        | [], _ :: _, p => simp [composeAll, selAll, Picks] at p
  | cons r rs ih =>
    cases ds with
    | nil => exact hr.elim
    | cons d ds =>
      cases qs with
      | nil => exact hq.elim
      | cons q qs =>
        simp only [selAll, List.map_cons] at hq
        obtain ⟨h1, h2, h3⟩ := ih hr.2 hq.2
        have hb := sel_bound hq.1
        have hbr := sel_bound hr.1
        refine ⟨⟨?_, h1⟩, ?_, ?_⟩
        · show ∀ x ∈ _, _
          intro x hx
          obtain ⟨p, -, e⟩ := List.mem_filterMap.1 hx
          exact hbr x (List.mem_of_getElem? e)
        · simp only [composeAll, selAll, List.map_cons, h2]
          congr 1
          exact filterMap_len hb
        · intro j i p
          match j, i, p with
          | [], _, p => simp [composeAll, selAll, Picks] at p
          | _ :: _, [], p => simp [composeAll, selAll, Picks] at p
          | j :: js, i :: is, p =>
            obtain ⟨k, k1, k2⟩ := h3 js is p.2
            have e : (sel (compose r q d) d)[j]? = some (i : Int) := p.1
            rw [compose, sel, filterMap_get hb] at e
            obtain ⟨x, ex, ey⟩ := Option.bind_eq_some_iff.1 e
            refine ⟨x.toNat :: k, ⟨?_, k1⟩, ey, k2⟩
            rw [ex]
            have := hb x (List.mem_of_getElem? ex)
            congr 1
            omega

theorem limits_self {t : Tensor α} (wf : t.WF) {rs : List View.Spec} (h : rs.length = t.dims.length) :
    limits t.dims t.data.length rs = t.dims := by
  unfold limits
  split
  · have wf' : t.data.length = Tensor.totalSize t.dims := wf
    match hd : t.dims, h with
    | [], h => simp_all
    | [d], _ => rw [wf', hd]; simp [Tensor.totalSize]
    | _ :: _ :: _, h => simp_all
  · rfl

/-- C124: a slice of a slice is the slice with the composed ranges. -/
theorem c124_slice_slice (t s : Tensor α) (wf : t.WF) (rs qs : List View.Spec) (h : Fits t rs) (hs : Gives t rs s)
    (hq : Fits s qs) (hl : qs.length = rs.length) :
    ∃ u, Gives s qs u ∧ Gives t (composeAll rs qs (limits t.dims t.data.length rs)) u := by
  obtain ⟨w, d, e⟩ := gives_pos wf h hs
  obtain ⟨u, hu⟩ := gives_exists w hq
  obtain ⟨wu, du, eu⟩ := gives_pos w hq hu
  have hlen := ValidAll.length h.valid
  have hsl : (sels t rs).length = rs.length := (ValidAll.selFor h.valid).length.trans hlen.symm
  have hlim : limits s.dims s.data.length qs = (sels t rs).map List.length := by
    rw [limits_self w (by rw [d, List.length_map]; omega), d]
  have hv := hq.valid
  rw [hlim] at hv
  obtain ⟨h1, h2, h3⟩ := compose_all h.valid hv
  have hcl : (composeAll rs qs (limits t.dims t.data.length rs)).length = rs.length :=
    (ValidAll.length h1).trans hlen.symm
  have hlim' : limits t.dims t.data.length (composeAll rs qs (limits t.dims t.data.length rs)) =
      limits t.dims t.data.length rs := by
    show (if (composeAll rs qs (limits t.dims t.data.length rs)).length = 1 then _ else _) = _
    rw [hcl]
    rfl
  have hf : Fits t (composeAll rs qs (limits t.dims t.data.length rs)) := by
    refine ⟨fun e => ?_, by rw [hlim']; exact h.pos, by rw [hlim']; exact h1⟩
    rw [e] at hcl
    exact h.ne (List.length_eq_zero_iff.1 hcl.symm)
  refine ⟨u, hu, gives_of_pos wf hf wu ?_ fun j i p => ?_⟩
  · rw [du, sels, sels, hlim', hlim]
    exact h2.symm
  · rw [sels, hlim'] at p
    obtain ⟨k, k1, k2⟩ := h3 j i p
    rw [hlim', ← e k i k2, d, ← hlim]
    exact eu j k (by rw [sels, hlim]; exact k1)

theorem sel_all_get (d k : Nat) (i : Nat) : (sel .all d)[k]? = some (i : Int) ↔ k = i ∧ k < d := by
  simp only [sel, List.getElem?_map]
  by_cases h : k < d
  · simp [h]
  · simp [h]

theorem picks_all {ds j i : List Nat} (h : Picks (selAll (ds.map fun _ => .all) ds) j i) : j = i := by
  induction ds generalizing j i with
  | nil =>
    match j, i, h with
    | [], [], _ => rfl
    | _ :: _, _, p => simp [selAll, Picks] at p
    | [], _ :: _, p => simp [selAll, Picks] at p
  | cons d ds ih =>
    match j, i, h with
    | [], _, p => simp [selAll, Picks] at p
    | _ :: _, [], p => simp [selAll, Picks] at p
    | j :: js, i :: is, p => rw [((sel_all_get d j i).1 p.1).1, ih p.2]

theorem lengths_all (ds : List Nat) : (selAll (ds.map fun _ => .all) ds).map List.length = ds := by
  induction ds with
  | nil => rfl
  | cons d ds ih =>
    simp only [List.map_cons, selAll, ih]
    simp [sel]

theorem validAll_all (ds : List Nat) : ValidAll (ds.map fun _ => .all) ds := by
  induction ds with
  | nil => trivial
  | cons d ds ih => exact ⟨trivial, ih⟩

theorem prod_pos {l : List Nat} (h : ∀ d ∈ l, d ≠ 0) : prod l ≠ 0 := by
  induction l with
  | nil => simp
  | cons x xs ih =>
    rw [prod_cons]
    exact Nat.mul_ne_zero (h x (by simp)) (ih fun d hd => h d (by simp [hd]))

/-- C124: all positions of all dimensions are the tensor itself, and all positions of one range are its
elements as a vector. -/
theorem c124_all (t : Tensor α) (wf : t.WF) (hne : t.dims ≠ []) (hp : ∀ d ∈ t.dims, d ≠ 0) :
    Gives t (t.dims.map fun _ => .all) t ∧ Gives t [.all] ⟨[t.data.length], t.data⟩ := by
  constructor
  · have hlim := limits_self wf (rs := t.dims.map fun _ => .all) (by simp)
    have hf : Fits t (t.dims.map fun _ => .all) :=
      ⟨by simpa using hne, by rw [hlim]; exact hp, by rw [hlim]; exact validAll_all _⟩
    refine gives_of_pos wf hf wf ?_ fun j i p => ?_
    · rw [sels, hlim, lengths_all]
    · rw [sels, hlim] at p
      rw [hlim, picks_all p]
  · have hlim : limits t.dims t.data.length [.all] = [t.data.length] := by simp [limits]
    have hf : Fits t [.all] := by
      refine ⟨by simp, ?_, by rw [hlim]; exact ⟨trivial, trivial⟩⟩
      rw [hlim]
      intro d hd
      have wf' : t.data.length = Tensor.totalSize t.dims := wf
      rw [List.mem_singleton] at hd
      rw [hd, wf', totalSize_of_ne hne]
      exact prod_pos hp
    refine gives_of_pos wf hf ?_ ?_ fun j i p => ?_
    · show t.data.length = Tensor.totalSize [t.data.length]
      simp [Tensor.totalSize]
    · rw [sels, hlim]
      exact (lengths_all [t.data.length]).symm
    · rw [sels, hlim] at p
      rw [hlim, picks_all (ds := [t.data.length]) p]

theorem picks_iff {ss : List (List Int)} {j i : List Nat} :
    Picks ss j i ↔ j.length = ss.length ∧ i.length = ss.length ∧
      ∀ (k : Nat) s x y, ss[k]? = some s → j[k]? = some x → i[k]? = some y → s[x]? = some (y : Int) := by
  induction ss generalizing j i with
  | nil =>
    match j, i with
    | [], [] => simp [Picks]
    | _ :: _, _ => simp [Picks]
    | [], _ :: _ => simp [Picks]
  | cons s ss ih =>
    match j, i with
    | [], _ => simp [Picks]
    | _ :: _, [] => simp [Picks]
    | a :: js, b :: is =>
      simp only [Picks, ih, List.length_cons, Nat.add_right_cancel_iff]
      constructor
      · rintro ⟨h1, h2, h3, h4⟩
        refine ⟨h2, h3, fun k => ?_⟩
        cases k with
        | zero => simp only [List.getElem?_cons_zero, Option.some.injEq]; rintro _ _ _ rfl rfl rfl; exact h1
        | succ k => simpa only [List.getElem?_cons_succ] using h4 k
      · rintro ⟨h2, h3, h4⟩
        exact ⟨h4 0 s a b rfl rfl rfl, h2, h3, fun k => by simpa only [List.getElem?_cons_succ] using h4 (k + 1)⟩

theorem validAll_iff {rs : List View.Spec} {ds : List Nat} :
    ValidAll rs ds ↔ rs.length = ds.length ∧
      ∀ (k : Nat) r d, rs[k]? = some r → ds[k]? = some d → Valid r d := by
  induction rs generalizing ds with
  | nil => cases ds <;> simp [ValidAll]
  | cons r rs ih =>
    cases ds with
    | nil => simp [ValidAll]
    | cons d ds =>
      simp only [ValidAll, ih, List.length_cons, Nat.add_right_cancel_iff]
      constructor
      · rintro ⟨h1, h2, h4⟩
        refine ⟨h2, fun k => ?_⟩
        cases k with
        | zero => simp only [List.getElem?_cons_zero, Option.some.injEq]; rintro _ _ rfl rfl; exact h1
        | succ k => simpa only [List.getElem?_cons_succ] using h4 k
      · rintro ⟨h2, h4⟩
        exact ⟨h4 0 r d rfl rfl, h2, fun k => by simpa only [List.getElem?_cons_succ] using h4 (k + 1)⟩

theorem selAll_get (rs : List View.Spec) (ds : List Nat) (k : Nat) :
    (selAll rs ds)[k]? = rs[k]?.bind fun r => ds[k]?.map fun d => sel r d := by
  induction rs generalizing ds k with
  | nil => simp [selAll]
  | cons r rs ih =>
    cases ds with
    | nil => cases k <;> simp [selAll]
    | cons d ds => cases k <;> simp [selAll, ih]

theorem swapAt_get {β : Type} (l : List β) (i j k : Nat) (hi : i < l.length) (hj : j < l.length) :
    (swapAt l i j)[k]? = l[if k = j then i else if k = i then j else k]? := by
  unfold swapAt
  rw [List.getElem?_eq_getElem hi, List.getElem?_eq_getElem hj]
  simp only [List.getElem?_set, List.length_set]
  by_cases h1 : k = j
  · subst h1; simp [hj]
  · by_cases h2 : k = i
    · subst h2; simp [hi, hj, h1, Ne.symm h1]
    · simp [h1, h2, Ne.symm h1, Ne.symm h2]

theorem swapAt_map {β γ : Type} (f : β → γ) (l : List β) (i j : Nat) (hi : i < l.length) (hj : j < l.length) :
    (swapAt l i j).map f = swapAt (l.map f) i j := by
  apply List.ext_getElem?
  intro k
  rw [List.getElem?_map, swapAt_get l i j k hi hj, swapAt_get _ i j k (by simpa) (by simpa), List.getElem?_map]

theorem selAll_swap {rs : List View.Spec} {ds : List Nat} (hl : rs.length = ds.length) (i j : Nat)
    (hi : i < rs.length) (hj : j < rs.length) :
    selAll (swapAt rs i j) (swapAt ds i j) = swapAt (selAll rs ds) i j := by
  have hlen : (selAll rs ds).length = rs.length := by
    clear hi hj
    induction rs generalizing ds with
    | nil => rfl
    | cons r rs ih =>
      cases ds with
      | nil => simp at hl
      | cons d ds => simp [selAll, ih (by simpa using hl)]
  apply List.ext_getElem?
  intro k
  rw [selAll_get, swapAt_get rs i j k hi hj, swapAt_get ds i j k (by omega) (by omega),
    swapAt_get _ i j k (by omega) (by omega), selAll_get]

theorem picks_swap {ss : List (List Int)} {a b : List Nat} {i j : Nat} (hi : i < ss.length) (hj : j < ss.length)
    (h : Picks (swapAt ss i j) a b) : Picks ss (swapAt a i j) (swapAt b i j) := by
  rw [picks_iff] at h ⊢
  simp only [swapAt_length] at h ⊢
  obtain ⟨h1, h2, h3⟩ := h
  refine ⟨h1, h2, fun k s x y e1 e2 e3 => ?_⟩
  rw [swapAt_get _ _ _ _ (by omega) (by omega)] at e2 e3
  refine h3 (if k = j then i else if k = i then j else k) s x y ?_ e2 e3
  rw [swapAt_get _ _ _ _ hi hj, ← e1]
  by_cases h1 : k = j
  · subst h1
    by_cases h2 : i = k
    · simp [h2]
    · simp [h2]
  · by_cases h2 : k = i
    · subst h2; simp [h1]
    · simp [h1, h2]

/-- C124: the slice of a tensor with exchanged indices is the slice with exchanged indices. -/
theorem c124_permute (t s : Tensor α) (wf : t.WF) (rs : List View.Spec) (hl : rs.length = t.dims.length)
    (h : Fits t rs) (hs : Gives t rs s) (n1 n2 : Int) (i j : Nat) (hi : Spec.norm t.dims.length n1 = some i)
    (hj : Spec.norm t.dims.length n2 = some j) :
    ∃ t' s', permute t n1 n2 = .ok t' ∧ permute s n1 n2 = .ok s' ∧ Gives t' (swapAt rs i j) s' := by
  have hi' := norm_lt hi
  have hj' := norm_lt hj
  obtain ⟨w, d, e⟩ := gives_pos wf h hs
  have hlim := limits_self wf hl
  have hv := h.valid
  have hpos := h.pos
  rw [sels, hlim] at d
  rw [hlim] at hv hpos
  have hsel : (selAll rs t.dims).length = t.dims.length := (ValidAll.selFor hv).length
  have hsd : s.dims.length = t.dims.length := by rw [d, List.length_map, hsel]
  obtain ⟨t', et, wt, dt, kt⟩ := (c17_permute t wf n1 n2).1 i j hi hj
  obtain ⟨s', es, ws, ds, ks⟩ := (c17_permute s w n1 n2).1 i j (by rw [hsd]; exact hi) (by rw [hsd]; exact hj)
  refine ⟨t', s', et, es, ?_⟩
  have hlim' : limits t'.dims t'.data.length (swapAt rs i j) = t'.dims :=
    limits_self wt (by rw [swapAt_length, dt, swapAt_length, hl])
  have hss : selAll (swapAt rs i j) t'.dims = swapAt (selAll rs t.dims) i j := by
    rw [dt, selAll_swap hl i j (by omega) (by omega)]
  have hv' : ValidAll (swapAt rs i j) t'.dims := by
    rw [validAll_iff] at hv ⊢
    refine ⟨by rw [swapAt_length, dt, swapAt_length, hl], fun k r x e1 e2 => ?_⟩
    rw [swapAt_get _ _ _ _ (by omega) (by omega)] at e1
    rw [dt, swapAt_get _ _ _ _ (by omega) (by omega)] at e2
    exact hv.2 _ r x e1 e2
  have hf : Fits t' (swapAt rs i j) := by
    refine ⟨fun e => h.ne ?_, ?_, by rw [hlim']; exact hv'⟩
    · have := swapAt_length rs i j
      rw [e] at this
      exact List.length_eq_zero_iff.1 this.symm
    · rw [hlim', dt]
      intro x hx
      obtain ⟨k, hk⟩ := List.mem_iff_getElem?.1 hx
      rw [swapAt_get _ _ _ _ (by omega) (by omega)] at hk
      exact hpos x (List.mem_of_getElem? hk)
  refine gives_of_pos wt hf ws ?_ fun a b p => ?_
  · rw [sels, hlim', hss, ds, d, swapAt_map _ _ _ _ (by omega) (by omega)]
  · rw [sels, hlim', hss] at p
    have p' := picks_swap (by omega) (by omega) p
    obtain ⟨ia, ib⟩ := Picks.inB (ValidAll.selFor hv) p'
    rw [← d] at ia
    have k1 := ks _ ia
    have k2 := kt _ ib
    rw [swapAt_swapAt] at k1 k2
    rw [elem, elem, if_pos k1.1, if_pos ia] at k1
    rw [elem, elem, if_pos k2.1, if_pos ib] at k2
    have := e _ _ (by rw [sels, hlim]; exact p')
    rw [hlim] at this
    rw [hlim', k1.2, k2.2, this]

theorem gives_isMat {t s : Tensor α} {m n : Nat} {f : Nat → Nat → α} (ht : IsMat t.dims t.data m n f)
    {r q : View.Spec} (h : Fits t [r, q]) (hs : Gives t [r, q] s) :
    ∀ (a b : List Nat), sel r m = a.map Int.ofNat → sel q n = b.map Int.ofNat → ∀ g : Nat → Nat → α,
      (∀ x y i j, a[x]? = some i → b[y]? = some j → g x y = f i j) →
      IsMat s.dims s.data a.length b.length g := by
  intro a b ha hb g hg
  have wf := IsMat.wf ht
  obtain ⟨w, d, e⟩ := gives_pos wf h hs
  have hlim : limits t.dims t.data.length [r, q] = [m, n] := by simp [limits, ht.1]
  simp only [sels, hlim, selAll, ha, hb] at d e
  have d : s.dims = [a.length, b.length] := by simpa using d
  refine isMat_of_elem w d fun x y hx hy => ?_
  have p : Picks [a.map Int.ofNat, b.map Int.ofNat] [x, y] [a[x], b[y]] := by
    refine ⟨?_, ?_, trivial⟩ <;> simp [hx, hy]
  have hin : InB [a[x], b[y]] [m, n] := by
    have hsf := ValidAll.selFor h.valid
    simp only [hlim, selAll, ha, hb] at hsf
    exact (Picks.inB hsf p).2
  have := e _ _ p
  rw [elem, if_pos (by rw [d]; exact ⟨hx, hy, trivial⟩), this, hg x y a[x] b[y] (by simp [hx]) (by simp [hy]),
    ← ht.2.2 a[x] b[y] hin.1 hin.2.1, ht.1, elem, if_pos hin]

theorem sel_nat {r : View.Spec} {d : Nat} (h : Valid r d) : ∃ a : List Nat, sel r d = a.map Int.ofNat ∧ ∀ x ∈ a, x < d := by
  have hb := sel_bound h
  refine ⟨(sel r d).map Int.toNat, ?_, ?_⟩
  · rw [List.map_map]
    symm
    calc _ = (sel r d).map id := List.map_congr_left fun x hx => by
              have := hb x hx
              show ((x.toNat : Nat) : Int) = x
              omega
      _ = _ := List.map_id _
  · intro x hx
    obtain ⟨y, hy, rfl⟩ := List.mem_map.1 hx
    have := hb y hy
    omega

theorem fits2 {t : Tensor α} {m n : Nat} (hd : t.dims = [m, n]) (hm : m ≠ 0) (hn : n ≠ 0) {r q : View.Spec}
    (hr : Valid r m) (hq : Valid q n) : Fits t [r, q] := by
  have hlim : limits t.dims t.data.length [r, q] = [m, n] := by simp [limits, hd]
  refine ⟨by simp, ?_, ?_⟩
  · rw [hlim]; simp [hm, hn]
  · rw [hlim]; exact ⟨hr, hq, trivial⟩

theorem sel_all_nat (d : Nat) : sel .all d = (List.range d).map Int.ofNat := rfl

/-- C124: rows and columns of a product: `mmult(a, b)(r, q)` is `mmult(a(r, range()), b(range(), q))`. -/
theorem c124_product [CommSemiring α] (a b : Tensor α) (wfa : a.WF) (wfb : b.WF) (m n p : Nat)
    (ha : a.dims = [m, n]) (hb : b.dims = [n, p]) (hm : m ≠ 0) (hn : n ≠ 0) (hp : p ≠ 0) (r q : View.Spec)
    (hr : Valid r m) (hq : Valid q p) :
    ∃ c x y z, mmult a b = .ok c ∧ Gives a [r, .all] x ∧ Gives b [.all, q] y ∧ mmult x y = .ok z ∧
      Gives c [r, q] z := by
  obtain ⟨f, hf⟩ := exists_isMat a wfa _ _ ha
  obtain ⟨g, hg⟩ := exists_isMat b wfb _ _ hb
  obtain ⟨c, ec, hc⟩ := mmult_isMat hf hg hn
  have fa := fits2 ha hm hn hr (q := .all) trivial
  have fb := fits2 hb hn hp (r := .all) trivial hq
  have fc := fits2 hc.1 hm hp hr hq
  obtain ⟨x, hx⟩ := gives_exists wfa fa
  obtain ⟨y, hy⟩ := gives_exists wfb fb
  obtain ⟨w, hw⟩ := gives_exists (IsMat.wf hc) fc
  obtain ⟨lr, er, br⟩ := sel_nat hr
  obtain ⟨lq, eq, bq⟩ := sel_nat hq
  have mx := gives_isMat hf fa hx lr (List.range n) er (sel_all_nat n) (fun i j => f (lr.getD i 0) j) (by
    intro i j i' j' h1 h2
    obtain ⟨-, rfl⟩ := List.getElem?_eq_some_iff.1 h2
    simp [h1])
  have my := gives_isMat hg fb hy (List.range n) lq (sel_all_nat n) eq (fun i j => g i (lq.getD j 0)) (by
    intro i j i' j' h1 h2
    obtain ⟨-, rfl⟩ := List.getElem?_eq_some_iff.1 h1
    simp [h2])
  have mw := gives_isMat hc fc hw lr lq er eq
    (fun i j => ∑ l ∈ Finset.range n, f (lr.getD i 0) l * g l (lq.getD j 0)) (by
    intro i j i' j' h1 h2
    simp [h1, h2])
  rw [List.length_range] at mx my
  obtain ⟨z, ez, mz⟩ := mmult_isMat mx my hn
  refine ⟨c, x, y, z, ec, hx, hy, ez, ?_⟩
  rw [IsMat.unique mz mw fun _ _ _ _ => rfl]
  exact hw

/-- C124: `transpose(a)(q, r)` is `transpose(a(r, q))`, and the same for adjoints. -/
theorem c124_transpose [Zero α] (conj : α → α) (a : Tensor α) (wf : a.WF) (m n : Nat) (ha : a.dims = [m, n])
    (hm : m ≠ 0) (hn : n ≠ 0) (r q : View.Spec) (hr : Valid r m) (hq : Valid q n) :
    ∃ s, Gives a [r, q] s ∧
      (∃ b z, transpose a = .ok b ∧ transpose s = .ok z ∧ Gives b [q, r] z) ∧
      ∃ b z, adjoint conj a = .ok b ∧ adjoint conj s = .ok z ∧ Gives b [q, r] z := by
  obtain ⟨f, hf⟩ := exists_isMat a wf _ _ ha
  have fa := fits2 ha hm hn hr hq
  obtain ⟨s, hs⟩ := gives_exists wf fa
  obtain ⟨lr, er, br⟩ := sel_nat hr
  obtain ⟨lq, eq, bq⟩ := sel_nat hq
  have ms := gives_isMat hf fa hs lr lq er eq (fun i j => f (lr.getD i 0) (lq.getD j 0)) (by
    intro i j i' j' h1 h2
    simp [h1, h2])
  refine ⟨s, hs, ?_, ?_⟩
  · obtain ⟨b, eb, hb⟩ := transpose_isMat hf
    obtain ⟨z, ez, hz⟩ := transpose_isMat ms
    have fb := fits2 hb.1 hn hm hq hr
    obtain ⟨w, hw⟩ := gives_exists (IsMat.wf hb) fb
    have mw := gives_isMat hb fb hw lq lr eq er (fun i j => f (lr.getD j 0) (lq.getD i 0)) (by
      intro i j i' j' h1 h2
      simp [h1, h2])
    refine ⟨b, z, eb, ez, ?_⟩
    rw [IsMat.unique hz mw fun _ _ _ _ => rfl]
    exact hw
  · obtain ⟨b, eb, hb⟩ := adjoint_isMat conj hf
    obtain ⟨z, ez, hz⟩ := adjoint_isMat conj ms
    have fb := fits2 hb.1 hn hm hq hr
    obtain ⟨w, hw⟩ := gives_exists (IsMat.wf hb) fb
    have mw := gives_isMat hb fb hw lq lr eq er (fun i j => conj (f (lr.getD j 0) (lq.getD i 0))) (by
      intro i j i' j' h1 h2
      simp [h1, h2])
    refine ⟨b, z, eb, ez, ?_⟩
    rw [IsMat.unique hz mw fun _ _ _ _ => rfl]
    exact hw

/-! The hypotheses can be met. -/

example : Fits (⟨[2, 3], [1, 2, 3, 4, 5, 6]⟩ : Tensor Int) [.all, .list [2, 0]] :=
  ⟨by simp, by simp [limits], trivial, by simp [Valid], trivial⟩

example : Once (⟨[2, 3], [1, 2, 3, 4, 5, 6]⟩ : Tensor Int) [.all, .list [2, 0]] := by
  have e : sels (⟨[2, 3], [1, 2, 3, 4, 5, 6]⟩ : Tensor Int) [.all, .list [2, 0]] = [[0, 1], [2, 0]] := rfl
  intro l hl
  rw [e] at hl
  simp only [List.mem_cons, List.not_mem_nil, or_false] at hl
  rcases hl with rfl | rfl <;> decide

example : sels (⟨[2, 3], [1, 2, 3, 4, 5, 6]⟩ : Tensor Int) [.all, .step 0 2 1] =
    sels (⟨[2, 3], [1, 2, 3, 4, 5, 6]⟩ : Tensor Int) [.list [0, 1], .all] := rfl

example : Gives (⟨[2, 3], [1, 2, 3, 4, 5, 6]⟩ : Tensor Int) [.all, .list [2, 0]] ⟨[2, 2], [5, 6, 1, 2]⟩ :=
  ⟨50, fun n hn => by
    obtain ⟨k, rfl⟩ := Nat.exists_eq_add_of_le hn
    rw [Nat.add_comm]
    rfl⟩

example : Disjoint (⟨[3], [1, 2, 3]⟩ : Tensor Int) [.list [2, 0]] [.single 1] := by
  intro j i j' i' p p' e
  have b1 : InB i [3] := (Picks.inB (ss := [[2, 0]]) (by simp [SelFor]) p).2
  have b2 : InB i' [3] := (Picks.inB (ss := [[1]]) (by simp [SelFor]) p').2
  have := colPos_inj b1 b2 e
  subst this
  have p : Picks [[2, 0]] j i := p
  have p' : Picks [[1]] j' i := p'
  match i, b1 with
  | [c], _ =>
    have q := picks_iff.1 p
    have q' := picks_iff.1 p'
    match j, j', q, q' with
    | [a], [a'], q, q' =>
      have h1 := List.mem_of_getElem? (q.2.2 0 _ _ _ rfl rfl rfl)
      have h2 := List.mem_of_getElem? (q'.2.2 0 _ _ _ rfl rfl rfl)
      simp at h1 h2
      omega

example : Becomes (⟨[2, 3], [1, 2, 3, 4, 5, 6]⟩ : Tensor Int) [.single 0, .single 1] ⟨[1], [7]⟩
    ⟨[2, 3], [1, 2, 7, 4, 5, 6]⟩ :=
  ⟨50, fun n hn => by
    obtain ⟨k, rfl⟩ := Nat.exists_eq_add_of_le hn
    rw [Nat.add_comm]
    rfl⟩

end Verif.View
