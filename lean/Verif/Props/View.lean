import Verif.Lemmas.Slice2
/-
C11 - C16: slices.

`limits dims size rs` are the dimensions which the ranges refer to (the dimensions of the tensor, or
its size for one single range), `selAll rs limits` the lists of indices selected in each of them,
and `Picks sels j i` says that the tuple of positions j picks the index tuple i.
-/
namespace Verif.View

open Verif Spec

variable {α : Type}

/-- C11: reading a slice with ranges which lie within the dimensions finishes, and gives the tensor
whose dimensions are the numbers of selected indices and whose element at a tuple of positions is the
element of `t` at the index tuple which they pick. -/
theorem c11_slice (t : Tensor α) (wf : t.WF) (rs : List View.Spec) (hne : rs ≠ [])
    (hd : ∀ d ∈ limits t.dims t.data.length rs, d ≠ 0)
    (hv : ValidAll rs (limits t.dims t.data.length rs)) :
    ∃ s : Tensor α,
      Finishes (fun n => slice n t rs) (.ok (s.dims.map Int.ofNat, s.data)) ∧ s.WF ∧
      s.dims = (selAll rs (limits t.dims t.data.length rs)).map List.length ∧
      (∀ j, InB j s.dims → ∃ i, Picks (selAll rs (limits t.dims t.data.length rs)) j i) ∧
      (∀ j i, Picks (selAll rs (limits t.dims t.data.length rs)) j i →
        InB j s.dims ∧ InB i (limits t.dims t.data.length rs) ∧
        elem s.dims s.data j = elem (limits t.dims t.data.length rs) t.data i) := by
  have hg := slice_general t rs hne hd (ValidAll.stepPos hv) (ValidAll.acceptedAll hv)
  have hlen := limits_prod t wf rs hne (ValidAll.length hv)
  have hsz := ValidAll.sizes hv
  have hsf := ValidAll.selFor hv
  have hcv := chainVals_eq hv hne 1 (by omega)
  generalize limits t.dims t.data.length rs = ds at *
  obtain ⟨r, hr1, hr2, hr3⟩ := read_enum t.data (selAll rs ds) ds hsf hlen
  set S := (selAll rs ds).map List.length with hS
  have hSne : S ≠ [] := by
    intro e
    have h1 : rs.length = ds.length := ValidAll.length hv
    have h2 : (selAll rs ds).length = ds.length := hsf.length
    have h3 : (selAll rs ds).length = 0 := by rw [← List.length_map (f := List.length), ← hS, e]; rfl
    have : rs.length = 0 := by omega
    exact hne (by simpa using this)
  have hrl : r.length = Tensor.totalSize S := by rw [hr2, totalSize_of_ne hSne]
  refine ⟨⟨S, r⟩, ?_, hrl, rfl, ?_, ?_⟩
  · have e : writeAll (List.replicate (Tensor.totalSizeI (specSizes rs ds)).toNat none)
        (readWrites t.data 0 (chainVals rs ds 1)) >>= finish = .ok r := by
      rw [hsz, totalSizeI_ofNat, hcv, readWrites_eq _ _ _ _ hr1, Int.toNat_natCast, ← hrl]
      exact Indices.runWrites_copy r
    rw [e, hsz] at hg
    exact hg
  · intro j hj
    obtain ⟨i, hi, -⟩ := picks_exists _ ds j hsf hj
    exact ⟨i, hi⟩
  · intro j i hp
    obtain ⟨h1, h2⟩ := Picks.inB hsf hp
    refine ⟨h1, h2, ?_⟩
    have h1' : InB j S := h1
    simp only [elem, h1', h2, if_true]
    exact hr3 j i hp

/-- C11: the indices selected by start:end:step are those between start and end, both included,
which differ from the start by a multiple of the step, in increasing order. -/
theorem c11_step_selection (a b s : Int) (hs : 0 < s) (d : Nat) :
    (∀ x, x ∈ sel (.step a b s) d ↔ a ≤ x ∧ x ≤ b ∧ s ∣ x - a) ∧
    (sel (.step a b s) d).Pairwise (· < ·) := by
  constructor
  · intro x
    simp only [sel, List.mem_map, List.mem_range]
    constructor
    · rintro ⟨k, hk, rfl⟩
      split at hk
      · have h1 : (k : Int) ≤ (b - a) / s := by omega
        have h2 := (Int.le_ediv_iff_mul_le hs).1 h1
        have h3 : 0 ≤ (k : Int) * s := by positivity
        exact ⟨by omega, by omega, ⟨k, by ring⟩⟩
      · omega
    · rintro ⟨h1, h2, k, hk⟩
      have hk0 : 0 ≤ k := by
        by_contra hneg
        have : s * k < 0 := Int.mul_neg_of_pos_of_neg hs (by omega)
        omega
      refine ⟨k.toNat, ?_, ?_⟩
      · rw [if_pos (by omega)]
        have : k ≤ (b - a) / s := (Int.le_ediv_iff_mul_le hs).2 (by rw [mul_comm]; omega)
        omega
      · rw [Int.toNat_of_nonneg hk0, mul_comm]; omega
  · simp only [sel]
    rw [List.pairwise_map]
    refine List.Pairwise.imp ?_ List.pairwise_lt_range
    intro i j hij
    have : (i : Int) * s < j * s := Int.mul_lt_mul_of_pos_right (by omega) hs
    omega

/-- What a slice assignment must do: the elements picked by the selection are those of the list `r`
in column-major order, and the others do not change. -/
def Assigned (ds : List Nat) (sels : List (List Int)) (r old new : List α) : Prop :=
  (∀ j i, Picks sels j i →
    elem ds new i = r[colPos (sels.map List.length) j]? ∧ (elem ds new i).isSome) ∧
  (∀ i, InB i ds → (¬ ∃ j, Picks sels j i) → elem ds new i = elem ds old i)

theorem assigned_of {ds : List Nat} {ss : List (List Int)} {r old new : List α} (hs : SelFor ss ds)
    (hr : r.length = prod (ss.map List.length))
    (h1 : ∀ j i, Picks ss j i → new[colPos ds i]? = r[colPos (ss.map List.length) j]?)
    (h2 : ∀ i, InB i ds → (¬ ∃ j, Picks ss j i) → new[colPos ds i]? = old[colPos ds i]?) :
    Assigned ds ss r old new := by
  constructor
  · intro j i hp
    obtain ⟨a, b⟩ := Picks.inB hs hp
    have hlt := colPos_lt a
    rw [← hr] at hlt
    simp only [elem, b, if_true, h1 j i hp, List.getElem?_eq_getElem hlt]
    simp
  · intro i hi hno
    simp only [elem, hi, if_true]
    exact h2 i hi hno

/-- C12: assigning a tensor to a slice without repeated positions. A different number of elements
stops the program. -/
theorem c12_assign_tensor (t s : Tensor α) (wf : t.WF) (wfs : s.WF) (rs : List View.Spec)
    (hne : rs ≠ []) (hd : ∀ d ∈ limits t.dims t.data.length rs, d ≠ 0)
    (hv : ValidAll rs (limits t.dims t.data.length rs))
    (hn : ∀ l ∈ selAll rs (limits t.dims t.data.length rs), l.Nodup) :
    (s.data.length = prod ((selAll rs (limits t.dims t.data.length rs)).map List.length) →
      ∃ t' : Tensor α, Finishes (fun n => assign n t rs s) (.ok t') ∧ t'.WF ∧ t'.dims = t.dims ∧
        Assigned (limits t.dims t.data.length rs) (selAll rs (limits t.dims t.data.length rs))
          s.data t.data t'.data) ∧
    (s.data.length ≠ prod ((selAll rs (limits t.dims t.data.length rs)).map List.length) →
      Finishes (fun n => assign n t rs s) .abort) := by
  have hg := assign_general t s rs hne hd (ValidAll.stepPos hv) (ValidAll.acceptedAll hv)
  have hlen := limits_prod t wf rs hne (ValidAll.length hv)
  have hsz := ValidAll.sizes hv
  have hsf := ValidAll.selFor hv
  have hcv := chainVals_eq hv hne 1 (by omega)
  have hlen2 := ValidAll.length hv
  generalize limits t.dims t.data.length rs = ds at *
  have hSne : (selAll rs ds).map List.length ≠ [] := by
    intro e
    have h2 : (selAll rs ds).length = ds.length := hsf.length
    have h3 : (selAll rs ds).length = 0 := by rw [← List.length_map (f := List.length), e]; rfl
    have : rs.length = 0 := by omega
    exact hne (by simpa using this)
  have htot : Tensor.totalSizeI (specSizes rs ds) = prod ((selAll rs ds).map List.length) := by
    rw [hsz, totalSizeI_ofNat, totalSize_of_ne hSne]
  rw [htot, ← wfs] at hg
  constructor
  · intro h
    rw [if_pos (by exact_mod_cast h.symm)] at hg
    obtain ⟨d', w1, w2, w3, w4⟩ := write_enum t.data s.data (selAll rs ds) ds hsf hn hlen h
    refine ⟨⟨t.dims, d'⟩, ?_, ?_, rfl, assigned_of hsf h w3 w4⟩
    · rw [hcv, assignWrites_eq s.data 0 _ (by
        rw [enum_length _ _ _ hsf.length, h]; omega), List.drop_zero, w1] at hg
      exact hg
    · show d'.length = Tensor.totalSize t.dims
      rw [w2, wf]
  · intro h
    rw [if_neg (by exact_mod_cast h.symm)] at hg
    exact hg

/-- C12: assigning a number to a slice. -/
theorem c12_assign_number (t : Tensor α) (x : α) (wf : t.WF) (rs : List View.Spec)
    (hne : rs ≠ []) (hd : ∀ d ∈ limits t.dims t.data.length rs, d ≠ 0)
    (hv : ValidAll rs (limits t.dims t.data.length rs))
    (hn : ∀ l ∈ selAll rs (limits t.dims t.data.length rs), l.Nodup) :
    ∃ t' : Tensor α, Finishes (fun n => assignNumber n t rs x) (.ok t') ∧ t'.WF ∧
      t'.dims = t.dims ∧
      (∀ j i, Picks (selAll rs (limits t.dims t.data.length rs)) j i →
        elem (limits t.dims t.data.length rs) t'.data i = some x) ∧
      (∀ i, InB i (limits t.dims t.data.length rs) →
        (¬ ∃ j, Picks (selAll rs (limits t.dims t.data.length rs)) j i) →
        elem (limits t.dims t.data.length rs) t'.data i =
          elem (limits t.dims t.data.length rs) t.data i) := by
  have hg := assignNumber_general t x rs hne hd (ValidAll.stepPos hv) (ValidAll.acceptedAll hv)
  have hlen := limits_prod t wf rs hne (ValidAll.length hv)
  have hsf := ValidAll.selFor hv
  have hcv := chainVals_eq hv hne 1 (by omega)
  generalize limits t.dims t.data.length rs = ds at *
  obtain ⟨d', w1, w2, w3, w4⟩ := write_enum t.data
    (List.replicate (prod ((selAll rs ds).map List.length)) x) (selAll rs ds) ds hsf hn hlen
    (by simp)
  have ha := assigned_of hsf (by simp) w3 w4
  refine ⟨⟨t.dims, d'⟩, ?_, ?_, rfl, ?_, ha.2⟩
  · have : List.zipWith (fun p x => (p, some x)) (enum (selAll rs ds) ds 1)
        (List.replicate (prod ((selAll rs ds).map List.length)) x) =
        (enum (selAll rs ds) ds 1).map fun v => (v, some x) := by
      rw [← enum_length _ ds 1 hsf.length]
      generalize enum (selAll rs ds) ds 1 = l
      induction l with
      | nil => rfl
      | cons a l ih => simp [List.replicate_succ, ih]
    rw [this] at w1
    rw [hcv, w1] at hg
    exact hg
  · show d'.length = Tensor.totalSize t.dims
    rw [w2, wf]
  · intro j i hp
    have h1 := (ha.1 j i hp).1
    rw [h1]
    have := colPos_lt (Picks.inB hsf hp).1
    simp [this]

/-- C12: assigning a slice of `s` (which may be `t` itself, with overlapping positions): the values
are those which the slice had before the assignment. -/
theorem c12_assign_slice (t s : Tensor α) (wf : t.WF) (wfs : s.WF) (rs qs : List View.Spec)
    (hne : rs ≠ []) (hne' : qs ≠ [])
    (hd : ∀ d ∈ limits t.dims t.data.length rs, d ≠ 0)
    (hd' : ∀ d ∈ limits s.dims s.data.length qs, d ≠ 0)
    (hv : ValidAll rs (limits t.dims t.data.length rs))
    (hv' : ValidAll qs (limits s.dims s.data.length qs))
    (hn : ∀ l ∈ selAll rs (limits t.dims t.data.length rs), l.Nodup) :
    ∃ v : Tensor α,
      Finishes (fun n => slice n s qs) (.ok (v.dims.map Int.ofNat, v.data)) ∧
      (v.data.length = prod ((selAll rs (limits t.dims t.data.length rs)).map List.length) →
        ∃ t' : Tensor α, Finishes (fun n => assignView n t rs s qs) (.ok t') ∧ t'.WF ∧
          t'.dims = t.dims ∧
          Assigned (limits t.dims t.data.length rs) (selAll rs (limits t.dims t.data.length rs))
            v.data t.data t'.data) ∧
      (v.data.length ≠ prod ((selAll rs (limits t.dims t.data.length rs)).map List.length) →
        Finishes (fun n => assignView n t rs s qs) .abort) := by
  have hg := assignView_general t s rs qs hne hne' hd (ValidAll.stepPos hv)
    (ValidAll.acceptedAll hv) hd' (ValidAll.stepPos hv') (ValidAll.acceptedAll hv')
  have hsl := slice_general s qs hne' hd' (ValidAll.stepPos hv') (ValidAll.acceptedAll hv')
  have hlen := limits_prod t wf rs hne (ValidAll.length hv)
  have hlen' := limits_prod s wfs qs hne' (ValidAll.length hv')
  have hsz := ValidAll.sizes hv
  have hsz' := ValidAll.sizes hv'
  have hsf := ValidAll.selFor hv
  have hsf' := ValidAll.selFor hv'
  have hcv := chainVals_eq hv hne 1 (by omega)
  have hcv' := chainVals_eq hv' hne' 1 (by omega)
  have hl2 := ValidAll.length hv
  have hl2' := ValidAll.length hv'
  generalize limits t.dims t.data.length rs = ds at *
  generalize limits s.dims s.data.length qs = es at *
  have hne1 : ∀ (rs : List View.Spec) (ds : List Nat), rs ≠ [] → rs.length = ds.length →
      SelFor (selAll rs ds) ds → (selAll rs ds).map List.length ≠ [] := by
    intro rs ds hne hl hsf e
    have h2 : (selAll rs ds).length = ds.length := hsf.length
    have h3 : (selAll rs ds).length = 0 := by rw [← List.length_map (f := List.length), e]; rfl
    have : rs.length = 0 := by omega
    exact hne (by simpa using this)
  have hS := hne1 rs ds hne hl2 hsf
  have hS' := hne1 qs es hne' hl2' hsf'
  obtain ⟨r, hr1, hr2, hr3⟩ := read_enum s.data (selAll qs es) es hsf' hlen'
  have hrl : r.length = Tensor.totalSize ((selAll qs es).map List.length) := by
    rw [hr2, totalSize_of_ne hS']
  have htot : Tensor.totalSizeI (specSizes rs ds) = prod ((selAll rs ds).map List.length) := by
    rw [hsz, totalSizeI_ofNat, totalSize_of_ne hS]
  have htot' : Tensor.totalSizeI (specSizes qs es) = r.length := by
    rw [hsz', totalSizeI_ofNat, hrl]
  rw [htot, htot'] at hg
  refine ⟨⟨(selAll qs es).map List.length, r⟩, ?_, ?_, ?_⟩
  · have e : writeAll (List.replicate (Tensor.totalSizeI (specSizes qs es)).toNat none)
        (readWrites s.data 0 (chainVals qs es 1)) >>= finish = .ok r := by
      rw [htot', hcv', readWrites_eq _ _ _ _ hr1, Int.toNat_natCast]
      exact Indices.runWrites_copy r
    rw [e, hsz'] at hsl
    exact hsl
  · intro h
    simp only at h
    rw [if_pos (by exact_mod_cast h.symm)] at hg
    obtain ⟨d', w1, w2, w3, w4⟩ := write_enum t.data r (selAll rs ds) ds hsf hn hlen h
    refine ⟨⟨t.dims, d'⟩, ?_, ?_, rfl, assigned_of hsf h w3 w4⟩
    · have : List.zipWith (fun v w => (v, readAt s.data w)) (chainVals rs ds 1)
          (chainVals qs es 1) =
          List.zipWith (fun p x => (p, some x)) (enum (selAll rs ds) ds 1) r := by
        rw [hcv, hcv']
        have h1 : List.zipWith (fun v w => (v, readAt s.data w)) (enum (selAll rs ds) ds 1)
            (enum (selAll qs es) es 1) = List.zipWith Prod.mk (enum (selAll rs ds) ds 1)
            ((enum (selAll qs es) es 1).map (readAt s.data)) := by
          rw [List.zipWith_map_right]
        rw [h1, hr1, List.zipWith_map_right]
      rw [this, w1] at hg
      exact hg
    · show d'.length = Tensor.totalSize t.dims
      rw [w2, wf]
  · intro h
    simp only at h
    rw [if_neg (by exact_mod_cast h.symm)] at hg
    exact hg

/-- A range which exceeds a dimension of length `d` by more than what the library tolerates. -/
def TooLarge : View.Spec → Nat → Prop
  | .all, _ => False
  | .single i, d => d ≤ i
  | .step _ b _, d => d ≤ b
  | .list l, d => ∃ x ∈ l, (d : Int) < x

theorem tooLarge_not_accepted (rs : List View.Spec) (ds : List Nat) (k : Nat) (sp : View.Spec)
    (d : Nat) (h1 : rs[k]? = some sp) (h2 : ds[k]? = some d) (h : TooLarge sp d) :
    ¬ AcceptedAll rs ds := by
  induction rs generalizing ds k with
  | nil => simp at h1
  | cons r rs ih =>
    cases ds with
    | nil => simp at h2
    | cons e ds =>
      cases k with
      | zero =>
        simp at h1 h2
        subst h1 h2
        rintro ⟨ha, -⟩
        cases r with
        | all => exact h
        | single i => simp only [TooLarge, Accepted] at h ha; omega
        | step a b s => simp only [TooLarge, Accepted] at h ha; omega
        | list l =>
          obtain ⟨x, hx, h3⟩ := h
          have := ha x hx
          omega
      | succ k => exact fun ha => ih ds k (by simpa using h1) (by simpa using h2) ha.2

/-- C13, what holds: a single index or the end of a start:end:step range beyond the dimension, or a
listed index larger than the length of the dimension, stops the program in reads and writes, as does
a wrong number of ranges.  Missing: negative indices, and a listed index equal to the length of the
dimension, are not rejected (see the negations). -/
theorem c13_bounds_partial (t s : Tensor α) (x : α) (rs : List View.Spec)
    (h : (limits t.dims t.data.length rs).length ≠ rs.length ∨
      ∃ (k : Nat) (sp : View.Spec) (d : Nat), rs[k]? = some sp ∧
        (limits t.dims t.data.length rs)[k]? = some d ∧ TooLarge sp d) :
    Finishes (fun n => slice n t rs) .abort ∧
    Finishes (fun n => assign n t rs s) .abort ∧
    Finishes (fun n => assignNumber n t rs x) .abort := by
  have hna : ¬ AcceptedAll rs (limits t.dims t.data.length rs) := by
    rcases h with h | ⟨k, sp, d, h1, h2, h3⟩
    · exact fun ha => h ha.length.symm
    · exact tooLarge_not_accepted _ _ k sp d h1 h2 h3
  have hm := mkView_abort t rs hna
  exact ⟨⟨0, fun n _ => by simp [slice, hm]⟩, ⟨0, fun n _ => by simp [assign, hm]⟩,
    ⟨0, fun n _ => by simp [assignNumber, hm]⟩⟩

/-- C13 is false: a listed index equal to the length of a vector is accepted, and the element after
the last one is read. -/
theorem c13_negation_list_reads_past_end (t : Tensor α) (h : t.data ≠ []) :
    Finishes (fun n => slice n t [.list [(t.data.length : Int)]]) .ub := by
  have hl : t.data.length ≠ 0 := by simpa using h
  have hne : ((t.data.length : Int) : Int) ≠ nomore := by simp only [nomore]; omega
  have := slice_general t [.list [(t.data.length : Int)]] (by simp)
    (by simpa [limits] using h) (by simp [StepPos])
    (by simp [limits, AcceptedAll, Accepted])
  simpa [limits, chainVals, sel, tr_cons hne, specSizes, specSize, readWrites, readAt, writeAll,
    Tensor.totalSizeI] using this

/-- C13 is false: in a matrix, listing the row number equal to the number of rows silently reads the
first row of the next column. -/
theorem c13_negation_list_reads_wrong_column (t : Tensor α) (wf : t.WF) (r c : Nat) (x : α)
    (hd : t.dims = [r, c]) (hr : r ≠ 0) (hc : 2 ≤ c) (hx : elem t.dims t.data [0, 1] = some x) :
    Finishes (fun n => slice n t [.list [(r : Int)], .single 0]) (.ok ([1, 1], [x])) := by
  have hne : ((r : Int) + 0 : Int) ≠ nomore := by simp only [nomore]; omega
  have hne' : ((r : Int) : Int) ≠ nomore := by simp only [nomore]; omega
  have hz : (0 : Int) ≠ nomore := by simp [nomore]
  have hlen := wf.length_eq (by rw [hd]; simp)
  rw [hd] at hlen
  simp at hlen
  have hx' : t.data[r]? = some x := by
    have hb : InB [0, 1] t.dims := by rw [hd]; simp; omega
    exact (by simpa [elem, hb, hd] using hx : (0 < r ∧ 1 < c) ∧ t.data[r]? = some x).2
  have := slice_general t [.list [(r : Int)], .single 0] (by simp)
    (by simp [limits, hd]; omega) (by simp [StepPos])
    (by simp [limits, AcceptedAll, Accepted, hd]; omega)
  have hr0 : ¬ ((r : Int) < 0) := by omega
  simpa [limits, hd, chainVals, sel, tr_cons hne, tr_cons hne', tr_cons hz, specSizes, specSize,
    readWrites, readAt, writeAll, Tensor.totalSizeI, hx', finish, hr0] using this

/-- C13 is false: a single negative index is accepted, and memory before the first element is read
(or, for -1, the result is left uninitialised). -/
theorem c13_negation_negative_single (t : Tensor α) (h : t.data ≠ []) (i : Int) (hi : i < 0) :
    Finishes (fun n => slice n t [.single i]) .ub := by
  have := slice_general t [.single i] (by simp)
    (by simpa [limits] using h) (by simp [StepPos])
    (by simp [limits, AcceptedAll, Accepted]; omega)
  by_cases hm : i = nomore
  · subst hm
    simpa [limits, chainVals, sel, tr_cons_stop, specSizes, specSize, readWrites, writeAll,
      Tensor.totalSizeI, finish] using this
  · simpa [limits, chainVals, sel, tr_cons hm, specSizes, specSize, readWrites, readAt, hi,
      writeAll, Tensor.totalSizeI] using this

/-- C14 is false: a negative end of a range does not count from the end of the dimension. For every
vector (or tensor seen as a vector) and every start, `t(range(a,-1))` selects nothing, and the
result has the dimension -a. -/
theorem c14_negation_negative_end (t : Tensor α) (h : t.data ≠ []) (a : Int) (ha : 0 ≤ a) :
    Finishes (fun n => slice n t [.step a (-1) 1]) (.ok ([-a], [])) := by
  have hl : t.data.length ≠ 0 := by simpa using h
  have := slice_general t [.step a (-1) 1] (by simp)
    (by simpa [limits] using h) (by simp [StepPos])
    (by simp [limits, AcceptedAll, Accepted]; omega)
  have hna : ¬ (a ≤ -1) := by omega
  have hsz : -1 - a + 1 = -a := by omega
  have hts : Tensor.totalSizeI [-a] = 0 := by
    by_cases h0 : a = 0
    · subst h0; rfl
    · simp [Tensor.totalSizeI, show 0 < a by omega]
  simpa [limits, chainVals, sel, hna, specSizes, specSize, hsz, hts, readWrites, writeAll,
    finish] using this

/-- C14, what holds: with limits counted from the start, `range(a,b)` gives the consecutive elements
a, a+1, ..., b.  Missing: negative limits, which do not count from the end (see the negation). -/
theorem c14_positive_limits_partial (t : Tensor α) (wf : t.WF) (a b : Nat) (hab : a ≤ b)
    (hb : b < t.data.length) :
    Finishes (fun n => slice n t [.step a b 1])
      (.ok ([(b : Int) - a + 1], (t.data.drop a).take (b - a + 1))) := by
  have hlim : limits t.dims t.data.length [.step a b 1] = [t.data.length] := rfl
  obtain ⟨s, h1, h2, h3, -, h5⟩ := c11_slice t wf [.step a b 1] (by simp)
    (by rw [hlim]; simp; intro h; simp [h] at hb)
    (by rw [hlim]; exact ⟨⟨by omega, by omega, by omega, Or.inl (by omega)⟩, trivial⟩)
  rw [hlim] at h3 h5
  have hsel : sel (.step a b 1) t.data.length =
      (List.range (b - a + 1)).map fun k : Nat => (a : Int) + k := by
    simp only [sel, mul_one, Int.ediv_one]
    rw [if_pos (by omega)]
    congr 2
    omega
  simp only [selAll, hsel] at h3 h5
  simp only [List.map_cons, List.map_nil, List.length_map, List.length_range] at h3
  have hlen := h2.length_eq (by rw [h3]; simp)
  rw [h3] at hlen h1
  simp only [prod_cons, prod_nil, mul_one] at hlen
  have hdata : s.data = (t.data.drop a).take (b - a + 1) := by
    apply List.ext_getElem?
    intro k
    by_cases hk : k < b - a + 1
    · have := (h5 [k] [a + k] (by simp [Picks, hk])).2.2
      simp only [elem, h3] at this
      rw [if_pos (by simp; omega), if_pos (by simp; omega)] at this
      simp only [colPos] at this
      rw [List.getElem?_take_of_lt hk, List.getElem?_drop]
      simpa using this
    · rw [List.getElem?_eq_none (by omega), List.getElem?_eq_none (by simp; omega)]
  rw [hdata] at h1
  have e : [(b : Int) - a + 1] = [b - a + 1].map Int.ofNat := by
    simp; omega
  rw [e]
  exact h1

theorem assignSelfLoop_finishes (vals : List Int) :
    ∀ (r : Range) (i : Nat) (data : List α), RRuns vals r →
      ∃ N q, ∀ n, N ≤ n → assignSelfLoop n r i data = .done q := by
  induction vals with
  | nil =>
    intro r k data h
    obtain ⟨N, r', e⟩ := h
    refine ⟨N + 1, .ok data, ?_⟩
    intro n hn
    obtain ⟨m, rfl⟩ : ∃ m, n = m + 1 := ⟨n - 1, by omega⟩
    simp [assignSelfLoop, e m (by omega)]
  | cons v vs ih =>
    intro r k data h
    obtain ⟨hv, N, r', e, hr⟩ := h
    cases hw : writeAt data v data[k]? with
    | ok b =>
      obtain ⟨M, q, hM⟩ := ih r' (k + 1) b hr
      refine ⟨max N M + 1, q, ?_⟩
      intro n hn
      obtain ⟨m, rfl⟩ : ∃ m, n = m + 1 := ⟨n - 1, by omega⟩
      simp [assignSelfLoop, e m (by omega), hv, hw, hM m (by omega)]
    | abort =>
      refine ⟨N + 1, .abort, ?_⟩
      intro n hn
      obtain ⟨m, rfl⟩ : ∃ m, n = m + 1 := ⟨n - 1, by omega⟩
      simp [assignSelfLoop, e m (by omega), hv, hw]
    | ub =>
      refine ⟨N + 1, .ub, ?_⟩
      intro n hn
      obtain ⟨m, rfl⟩ : ∃ m, n = m + 1 := ⟨n - 1, by omega⟩
      simp [assignSelfLoop, e m (by omega), hv, hw]

/-- C15, what holds: for tensors without zero dimensions and ranges with positive steps (in or out
of bounds) all slice operations finish.  Missing: tensors with a zero dimension, for which it is
false (see the negations), except when all ranges are complete (`c15_full_ranges`). -/
theorem c15_terminates_partial (t s : Tensor α) (x : α) (rs : List View.Spec) (hne : rs ≠ [])
    (hd : ∀ d ∈ limits t.dims t.data.length rs, d ≠ 0)
    (hs : ∀ a b st, View.Spec.step a b st ∈ rs → 0 < st) :
    (∃ q, Finishes (fun n => slice n t rs) q) ∧
    (∃ q, Finishes (fun n => assign n t rs s) q) ∧
    (∃ q, Finishes (fun n => assignNumber n t rs x) q) ∧
    (∃ q, Finishes (fun n => assignSelf n t rs) q) := by
  have hs' : ∀ sp ∈ rs, StepPos sp := by
    intro sp hsp
    cases sp with
    | step a b st => exact hs a b st hsp
    | _ => trivial
  by_cases h : AcceptedAll rs (limits t.dims t.data.length rs)
  · refine ⟨⟨_, slice_general t rs hne hd hs' h⟩, ⟨_, assign_general t s rs hne hd hs' h⟩,
      ⟨_, assignNumber_general t x rs hne hd hs' h⟩, ?_⟩
    obtain ⟨R, e, hR⟩ := mkView_ok t rs hne h hd hs'
    obtain ⟨N, R', eR, hr⟩ := ChainScaled.reset one_pos hd hs' hR
    obtain ⟨M, q, hM⟩ := assignSelfLoop_finishes _ R' 0 t.data hr
    by_cases hsz : Tensor.totalSizeI (specSizes rs (limits t.dims t.data.length rs)) =
          Tensor.totalSize t.dims
    · refine ⟨q >>= fun d => .ok ⟨t.dims, d⟩, max N M, fun n hn => ?_⟩
      simp only [assignSelf, e, Run.ok_bind, Res.assert_pos hsz, eR n (by omega), hM n (by omega)]
      cases q <;> rfl
    · refine ⟨.abort, 0, fun n _ => ?_⟩
      simp only [assignSelf, e, Run.ok_bind, Res.assert_neg hsz, Run.abort_bind]
  · have hm := mkView_abort t rs h
    exact ⟨⟨.abort, 0, fun n _ => by simp [slice, hm]⟩, ⟨.abort, 0, fun n _ => by
      simp [assign, hm]⟩, ⟨.abort, 0, fun n _ => by simp [assignNumber, hm]⟩,
      ⟨.abort, 0, fun n _ => by simp [assignSelf, hm]⟩⟩

theorem pop_stuck (n : Nat) (c : Int) :
    Range.pop n (.product (.full 0 1 0 0) (.leaf (.step c 0 0 0 0 0)) (some 0)) = .out := by
  induction n with
  | zero => rfl
  | succ n ih =>
    cases n with
    | zero => simp [Range.pop, nomore, Leaf.pop]
    | succ m =>
      simp only [Range.pop, nomore, Leaf.pop] at ih ⊢
      simp only [Leaf.reset] at ih ⊢
      simpa using ih

/-- C15 is false: reading a slice of a matrix without rows never ends, for each range of columns
within bounds (one complete range, and start:end:step). -/
theorem c15_negation_endless (t : Tensor α) (c : Nat) (hd : t.dims = [0, c]) (a b s : Int)
    (hb : b < c) (hs : s ≠ 0) : Diverges (fun n => slice n t [.all, .step a b s]) := by
  intro n
  have hm : mkView t [.all, .step a b s] = .ok ([0, (b - a).tdiv s + 1],
      .product (.full 0 1 0 0) (.leaf (.step c 0 0 0 0 0)) none) := by
    simp [mkView, Spec.new, hd, Res.assert_bind, setLimits, Leaf.setLimit, hb, sizes, Leaf.size, hs,
      build, mkProduct, Range.setFactor, Leaf.setFactor, Leaf.factor, Leaf.limit]
  cases n with
  | zero => simp [slice, hm, Range.reset, Range.pop]
  | succ n =>
    simp only [slice, hm, Run.ok_bind, Range.reset, Leaf.reset, Range.pop, Leaf.pop]
    simp only [gt_iff_lt, lt_irrefl, if_false, Run.ok_bind, Run.pure_eq, readLoop, add_zero]
    rw [pop_stuck]
    rfl

/-- C15 is false: a slice of a rank 3 tensor whose second dimension is zero divides by zero. -/
theorem c15_negation_division_by_zero (t : Tensor α) (d1 d3 : Nat) (hd : t.dims = [d1, 0, d3])
    (i : Int) (hi : i < d3) : Finishes (fun n => slice n t [.all, .all, .single i]) .ub := by
  refine ⟨0, fun n _ => ?_⟩
  have hm : mkView t [.all, .all, .single i] = .ub := by
    simp [mkView, Spec.new, hd, Res.assert_bind, setLimits, Leaf.setLimit, hi, sizes, Leaf.size,
      build, mkProduct, Range.setFactor, Leaf.setFactor, Leaf.factor, Leaf.limit]
  simp [slice, hm]

theorem full_lruns_empty (d : Nat) (f c : Int) (h : d = 0 ∨ f = 0) :
    LRuns (.full d f 0 (d * f)) [] (Leaf.reset (.full d f c (d * f))) := by
  rcases h with h | h <;> subst h <;> simp [LRuns, Leaf.pop, Leaf.reset]

/-- Complete ranges, any dimensions. -/
def fullVals : List Nat → Int → List Int
  | [], _ => []
  | [d], f => if f = 0 then [] else (List.range d).map fun i : Nat => (i : Int) * f
  | d :: ds, f => (fullVals ds (f * d)).flatMap fun b =>
      (if f = 0 then [] else (List.range d).map fun i : Nat => (i : Int) * f).map (· + b)

theorem full_lruns (d : Nat) (f c : Int) (hf : 0 ≤ f) :
    LRuns (.full d f 0 (d * f))
      (if f = 0 then [] else (List.range d).map fun i : Nat => (i : Int) * f)
      (Leaf.reset (.full d f c (d * f))) := by
  by_cases h0 : f = 0
  · rw [if_pos h0]; exact full_lruns_empty d f c (Or.inr h0)
  · rw [if_neg h0]
    have := (full_wruns d f (by omega) d 0 (by omega)).lruns
    rw [nonneg_tr] at this
    · simpa [List.range_eq_range', Leaf.reset] using this
    · intro x hx
      obtain ⟨i, -, rfl⟩ := List.mem_map.1 hx
      positivity

theorem fullVals_nonneg (ds : List Nat) (f : Int) (hf : 0 ≤ f) : ∀ x ∈ fullVals ds f, 0 ≤ x := by
  induction ds generalizing f with
  | nil => simp [fullVals]
  | cons d ds ih =>
    have hl : ∀ y ∈ (if f = 0 then [] else (List.range d).map fun i : Nat => (i : Int) * f),
        0 ≤ y := by
      intro y hy
      split at hy
      · simp at hy
      · obtain ⟨i, -, rfl⟩ := List.mem_map.1 hy
        positivity
    cases ds with
    | nil => simpa only [fullVals] using hl
    | cons e es =>
      intro x hx
      simp only [fullVals, List.mem_flatMap] at hx
      obtain ⟨b, hb, hx⟩ := hx
      obtain ⟨y, hy, rfl⟩ := List.mem_map.1 hx
      have h1 := ih (f * d) (by positivity) b hb
      have h2 := hl y hy
      omega

theorem fullVals_empty (ds : List Nat) (f : Int) (hf : 0 ≤ f) (hne : ds ≠ [])
    (h : f = 0 ∨ 0 ∈ ds) : fullVals ds f = [] := by
  induction ds generalizing f with
  | nil => exact absurd rfl hne
  | cons d ds ih =>
    cases ds with
    | nil =>
      rcases h with h | h
      · simp [fullVals, h]
      · simp at h
        simp [fullVals, ← h]
    | cons e es =>
      have : f * (d : Int) = 0 ∨ 0 ∈ e :: es := by
        rcases h with h | h
        · left; simp [h]
        · rcases List.mem_cons.1 h with h | h
          · left; simp [← h]
          · exact Or.inr h
      simp only [fullVals]
      have hih := ih (f * d) (by positivity) (by simp) this
      rw [hih]
      simp

/-- A chain of complete ranges. -/
theorem full_chain_reset {ds : List Nat} {f : Int} {R : Range} (hf : 0 ≤ f)
    (h : ChainScaled (ds.map fun _ => View.Spec.all) ds f R) :
    ∃ N R', (∀ n, N ≤ n → Range.reset n R = .done (.ok R')) ∧ RRuns (fullVals ds f) R' := by
  induction ds generalizing f R with
  | nil => cases h
  | cons d ds ih =>
    cases ds with
    | nil =>
      cases h with
      | leaf h =>
        obtain ⟨c, rfl⟩ := h
        exact ⟨0, .leaf (Leaf.reset (.full d f c (d * f))), fun n _ => by simp [Range.reset],
          (full_lruns d f c hf).rruns⟩
      | product _ h2 => cases h2
    | cons e es =>
      cases h with
      | @product _ _ _ L _ _ R b h1 h2 =>
        obtain ⟨c, rfl⟩ := h1
        obtain ⟨N, R', eR, hr⟩ := ih (by positivity) h2
        have hl := full_lruns d f c hf
        have hz : Leaf.reset (.full d f c (d * f)) = .full d f 0 (d * f) := rfl
        have hnn := fullVals_nonneg (d :: e :: es) f hf
        rw [hz] at hl
        simp only [fullVals] at hnn ⊢
        generalize fullVals (e :: es) (f * d) = ws at hr hnn
        cases ws with
        | nil =>
          obtain ⟨M, q, hq⟩ := hr
          refine ⟨max N M, .product (.full d f 0 (d * f)) q (some nomore), ?_, ?_⟩
          · intro n hn
            simp [Range.reset, eR n (by omega), hq n (by omega), Leaf.reset]
          · refine ⟨1, .product (.full d f 0 (d * f)) q (some nomore), ?_⟩
            intro n hn
            obtain ⟨m, rfl⟩ : ∃ m, n = m + 1 := ⟨n - 1, by omega⟩
            simp [Range.pop]
        | cons w ws =>
          obtain ⟨hw, M, q, hq, hr'⟩ := hr
          refine ⟨max N M, .product (.full d f 0 (d * f)) q (some w), ?_, ?_⟩
          · intro n hn
            simp [Range.reset, eR n (by omega), hq n (by omega), Leaf.reset]
          · rw [← nonneg_tr hnn, List.flatMap_cons]
            exact product_rruns hl ws q _ _ w hw hl hr'

theorem full_setFactor {ds : List Nat} {f : Int} {R : Range} (g : Int)
    (h : ChainScaled (ds.map fun _ => View.Spec.all) ds f R) :
    ∃ R', R.setFactor g = .ok R' ∧ ChainScaled (ds.map fun _ => View.Spec.all) ds g R' := by
  induction ds generalizing f g R with
  | nil => cases h
  | cons d ds ih =>
    cases ds with
    | nil =>
      cases h with
      | leaf h =>
        obtain ⟨c, rfl⟩ := h
        exact ⟨.leaf (.full d g 0 (d * g)), by simp [Range.setFactor, Leaf.setFactor],
          .leaf ⟨0, rfl⟩⟩
      | product _ h2 => cases h2
    | cons e es =>
      cases h with
      | @product _ _ _ L _ _ R b h1 h2 =>
        obtain ⟨c, rfl⟩ := h1
        obtain ⟨R', e, hR'⟩ := ih (g * d) h2
        exact ⟨.product (.full d g 0 (d * g)) R' b, by
          simp [Range.setFactor, Leaf.setFactor, Leaf.limit, e], .product ⟨0, rfl⟩ hR'⟩

theorem full_build (d : Nat) (ds : List Nat) (L : Leaf) (Ls : List Leaf)
    (h1 : IsScaled .all d 1 L) (h2 : ScaledAll (ds.map fun _ => View.Spec.all) ds Ls) :
    ∃ R, build L Ls = .ok R ∧
      ChainScaled ((d :: ds).map fun _ => View.Spec.all) (d :: ds) 1 R := by
  induction ds generalizing d L Ls with
  | nil => cases h2; exact ⟨.leaf L, rfl, .leaf h1⟩
  | cons e es ih =>
    cases h2 with
    | @cons _ _ L' _ _ Ls h1' h2' =>
      obtain ⟨R, eR, hR⟩ := ih e L' Ls h1' h2'
      obtain ⟨R', eR', hR'⟩ := full_setFactor (1 * (d : Int)) hR
      refine ⟨.product L R' none, ?_, .product h1 hR'⟩
      simp only [build, mkProduct, eR, Res.ok_bind, h1.factor, h1.limit, eR']
      rfl

theorem acceptedAll_full (ds : List Nat) : AcceptedAll (ds.map fun _ => View.Spec.all) ds := by
  induction ds with
  | nil => trivial
  | cons d ds ih => exact ⟨trivial, ih⟩

theorem specSizes_full (ds : List Nat) :
    specSizes (ds.map fun _ => View.Spec.all) ds = ds.map Int.ofNat := by
  induction ds with
  | nil => rfl
  | cons d ds ih => simp only [List.map_cons, specSizes, specSize, ih]; rfl

/-- C15 for zero dimensions, with complete ranges on each of the (two or more) dimensions: the
slice finishes and selects nothing. -/
theorem c15_full_ranges (t : Tensor α) (h2 : 2 ≤ t.dims.length) (h0 : 0 ∈ t.dims) :
    Finishes (fun n => slice n t (t.dims.map fun _ => View.Spec.all))
      (.ok (t.dims.map Int.ofNat, [])) := by
  obtain ⟨dims, data⟩ := t
  simp only at h2 h0 ⊢
  match dims, h2 with
  | d :: e :: es, _ =>
    obtain ⟨Ls, eL, hL⟩ := setLimits_ok _ _ (acceptedAll_full (d :: e :: es))
    have hsz := sizes_ok _ _ _ hL (by
      intro sp hsp
      obtain ⟨x, -, rfl⟩ := List.mem_map.1 hsp
      trivial)
    rw [specSizes_full] at hsz
    cases hL with
    | @cons _ _ L _ _ Ls h1 h2 =>
      obtain ⟨R, eR, hR⟩ := full_build d (e :: es) L Ls h1 h2
      obtain ⟨N, R', e', hr⟩ := full_chain_reset (by omega) hR
      rw [fullVals_empty _ _ (by omega) (by simp) (Or.inr h0)] at hr
      have hm : mkView ⟨d :: e :: es, data⟩ ((d :: e :: es).map fun _ => View.Spec.all) =
          .ok ((d :: e :: es).map Int.ofNat, R) := by
        simp only [mkView, List.map_cons, Res.assert_bind] at *
        rw [if_neg (by simp : ¬ (_ :: _ = []))]
        rw [if_pos (by simp), eL, Res.ok_bind, hsz, Res.ok_bind]
        simp [eR]
      have hts : Tensor.totalSizeI ((d :: e :: es).map Int.ofNat) = 0 := by
        rw [totalSizeI_ofNat, totalSize_of_ne (by simp)]
        have : ∀ l : List Nat, 0 ∈ l → prod l = 0 := by
          intro l
          induction l with
          | nil => simp
          | cons a l ih =>
            intro h
            rcases List.mem_cons.1 h with h | h
            · simp [← h]
            · simp [ih h]
        rw [this _ h0]
        rfl
      obtain ⟨M, hM⟩ := readLoop_eq data [] R' 0 [] hr
      refine ⟨max N M, fun n hn => ?_⟩
      simp only [slice, hm, Run.ok_bind, hts, e' n (by omega), Int.toNat_zero, List.replicate_zero,
        hM n (by omega)]
      simp [readWrites, writeAll, finish]

/-- C16 is false: assigning a vector to its own reversed slice copies the first element on the
second one. -/
theorem c16_negation_self_assignment (x y : α) :
    Finishes (fun n => assignSelf n ⟨[2], [x, y]⟩ [.list [1, 0]]) (.ok ⟨[2], [x, x]⟩) := by
  refine ⟨4, fun n hn => ?_⟩
  obtain ⟨m, rfl⟩ : ∃ m, n = m + 4 := ⟨n - 4, by omega⟩
  rfl

/-- For comparison: through a copy, the same assignment exchanges the elements. -/
theorem c16_copy_is_different (x y : α) :
    Finishes (fun n => assign n ⟨[2], [x, y]⟩ [.list [1, 0]] ⟨[2], [x, y]⟩) (.ok ⟨[2], [y, x]⟩) := by
  refine ⟨4, fun n hn => ?_⟩
  obtain ⟨m, rfl⟩ : ∃ m, n = m + 4 := ⟨n - 4, by omega⟩
  rfl

theorem assignSelf_identity_loop (data : List α) (m : Nat) :
    ∀ (r : Range) (k : Nat), k + m = data.length →
      RRuns ((List.range' k m).map Int.ofNat) r →
      ∃ N, ∀ n, N ≤ n → assignSelfLoop n r k data = .done (.ok data) := by
  induction m with
  | zero =>
    intro r k hk h
    obtain ⟨N, r', e⟩ := h
    refine ⟨N + 1, fun n hn => ?_⟩
    obtain ⟨p, rfl⟩ : ∃ p, n = p + 1 := ⟨n - 1, by omega⟩
    simp [assignSelfLoop, e p (by omega)]
  | succ m ih =>
    intro r k hk h
    simp only [List.range'_succ, List.map_cons] at h
    obtain ⟨hv, N, r', e, hr⟩ := h
    obtain ⟨M, hM⟩ := ih r' (k + 1) (by omega) hr
    have hk' : k < data.length := by omega
    have hw : writeAt data (Int.ofNat k) data[k]? = .ok data := by
      have := writeAt_ok data k data[k] hk'
      rw [List.getElem?_eq_getElem hk']
      simpa using this
    refine ⟨max N M + 1, fun n hn => ?_⟩
    obtain ⟨p, rfl⟩ : ∃ p, n = p + 1 := ⟨n - 1, by omega⟩
    simp only [assignSelfLoop, e p (by omega), Run.ok_bind, hv, if_false, hw, hM p (by omega)]

/-- C16, what holds: assigning a tensor to its own complete slice (as a vector) leaves it unchanged.
Missing: any selection which reorders elements. -/
theorem c16_identity_partial (t : Tensor α) (wf : t.WF) (h : t.data ≠ []) :
    Finishes (fun n => assignSelf n t [.all]) (.ok t) := by
  have hl : t.data.length ≠ 0 := by simpa using h
  have hlim : limits t.dims t.data.length [.all] = [t.data.length] := rfl
  have hd : ∀ d ∈ limits t.dims t.data.length [.all], d ≠ 0 := by simpa [limits] using h
  have hs : ∀ sp ∈ [View.Spec.all], StepPos sp := by simp [StepPos]
  obtain ⟨R, e, hR⟩ := mkView_ok t [.all] (by simp) (by simp [limits, AcceptedAll, Accepted]) hd hs
  obtain ⟨N, R', eR, hr⟩ := ChainScaled.reset one_pos hd hs hR
  rw [hlim] at e hr
  have hvals : chainVals [.all] [t.data.length] 1 =
      (List.range' 0 t.data.length).map Int.ofNat := by
    simp only [chainVals, sel, mul_one, List.map_id']
    rw [nonneg_tr, List.range_eq_range']
    intro x hx
    obtain ⟨i, -, rfl⟩ := List.mem_map.1 hx
    simp
  rw [hvals] at hr
  obtain ⟨M, hM⟩ := assignSelf_identity_loop t.data _ R' 0 (by omega) hr
  refine ⟨max N M, fun n hn => ?_⟩
  have hsz : Tensor.totalSizeI (specSizes [.all] [t.data.length]) = Tensor.totalSize t.dims := by
    have := totalSizeI_ofNat [t.data.length]
    simp only [List.map_cons, List.map_nil, totalSize_cons, prod_nil, mul_one] at this
    simp only [specSizes, specSize]
    rw [← wf]
    exact this
  simp only [assignSelf, e, Run.ok_bind, Res.assert_pos hsz, eR n (by omega), hM n (by omega)]
  rfl

section Examples

/-- A 2 x 3 matrix with elements 10 .. 15. -/
private def m23 : Tensor Nat := ⟨[2, 3], [10, 11, 12, 13, 14, 15]⟩

private def rs23 : List View.Spec := [.all, .step 0 2 2]

example : m23.WF := by decide
example : limits m23.dims m23.data.length rs23 = [2, 3] := by decide
example : ∀ d ∈ limits m23.dims m23.data.length rs23, d ≠ 0 := by decide
example : ValidAll rs23 (limits m23.dims m23.data.length rs23) := by
  simp [limits, rs23, m23, ValidAll, Valid]
example : selAll rs23 [2, 3] = [[0, 1], [0, 2]] := by decide
example : Picks [[0, 1], [0, 2]] [1, 1] [1, 2] := by simp [Picks]
example : ∀ l ∈ selAll rs23 [2, 3], l.Nodup := by decide
example : slice 20 m23 rs23 = .done (.ok ([2, 2], [10, 11, 14, 15])) := by rfl
example : assignNumber 20 m23 rs23 7 = .done (.ok ⟨[2, 3], [7, 7, 12, 13, 7, 7]⟩) := by rfl
-- an overlapping assignment t.at(range(1,3)) = t(range(0,2))
example : assignView 20 ⟨[4], [1, 2, 3, 4]⟩ [.step 1 3 1] ⟨[4], [1, 2, 3, 4]⟩ [.step 0 2 1] =
    .done (.ok ⟨[4], [1, 1, 2, 3]⟩) := by rfl
-- repetitions in a list of indices
example : slice 20 (⟨[3], [5, 6, 7]⟩ : Tensor Nat) [.list [2, 0, 2]] =
    .done (.ok ([3], [7, 5, 7])) := by rfl
example : TooLarge (.single 2) 2 := by simp [TooLarge]

end Examples

end Verif.View
