import Verif.Lemmas.Slice
/-
General description of the outcome of slices and slice assignments.
-/
namespace Verif.View

open Verif Spec

variable {α : Type}

theorem exists_map_some {β : Type} (l : List β) (f : β → Option α)
    (h : ∀ x ∈ l, (f x).isSome) : ∃ r : List α, l.map f = r.map some := by
  induction l with
  | nil => exact ⟨[], rfl⟩
  | cons x l ih =>
    obtain ⟨r, hr⟩ := ih fun y hy => h y (by simp [hy])
    obtain ⟨v, hv⟩ := Option.isSome_iff_exists.1 (h x (by simp))
    exact ⟨v :: r, by simp [hv, hr]⟩

theorem readWrites_eq (data : List α) (k : Nat) (l : List Int) (r : List α)
    (h : l.map (readAt data) = r.map some) : readWrites data k l = Indices.copyWrites k r := by
  induction l generalizing k r with
  | nil => cases r with
    | nil => rfl
    | cons => simp at h
  | cons v vs ih => cases r with
    | nil => simp at h
    | cons x xs =>
      simp only [List.map_cons, List.cons.injEq] at h
      simp [readWrites, Indices.copyWrites, h.1, ih (k + 1) xs h.2]

/-- Outcome of a slice for ranges with positive steps on dimensions which are not zero. -/
theorem slice_general (t : Tensor α) (sps : List View.Spec) (hne : sps ≠ [])
    (hd : ∀ d ∈ limits t.dims t.data.length sps, d ≠ 0) (hs : ∀ sp ∈ sps, StepPos sp)
    (h : AcceptedAll sps (limits t.dims t.data.length sps)) :
    Finishes (fun n => slice n t sps)
      ((writeAll
          (List.replicate
            (Tensor.totalSizeI (specSizes sps (limits t.dims t.data.length sps))).toNat none)
          (readWrites t.data 0 (chainVals sps (limits t.dims t.data.length sps) 1)) >>= finish)
        >>= fun data => .ok (specSizes sps (limits t.dims t.data.length sps), data)) := by
  obtain ⟨R, e, hR⟩ := mkView_ok t sps hne h hd hs
  obtain ⟨N, R', eR, hr⟩ := ChainScaled.reset one_pos hd hs hR
  obtain ⟨M, hM⟩ := readLoop_eq t.data _ R' 0
    (List.replicate (Tensor.totalSizeI (specSizes sps (limits t.dims t.data.length sps))).toNat
      none) hr
  refine ⟨max N M, fun n hn => ?_⟩
  simp only [slice, e, Run.ok_bind, eR n (by omega), hM n (by omega)]
  cases writeAll (List.replicate (Tensor.totalSizeI
      (specSizes sps (limits t.dims t.data.length sps))).toNat none)
      (readWrites t.data 0 (chainVals sps (limits t.dims t.data.length sps) 1)) with
  | ok b => cases hb : finish b <;> simp [hb]
  | abort => rfl
  | ub => rfl

theorem slice_rejected (t : Tensor α) (sps : List View.Spec)
    (h : ¬ AcceptedAll sps (limits t.dims t.data.length sps)) :
    Finishes (fun n => slice n t sps) .abort :=
  ⟨0, fun n _ => by simp [slice, mkView_abort t sps h]⟩

/-- Outcome of `t.at(...) = s`. -/
theorem assign_general (t s : Tensor α) (sps : List View.Spec) (hne : sps ≠ [])
    (hd : ∀ d ∈ limits t.dims t.data.length sps, d ≠ 0) (hs : ∀ sp ∈ sps, StepPos sp)
    (h : AcceptedAll sps (limits t.dims t.data.length sps)) :
    Finishes (fun n => assign n t sps s)
      (if Tensor.totalSizeI (specSizes sps (limits t.dims t.data.length sps)) =
          Tensor.totalSize s.dims
        then writeSeq t.data (assignWrites s.data 0
          (chainVals sps (limits t.dims t.data.length sps) 1)) >>= fun d => .ok ⟨t.dims, d⟩
        else .abort) := by
  obtain ⟨R, e, hR⟩ := mkView_ok t sps hne h hd hs
  obtain ⟨N, R', eR, hr⟩ := ChainScaled.reset one_pos hd hs hR
  obtain ⟨M, hM⟩ := assignLoop_eq s.data _ R' 0 t.data hr
  refine ⟨max N M, fun n hn => ?_⟩
  simp only [assign, e, Run.ok_bind]
  by_cases hsz : Tensor.totalSizeI (specSizes sps (limits t.dims t.data.length sps)) =
          Tensor.totalSize s.dims
  · rw [if_pos hsz, Res.assert_pos hsz]
    simp only [Run.ok_bind, eR n (by omega), hM n (by omega)]
    cases writeSeq t.data (assignWrites s.data 0
          (chainVals sps (limits t.dims t.data.length sps) 1)) <;> rfl
  · rw [if_neg hsz, Res.assert_neg hsz]
    rfl

/-- Outcome of `t.at(...) = x` for a number. -/
theorem assignNumber_general (t : Tensor α) (x : α) (sps : List View.Spec) (hne : sps ≠ [])
    (hd : ∀ d ∈ limits t.dims t.data.length sps, d ≠ 0) (hs : ∀ sp ∈ sps, StepPos sp)
    (h : AcceptedAll sps (limits t.dims t.data.length sps)) :
    Finishes (fun n => assignNumber n t sps x)
      (writeSeq t.data ((chainVals sps (limits t.dims t.data.length sps) 1).map
        fun v => (v, some x)) >>= fun d => .ok ⟨t.dims, d⟩) := by
  obtain ⟨R, e, hR⟩ := mkView_ok t sps hne h hd hs
  obtain ⟨N, R', eR, hr⟩ := ChainScaled.reset one_pos hd hs hR
  obtain ⟨M, hM⟩ := fillLoop_eq x _ R' t.data hr
  refine ⟨max N M, fun n hn => ?_⟩
  simp only [assignNumber, e, Run.ok_bind, eR n (by omega), hM n (by omega)]
  cases writeSeq t.data ((chainVals sps (limits t.dims t.data.length sps) 1).map
        fun v => (v, some x)) <;> rfl

/-- Outcome of `t.at(...) = s(...)`. -/
theorem assignView_general (t s : Tensor α) (sps sps' : List View.Spec) (hne : sps ≠ [])
    (hne' : sps' ≠ [])
    (hd : ∀ d ∈ limits t.dims t.data.length sps, d ≠ 0) (hs : ∀ sp ∈ sps, StepPos sp)
    (h : AcceptedAll sps (limits t.dims t.data.length sps))
    (hd' : ∀ d ∈ limits s.dims s.data.length sps', d ≠ 0) (hs' : ∀ sp ∈ sps', StepPos sp)
    (h' : AcceptedAll sps' (limits s.dims s.data.length sps')) :
    Finishes (fun n => assignView n t sps s sps')
      (if Tensor.totalSizeI (specSizes sps (limits t.dims t.data.length sps)) =
          Tensor.totalSizeI (specSizes sps' (limits s.dims s.data.length sps'))
        then writeSeq t.data (List.zipWith (fun v w => (v, readAt s.data w))
          (chainVals sps (limits t.dims t.data.length sps) 1)
          (chainVals sps' (limits s.dims s.data.length sps') 1)) >>= fun d => .ok ⟨t.dims, d⟩
        else .abort) := by
  obtain ⟨R, e, hR⟩ := mkView_ok t sps hne h hd hs
  obtain ⟨N, Q, eR, hr⟩ := ChainScaled.reset one_pos hd hs hR
  obtain ⟨R', e', hR'⟩ := mkView_ok s sps' hne' h' hd' hs'
  obtain ⟨N', Q', eR', hr'⟩ := ChainScaled.reset one_pos hd' hs' hR'
  obtain ⟨M, hM⟩ := viewLoop_eq s.data _ _ Q Q' t.data hr hr'
  refine ⟨max (max N N') M, fun n hn => ?_⟩
  simp only [assignView, e, e', Run.ok_bind]
  by_cases hsz : Tensor.totalSizeI (specSizes sps (limits t.dims t.data.length sps)) =
          Tensor.totalSizeI (specSizes sps' (limits s.dims s.data.length sps'))
  · rw [if_pos hsz, Res.assert_pos hsz]
    simp only [Run.ok_bind, eR n (by omega), eR' n (by omega), hM n (by omega)]
    cases writeSeq t.data (List.zipWith (fun v w => (v, readAt s.data w))
          (chainVals sps (limits t.dims t.data.length sps) 1)
          (chainVals sps' (limits s.dims s.data.length sps') 1)) <;> rfl
  · rw [if_neg hsz, Res.assert_neg hsz]
    rfl

theorem totalSizeI_ofNat (l : List Nat) :
    Tensor.totalSizeI (l.map Int.ofNat) = Tensor.totalSize l := by
  have h := Tensor.foldl_nat l 1
  simp only [Nat.cast_one, Nat.one_mul] at h
  unfold Tensor.totalSizeI
  rw [h]
  cases l <;> simp

/-- The limits of a slice match the data. -/
theorem limits_prod (t : Tensor α) (wf : t.WF) (sps : List View.Spec) (hne : sps ≠ [])
    (hl : sps.length = (limits t.dims t.data.length sps).length) :
    t.data.length = prod (limits t.dims t.data.length sps) := by
  unfold limits at *
  split
  · simp
  · rename_i h1
    rw [if_neg h1] at hl
    apply wf.length_eq
    intro e
    rw [e] at hl
    simp at hl
    exact hne hl

theorem readAt_pos (data : List α) (p : Nat) : readAt data p = data[p]? := by
  simp [readAt]

/-- The elements read at the positions of a valid selection. -/
theorem read_enum (data : List α) (ss : List (List Int)) (ds : List Nat) (hs : SelFor ss ds)
    (hlen : data.length = prod ds) :
    ∃ r : List α, (enum ss ds 1).map (readAt data) = r.map some ∧
      r.length = prod (ss.map List.length) ∧
      ∀ j i, Picks ss j i → r[colPos (ss.map List.length) j]? = data[colPos ds i]? := by
  obtain ⟨r, hr⟩ := exists_map_some (enum ss ds 1) (readAt data) (by
    intro x hx
    obtain ⟨q, hq⟩ := List.mem_iff_getElem?.1 hx
    obtain ⟨j, i, -, -, rfl, hi⟩ := enum_surj hs q x hq
    rw [readAt_pos]
    have := colPos_lt hi
    simp [hlen, this])
  have hl : r.length = (enum ss ds 1).length := by
    have := congrArg List.length hr
    simpa using this.symm
  refine ⟨r, hr, by rw [hl, enum_length _ _ _ hs.length], ?_⟩
  intro j i hp
  have h1 := enum_get ss ds 1 j i hs.length hp
  have h2 : ((enum ss ds 1).map (readAt data))[colPos (ss.map List.length) j]? =
      (r.map some)[colPos (ss.map List.length) j]? := by rw [hr]
  rw [List.getElem?_map, List.getElem?_map, h1] at h2
  simp only [one_mul, Option.map_some, readAt_pos] at h2
  cases hx : r[colPos (ss.map List.length) j]? with
  | none => simp [hx] at h2
  | some v => simp [hx] at h2; exact h2.symm

/-- Writing the list `r` at the positions of a valid selection without repetitions. -/
theorem write_enum (data r : List α) (ss : List (List Int)) (ds : List Nat) (hs : SelFor ss ds)
    (hn : ∀ s ∈ ss, s.Nodup) (hlen : data.length = prod ds)
    (hr : r.length = prod (ss.map List.length)) :
    ∃ data', writeSeq data (List.zipWith (fun p x => (p, some x)) (enum ss ds 1) r) = .ok data' ∧
      data'.length = data.length ∧
      (∀ j i, Picks ss j i → data'[colPos ds i]? = r[colPos (ss.map List.length) j]?) ∧
      (∀ i, InB i ds → (¬ ∃ j, Picks ss j i) → data'[colPos ds i]? = data[colPos ds i]?) := by
  have hel := enum_length ss ds 1 hs.length
  have hnn := enum_nonneg hs
  have hnd := enum_nodup hs hn
  set E := enum ss ds 1 with hE
  let ws : List (Nat × α) := List.zip (E.map Int.toNat) r
  have e1 : List.zipWith (fun p x => (p, some x)) E r =
      ws.map fun w => ((w.1 : Int), some w.2) := by
    simp only [ws, List.zip_map_left, List.map_map]
    rw [← List.map_uncurry_zip_eq_zipWith]
    apply List.map_congr_left
    rintro ⟨p, x⟩ hpx
    have := hnn p (List.of_mem_zip hpx).1
    simp [this]
  have hfst : ws.map Prod.fst = E.map Int.toNat := by
    simp only [ws]
    rw [List.map_fst_zip]
    simp [hel, hr]
  have hnd' : (E.map Int.toNat).Nodup := by
    rw [List.nodup_map_iff_inj_on hnd]
    intro x hx y hy e
    have := hnn x hx
    have := hnn y hy
    omega
  obtain ⟨d', w1, w2, w3, w4⟩ := writeSeq_spec ws data (by
    intro w hw
    have : w.1 ∈ ws.map Prod.fst := List.mem_map_of_mem hw
    rw [hfst] at this
    obtain ⟨x, hx, e⟩ := List.mem_map.1 this
    obtain ⟨q, hq⟩ := List.mem_iff_getElem?.1 hx
    obtain ⟨j, i, -, -, rfl, hi⟩ := enum_surj hs q x hq
    have := colPos_lt hi
    rw [← e, hlen]
    simpa using this) (hfst ▸ hnd')
  refine ⟨d', by rw [e1, w1], w2, ?_, ?_⟩
  · intro j i hp
    have hj := (Picks.inB hs hp).1
    have hlt : colPos (ss.map List.length) j < r.length := by rw [hr]; exact colPos_lt hj
    have h1 := enum_get ss ds 1 j i hs.length hp
    rw [← hE, one_mul] at h1
    have hmem : ((colPos ds i, r[colPos (ss.map List.length) j]) : Nat × α) ∈ ws := by
      apply List.mem_iff_getElem?.2
      refine ⟨colPos (ss.map List.length) j, ?_⟩
      simp only [ws]
      rw [List.getElem?_zip_eq_some]
      refine ⟨?_, List.getElem?_eq_getElem hlt⟩
      rw [List.getElem?_map, h1]
      simp
    rw [w3 _ hmem, List.getElem?_eq_getElem hlt]
  · intro i hi hno
    apply w4
    rw [hfst]
    intro hmem
    obtain ⟨x, hx, e⟩ := List.mem_map.1 hmem
    obtain ⟨q, hq⟩ := List.mem_iff_getElem?.1 hx
    obtain ⟨j, i', hp, -, rfl, hi'⟩ := enum_surj hs q x hq
    have : i' = i := colPos_inj hi' hi (by simpa using e)
    subst this
    exact hno ⟨j, hp⟩

theorem assignWrites_eq (src : List α) (i : Nat) (l : List Int)
    (h : l.length + i = src.length) :
    assignWrites src i l = List.zipWith (fun p x => (p, some x)) l (src.drop i) := by
  induction l generalizing i with
  | nil => simp [assignWrites]
  | cons v vs ih =>
    have hi : i < src.length := by simp at h; omega
    rw [List.drop_eq_getElem_cons hi]
    simp only [assignWrites, List.zipWith_cons_cons]
    rw [ih (i + 1) (by simp at h; omega), List.getElem?_eq_getElem hi]

end Verif.View
