import Verif.Props.SparseArith
/-
C41: sparse matrices from coordinates.  C40: transposes and adjoints of sparse matrices.
-/
namespace Verif.Sparse

open Verif Verif.Spec

variable {α β γ : Type}

/-- The triplets with nonzero value. -/
def trip [Zero α] [DecidableEq α] : List Nat → List Nat → List α → List (Triplet α)
  | r :: rs, c :: cs, d :: ds => if ¬ d = 0 then ⟨r, c, d⟩ :: trip rs cs ds else trip rs cs ds
  | _, _, _ => []

theorem gather_ok [Zero α] [DecidableEq α] (rs cs : List Nat) (ds : List α) (hc : cs.length = rs.length)
    (hd : ds.length = rs.length) (n m : Nat) :
    gather rs cs ds n m = .ok (rs.foldl max n, cs.foldl max m, trip rs cs ds) := by
  induction rs generalizing cs ds n m with
  | nil =>
    have : cs = [] := List.eq_nil_of_length_eq_zero hc
    subst this; rfl
  | cons r rs ih =>
    cases cs with
    | nil => simp at hc
    | cons c cs =>
      cases ds with
      | nil => simp at hd
      | cons d ds =>
        rw [gather, ih cs ds (by simpa using hc) (by simpa using hd), Res.ok_bind, Res.pure_eq]
        simp only [List.foldl_cons, trip]

theorem mem_trip [Zero α] [DecidableEq α] (rs cs : List Nat) (ds : List α) (t : Triplet α) :
    t ∈ trip rs cs ds ↔ t.value ≠ 0 ∧
      ∃ k : Nat, rs[k]? = some t.row ∧ cs[k]? = some t.col ∧ ds[k]? = some t.value := by
  induction rs generalizing cs ds with
  | nil => simp [trip]
  | cons r rs ih =>
    cases cs with
    | nil => simp [trip]
    | cons c cs =>
      cases ds with
      | nil => simp [trip]
      | cons d ds =>
        have key : (∃ k : Nat, (r :: rs)[k]? = some t.row ∧ (c :: cs)[k]? = some t.col ∧
            (d :: ds)[k]? = some t.value) ↔ (t = ⟨r, c, d⟩ ∨
            ∃ k : Nat, rs[k]? = some t.row ∧ cs[k]? = some t.col ∧ ds[k]? = some t.value) := by
          constructor
          · rintro ⟨k, h1, h2, h3⟩
            cases k with
            | zero =>
              left
              simp only [List.getElem?_cons_zero, Option.some.injEq] at h1 h2 h3
              subst h1 h2 h3; rfl
            | succ k => right; exact ⟨k, by simpa using h1, by simpa using h2, by simpa using h3⟩
          · rintro (h | ⟨k, h1, h2, h3⟩)
            · subst h; exact ⟨0, rfl, rfl, rfl⟩
            · exact ⟨k + 1, by simpa using h1, by simpa using h2, by simpa using h3⟩
        rw [key, trip]
        by_cases hd : d = 0
        · rw [if_neg (by simpa using hd), ih]
          constructor
          · rintro ⟨h1, h2⟩; exact ⟨h1, Or.inr h2⟩
          · rintro ⟨h1, h2 | h2⟩
            · subst h2; exact absurd hd h1
            · exact ⟨h1, h2⟩
        · rw [if_pos hd, List.mem_cons, ih]
          constructor
          · rintro (h | ⟨h1, h2⟩)
            · subst h; exact ⟨hd, Or.inl rfl⟩
            · exact ⟨h1, Or.inr h2⟩
          · rintro ⟨h1, h2 | h2⟩
            · exact Or.inl h2
            · exact Or.inr ⟨h1, h2⟩

/-- The coordinates of two elements are different. -/
def Triplet.apart (a b : Triplet α) : Prop := ¬ (a.row = b.row ∧ a.col = b.col)

theorem trip_apart [Zero α] [DecidableEq α] (rs cs : List Nat) (ds : List α)
    (h : (rs.zip cs).Nodup) : (trip rs cs ds).Pairwise Triplet.apart := by
  induction rs generalizing cs ds with
  | nil => simp [trip]
  | cons r rs ih =>
    cases cs with
    | nil => simp [trip]
    | cons c cs =>
      cases ds with
      | nil => simp [trip]
      | cons d ds =>
        rw [List.zip_cons_cons, List.nodup_cons] at h
        rw [trip]
        split
        · rw [List.pairwise_cons]
          refine ⟨?_, ih cs ds h.2⟩
          rintro t ht ⟨e1, e2⟩
          obtain ⟨-, k, h1, h2, -⟩ := (mem_trip rs cs ds t).mp ht
          apply h.1
          rw [List.mem_iff_getElem?]
          refine ⟨k, ?_⟩
          rw [List.getElem?_zip_eq_some]
          simp only at e1 e2
          exact ⟨by rw [h1, e1], by rw [h2, e2]⟩
        · exact ih cs ds h.2

theorem less_iff (a b : Triplet α) : Triplet.less a b ↔ a.row < b.row ∨ (a.row = b.row ∧ a.col < b.col) := by
  rw [Triplet.less]
  split
  · simp_all
  · split
    · simp_all
    · simp_all

theorem sorted_less {l l' : List (Triplet α)} (h : Tensor.StdSort Triplet.less l l')
    (ha : l.Pairwise Triplet.apart) : l'.Pairwise Triplet.less := by
  obtain ⟨hp, hs⟩ := h
  have ha' : l'.Pairwise Triplet.apart :=
    (hp.symm.pairwise_iff (fun h e => h ⟨e.1.symm, e.2.symm⟩)).mp ha
  refine List.Pairwise.imp₂ ?_ hs ha'
  intro a b h1 h2
  rw [less_iff] at h1 ⊢
  rw [Triplet.apart] at h2
  omega

theorem place_eq (T : List (Triplet α)) (hT : T.Pairwise Triplet.less) (next j n : Nat)
    (hn : ∀ t ∈ T, t.row < n) (hge : ∀ t ∈ T, next ≤ t.row + 1)
    (hc : ∀ t ∈ T, t.row + 1 = next → t.col ≠ 0) :
    place T next j n = ((List.range' next (n + 1 - next)).map (fun i => j + T.countP fun t => decide (t.row < i)),
      T.map fun t => (t.col, t.value)) := by
  induction T generalizing next j with
  | nil =>
    rw [place]
    simp
  | cons d ds ih =>
    rw [List.pairwise_cons] at hT
    have hd := hn d (by simp)
    have hds : ∀ t ∈ ds, t.row < n := fun t ht => hn t (by simp [ht])
    have hl : ∀ t ∈ ds, d.row < t.row ∨ (d.row = t.row ∧ d.col < t.col) :=
      fun t ht => (less_iff d t).mp (hT.1 t ht)
    rw [place]
    split
    · rename_i e
      rw [if_neg (hc d (by simp) e), ih hT.2 next (j + 1) hds (fun t ht => hge t (by simp [ht]))
        (fun t ht => hc t (by simp [ht]))]
      simp only [List.map_cons, Prod.mk.injEq, and_true]
      apply List.map_congr_left
      intro i hi
      rw [List.mem_range'_1] at hi
      rw [List.countP_cons, if_pos (by simp; omega)]
      omega
    · rename_i e
      have h1 := hge d (by simp)
      rw [Nat.max_eq_right h1, ih hT.2 (d.row + 1) (j + 1) hds (fun t ht => by have := hl t ht; omega)
        (fun t ht he => by have := hl t ht; omega)]
      simp only [List.map_cons, Prod.mk.injEq, and_true]
      rw [show n + 1 - next = (d.row + 1 - next) + (n + 1 - (d.row + 1)) by omega, ← List.range'_append_1,
        List.map_append, show next + (d.row + 1 - next) = d.row + 1 by omega]
      congr 1
      · symm
        rw [List.eq_replicate_iff]
        refine ⟨by simp, ?_⟩
        intro b hb
        obtain ⟨i, hi, rfl⟩ := List.mem_map.mp hb
        rw [List.mem_range'_1] at hi
        have : (d :: ds).countP (fun t => decide (t.row < i)) = 0 := by
          rw [List.countP_eq_zero]
          intro t ht
          rcases List.mem_cons.mp ht with rfl | ht
          · simp; omega
          · have := hl t ht
            simp; omega
        rw [this]; rfl
      · apply List.map_congr_left
        intro i hi
        rw [List.mem_range'_1] at hi
        rw [List.countP_cons, if_pos (by simp; omega)]
        omega

/-- The elements in row i. -/
def rowOf (T : List (Triplet α)) (i : Nat) : List (Nat × α) :=
  (T.filter fun t => decide (t.row = i)).map fun t => (t.col, t.value)

theorem filter_succ (T : List (Triplet α)) (hT : T.Pairwise Triplet.less) (n : Nat) :
    (T.filter fun t => decide (t.row < n + 1)) =
      (T.filter fun t => decide (t.row < n)) ++ T.filter fun t => decide (t.row = n) := by
  induction T with
  | nil => rfl
  | cons d ds ih =>
    rw [List.pairwise_cons] at hT
    have hl : ∀ t ∈ ds, d.row ≤ t.row := fun t ht => by
      have := (less_iff d t).mp (hT.1 t ht); omega
    have hz : n ≤ d.row → ds.filter (fun t => decide (t.row < n)) = [] := by
      intro h
      rw [List.filter_eq_nil_iff]
      intro t ht
      have := hl t ht
      simp; omega
    rw [List.filter_cons, List.filter_cons, List.filter_cons, ih hT.2]
    rcases Nat.lt_trichotomy d.row n with h | h | h
    · rw [if_pos (by simp; omega), if_pos (by simp; omega), if_neg (by simp; omega)]; rfl
    · rw [if_pos (by simp; omega), if_neg (by simp; omega), if_pos (by simp; omega), hz (by omega)]; rfl
    · rw [if_neg (by simp; omega), if_neg (by simp; omega), if_neg (by simp; omega)]

theorem flatten_rowOf (T : List (Triplet α)) (hT : T.Pairwise Triplet.less) (n : Nat) :
    ((List.range n).map (rowOf T)).flatten =
      (T.filter fun t => decide (t.row < n)).map fun t => (t.col, t.value) := by
  induction n with
  | zero => simp
  | succ n ih =>
    rw [List.range_succ, List.map_append, List.flatten_append, ih, filter_succ T hT, List.map_append]
    simp [rowOf]

theorem rowOf_rowOk (T : List (Triplet α)) (hT : T.Pairwise Triplet.less) (m i : Nat)
    (hm : ∀ t ∈ T, t.col < m) : RowOk m (rowOf T i) := by
  constructor
  · rw [rowOf, List.map_map, List.pairwise_map]
    have h1 := hT.filter fun t => decide (t.row = i)
    have : ∀ a ∈ T.filter fun t => decide (t.row = i), a.row = i := by
      intro a ha; simpa using (List.mem_filter.mp ha).2
    refine h1.imp_of_mem ?_
    intro a b ha hb hab
    have e1 := this a ha
    have e2 := this b hb
    rw [less_iff] at hab
    show a.col < b.col
    omega
  · intro p hp
    obtain ⟨t, ht, rfl⟩ := List.mem_map.mp hp
    exact hm t (List.mem_filter.mp ht).1

theorem mem_rowOf {T : List (Triplet α)} {i j : Nat} {v : α} :
    (j, v) ∈ rowOf T i ↔ (⟨i, j, v⟩ : Triplet α) ∈ T := by
  rw [rowOf, List.mem_map]
  constructor
  · rintro ⟨t, ht, e⟩
    obtain ⟨h1, h2⟩ := List.mem_filter.mp ht
    simp only [Prod.mk.injEq] at e
    obtain ⟨rfl, rfl⟩ := e
    have h2 : t.row = i := by simpa using h2
    subst h2
    exact h1
  · intro h
    exact ⟨_, List.mem_filter.mpr ⟨h, by simp⟩, rfl⟩

theorem updWrites_seq_all (l vals : List β) (h : l.length = vals.length) :
    updWrites l (seqFrom 0 (vals.map some)) = .ok vals := by
  have := writeAll_seq vals [] (l.map some) [] (by simpa using h)
  simp only [List.nil_append, List.append_nil, List.length_nil] at this
  rw [updWrites, this, Res.ok_bind, finish_map_some]

theorem ofSorted_ok [Zero α] (T : List (Triplet α)) (hT : T.Pairwise Triplet.less) (n m : Nat)
    (hn : ∀ t ∈ T, t.row < n) (hm : ∀ t ∈ T, t.col < m) :
    ∃ s, ofSorted T n m = .ok s ∧ HasRows s ((List.range n).map (rowOf T)) ∧ s.rows = n ∧ s.cols = m := by
  have hall : (T.filter fun t => decide (t.row < n)) = T := by
    rw [List.filter_eq_self]
    intro t ht
    simpa using hn t ht
  have hfl := flatten_rowOf T hT n
  rw [hall] at hfl
  have hst : starts 0 ((List.range n).map (rowOf T)) =
      (List.range' 0 (n + 1 - 0)).map fun i => 0 + T.countP fun t => decide (t.row < i) := by
    apply List.ext_getElem?
    intro i
    by_cases hi : i ≤ n
    · rw [starts_get 0 _ i (by simpa using hi), ← List.map_take, List.take_range, Nat.min_eq_left hi,
        flatten_rowOf T hT, List.length_map, ← List.countP_eq_length_filter, List.getElem?_map,
        List.getElem?_range' (by omega)]
      simp
    · rw [starts_none 0 _ i (by simpa using hi), List.getElem?_eq_none (by simp; omega)]
  rw [ofSorted, place_eq T hT 0 0 n hn (fun t _ => by omega) (fun t _ h => by omega), ← hst]
  simp only
  rw [updWrites_seq_all _ (starts 0 ((List.range n).map (rowOf T))) (by simp), Res.ok_bind,
    runWrites_seq' _ _ (T.map (·.col)) (by rw [List.map_map, List.map_map]; rfl) (by simp), Res.ok_bind,
    runWrites_seq' _ _ (T.map (·.value)) (by rw [List.map_map, List.map_map]; rfl) (by simp), Res.ok_bind]
  refine ⟨_, rfl, ⟨by simp, rfl, ?_, ?_⟩, rfl, rfl⟩
  · rw [hfl, List.map_map]; rfl
  · rw [hfl, List.map_map]; rfl

theorem foldl_max_eq (l : List Nat) (n : Nat) (h : ∀ x ∈ l, x ≤ n) : l.foldl max n = n := by
  induction l with
  | nil => rfl
  | cons x xs ih =>
    rw [List.foldl_cons, Nat.max_eq_left (h x (by simp)), ih fun y hy => h y (by simp [hy])]

/-- std::sort has a result. -/
theorem exists_sorted (l : List (Triplet α)) : ∃ l', Tensor.StdSort Triplet.less l l' := by
  classical
  let le : Triplet α → Triplet α → Bool := fun a b => decide (¬ Triplet.less b a)
  refine ⟨l.mergeSort le, List.mergeSort_perm l le, ?_⟩
  have := List.pairwise_mergeSort (le := le) (fun a b c h1 h2 => by
      simp only [le, decide_eq_true_eq, less_iff] at *; omega)
    (fun a b => by simp only [le, Bool.or_eq_true, decide_eq_true_eq, less_iff]; omega) l
  refine this.imp ?_
  intro a b h
  simpa [le] using h

/-- C41: a sparse matrix from different coordinates within the given sizes: each possible result has the
given elements and no others. -/
theorem c41_coordinates_partial [Zero α] [DecidableEq α] (rs cs : List Nat) (ds : List α) (n m : Nat)
    (hc : cs.length = rs.length) (hd : ds.length = rs.length) (hn : ∀ r ∈ rs, r < n) (hm : ∀ c ∈ cs, c < m)
    (hnd : (rs.zip cs).Nodup) (f : Nat → Nat → α)
    (hf : ∀ (k i j : Nat) (v : α), rs[k]? = some i → cs[k]? = some j → ds[k]? = some v → f i j = v)
    (hf0 : ∀ i j, (i, j) ∉ rs.zip cs → f i j = 0) :
    (∃ out, FromCoordinates rs cs ds n m out) ∧
      ∀ out, FromCoordinates rs cs ds n m out → ∃ s, out = .ok s ∧
        IsCsr s.rows s.cols s.rowStart s.column s.data n m f ∧ ∀ v ∈ s.data, v ≠ 0 := by
  have hg := gather_ok rs cs ds hc hd n m
  rw [foldl_max_eq rs n fun x hx => le_of_lt (hn x hx), foldl_max_eq cs m fun x hx => le_of_lt (hm x hx)] at hg
  constructor
  · obtain ⟨l', hl'⟩ := exists_sorted (trip rs cs ds)
    refine ⟨ofSorted l' n m, ?_⟩
    rw [FromCoordinates, if_pos ⟨hc, hd⟩, hg]
    exact ⟨l', hl', rfl⟩
  · intro out hout
    rw [FromCoordinates, if_pos ⟨hc, hd⟩, hg] at hout
    obtain ⟨T, hT, rfl⟩ := hout
    have hless := sorted_less hT (trip_apart rs cs ds hnd)
    have hmem : ∀ t, t ∈ T ↔ t.value ≠ 0 ∧
        ∃ k : Nat, rs[k]? = some t.row ∧ cs[k]? = some t.col ∧ ds[k]? = some t.value := by
      intro t; rw [hT.1.mem_iff, mem_trip]
    have hTn : ∀ t ∈ T, t.row < n := by
      intro t ht
      obtain ⟨-, k, h1, -, -⟩ := (hmem t).mp ht
      exact hn _ (List.mem_of_getElem? h1)
    have hTm : ∀ t ∈ T, t.col < m := by
      intro t ht
      obtain ⟨-, k, -, h1, -⟩ := (hmem t).mp ht
      exact hm _ (List.mem_of_getElem? h1)
    obtain ⟨s, e, hs, h1, h2⟩ := ofSorted_ok T hless n m hTn hTm
    refine ⟨s, e, isCsr_of_rows hs ?_ h1 h2 ?_, ?_⟩
    · intro row hrow
      obtain ⟨i, -, rfl⟩ := List.mem_map.mp hrow
      rw [h2]
      exact rowOf_rowOk T hless m i hTm
    · intro i j row hi hj
      obtain ⟨x, hx, rfl⟩ : ∃ x, (List.range n)[i]? = some x ∧ rowOf T x = row := by
        rw [List.getElem?_map, Option.map_eq_some_iff] at hi; exact hi
      have hin : i < n := by
        have := (List.getElem?_eq_some_iff.mp hx).1
        simpa using this
      rw [List.getElem?_range hin] at hx
      cases hx
      have hok := rowOf_rowOk T hless m i hTm
      by_cases hs : ∃ v, (j, v) ∈ rowOf T i
      · obtain ⟨v, hv⟩ := hs
        rw [look_of_mem hok.1 hv]
        obtain ⟨-, k, k1, k2, k3⟩ := (hmem _).mp (mem_rowOf.mp hv)
        exact hf k i j v k1 k2 k3
      · push Not at hs
        rw [look_of_not_mem hs]
        by_cases hz : (i, j) ∈ rs.zip cs
        · obtain ⟨k, hk⟩ := List.mem_iff_getElem?.mp hz
          rw [List.getElem?_zip_eq_some] at hk
          have hkl := (List.getElem?_eq_some_iff.mp hk.1).1
          have hkd := List.getElem?_eq_getElem (l := ds) (i := k) (by omega)
          rw [hf k i j _ hk.1 hk.2 hkd]
          by_contra hne
          exact hs _ (mem_rowOf.mpr ((hmem _).mpr ⟨hne, k, hk.1, hk.2, hkd⟩))
        · exact hf0 i j hz
    · intro v hv
      rw [hs.2.2.2] at hv
      obtain ⟨p, hp, rfl⟩ := List.mem_map.mp hv
      obtain ⟨row, hrow, hp⟩ := List.mem_flatten.mp hp
      obtain ⟨i, -, rfl⟩ := List.mem_map.mp hrow
      exact ((hmem _).mp (mem_rowOf.mp hp)).1

/-- The coordinates and values of the elements of the rows. -/
def coords (L : List (List (Nat × α))) : List (Nat × Nat × α) :=
  ((List.range L.length).map fun i => (L.getD i []).map fun p => (i, p.1, p.2)).flatten

theorem map_getD (L : List (List β)) : (List.range L.length).map (fun i => L.getD i []) = L := by
  apply List.ext_getElem (by simp)
  intro i h1 h2
  simp [List.getD_eq_getElem?_getD, List.getElem?_eq_getElem h2]

theorem coords_snd (L : List (List (Nat × α))) : (coords L).map (·.2) = L.flatten := by
  rw [coords, List.map_flatten, List.map_map]
  congr 1
  conv_rhs => rw [← map_getD L]
  apply List.map_congr_left
  intro i _
  simp [Function.comp_def]

theorem mem_coords {L : List (List (Nat × α))} {i j : Nat} {v : α} :
    (i, j, v) ∈ coords L ↔ ∃ row, L[i]? = some row ∧ (j, v) ∈ row := by
  simp only [coords, List.mem_flatten, List.mem_map, List.mem_range]
  constructor
  · rintro ⟨_, ⟨i', hi, rfl⟩, hm⟩
    obtain ⟨p, hp, e⟩ := List.mem_map.mp hm
    simp only [Prod.mk.injEq] at e
    obtain ⟨rfl, rfl, rfl⟩ := e
    refine ⟨L[i'], List.getElem?_eq_getElem hi, ?_⟩
    rw [List.getD_eq_getElem?_getD, List.getElem?_eq_getElem hi] at hp
    exact hp
  · rintro ⟨row, hr, hm⟩
    refine ⟨_, ⟨i, (List.getElem?_eq_some_iff.mp hr).1, rfl⟩, ?_⟩
    rw [List.getD_eq_getElem?_getD, hr]
    exact List.mem_map.mpr ⟨(j, v), hm, rfl⟩

theorem sparseRows_ok {s : Sparse α} {L : List (List (Nat × α))} (h : HasRows s L) :
    sparseRows s.rowStart s.column = .ok ((coords L).map (·.1)) := by
  obtain ⟨h1, h2, h3, h4⟩ := h
  have hlen : s.column.length = ((coords L).map (·.1)).length := by
    rw [h3, List.length_map, List.length_map, ← coords_snd, List.length_map]
  rw [sparseRows, h2, starts_length, Nat.add_sub_cancel]
  rw [collect_ok _ (fun i => List.replicate (L.getD i []).length i) 0 L.length]
  · rw [← List.range_eq_range', Res.ok_bind]
    apply runWrites_seq' _ _ _ _ hlen
    congr 1
    rw [coords, List.map_flatten, List.map_map]
    congr 1
    apply List.map_congr_left
    intro i _
    simp only [Function.comp_apply, List.map_map]
    rw [eq_comm, List.eq_replicate_iff]
    simp
  · intro i _ hi
    rw [starts_get 0 L i (by omega), starts_get 0 L (i + 1) (by omega)]
    simp only [Res.ofOption_some, Res.ok_bind, Res.pure_eq, Res.ok.injEq]
    congr 1
    rw [List.take_add_one, List.getElem?_eq_getElem (by omega), List.flatten_append, List.length_append,
      List.getD_eq_getElem?_getD, List.getElem?_eq_getElem (by omega)]
    simp only [Option.toList_some, List.flatten_singleton, Option.getD_some]
    omega

theorem coords_nodup {L : List (List (Nat × α))} {c : Nat} (hok : ∀ row ∈ L, RowOk c row) :
    ((coords L).map fun q => (q.2.1, q.1)).Nodup := by
  rw [coords, List.map_flatten, List.map_map, List.Nodup, List.pairwise_flatten]
  constructor
  · intro l hl
    obtain ⟨i, hi, rfl⟩ := List.mem_map.mp hl
    have hi := List.mem_range.mp hi
    have hm : L.getD i [] ∈ L := by
      rw [List.getD_eq_getElem?_getD, List.getElem?_eq_getElem hi]
      exact List.getElem_mem hi
    have := (hok _ hm).1
    simp only [Function.comp_apply, List.map_map]
    rw [List.pairwise_map] at this ⊢
    refine this.imp ?_
    intro a b hab e
    simp only [Function.comp_apply, Prod.mk.injEq] at e
    omega
  · rw [List.pairwise_map]
    refine List.pairwise_lt_range.imp ?_
    intro i i' hii x hx y hy e
    subst e
    simp only [Function.comp_apply, List.map_map, List.mem_map] at hx hy
    obtain ⟨p, -, rfl⟩ := hx
    obtain ⟨q, -, e⟩ := hy
    simp only [Function.comp_apply, Prod.mk.injEq] at e
    omega

/-- C40: adjoint of a sparse matrix. -/
theorem c40_adjoint [Zero α] [DecidableEq α] (conj : α → α) (h0 : conj 0 = 0) (s : Sparse α) (r c : Nat)
    (f : Nat → Nat → α) (h : IsCsr s.rows s.cols s.rowStart s.column s.data r c f) :
    (∃ out, Adjoint conj s out) ∧
      ∀ out, Adjoint conj s out → ∃ s', out = .ok s' ∧
        IsCsr s'.rows s'.cols s'.rowStart s'.column s'.data c r (fun i j => conj (f j i)) ∧
        ∀ v ∈ s'.data, v ≠ 0 := by
  obtain ⟨L, hL, hlen, hok, hv⟩ := IsCsr_rows h
  have hrows := sparseRows_ok hL
  have e1 : s.column = (coords L).map (·.2.1) := by
    rw [hL.2.2.1, ← coords_snd, List.map_map]; rfl
  have e2 : s.data.map conj = (coords L).map fun q => conj q.2.2 := by
    rw [hL.2.2.2, ← coords_snd, List.map_map, List.map_map]; rfl
  have hzip : ((coords L).map (·.2.1)).zip ((coords L).map (·.1)) = (coords L).map fun q => (q.2.1, q.1) := by
    rw [List.zip_map']
  have hval : ∀ i j v, (j, i, v) ∈ coords L → f j i = v ∧ j < r ∧ i < c := by
    intro i j v hm
    obtain ⟨row, hrow, hmem⟩ := mem_coords.mp hm
    have hro := hok row (List.mem_of_getElem? hrow)
    have hi : i < c := hro.2 _ hmem
    have hj : j < r := by rw [← hlen]; exact (List.getElem?_eq_some_iff.mp hrow).1
    refine ⟨?_, hj, hi⟩
    rw [← hv j i row hrow hi]
    exact look_of_mem hro.1 hmem
  have key := c41_coordinates_partial ((coords L).map (·.2.1)) ((coords L).map (·.1))
    ((coords L).map fun q => conj q.2.2) c r (by simp) (by simp)
    (by
      intro x hx
      obtain ⟨⟨j, i, v⟩, hq, rfl⟩ := List.mem_map.mp hx
      exact (hval _ _ _ hq).2.2)
    (by
      intro x hx
      obtain ⟨⟨j, i, v⟩, hq, rfl⟩ := List.mem_map.mp hx
      exact (hval _ _ _ hq).2.1)
    (by rw [hzip]; exact coords_nodup hok)
    (fun i j => if i < c ∧ j < r then conj (f j i) else 0)
    (by
      intro k i j v k1 k2 k3
      rw [List.getElem?_map, Option.map_eq_some_iff] at k1 k2 k3
      obtain ⟨⟨y, x, w⟩, hq, rfl⟩ := k1
      obtain ⟨q2, hq2, rfl⟩ := k2
      obtain ⟨q3, hq3, rfl⟩ := k3
      rw [hq] at hq2 hq3
      cases hq2; cases hq3
      obtain ⟨u1, u2, u3⟩ := hval _ _ _ (List.mem_of_getElem? hq)
      simp only
      rw [if_pos ⟨u3, u2⟩, u1])
    (by
      intro i j hn
      split
      · rename_i hij
        have hj : j < L.length := by omega
        have hrow := List.getElem?_eq_getElem hj
        rw [← hv j i _ hrow hij.1, look_of_not_mem, h0]
        intro v hmem
        apply hn
        rw [hzip]
        exact List.mem_map.mpr ⟨(j, i, v), mem_coords.mpr ⟨_, hrow, hmem⟩, rfl⟩
      · rfl)
  have hadj : ∀ out, Adjoint conj s out ↔ FromCoordinates ((coords L).map (·.2.1)) ((coords L).map (·.1))
      ((coords L).map fun q => conj q.2.2) c r out := by
    intro out
    rw [Adjoint, hrows]
    simp only
    rw [e2, h.2.1, h.1, e1]
  constructor
  · obtain ⟨out, ho⟩ := key.1
    exact ⟨out, (hadj out).mpr ho⟩
  · intro out ho
    obtain ⟨s', es, hs, hz⟩ := key.2 out ((hadj out).mp ho)
    refine ⟨s', es, ⟨hs.1, hs.2.1, hs.2.2.1, ?_⟩, hz⟩
    intro i j hi hj
    have := hs.2.2.2 i j hi hj
    simp only [hi, hj, and_self, if_true] at this
    exact this

/-- C40: transpose of a sparse matrix, and agreement with the transpose of the dense matrix. -/
theorem c40_full_transpose [Zero α] [DecidableEq α] (s : Sparse α)
    (h : ValidCsr s.rows s.cols s.rowStart s.column s.data) :
    (∃ out, Transpose s out) ∧
      ∀ out, Transpose s out → ∃ s' d d', out = .ok s' ∧ full s = .ok d ∧ full s' = .ok d' ∧
        Tensor.transpose d = .ok d' := by
  obtain ⟨f, hf⟩ := exists_isCsr s h
  obtain ⟨k1, k2⟩ := c40_adjoint id rfl s _ _ f hf
  refine ⟨k1, ?_⟩
  intro out ho
  obtain ⟨s', es, hs, -⟩ := k2 out ho
  obtain ⟨d, e1, m1⟩ := c35_full s _ _ f hf
  obtain ⟨d', e2, m2⟩ := c35_full s' _ _ _ hs
  obtain ⟨t, e3, m3⟩ := Tensor.transpose_isMat m1
  exact ⟨s', d, d', es, e1, e2, by rw [e3, IsMat.unique m3 m2 fun i j _ _ => rfl]⟩

/-- C40: the same for the adjoint. -/
theorem c40_full_adjoint [CommSemiring α] [DecidableEq α] (conj : α →+* α) (s : Sparse α)
    (h : ValidCsr s.rows s.cols s.rowStart s.column s.data) :
    (∃ out, Adjoint conj s out) ∧
      ∀ out, Adjoint conj s out → ∃ s' d d', out = .ok s' ∧ full s = .ok d ∧ full s' = .ok d' ∧
        Tensor.adjoint conj d = .ok d' := by
  obtain ⟨f, hf⟩ := exists_isCsr s h
  obtain ⟨k1, k2⟩ := c40_adjoint conj (map_zero conj) s _ _ f hf
  refine ⟨k1, ?_⟩
  intro out ho
  obtain ⟨s', es, hs, -⟩ := k2 out ho
  obtain ⟨d, e1, m1⟩ := c35_full s _ _ f hf
  obtain ⟨d', e2, m2⟩ := c35_full s' _ _ _ hs
  obtain ⟨t, e3, m3⟩ := Tensor.adjoint_isMat conj m1
  exact ⟨s', d, d', es, e1, e2, by rw [e3, IsMat.unique m3 m2 fun i j _ _ => rfl]⟩

/-- C40: transposing twice gives the same matrix if no zeros are stored. -/
theorem c40_involution [Zero α] [DecidableEq α] (conj : α → α) (h0 : conj 0 = 0)
    (hc : ∀ x, conj (conj x) = x) (s : Sparse α)
    (h : ValidCsr s.rows s.cols s.rowStart s.column s.data) (hz : ∀ v ∈ s.data, v ≠ 0)
    (s' : Sparse α) (out : Res (Sparse α)) (h1 : Adjoint conj s (.ok s')) (h2 : Adjoint conj s' out) :
    out = .ok s := by
  obtain ⟨f, hf⟩ := exists_isCsr s h
  obtain ⟨s1, e1, hs1, hz1⟩ := (c40_adjoint conj h0 s _ _ f hf).2 _ h1
  cases e1
  obtain ⟨s2, e2, hs2, hz2⟩ := (c40_adjoint conj h0 s' _ _ _ hs1).2 _ h2
  rw [e2]
  simp only [hc] at hs2
  rw [csr_unique hs2 hf hz2 hz]

/-- C41 is false if the sizes are not given: the last row is lost, and the arrays are not consistent. -/
theorem c41_no_sizes (out : Res (Sparse Int)) (h : FromCoordinates [1] [0] [(5 : Int)] 0 0 out) :
    out = .ok ⟨1, 0, [0, 0], [0], [5]⟩ ∧ ¬ ValidCsr 1 0 [0, 0] [0] [(5 : Int)] := by
  constructor
  · rw [FromCoordinates, if_pos ⟨rfl, rfl⟩] at h
    obtain ⟨T, ⟨hT, -⟩, rfl⟩ := h
    have : T = [⟨1, 0, 5⟩] := List.perm_singleton.mp hT
    rw [this]
    decide
  · intro h
    have := h.last
    simp at this

/-- C41 is false if coordinates appear twice: the element is stored twice in the same column. -/
theorem c41_duplicate (out : Res (Sparse Int))
    (h : FromCoordinates [0, 0] [1, 1] [(5 : Int), 5] 2 2 out) :
    out = .ok ⟨2, 2, [0, 2, 2], [1, 1], [5, 5]⟩ ∧ ¬ ValidCsr 2 2 [0, 2, 2] [1, 1] [(5 : Int), 5] := by
  constructor
  · rw [FromCoordinates, if_pos ⟨rfl, rfl⟩] at h
    obtain ⟨T, ⟨hT, -⟩, rfl⟩ := h
    have : T = [⟨0, 1, 5⟩, ⟨0, 1, 5⟩] := List.perm_replicate (n := 2).mp hT
    rw [this]
    decide
  · intro h
    have := h.incr 0 0 2 rfl rfl
    simp at this

/-- C41 is false if coordinates in the first column appear twice: part of the arrays is not
initialised. -/
theorem c41_duplicate_first (out : Res (Sparse Int))
    (h : FromCoordinates [0, 0] [0, 0] [(5 : Int), 5] 2 2 out) : out = .ub := by
  rw [FromCoordinates, if_pos ⟨rfl, rfl⟩] at h
  obtain ⟨T, ⟨hT, -⟩, rfl⟩ := h
  have : T = [⟨0, 0, 5⟩, ⟨0, 0, 5⟩] := List.perm_replicate (n := 2).mp hT
  rw [this]
  decide

/-- Cases in which the hypotheses hold: the matrix with 7 at (0,1) and 9 at (1,0), given in any order. -/
example : (([1, 0] : List Nat).zip [0, 1]).Nodup ∧
    ∃ f : Nat → Nat → Int, f 1 0 = 9 ∧ f 0 1 = 7 ∧ ∀ i j, (i, j) ∉ ([1, 0] : List Nat).zip [0, 1] → f i j = 0 :=
  ⟨by decide, fun i j => if i = 1 ∧ j = 0 then 9 else if i = 0 ∧ j = 1 then 7 else 0, rfl, rfl, by
    intro i j h
    simp at h
    simp only
    rw [if_neg, if_neg] <;> omega⟩
example : ofSorted [⟨0, 1, 7⟩, ⟨1, 0, (9 : Int)⟩] 2 2 = .ok ⟨2, 2, [0, 1, 2], [1, 0], [7, 9]⟩ := by decide

end Verif.Sparse
