import Verif.Lemmas.View
/-
Lemmas about slices: order of the positions, reading and writing loops.
-/
namespace Verif.View

open Verif Spec

variable {α : Type}

/-! ### Order of the positions -/

/-- Positions of the cartesian selection, in the order of the result. -/
def enum : List (List Int) → List Nat → Int → List Int
  | s :: ss, d :: ds, f => (enum ss ds (f * d)).flatMap fun b => s.map fun i => i * f + b
  | _, _, _ => [0]

theorem flatMap_map_get {β γ : Type} (l : List β) (s : List γ) (g : β → γ → Int) (i q : Nat)
    (hi : i < s.length) :
    (l.flatMap fun b => s.map (g b))[i + s.length * q]? =
      (l[q]?).bind fun b => (s[i]?).map (g b) := by
  induction l generalizing q with
  | nil => simp
  | cons b l ih =>
    rw [List.flatMap_cons]
    cases q with
    | zero =>
      rw [List.getElem?_append_left (by simpa using hi)]
      simp
    | succ q =>
      rw [List.getElem?_append_right (by simp; nlinarith)]
      have : i + s.length * (q + 1) - (s.map (g b)).length = i + s.length * q := by
        rw [List.length_map, Nat.mul_succ]; omega
      rw [this, ih q]
      simp

theorem flatMap_map_length {β γ : Type} (l : List β) (s : List γ) (g : β → γ → Int) :
    (l.flatMap fun b => s.map (g b)).length = s.length * l.length := by
  induction l with
  | nil => simp
  | cons b l ih => simp [List.flatMap_cons, ih]; ring

/-- Lists of indices with one list per dimension. -/
def SelFor : List (List Int) → List Nat → Prop
  | [], [] => True
  | s :: ss, d :: ds => (∀ x ∈ s, 0 ≤ x ∧ x < d) ∧ SelFor ss ds
  | _, _ => False

theorem enum_get (ss : List (List Int)) (ds : List Nat) (f : Int) (j i : List Nat)
    (hl : ss.length = ds.length) (h : Picks ss j i) :
    (enum ss ds f)[colPos (ss.map List.length) j]? = some (f * colPos ds i) := by
  induction ss generalizing ds f j i with
  | nil =>
    match j, i, ds, h, hl with
    | [], [], [], _, _ => simp [enum]
    | _ :: _, _, _, h, _ => exact (by simp [Picks] at h)
    | [], _ :: _, _, h, _ => exact (by simp [Picks] at h)
  | cons s ss ih =>
    match j, i, ds, h, hl with
    | [], _, _, h, _ => exact (by simp [Picks] at h)
    | _ :: _, [], _, h, _ => exact (by simp [Picks] at h)
    | j :: js, i :: is, d :: ds, h, hl =>
      obtain ⟨h1, h2⟩ := h
      have hlt : j < s.length := (List.getElem?_eq_some_iff.1 h1).1
      simp only [enum, List.map_cons, colPos_cons]
      rw [flatMap_map_get _ _ (fun b i => i * f + b) _ _ hlt]
      rw [ih ds (f * d) js is (by simpa using hl) h2, h1]
      simp
      ring

theorem enum_length (ss : List (List Int)) (ds : List Nat) (f : Int) (hl : ss.length = ds.length) :
    (enum ss ds f).length = prod (ss.map List.length) := by
  induction ss generalizing ds f with
  | nil => simp [enum]
  | cons s ss ih =>
    cases ds with
    | nil => simp at hl
    | cons d ds =>
      simp only [enum, List.map_cons, prod_cons]
      rw [flatMap_map_length _ _ (fun b i => i * f + b), ih ds _ (by simpa using hl)]

theorem picks_exists (ss : List (List Int)) (ds : List Nat) (j : List Nat) (hs : SelFor ss ds)
    (h : InB j (ss.map List.length)) : ∃ i, Picks ss j i ∧ InB i ds := by
  induction ss generalizing ds j with
  | nil =>
    match j, ds, h, hs with
    | [], [], _, _ => exact ⟨[], trivial, trivial⟩
    | [], _ :: _, _, hs => exact hs.elim
    | _ :: _, _, h, _ => exact h.elim
  | cons s ss ih =>
    match j, ds, h, hs with
    | [], _, h, _ => exact h.elim
    | _ :: _, [], _, hs => exact hs.elim
    | j :: js, d :: ds, h, hs =>
      obtain ⟨is, h1, h2⟩ := ih ds js hs.2 h.2
      have hj : j < s.length := h.1
      have hx := hs.1 s[j] (List.getElem_mem hj)
      refine ⟨s[j].toNat :: is, ⟨?_, h1⟩, ?_, h2⟩
      · rw [List.getElem?_eq_getElem hj]
        congr 1
        omega
      · omega

theorem Picks.inB {ss : List (List Int)} {ds j i : List Nat} (hs : SelFor ss ds)
    (h : Picks ss j i) : InB j (ss.map List.length) ∧ InB i ds := by
  induction ss generalizing ds j i with
  | nil =>
    match j, i, ds, h, hs with
    | [], [], [], _, _ => exact ⟨trivial, trivial⟩
    | [], [], _ :: _, _, hs => exact hs.elim
    | _ :: _, _, _, h, _ => exact (by simp [Picks] at h)
    | [], _ :: _, _, h, _ => exact (by simp [Picks] at h)
  | cons s ss ih =>
    match j, i, ds, h, hs with
    | [], _, _, h, _ => exact (by simp [Picks] at h)
    | _ :: _, [], _, h, _ => exact (by simp [Picks] at h)
    | _ :: _, _ :: _, [], _, hs => exact hs.elim
    | j :: js, i :: is, d :: ds, h, hs =>
      obtain ⟨h1, h2⟩ := ih hs.2 h.2
      have hx := hs.1 _ (List.mem_of_getElem? h.1)
      exact ⟨⟨(List.getElem?_eq_some_iff.1 h.1).1, h1⟩, by omega, h2⟩

theorem Picks.inj {ss : List (List Int)} {j j' i : List Nat} (hn : ∀ s ∈ ss, s.Nodup)
    (h : Picks ss j i) (h' : Picks ss j' i) : j = j' := by
  induction ss generalizing j j' i with
  | nil =>
    match j, j', i, h, h' with
    | [], [], [], _, _ => rfl
    | _ :: _, _, _, h, _ => exact (by simp [Picks] at h)
    | [], _ :: _, _, _, h' => exact (by simp [Picks] at h')
    | [], [], _ :: _, h, _ => exact (by simp [Picks] at h)
  | cons s ss ih =>
    match j, j', i, h, h' with
    | [], _, _, h, _ => exact (by simp [Picks] at h)
    | _ :: _, [], _, _, h' => exact (by simp [Picks] at h')
    | _ :: _, _ :: _, [], h, _ => exact (by simp [Picks] at h)
    | j :: js, j' :: js', i :: is, h, h' =>
      have e : j = j' := by
        have hlt := (List.getElem?_eq_some_iff.1 h.1).1
        exact (List.getElem?_inj hlt (hn s (by simp))).1 (h.1.trans h'.1.symm)
      rw [e, ih (fun s hs => hn s (by simp [hs])) h.2 h'.2]

theorem SelFor.length {ss : List (List Int)} {ds : List Nat} (h : SelFor ss ds) :
    ss.length = ds.length := by
  induction ss generalizing ds with
  | nil => cases ds with
    | nil => rfl
    | cons => exact h.elim
  | cons s ss ih => cases ds with
    | nil => exact h.elim
    | cons d ds => simp [ih h.2]

/-- Every enumerated position comes from some tuple. -/
theorem enum_surj {ss : List (List Int)} {ds : List Nat} (hs : SelFor ss ds) (q : Nat) (x : Int)
    (h : (enum ss ds 1)[q]? = some x) :
    ∃ j i, Picks ss j i ∧ q = colPos (ss.map List.length) j ∧ x = colPos ds i ∧ InB i ds := by
  have hlt := (List.getElem?_eq_some_iff.1 h).1
  rw [enum_length _ _ _ hs.length] at hlt
  obtain ⟨j, hj, e⟩ := colPos_surj _ q hlt
  obtain ⟨i, hi, hb⟩ := picks_exists ss ds j hs hj
  refine ⟨j, i, hi, e.symm, ?_, hb⟩
  have := enum_get ss ds 1 j i hs.length hi
  rw [e, h] at this
  simpa using this

theorem enum_nonneg {ss : List (List Int)} {ds : List Nat} (hs : SelFor ss ds) :
    ∀ x ∈ enum ss ds 1, 0 ≤ x := by
  intro x hx
  obtain ⟨q, hq⟩ := List.mem_iff_getElem?.1 hx
  obtain ⟨j, i, -, -, rfl, -⟩ := enum_surj hs q x hq
  omega

theorem enum_nodup {ss : List (List Int)} {ds : List Nat} (hs : SelFor ss ds)
    (hn : ∀ s ∈ ss, s.Nodup) : (enum ss ds 1).Nodup := by
  rw [List.nodup_iff_getElem?_ne_getElem?]
  intro a b hab hb e
  have hb' : (enum ss ds 1)[b]? = some (enum ss ds 1)[b] := List.getElem?_eq_getElem hb
  obtain ⟨j, i, h1, h2, h3, h4⟩ := enum_surj hs b _ hb'
  obtain ⟨j', i', h1', h2', h3', h4'⟩ := enum_surj hs a _ (e.trans hb')
  have : i = i' := colPos_inj h4 h4' (by omega)
  subst this
  have := Picks.inj hn h1 h1'
  subst this
  omega

/-! ### Valid ranges -/

theorem Valid.stepPos {sp d} (h : Valid sp d) : StepPos sp := by
  cases sp <;> simp_all [Valid, StepPos]

theorem Valid.accepted {sp d} (h : Valid sp d) : Accepted sp d := by
  cases sp with
  | all => trivial
  | single i => exact h.2
  | step a b s => exact h.2.2.1
  | list l => exact fun x hx => (h x hx).2.le

theorem Valid.sel {sp d} (h : Valid sp d) : ∀ x ∈ sel sp d, 0 ≤ x ∧ x < d := by
  cases sp with
  | all =>
    intro x hx
    simp only [Spec.sel, List.mem_map, List.mem_range] at hx
    obtain ⟨a, ha, rfl⟩ := hx
    simp [ha]
  | single i =>
    intro x hx
    simp only [Spec.sel, List.mem_singleton] at hx
    subst hx; exact h
  | step a b s =>
    intro x hx
    simp only [Spec.sel, List.mem_map, List.mem_range] at hx
    obtain ⟨k, hk, rfl⟩ := hx
    obtain ⟨h1, h2, h3, -⟩ := h
    rw [step_count a b s h2] at hk
    have : 0 ≤ (k : Int) * s := by positivity
    omega
  | list l => exact h

theorem Valid.size {sp d} (h : Valid sp d) : specSize sp d = (Spec.sel sp d).length := by
  cases sp with
  | all => simp [specSize, Spec.sel]
  | single i => simp [specSize, Spec.sel]
  | step a b s =>
    obtain ⟨h1, h2, h3, h4⟩ := h
    simp only [specSize, Spec.sel, List.length_map, List.length_range]
    rcases h4 with h4 | ⟨h4, h5⟩
    · rw [if_pos h4, Int.tdiv_eq_ediv_of_nonneg (by omega)]
      have : 0 ≤ (b - a) / s := Int.ediv_nonneg (by omega) h2.le
      omega
    · rw [if_neg (by omega)]
      have e : (b - a).tdiv s = -((a - b) / s) := by
        rw [← neg_sub a b, Int.neg_tdiv, Int.tdiv_eq_ediv_of_nonneg (by omega)]
      have e2 : (a - b) / s = 1 := by
        rw [Int.ediv_eq_iff_of_pos h2]; omega
      rw [e, e2]
      simp
  | list l => simp [specSize, Spec.sel]

theorem ValidAll.acceptedAll {sps ds} (h : ValidAll sps ds) : AcceptedAll sps ds := by
  induction sps generalizing ds with
  | nil => cases ds with
    | nil => trivial
    | cons => exact h.elim
  | cons sp sps ih => cases ds with
    | nil => exact h.elim
    | cons d ds => exact ⟨Valid.accepted h.1, ih h.2⟩

theorem ValidAll.stepPos {sps ds} (h : ValidAll sps ds) : ∀ sp ∈ sps, StepPos sp := by
  induction sps generalizing ds with
  | nil => simp
  | cons sp sps ih => cases ds with
    | nil => exact h.elim
    | cons d ds =>
      intro x hx
      rcases List.mem_cons.1 hx with rfl | hx
      · exact Valid.stepPos h.1
      · exact ih h.2 x hx

theorem ValidAll.selFor {sps ds} (h : ValidAll sps ds) : SelFor (selAll sps ds) ds := by
  induction sps generalizing ds with
  | nil => cases ds with
    | nil => trivial
    | cons => exact h.elim
  | cons sp sps ih => cases ds with
    | nil => exact h.elim
    | cons d ds => exact ⟨Valid.sel h.1, ih h.2⟩

theorem ValidAll.sizes {sps ds} (h : ValidAll sps ds) :
    specSizes sps ds = ((selAll sps ds).map List.length).map Int.ofNat := by
  induction sps generalizing ds with
  | nil => cases ds with
    | nil => rfl
    | cons => exact h.elim
  | cons sp sps ih => cases ds with
    | nil => exact h.elim
    | cons d ds => simp [specSizes, selAll, ih h.2, Valid.size h.1]

theorem ValidAll.length {sps ds} (h : ValidAll sps ds) : sps.length = ds.length :=
  (ValidAll.acceptedAll h).length

theorem enum_nonneg' (ss : List (List Int)) (ds : List Nat) (f : Int) (hf : 0 ≤ f)
    (hs : SelFor ss ds) : ∀ x ∈ enum ss ds f, 0 ≤ x := by
  induction ss generalizing ds f with
  | nil => simp [enum]
  | cons s ss ih =>
    cases ds with
    | nil => exact hs.elim
    | cons d ds =>
      intro x hx
      simp only [enum, List.mem_flatMap, List.mem_map] at hx
      obtain ⟨b, hb, i, hi, rfl⟩ := hx
      have h1 := ih ds (f * d) (by positivity) hs.2 b hb
      have h2 := (hs.1 i hi).1
      have : 0 ≤ i * f := by positivity
      omega

theorem nonneg_tr {l : List Int} (h : ∀ x ∈ l, 0 ≤ x) : tr l = l :=
  tr_eq_self fun x hx e => by have := h x hx; simp [nomore] at e; omega

theorem chainVals_eq {sps ds} (h : ValidAll sps ds) (hne : sps ≠ []) (f : Int) (hf : 0 ≤ f) :
    chainVals sps ds f = enum (selAll sps ds) ds f := by
  induction sps generalizing ds f with
  | nil => exact absurd rfl hne
  | cons sp sps ih => cases ds with
    | nil => exact h.elim
    | cons d ds =>
      have hs : tr ((sel sp d).map (· * f)) = (sel sp d).map (· * f) := by
        apply nonneg_tr
        intro x hx
        obtain ⟨i, hi, rfl⟩ := List.mem_map.1 hx
        have := (Valid.sel h.1 i hi).1
        positivity
      have hpos := enum_nonneg' (selAll (sp :: sps) (d :: ds)) (d :: ds) f hf (ValidAll.selFor h)
      cases sps with
      | nil =>
        cases ds with
        | nil => simp [chainVals, hs, enum, selAll]
        | cons => exact h.2.elim
      | cons sp' sps =>
        have ih' := ih h.2 (by simp) (f * d) (by positivity)
        have : chainVals (sp :: sp' :: sps) (d :: ds) f =
            tr ((chainVals (sp' :: sps) ds (f * d)).flatMap
              fun b => (tr ((sel sp d).map (· * f))).map (· + b)) := by
          cases ds with
          | nil => exact h.2.elim
          | cons => rfl
        rw [this, ih', hs]
        have e : ((enum (selAll (sp' :: sps) ds) ds (f * d)).flatMap
            fun b => ((sel sp d).map (· * f)).map (· + b)) =
            enum (selAll (sp :: sp' :: sps) (d :: ds)) (d :: ds) f := by
          simp [enum, selAll, Function.comp_def]
        rw [e, nonneg_tr hpos]

/-! ### Loops -/

theorem writeAll_cons (buf : List (Option α)) (w : Nat × Option α) (ws : List (Nat × Option α)) :
    writeAll buf (w :: ws) = writeAll buf [w] >>= fun b => writeAll b ws := by
  obtain ⟨p, v⟩ := w
  cases v with
  | none => rfl
  | some v =>
    simp only [writeAll]
    split <;> rfl

/-- The writes of the reading loop. -/
def readWrites (data : List α) : Nat → List Int → List (Nat × Option α)
  | _, [] => []
  | k, v :: vs => (k, readAt data v) :: readWrites data (k + 1) vs

theorem readLoop_eq (data : List α) (vals : List Int) :
    ∀ (r : Range) (k : Nat) (buf : List (Option α)), RRuns vals r →
      ∃ N, ∀ n, N ≤ n →
        readLoop data n r k buf = .done (writeAll buf (readWrites data k vals)) := by
  induction vals with
  | nil =>
    intro r k buf h
    obtain ⟨N, r', e⟩ := h
    refine ⟨N + 1, ?_⟩
    intro n hn
    obtain ⟨m, rfl⟩ : ∃ m, n = m + 1 := ⟨n - 1, by omega⟩
    simp [readLoop, e m (by omega), readWrites, writeAll]
  | cons v vs ih =>
    intro r k buf h
    obtain ⟨hv, N, r', e, hr⟩ := h
    simp only [readWrites]
    rw [writeAll_cons]
    cases hw : writeAll buf [(k, readAt data v)] with
    | ok b =>
      obtain ⟨M, hM⟩ := ih r' (k + 1) b hr
      refine ⟨max N M + 1, ?_⟩
      intro n hn
      obtain ⟨m, rfl⟩ : ∃ m, n = m + 1 := ⟨n - 1, by omega⟩
      simp [readLoop, e m (by omega), hv, hw, hM m (by omega)]
    | abort =>
      refine ⟨N + 1, ?_⟩
      intro n hn
      obtain ⟨m, rfl⟩ : ∃ m, n = m + 1 := ⟨n - 1, by omega⟩
      simp [readLoop, e m (by omega), hv, hw]
    | ub =>
      refine ⟨N + 1, ?_⟩
      intro n hn
      obtain ⟨m, rfl⟩ : ∃ m, n = m + 1 := ⟨n - 1, by omega⟩
      simp [readLoop, e m (by omega), hv, hw]

/-- Consecutive writes in place. -/
def writeSeq (data : List α) : List (Int × Option α) → Res (List α)
  | [] => .ok data
  | (j, x) :: ws => writeAt data j x >>= fun d => writeSeq d ws

/-- The writes of the assignment loop. -/
def assignWrites (src : List α) : Nat → List Int → List (Int × Option α)
  | _, [] => []
  | i, v :: vs => (v, src[i]?) :: assignWrites src (i + 1) vs

theorem assignLoop_eq (src : List α) (vals : List Int) :
    ∀ (r : Range) (i : Nat) (data : List α), RRuns vals r →
      ∃ N, ∀ n, N ≤ n →
        assignLoop src n r i data = .done (writeSeq data (assignWrites src i vals)) := by
  induction vals with
  | nil =>
    intro r k data h
    obtain ⟨N, r', e⟩ := h
    refine ⟨N + 1, ?_⟩
    intro n hn
    obtain ⟨m, rfl⟩ : ∃ m, n = m + 1 := ⟨n - 1, by omega⟩
    simp [assignLoop, e m (by omega), assignWrites, writeSeq]
  | cons v vs ih =>
    intro r k data h
    obtain ⟨hv, N, r', e, hr⟩ := h
    simp only [assignWrites, writeSeq]
    cases hw : writeAt data v src[k]? with
    | ok b =>
      obtain ⟨M, hM⟩ := ih r' (k + 1) b hr
      refine ⟨max N M + 1, ?_⟩
      intro n hn
      obtain ⟨m, rfl⟩ : ∃ m, n = m + 1 := ⟨n - 1, by omega⟩
      simp [assignLoop, e m (by omega), hv, hw, hM m (by omega)]
    | abort =>
      refine ⟨N + 1, ?_⟩
      intro n hn
      obtain ⟨m, rfl⟩ : ∃ m, n = m + 1 := ⟨n - 1, by omega⟩
      simp [assignLoop, e m (by omega), hv, hw]
    | ub =>
      refine ⟨N + 1, ?_⟩
      intro n hn
      obtain ⟨m, rfl⟩ : ∃ m, n = m + 1 := ⟨n - 1, by omega⟩
      simp [assignLoop, e m (by omega), hv, hw]

theorem fillLoop_eq (x : α) (vals : List Int) :
    ∀ (r : Range) (data : List α), RRuns vals r →
      ∃ N, ∀ n, N ≤ n →
        fillLoop x n r data = .done (writeSeq data (vals.map fun v => (v, some x))) := by
  induction vals with
  | nil =>
    intro r data h
    obtain ⟨N, r', e⟩ := h
    refine ⟨N + 1, ?_⟩
    intro n hn
    obtain ⟨m, rfl⟩ : ∃ m, n = m + 1 := ⟨n - 1, by omega⟩
    simp [fillLoop, e m (by omega), writeSeq]
  | cons v vs ih =>
    intro r data h
    obtain ⟨hv, N, r', e, hr⟩ := h
    simp only [List.map_cons, writeSeq]
    cases hw : writeAt data v (some x) with
    | ok b =>
      obtain ⟨M, hM⟩ := ih r' b hr
      refine ⟨max N M + 1, ?_⟩
      intro n hn
      obtain ⟨m, rfl⟩ : ∃ m, n = m + 1 := ⟨n - 1, by omega⟩
      simp [fillLoop, e m (by omega), hv, hw, hM m (by omega)]
    | abort =>
      refine ⟨N + 1, ?_⟩
      intro n hn
      obtain ⟨m, rfl⟩ : ∃ m, n = m + 1 := ⟨n - 1, by omega⟩
      simp [fillLoop, e m (by omega), hv, hw]
    | ub =>
      refine ⟨N + 1, ?_⟩
      intro n hn
      obtain ⟨m, rfl⟩ : ∃ m, n = m + 1 := ⟨n - 1, by omega⟩
      simp [fillLoop, e m (by omega), hv, hw]

theorem viewLoop_eq (src : List α) (vals : List Int) :
    ∀ (vals' : List Int) (r r' : Range) (data : List α), RRuns vals r → RRuns vals' r' →
      ∃ N, ∀ n, N ≤ n →
        viewLoop src n r r' data =
          .done (writeSeq data (List.zipWith (fun v w => (v, readAt src w)) vals vals')) := by
  induction vals with
  | nil =>
    intro vals' r r' data h h'
    obtain ⟨N, q, e⟩ := h
    obtain ⟨N', y, q', e'⟩ : ∃ N' y q', ∀ n, N' ≤ n → Range.pop n r' = .done (.ok (y, q')) := by
      cases vals' with
      | nil => obtain ⟨N, q, e⟩ := h'; exact ⟨N, nomore, q, e⟩
      | cons v vs => obtain ⟨-, N, q, e, -⟩ := h'; exact ⟨N, v, q, e⟩
    refine ⟨max N N' + 1, ?_⟩
    intro n hn
    obtain ⟨m, rfl⟩ : ∃ m, n = m + 1 := ⟨n - 1, by omega⟩
    simp [viewLoop, e m (by omega), e' m (by omega), writeSeq]
  | cons v vs ih =>
    intro vals' r r' data h h'
    obtain ⟨hv, N, q, e, hr⟩ := h
    cases vals' with
    | nil =>
      obtain ⟨N', q', e'⟩ := h'
      refine ⟨max N N' + 1, ?_⟩
      intro n hn
      obtain ⟨m, rfl⟩ : ∃ m, n = m + 1 := ⟨n - 1, by omega⟩
      simp [viewLoop, e m (by omega), e' m (by omega), writeSeq]
    | cons w ws =>
      obtain ⟨hw', N', q', e', hr'⟩ := h'
      simp only [List.zipWith_cons_cons, writeSeq]
      cases hw : writeAt data v (readAt src w) with
      | ok b =>
        obtain ⟨M, hM⟩ := ih ws q q' b hr hr'
        refine ⟨max (max N N') M + 1, ?_⟩
        intro n hn
        obtain ⟨m, rfl⟩ : ∃ m, n = m + 1 := ⟨n - 1, by omega⟩
        simp [viewLoop, e m (by omega), e' m (by omega), hv, hw', hw, hM m (by omega)]
      | abort =>
        refine ⟨max N N' + 1, ?_⟩
        intro n hn
        obtain ⟨m, rfl⟩ : ∃ m, n = m + 1 := ⟨n - 1, by omega⟩
        simp [viewLoop, e m (by omega), e' m (by omega), hv, hw', hw]
      | ub =>
        refine ⟨max N N' + 1, ?_⟩
        intro n hn
        obtain ⟨m, rfl⟩ : ∃ m, n = m + 1 := ⟨n - 1, by omega⟩
        simp [viewLoop, e m (by omega), e' m (by omega), hv, hw', hw]

theorem writeAt_ok (data : List α) (p : Nat) (x : α) (h : p < data.length) :
    writeAt data p (some x) = .ok (data.set p x) := by
  have hn : ¬ ((p : Int) < 0) := by omega
  simp only [writeAt, hn, if_false, updWrites, Int.toNat_natCast, writeAll, List.length_map, h,
    if_true, Res.ok_bind]
  rw [show (data.map some).set p (some x) = (data.set p x).map some by simp]
  exact finish_map_some _

/-- Consecutive writes at different valid positions. -/
theorem writeSeq_spec (ws : List (Nat × α)) (data : List α) (h : ∀ w ∈ ws, w.1 < data.length)
    (hn : (ws.map Prod.fst).Nodup) :
    ∃ data', writeSeq data (ws.map fun w => ((w.1 : Int), some w.2)) = .ok data' ∧
      data'.length = data.length ∧
      (∀ w ∈ ws, data'[w.1]? = some w.2) ∧
      (∀ p, p ∉ ws.map Prod.fst → data'[p]? = data[p]?) := by
  induction ws generalizing data with
  | nil => exact ⟨data, rfl, rfl, by simp, by simp⟩
  | cons w ws ih =>
    obtain ⟨p, x⟩ := w
    simp only [List.map_cons, List.nodup_cons] at hn
    have hp : p < data.length := h (p, x) (by simp)
    obtain ⟨d', e, hl, h1, h2⟩ := ih (data.set p x)
      (fun w hw => by simpa using h w (by simp [hw])) hn.2
    refine ⟨d', ?_, by simpa using hl, ?_, ?_⟩
    · simp only [List.map_cons, writeSeq]
      rw [writeAt_ok data p x hp, Res.ok_bind, e]
    · intro w hw
      rcases List.mem_cons.1 hw with rfl | hw
      · rw [h2 p hn.1]
        simp [hp]
      · exact h1 w hw
    · intro q hq
      simp only [List.map_cons, List.mem_cons, not_or] at hq
      rw [h2 q hq.2, List.getElem?_set_ne (Ne.symm hq.1)]

end Verif.View
