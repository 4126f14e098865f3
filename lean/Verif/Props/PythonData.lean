import Verif.Props.Python
import Mathlib.Data.List.Forall2
/-
C80: datasets which are combined in Python.
-/
namespace Verif.Py

open Sdf

theorem flatten_get {β : Type} {m : Nat} (L : List (List β)) (h : ∀ l ∈ L, l.length = m) {k : Nat}
    {l : List β} (hk : L[k]? = some l) {p : Nat} (hp : p < m) :
    L.flatten[p + m * k]? = l[p]? := by
  induction L generalizing k with
  | nil => simp at hk
  | cons a L ih =>
    have ha := h a (List.mem_cons_self ..)
    rw [List.flatten_cons]
    cases k with
    | zero =>
      rw [List.getElem?_cons_zero, Option.some.injEq] at hk
      rw [Nat.mul_zero, Nat.add_zero, List.getElem?_append_left (by omega), hk]
    | succ k =>
      rw [List.getElem?_cons_succ] at hk
      rw [List.getElem?_append_right (by rw [ha, Nat.mul_succ]; omega), ha,
        show p + m * (k + 1) - m = p + m * k by rw [Nat.mul_succ]; omega]
      exact ih (fun l h' => h l (List.mem_cons_of_mem _ h')) hk

/-- An element of arrays stacked along a new last index. -/
theorem elem_stack {β : Type} {shape : List Nat} (L : List (List β))
    (h : ∀ l ∈ L, l.length = Spec.prod shape) {k : Nat} {l : List β} (hk : L[k]? = some l)
    {n : Nat} (hn : k < n) (idx : List Nat) :
    Spec.elem (shape ++ [n]) L.flatten (idx ++ [k]) = Spec.elem shape l idx := by
  rw [Spec.elem, Spec.elem]
  by_cases hl : idx.length = shape.length
  · by_cases hb : Spec.InB idx shape
    · rw [if_pos hb, if_pos ((InB_append hl).2 ⟨hb, by simpa using hn⟩), colPos_append _ _ hl]
      have := flatten_get L h hk (colPos_lt hb)
      simpa [Spec.colPos] using this
    · rw [if_neg hb, if_neg fun hc => hb ((InB_append hl).1 hc).1]
  · rw [if_neg fun hc => hl (by simpa using hc.length), if_neg fun hc => hl hc.length]

theorem reals_length {o : Obj} (hw : o.WF) (hc : o.isComplex = false) :
    o.reals.length = Spec.prod o.shape := by
  cases o with
  | real t => exact hw
  | complex t => cases hc
  | list => rfl

theorem complexes_length {o : Obj} (hw : o.WF) : o.complexes.length = Spec.prod o.shape := by
  cases o with
  | real t => exact (List.length_map _).trans hw
  | complex t => exact hw
  | list => rfl

theorem elem_map {α β : Type} (f : α → β) (dims : List Nat) (data : List α) (idx : List Nat) :
    Spec.elem dims (data.map f) idx = (Spec.elem dims data idx).map f := by
  rw [Spec.elem, Spec.elem]
  split
  · rw [List.getElem?_map]
  · rfl

/-- `np.stack`. -/
theorem stack_ok {maxdims : Nat} {shape : List Nat} (hmax : shape.length + 1 ≤ maxdims)
    {objs : List Obj} (h : ∀ o ∈ objs, o.shape = shape ∧ o.WF) :
    ∃ c, stack maxdims shape objs = .ok c ∧ c.shape = some (shape ++ [objs.length]) ∧
      (c.isComplex = objs.any Obj.isComplex) ∧
      ∀ k o, objs[k]? = some o → ∀ idx, c.value (idx ++ [k]) = o.value idx := by
  rw [stack, assert_bind_pos fun o ho => (h o ho).1, assert_bind_pos hmax]
  simp only
  by_cases hc : objs.any Obj.isComplex = true
  · rw [if_pos hc]
    refine ⟨_, rfl, rfl, hc.symm, fun k o hk idx => ?_⟩
    have hmem := List.mem_of_getElem? hk
    have hlt : k < objs.length := (List.getElem?_eq_some_iff.1 hk).1
    have := elem_stack (shape := shape) (objs.map Obj.complexes) (by
      intro l hl
      obtain ⟨o, ho, rfl⟩ := List.mem_map.1 hl
      rw [complexes_length (h o ho).2, (h o ho).1]) (k := k) (l := o.complexes)
      (by rw [List.getElem?_map, hk]; rfl) hlt idx
    simp only [Comb.value]
    rw [this, ← (h o hmem).1]
    cases o with
    | real t => simp only [Obj.complexes, Obj.value, Obj.shape, elem_map]
    | complex t => rfl
    | list => simp [Obj.value, Obj.shape, Obj.complexes, Spec.elem]
  · rw [if_neg hc]
    rw [Bool.not_eq_true] at hc
    refine ⟨_, rfl, rfl, hc.symm, fun k o hk idx => ?_⟩
    have hmem := List.mem_of_getElem? hk
    have hlt : k < objs.length := (List.getElem?_eq_some_iff.1 hk).1
    have hr : ∀ o ∈ objs, o.isComplex = false := by
      intro o ho
      rw [List.any_eq_false] at hc
      simpa using hc o ho
    have := elem_stack (shape := shape) (objs.map Obj.reals) (by
      intro l hl
      obtain ⟨o, ho, rfl⟩ := List.mem_map.1 hl
      rw [reals_length (h o ho).2 (hr o ho), (h o ho).1]) (k := k) (l := o.reals)
      (by rw [List.getElem?_map, hk]; rfl) hlt idx
    simp only [Comb.value]
    rw [this, ← (h o hmem).1]
    cases o with
    | real t => rfl
    | complex t => have := hr _ hmem; cases this
    | list => simp [Obj.value, Obj.shape, Obj.reals, Spec.elem]

theorem lookups_ok {name : List Byte} {set : List Dict} (h : ∀ d ∈ set, ∃ o, lookup d name = some o) :
    ∃ objs, lookups name set = .ok objs ∧ objs.length = set.length ∧
      ∀ k : Nat, objs[k]? = set[k]?.bind (lookup · name) := by
  induction set with
  | nil => exact ⟨[], rfl, rfl, fun k => by simp⟩
  | cons d ds ih =>
    obtain ⟨o, ho⟩ := h d (List.mem_cons_self ..)
    obtain ⟨objs, h1, h2, h3⟩ := ih fun d hd => h d (List.mem_cons_of_mem _ hd)
    refine ⟨o :: objs, ?_, by simp [h2], fun k => ?_⟩
    · rw [lookups, ho]
      simp only
      rw [h1]
      rfl
    · cases k with
      | zero => simp [ho]
      | succ k => simpa using h3 k

theorem combineOne_ok {maxdims : Nat} {name : List Byte} {shape : List Nat} {set : List Dict}
    {d0 : Dict} (h0 : set[0]? = some d0) (hmax : shape.length + 1 ≤ maxdims) (hl0 : lookup d0 name ≠ some .list)
    (h : ∀ d ∈ set, ∃ o, lookup d name = some o ∧ o.shape = shape ∧ o.WF) :
    ∃ c, combineOne maxdims name set = .ok c ∧ c.shape = some (shape ++ [set.length]) ∧
      (c.isComplex = true ↔ ∃ d ∈ set, ∃ o, lookup d name = some o ∧ o.isComplex = true) ∧
      ∀ k d o, set[k]? = some d → lookup d name = some o →
        ∀ idx, c.value (idx ++ [k]) = o.value idx := by
  obtain ⟨objs, h1, h2, h3⟩ := lookups_ok fun d hd => by
    obtain ⟨o, ho, _⟩ := h d hd
    exact ⟨o, ho⟩
  have hobj : ∀ o ∈ objs, ∃ d ∈ set, lookup d name = some o := by
    intro o ho
    obtain ⟨k, hk⟩ := List.mem_iff_getElem?.1 ho
    rw [h3] at hk
    obtain ⟨d, hd, hl⟩ := Option.bind_eq_some_iff.1 hk
    exact ⟨d, List.mem_of_getElem? hd, hl⟩
  have hall : ∀ o ∈ objs, o.shape = shape ∧ o.WF := by
    intro o ho
    obtain ⟨d, hd, hl⟩ := hobj o ho
    obtain ⟨o', ho', hs⟩ := h d hd
    rw [hl, Option.some.injEq] at ho'
    rw [ho']; exact hs
  obtain ⟨c, hc1, hc2, hc3, hc4⟩ := stack_ok hmax hall
  refine ⟨c, ?_, by rw [hc2, h2], ?_, fun k d o hd ho idx => ?_⟩
  · rw [combineOne, h1, Res.ok_bind]
    match hobjs : objs with
    | [] =>
      have : 0 < set.length := (List.getElem?_eq_some_iff.1 h0).1
      rw [← h2] at this
      exact absurd this (by simp)
    | .list :: l =>
      have := h3 0
      rw [h0] at this
      exact absurd this.symm hl0
    | .real t :: l =>
      have hs := (hall _ (List.mem_cons_self ..)).1
      simp only [hs]
      exact hc1
    | .complex t :: l =>
      have hs := (hall _ (List.mem_cons_self ..)).1
      simp only [hs]
      exact hc1
  · rw [hc3, List.any_eq_true]
    constructor
    · rintro ⟨o, ho, hoc⟩
      obtain ⟨d, hd, hl⟩ := hobj o ho
      exact ⟨d, hd, o, hl, hoc⟩
    · rintro ⟨d, hd, o, hl, hoc⟩
      obtain ⟨k, hk⟩ := List.mem_iff_getElem?.1 hd
      refine ⟨o, List.mem_of_getElem? (i := k) ?_, hoc⟩
      rw [h3, hk]
      exact hl
  · exact hc4 k o (by rw [h3, hd]; exact ho) idx

theorem combineLoop_names {maxdims : Nat} {set : List Dict} {names : List (List Byte)}
    {res : List (List Byte × Comb)} (h : combineLoop maxdims set names = .ok res) :
    res.map Prod.fst = names := by
  induction names generalizing res with
  | nil =>
    rw [combineLoop, Res.ok.injEq] at h
    rw [← h]; rfl
  | cons n ns ih =>
    rw [combineLoop] at h
    obtain ⟨c, _, h⟩ := bind_eq_ok.1 h
    obtain ⟨cs, h2, h⟩ := bind_eq_ok.1 h
    rw [Res.pure_eq, Res.ok.injEq] at h
    rw [← h, List.map_cons, ih h2]

theorem combineLoop_ok {maxdims : Nat} {set : List Dict} (names : List (List Byte))
    (h : ∀ n ∈ names, ∃ c, combineOne maxdims n set = .ok c) :
    ∃ res, combineLoop maxdims set names = .ok res ∧
      ∀ n ∈ names, ∀ c, combineOne maxdims n set = .ok c → named res n = some c := by
  induction names with
  | nil => exact ⟨[], rfl, by simp⟩
  | cons m ns ih =>
    obtain ⟨c, hc⟩ := h m (List.mem_cons_self ..)
    obtain ⟨cs, h1, h2⟩ := ih fun n hn => h n (List.mem_cons_of_mem _ hn)
    refine ⟨(m, c) :: cs, ?_, fun n hn c' hc' => ?_⟩
    · rw [combineLoop, hc, Res.ok_bind, h1]
      rfl
    · rw [named]
      by_cases hm : m = n
      · subst hm
        rw [hc, Res.ok.injEq] at hc'
        simp [hc']
      · simp only [hm, if_false]
        refine h2 n ?_ c' hc'
        rcases List.mem_cons.1 hn with h' | h'
        · exact absurd h'.symm hm
        · exact h'

theorem mem_keys {d : Dict} {n : List Byte} : n ∈ d.map Prod.fst ↔ ∃ o, lookup d n = some o := by
  induction d with
  | nil => simp [lookup]
  | cons e d ih =>
    rw [List.map_cons, List.mem_cons, lookup]
    by_cases h : e.1 = n
    · simp [h]
    · rw [if_neg h, ← ih]
      constructor
      · rintro (h' | h')
        · exact absurd h'.symm h
        · exact h'
      · exact Or.inr

/-- C80: dictionaries whose variables are arrays with the same dimensions are combined to arrays with
one index more, which tells the files apart. -/
theorem c80_combine {maxdims : Nat} {set : List Dict} {d0 : Dict} (h0 : set[0]? = some d0)
    {shape : List Byte → List Nat}
    (h : ∀ name, (∃ o, lookup d0 name = some o) → (shape name).length + 1 ≤ maxdims ∧
      lookup d0 name ≠ some .list ∧ ∀ d ∈ set, ∃ o, lookup d name = some o ∧ o.shape = shape name ∧ o.WF) :
    ∃ res, combine maxdims set = .ok res ∧
      ∀ name, (∃ o, lookup d0 name = some o) → ∃ c, named res name = some c ∧
        c.shape = some (shape name ++ [set.length]) ∧
        (c.isComplex = true ↔ ∃ d ∈ set, ∃ o, lookup d name = some o ∧ o.isComplex = true) ∧
        ∀ k d o, set[k]? = some d → lookup d name = some o →
          ∀ idx, c.value (idx ++ [k]) = o.value idx := by
  have hone := fun n (hn : n ∈ d0.map Prod.fst) =>
    combineOne_ok (maxdims := maxdims) h0 (h n (mem_keys.1 hn)).1 (h n (mem_keys.1 hn)).2.1 (h n (mem_keys.1 hn)).2.2
  obtain ⟨res, hr1, hr2⟩ := combineLoop_ok (maxdims := maxdims) (set := set) (d0.map Prod.fst)
    fun n hn => (hone n hn).imp fun c hc => hc.1
  refine ⟨res, ?_, fun name hn => ?_⟩
  · match set, h0 with
    | d :: ds, h0 =>
      rw [List.getElem?_cons_zero, Option.some.injEq] at h0
      rw [combine, h0]
      rw [h0] at hr1
      exact hr1
  · obtain ⟨c, hc, hc'⟩ := hone name (mem_keys.2 hn)
    exact ⟨c, hr2 name (mem_keys.2 hn) c hc, hc'⟩

theorem loadFiles_ok {maxdims depth : Nat} {files : List (List Byte)} {ds : List Dict}
    (h : List.Forall₂ (fun f d => Finishes (load maxdims depth f) (.ok d)) files ds) :
    Finishes (fun fuel => loadFiles maxdims depth fuel files) (.ok ds) := by
  induction h with
  | nil => exact ⟨0, fun n _ => rfl⟩
  | cons h1 h2 ih =>
    obtain ⟨N, hN⟩ := h1
    obtain ⟨M, hM⟩ := ih
    refine ⟨max N M, fun n hn => ?_⟩
    simp only
    rw [loadFiles, hN n (le_trans (Nat.le_max_left _ _) hn), Run.ok_bind]
    have := hM n (le_trans (Nat.le_max_right _ _) hn)
    simp only at this
    rw [this]
    rfl

theorem loadDataset_ok {maxdims depth : Nat} {files : List (List Byte)} {ds : List Dict}
    (h : List.Forall₂ (fun f d => Finishes (load maxdims depth f) (.ok d)) files ds) :
    Finishes (loadDataset maxdims depth files) (combine maxdims ds) := by
  obtain ⟨N, hN⟩ := loadFiles_ok h
  refine ⟨N, fun n hn => ?_⟩
  have := hN n hn
  simp only at this
  rw [loadDataset, this]
  rfl

/-- The tensors which are written are well formed arrays. -/
theorem asObj_wf {maxdims : Nat} {v : Value} (hv : Readable maxdims v) : (asObj v).WF := by
  cases v with
  | real t =>
    simp only [asObj, Obj.WF, Arr.WF, asArr, List.length_map]
    rw [hv.1.1, totalSize_prod hv.2.1]
  | complex t =>
    simp only [asObj, Obj.WF, Arr.WF, asArr, List.length_map]
    rw [hv.1.1, totalSize_prod hv.2.1]
  | reals m => exact trivial
  | complexes m => exact trivial
  | double x => rfl
  | cdouble x => rfl
  | int x => rfl
  | size x => rfl

theorem lastNamed_mem {rs : List (Value × List Byte)} {n : List Byte} {v : Value}
    (h : lastNamed rs n = some v) : (v, n) ∈ rs := by
  induction rs with
  | nil => simp [lastNamed] at h
  | cons r rs ih =>
    rw [lastNamed] at h
    cases hl : lastNamed rs n with
    | some w =>
      rw [hl, Option.some_or, Option.some.injEq] at h
      exact List.mem_cons_of_mem _ (ih (by rw [hl, h]))
    | none =>
      rw [hl, Option.none_or] at h
      split at h
      · rename_i hr
        rw [Option.some.injEq] at h
        rw [← h, ← hr]
        exact List.mem_cons_self ..
      · simp at h

/-- C80: the files of a dataset, in the order of the directory, each of them written by OutDataFile
with variables which Python can hold, and such that the variables of the first one are numbers or
tensors and have the same dimensions in all the files. What is read has, for every variable of the
first file, one index more: the element with last index k is that of file k. Missing: variables which
are not in the first file (`c80_names`), directories with other files (`c80_negation_unfinished`) or
without files, the order of the files, and what is missing in C79. -/
theorem c80_dataset_partial {maxdims depth : Nat} (hmax : 1 ≤ maxdims) (hdepth : 1 ≤ depth)
    {rss : List (List (Value × List Byte))} {rs0 : List (Value × List Byte)}
    (h0 : rss[0]? = some rs0)
    (hrs : ∀ rs ∈ rss, rs ≠ [] ∧
      ∀ r ∈ rs, Readable maxdims r.1 ∧ ReadableName r.2 ∧ r.2 ≠ [])
    {shape : List Byte → List Nat}
    (h : ∀ name, (∃ v, lastNamed rs0 name = some v) → (shape name).length + 1 ≤ maxdims ∧
      (∀ v, lastNamed rs0 name = some v → v.kind ≠ .reals ∧ v.kind ≠ .complexes) ∧
      ∀ rs ∈ rss, ∃ v, lastNamed rs name = some v ∧ (asObj v).shape = shape name) :
    ∃ res, Finishes (loadDataset maxdims depth (rss.map fun rs => header ++ dumpAll rs)) (.ok res) ∧
      ∀ name, (∃ v, lastNamed rs0 name = some v) → ∃ c, named res name = some c ∧
        c.shape = some (shape name ++ [rss.length]) ∧
        ∀ k rs v, rss[k]? = some rs → lastNamed rs name = some v →
          ∀ idx, c.value (idx ++ [k]) = (asObj v).value idx := by
  have hds : ∀ rss : List (List (Value × List Byte)), (∀ rs ∈ rss, rs ≠ [] ∧
      ∀ r ∈ rs, Readable maxdims r.1 ∧ ReadableName r.2 ∧ r.2 ≠ []) →
      ∃ ds, List.Forall₂ (fun f d => Finishes (load maxdims depth f) (.ok d))
          (rss.map fun rs => header ++ dumpAll rs) ds ∧
        List.Forall₂ (fun rs d => ∀ name, lookup d name = (lastNamed rs name).map asObj) rss ds := by
    intro rss
    induction rss with
    | nil => intro _; exact ⟨[], .nil, .nil⟩
    | cons rs rss ih =>
      intro hrs
      obtain ⟨h1, h2⟩ := hrs rs (List.mem_cons_self ..)
      obtain ⟨d, hd1, hd2⟩ := c79_read_partial hmax hdepth h1 h2
      obtain ⟨ds, hds1, hds2⟩ := ih fun rs h => hrs rs (List.mem_cons_of_mem _ h)
      exact ⟨d :: ds, .cons hd1 hds1, .cons hd2 hds2⟩
  obtain ⟨ds, hds1, hds2⟩ := hds rss hrs
  have hlen := hds2.length_eq
  have hget : ∀ (k : Nat) rs d, rss[k]? = some rs → ds[k]? = some d →
      ∀ name, lookup d name = (lastNamed rs name).map asObj := by
    intro k rs d h1 h2
    obtain ⟨i1, e1⟩ := List.getElem?_eq_some_iff.1 h1
    obtain ⟨i2, e2⟩ := List.getElem?_eq_some_iff.1 h2
    have := List.forall₂_iff_get.1 hds2 |>.2 k i1 i2
    simp only [List.get_eq_getElem] at this
    rw [e1, e2] at this
    exact this
  have hfin := loadDataset_ok hds1
  have hlt : 0 < ds.length := by
    rw [← hlen]
    exact (List.getElem?_eq_some_iff.1 h0).1
  obtain ⟨d0, hd0⟩ : ∃ d0, ds[0]? = some d0 := ⟨ds[0], List.getElem?_eq_getElem hlt⟩
  have hkey : ∀ name, (∃ o, lookup d0 name = some o) ↔ ∃ v, lastNamed rs0 name = some v := by
    intro name
    rw [hget 0 rs0 d0 h0 hd0]
    simp [Option.map_eq_some_iff]
  obtain ⟨res, hr1, hr2⟩ := c80_combine (maxdims := maxdims) hd0 (shape := shape) (by
    intro name hname
    obtain ⟨hm, hkind, hall⟩ := h name ((hkey name).1 hname)
    refine ⟨hm, fun hl => ?_, fun d hd => ?_⟩
    · rw [hget 0 rs0 d0 h0 hd0, Option.map_eq_some_iff] at hl
      obtain ⟨v, hv, hv'⟩ := hl
      have := hkind v hv
      cases v <;> simp_all [asObj, Value.kind]
    obtain ⟨k, hk⟩ := List.mem_iff_getElem?.1 hd
    have hk' : k < rss.length := by
      rw [hlen]
      exact (List.getElem?_eq_some_iff.1 hk).1
    have hrk := List.getElem?_eq_getElem hk'
    obtain ⟨v, hv, hv3⟩ := hall rss[k] (List.getElem_mem hk')
    refine ⟨asObj v, ?_, hv3, ?_⟩
    · rw [hget k _ d hrk hk, hv]; rfl
    · exact asObj_wf ((hrs _ (List.getElem_mem hk')).2 _ (lastNamed_mem hv)).1)
  rw [hr1] at hfin
  refine ⟨res, hfin, fun name hname => ?_⟩
  obtain ⟨c, hc1, hc2, _, hc4⟩ := hr2 name ((hkey name).2 hname)
  refine ⟨c, hc1, by rw [hc2, hlen], fun k rs v hk hv idx => ?_⟩
  have hk' : k < ds.length := by
    rw [← hlen]
    exact (List.getElem?_eq_some_iff.1 hk).1
  have hdk := List.getElem?_eq_getElem hk'
  exact hc4 k _ (asObj v) hdk (by rw [hget k rs _ hk hdk, hv]; rfl) idx

/-- C80 does not hold for vectors of tensors: if a variable is one in the first file, what is combined is
a list with what was read from each file, without arrays. -/
theorem c80_negation_vector {maxdims : Nat} {name : List Byte} {set : List Dict} {d0 : Dict}
    (h0 : set[0]? = some d0) (hl : lookup d0 name = some .list) (h : ∀ d ∈ set, ∃ o, lookup d name = some o) :
    ∃ objs, combineOne maxdims name set = .ok (.objs objs) ∧ objs.length = set.length ∧
      ∀ k : Nat, objs[k]? = set[k]?.bind (lookup · name) := by
  obtain ⟨objs, h1, h2, h3⟩ := lookups_ok h
  refine ⟨objs, ?_, h2, h3⟩
  have e := h3 0
  rw [h0, Option.bind_some, hl] at e
  match objs, e with
  | o :: l, e =>
    rw [List.getElem?_cons_zero, Option.some.injEq] at e
    rw [combineOne, h1, Res.ok_bind, e]
    rfl

/-- C80: the names are those of the first file; what other files have is left out without notice. -/
theorem c80_names {maxdims : Nat} {d0 : Dict} {ds : List Dict} {res : List (List Byte × Comb)}
    (h : combine maxdims (d0 :: ds) = .ok res) : res.map Prod.fst = d0.map Prod.fst :=
  combineLoop_names h

theorem load_empty (maxdims depth : Nat) : Finishes (load maxdims depth []) (.ok []) :=
  ⟨1, fun n hn => by
    obtain ⟨k, rfl⟩ : ∃ k, n = k + 1 := ⟨n - 1, by omega⟩
    exact loadLoop_end ..⟩

/-- C80 does not hold: if the first file of the directory is empty, as the one of a process which was
stopped before it wrote anything, the result is an empty dictionary, whatever the others have. -/
theorem c80_negation_unfinished {maxdims depth : Nat} {files : List (List Byte)} {ds : List Dict}
    (h : List.Forall₂ (fun f d => Finishes (load maxdims depth f) (.ok d)) files ds) :
    Finishes (loadDataset maxdims depth ([] :: files)) (.ok []) :=
  loadDataset_ok (List.Forall₂.cons (load_empty maxdims depth) h)

/-- C80: if the empty file is another one, there is an exception. -/
theorem c80_unfinished {maxdims : Nat} {d0 : Dict} {ds : List Dict} (hd : d0 ≠ []) (h : [] ∈ ds) :
    combine maxdims (d0 :: ds) = .abort := by
  have hl : ∀ (n : List Byte) (ds : List Dict), [] ∈ ds → lookups n ds = .abort := by
    intro n ds
    induction ds with
    | nil => simp
    | cons d ds ih =>
      intro h
      rw [lookups]
      cases hn : lookup d n with
      | none => rfl
      | some o =>
        rcases List.mem_cons.1 h with rfl | h
        · simp [lookup] at hn
        · simp only
          rw [ih h]
          rfl
  match d0, hd with
  | e :: d, _ =>
    rw [combine, List.map_cons, combineLoop, combineOne, hl _ _ (List.mem_cons_of_mem _ h)]
    rfl

/-- C80: a directory without files is an exception. -/
theorem c80_no_files (maxdims depth : Nat) : Finishes (loadDataset maxdims depth []) .abort :=
  ⟨0, fun _ _ => rfl⟩

/-! The hypotheses can be met. -/

/-- Two files with a number and a vector. -/
def twoFiles : List (List (Value × List Byte)) :=
  [[(.int 1, [97]), (.real ⟨[2], [5, 6]⟩, [98])], [(.int 2, [97]), (.real ⟨[2], [7, 8]⟩, [98])]]

example : twoFiles[0]? = some [(.int 1, [97]), (.real ⟨[2], [5, 6]⟩, [98])] ∧
    (∀ rs ∈ twoFiles, rs ≠ [] ∧ ∀ r ∈ rs, Readable 32 r.1 ∧ ReadableName r.2 ∧ r.2 ≠ []) := by
  refine ⟨rfl, ?_⟩
  have hv : ∀ a b : Word, Readable 32 (.real ⟨[2], [a, b]⟩) := fun a b =>
    ⟨⟨rfl, by simp, by simp, by simp⟩, by simp, by simp, by simp [Spec.prod]⟩
  have hn : ∀ b : Byte, b = 97 ∨ b = 98 → ReadableName [b] := by
    rintro b (rfl | rfl) <;> exact ⟨by simp [NameOk], (utf8_iff _).1 (by decide +kernel), by decide⟩
  intro rs hrs
  simp only [twoFiles, List.mem_cons, List.not_mem_nil, or_false] at hrs
  rcases hrs with rfl | rfl
  · refine ⟨by simp, fun r hr => ?_⟩
    simp only [List.mem_cons, List.not_mem_nil, or_false] at hr
    rcases hr with rfl | rfl
    · exact ⟨trivial, hn _ (Or.inl rfl), by simp⟩
    · exact ⟨hv _ _, hn _ (Or.inr rfl), by simp⟩
  · refine ⟨by simp, fun r hr => ?_⟩
    simp only [List.mem_cons, List.not_mem_nil, or_false] at hr
    rcases hr with rfl | rfl
    · exact ⟨trivial, hn _ (Or.inl rfl), by simp⟩
    · exact ⟨hv _ _, hn _ (Or.inr rfl), by simp⟩

example : ∀ name, (∃ v, lastNamed [(.int 1, [97]), (.real ⟨[2], [5, 6]⟩, [98])] name = some v) →
    ([if name = [97] then 1 else 2] : List Nat).length + 1 ≤ 32 ∧
    (∀ v, lastNamed [(.int 1, [97]), (.real ⟨[2], [5, 6]⟩, [98])] name = some v →
      v.kind ≠ .reals ∧ v.kind ≠ .complexes) ∧
    ∀ rs ∈ twoFiles, ∃ v, lastNamed rs name = some v ∧ (asObj v).shape = [if name = [97] then 1 else 2] := by
  intro name ⟨v, hv⟩
  refine ⟨by simp, fun v hv => ?_, fun rs hrs => ?_⟩
  · have := lastNamed_mem hv
    simp only [List.mem_cons, Prod.mk.injEq, List.not_mem_nil, or_false] at this
    rcases this with ⟨rfl, -⟩ | ⟨rfl, -⟩ <;> simp [Value.kind]
  have hname : name = [97] ∨ name = [98] := by
    have := lastNamed_mem hv
    simp only [List.mem_cons, Prod.mk.injEq, List.not_mem_nil, or_false] at this
    exact this.imp And.right And.right
  simp only [twoFiles, List.mem_cons, List.not_mem_nil, or_false] at hrs
  rcases hrs with rfl | rfl <;> rcases hname with rfl | rfl
  · exact ⟨.int 1, rfl, rfl⟩
  · exact ⟨.real ⟨[2], [5, 6]⟩, rfl, rfl⟩
  · exact ⟨.int 2, rfl, rfl⟩
  · exact ⟨.real ⟨[2], [7, 8]⟩, rfl, rfl⟩

example : combine 32 [[([98], .real ⟨[2], [some 5, some 6]⟩)], [([98], .real ⟨[2], [some 7, some 8]⟩)]]
    = .ok [([98], .real ⟨[2, 2], [some 5, some 6, some 7, some 8]⟩)] := by decide +kernel

/-- A vector of tensors in the first file, and an empty array with it in another. -/
example : combineOne 32 [98] [[([98], .list)], [([98], .list)]] = .ok (.objs [.list, .list]) ∧
    combineOne 32 [98] [[([98], .real ⟨[0], []⟩)], [([98], .list)]] = .ok (.real ⟨[0, 2], []⟩) := by
  decide +kernel

end Verif.Py
