import Verif.Model.JobsSave
import Verif.Props.Jobs
import Verif.Props.DataFile
import Verif.Props.PythonData
import Mathlib.Data.List.Nodup
import Mathlib.Data.List.Perm.Basic
/-
C108: the variables of jobs which are saved in data files, and datasets of them.
-/
namespace Verif.Py

open Sdf

/-- The files in another order. -/
def reorder {β : Type} (l : List β) (order : List Nat) : List β := order.filterMap (l[·]?)

theorem reorder_get {β : Type} {l : List β} {order : List Nat} (h : ∀ k ∈ order, k < l.length) (p : Nat) :
    (reorder l order)[p]? = order[p]?.bind (l[·]?) := by
  induction order generalizing p with
  | nil => simp [reorder]
  | cons k order ih =>
    have hk := h k (List.mem_cons_self ..)
    have e : reorder l (k :: order) = l[k] :: reorder l order := by
      simp [reorder, List.getElem?_eq_getElem hk]
    rw [e]
    cases p with
    | zero => simp [List.getElem?_eq_getElem hk]
    | succ p => simpa using ih (fun k h' => h k (List.mem_cons_of_mem _ h')) p

theorem reorder_length {β : Type} {l : List β} {order : List Nat} (h : ∀ k ∈ order, k < l.length) :
    (reorder l order).length = order.length := by
  induction order with
  | nil => rfl
  | cons k order ih =>
    have hk := h k (List.mem_cons_self ..)
    have e : reorder l (k :: order) = l[k] :: reorder l order := by
      simp [reorder, List.getElem?_eq_getElem hk]
    rw [e, List.length_cons, List.length_cons, ih fun k h' => h k (List.mem_cons_of_mem _ h')]

theorem reorder_map {β γ : Type} (f : β → γ) (l : List β) (order : List Nat) :
    reorder (l.map f) order = (reorder l order).map f := by
  simp [reorder, List.map_filterMap, List.getElem?_map]

theorem reorder_reorder {β : Type} {l : List β} {o1 : List Nat} (h : ∀ k ∈ o1, k < l.length) (o2 : List Nat) :
    reorder (reorder l o1) o2 = reorder l (reorder o1 o2) := by
  simp only [reorder, List.filterMap_filterMap]
  congr 1
  funext p
  exact reorder_get h p

theorem sortKeys_ok {field : List Byte} {ds : List Dict} {ws : List Word}
    (h : List.Forall₂ (fun d w => sortKey field d = .ok w) ds ws) :
    sortKeys field ds = .ok (ws.zip ds) := by
  induction h with
  | nil => rfl
  | cons h1 h2 ih => rw [sortKeys, h1, Res.ok_bind, ih]; rfl

/-- The order which `sort` finds. -/
theorem mergeSort_order {β : Type} (le : β → β → Bool) (htrans : ∀ a b c, le a b → le b c → le a c)
    (htotal : ∀ a b, le a b || le b a) (l : List β) :
    ∃ order, order.Perm (List.range l.length) ∧ l.mergeSort le = reorder l order ∧
      order.Pairwise fun i j => ∃ a b, l[i]? = some a ∧ l[j]? = some b ∧ le a b = true ∧
        (le b a = true → i < j) := by
  have hp := List.mergeSort_perm l.zipIdx (List.zipIdxLE le)
  have hs := List.pairwise_mergeSort (le := List.zipIdxLE le) (List.zipIdxLE_trans htrans)
    (List.zipIdxLE_total htotal) l.zipIdx
  have hm : ∀ x ∈ l.zipIdx.mergeSort (List.zipIdxLE le), l[x.2]? = some x.1 := fun x hx =>
    List.mk_mem_zipIdx_iff_getElem?.1 (hp.mem_iff.1 hx)
  have hperm : ((l.zipIdx.mergeSort (List.zipIdxLE le)).map Prod.snd).Perm (List.range l.length) := by
    have := hp.map Prod.snd
    rwa [List.zipIdx_map_snd, ← List.range_eq_range'] at this
  refine ⟨(l.zipIdx.mergeSort (List.zipIdxLE le)).map Prod.snd, hperm, ?_, ?_⟩
  · rw [← List.mergeSort_zipIdx, reorder, List.filterMap_map]
    have : ∀ m : List (β × Nat), (∀ x ∈ m, l[x.2]? = some x.1) →
        m.map (·.1) = m.filterMap ((fun k => l[k]?) ∘ Prod.snd) := by
      intro m
      induction m with
      | nil => intro _; rfl
      | cons x m ih =>
        intro h
        have e : ((fun k => l[k]?) ∘ Prod.snd) x = some x.1 := h x (List.mem_cons_self ..)
        rw [List.map_cons, List.filterMap_cons_some e, ih fun y hy => h y (List.mem_cons_of_mem _ hy)]
    exact this _ hm
  · rw [List.pairwise_map]
    have hnd : ((l.zipIdx.mergeSort (List.zipIdxLE le)).map Prod.snd).Nodup :=
      hperm.nodup_iff.2 List.nodup_range
    rw [List.Nodup, List.pairwise_map] at hnd
    refine (hs.and hnd).imp_of_mem fun {x y} hx hy h => ⟨x.1, y.1, hm x hx, hm y hy, ?_, fun hle => ?_⟩
    · by_contra hc
      simp [List.zipIdxLE, hc] at h
    · obtain ⟨h1, h2⟩ := h
      have hc : le x.1 y.1 = true := by
        by_contra hc
        simp [List.zipIdxLE, hc] at h1
      simp only [List.zipIdxLE, hc, hle, if_true, decide_eq_true_eq] at h1
      omega

/-- C108: load_sorted_dataset gives what load_dataset would if the files were in order of the first element of the
field, those with equal elements in the order which they have. -/
theorem c108_sort {κ : Type} [LinearOrder κ] (num : Word → κ) {maxdims depth : Nat} {files : List (List Byte)}
    {ds : List Dict} {ws : List Word} {field : List Byte}
    (hl : List.Forall₂ (fun f d => Finishes (load maxdims depth f) (.ok d)) files ds)
    (hk : List.Forall₂ (fun d w => ∃ n l, lookup d field = some (.real ⟨[n], some w :: l⟩)) ds ws) :
    ∃ order, order.Perm (List.range files.length) ∧
      (order.Pairwise fun i j => ∃ a b, ws[i]? = some a ∧ ws[j]? = some b ∧
        (num a < num b ∨ num a = num b ∧ i < j)) ∧
      ∃ x, Finishes (loadSorted num maxdims depth files field) x ∧
        Finishes (loadDataset maxdims depth (reorder files order)) x := by
  replace hk : List.Forall₂ (fun d w => sortKey field d = .ok w) ds ws := hk.imp fun d w ⟨n, l, e⟩ => by
    rw [sortKey, e]; rfl
  obtain ⟨order, h1, h2, h3⟩ := mergeSort_order (fun a b : Word × Dict => decide (num a.1 ≤ num b.1))
    (fun a b c h1 h2 => by simp only [decide_eq_true_eq] at h1 h2 ⊢; exact le_trans h1 h2)
    (fun a b => by simpa using le_total (num a.1) (num b.1))
    (ws.zip ds)
  have e1 := hl.length_eq
  have e2 := hk.length_eq
  have e3 : (ws.zip ds).length = files.length := by simp; omega
  rw [e3] at h1
  have hb : ∀ k ∈ order, k < files.length := fun k hk => by simpa using h1.mem_iff.1 hk
  refine ⟨order, h1, ?_, combine maxdims (reorder ds order), ?_, ?_⟩
  · refine h3.imp fun {i j} => ?_
    rintro ⟨a, b, ha, hb, hab, hba⟩
    rw [List.getElem?_zip_eq_some] at ha hb
    refine ⟨a.1, b.1, ha.1, hb.1, ?_⟩
    simp only [decide_eq_true_eq] at hab hba
    rcases lt_or_eq_of_le hab with h | h
    · exact Or.inl h
    · exact Or.inr ⟨h, hba h.ge⟩
  · obtain ⟨N, hN⟩ := loadFiles_ok hl
    refine ⟨N, fun n hn => ?_⟩
    have := hN n hn
    simp only at this
    rw [loadSorted, this, Run.ok_bind, sortKeys_ok hk, Run.ok_bind, h2, ← reorder_map, List.map_snd_zip (by omega)]
  · refine loadDataset_ok ?_
    rw [List.forall₂_iff_get]
    refine ⟨by rw [reorder_length hb, reorder_length (by rwa [← e1])], fun p hp1 hp2 => ?_⟩
    have hp : p < order.length := by rwa [reorder_length hb] at hp1
    have hk1 := hb _ (List.getElem_mem hp)
    have g1 := reorder_get hb p
    have g2 := reorder_get (l := ds) (by rwa [← e1]) p
    rw [List.getElem?_eq_getElem hp1, List.getElem?_eq_getElem hp, Option.bind_some,
      List.getElem?_eq_getElem hk1, Option.some.injEq] at g1
    rw [List.getElem?_eq_getElem hp2, List.getElem?_eq_getElem hp, Option.bind_some,
      List.getElem?_eq_getElem (e1 ▸ hk1), Option.some.injEq] at g2
    rw [List.get_eq_getElem, List.get_eq_getElem, g1, g2]
    exact (List.forall₂_iff_get.1 hl).2 order[p] hk1 (e1 ▸ hk1)

end Verif.Py

namespace Verif.Jobs

open Verif Spec Sdf Py

variable {α : Type}

theorem dumpVars_setDigits {vs : List (Var α)} (h : ∀ v ∈ vs, v.values ≠ []) (bits : α → Word)
    (bytes : Str → List Byte) {k : Nat} :
    ∃ rs, dumpVars bits bytes (setDigits vs k) = .ok rs ∧ rs.length = vs.length ∧
      ∀ (i : Nat) (v : Var α) (x : Nat), vs[i]? = some v →
        ((setDigits vs k).map Var.which)[i]? = some x →
        ∃ a, v.values[x]? = some a ∧ rs[i]? = some (.double (bits a), bytes v.name) := by
  induction vs generalizing k with
  | nil => exact ⟨[], rfl, rfl, by simp⟩
  | cons v vs ih =>
    obtain ⟨rs, h1, h2, h3⟩ := ih (fun w hw => h w (List.mem_cons_of_mem _ hw)) (k := k / v.values.length)
    have hv : 0 < v.values.length := List.length_pos_iff.2 (h v (List.mem_cons_self ..))
    have hlt : k % v.values.length < v.values.length := Nat.mod_lt _ hv
    refine ⟨(.double (bits v.values[k % v.values.length]), bytes v.name) :: rs, ?_, by simp [h2], ?_⟩
    · rw [setDigits, dumpVars, h1, Var.value]
      simp only [List.getElem?_eq_getElem hlt]
      rfl
    · intro i w x hi hx
      cases i with
      | zero =>
        simp only [setDigits, List.map_cons, List.getElem?_cons_zero, Option.some.injEq] at hi hx ⊢
        subst hi; subst hx
        exact ⟨_, List.getElem?_eq_getElem hlt, rfl⟩
      | succ i =>
        simp only [setDigits, List.map_cons, List.getElem?_cons_succ] at hi hx ⊢
        exact h3 i w x hi hx

/-- What the files of a job have: all its variables, in order. -/
structure Saves (bits : α → Word) (bytes : Str → List Byte) (vs : List (Var α)) (idx : List Nat)
    (rs : List (Value × List Byte)) : Prop where
  length : rs.length = vs.length
  value : ∀ (i : Nat) (v : Var α) (x : Nat), vs[i]? = some v → idx[i]? = some x →
    ∃ a, v.values[x]? = some a ∧ rs[i]? = some (.double (bits a), bytes v.name)

section

variable [Field α]

/-- C108: a program which saves the variables of every job. Job k saves all the variables which were declared, with
their names and in order, and with the values of the combination with number k; those are the ones which its user sees
(C48). Missing: variables without values. -/
theorem c108_dump_partial {c : Lib α} (files : Str → Str) {p : Str} (hp : NotOption p) {ls : List Str}
    {vs : List (Var α)} (h : List.Forall₂ (Declares c) ls vs) (hv : ∀ v ∈ vs, v.values ≠ [])
    (bits : α → Word) (bytes : Str → List Byte) :
    ∃ js, Finishes (program c files (p :: variableArgs ls)) (.ok (some js)) ∧
      js.length = prod (sizes vs) ∧
      ∀ (k : Nat) (j : Job α), js[k]? = some j → ∃ idx, colPos (sizes vs) idx = k ∧ Shows vs j idx ∧
        ∃ rs, dumpVariables bits bytes j = .ok rs ∧ Saves bits bytes vs idx rs := by
  refine ⟨_, program_default files hp h hv, by simp, fun k j hj => ?_⟩
  rw [List.getElem?_map, Option.map_eq_some_iff] at hj
  obtain ⟨k', hk', rfl⟩ := hj
  obtain ⟨hlt, e⟩ := List.getElem?_eq_some_iff.1 hk'
  simp only [List.length_range'] at hlt
  simp only [List.getElem_range', Nat.one_mul, Nat.zero_add] at e
  subst e
  have hw := setDigits_which hv hlt
  obtain ⟨rs, h1, h2, h3⟩ := dumpVars_setDigits hv bits bytes (k := k)
  exact ⟨_, hw.2, st_shows hv _ _ hlt hw.1 hw.2, rs, h1, h2, h3⟩

end

theorem Saves.eq {bits : α → Word} {bytes : Str → List Byte} {vs : List (Var α)} {idx : List Nat}
    {rs : List (Value × List Byte)} (h : Saves bits bytes vs idx rs) (hi : InB idx (sizes vs)) :
    ∃ as : List α, as.length = vs.length ∧
      rs = List.zipWith (fun (a : α) (v : Var α) => (Value.double (bits a), bytes v.name)) as vs ∧
      ∀ (i : Nat) (v : Var α) (x : Nat), vs[i]? = some v → idx[i]? = some x → v.values[x]? = as[i]? := by
  have hlen : idx.length = vs.length := by rw [hi.length]; simp [sizes]
  have : ∀ i : Fin vs.length, ∃ a, (vs[i]).values[idx[i.1]'(by omega)]? = some a ∧
      rs[i.1]? = some (.double (bits a), bytes (vs[i]).name) := fun i =>
    h.value i vs[i] _ (List.getElem?_eq_getElem i.2) (List.getElem?_eq_getElem _)
  choose f hf1 hf2 using this
  refine ⟨List.ofFn f, by simp, ?_, ?_⟩
  · refine List.ext_getElem? fun i => ?_
    rw [List.getElem?_zipWith]
    by_cases hi : i < vs.length
    · rw [hf2 ⟨i, hi⟩]
      simp [hi]
    · rw [List.getElem?_eq_none (by rw [h.length]; omega)]
      simp [hi]
  · intro i v x h1 h2
    obtain ⟨hi1, e1⟩ := List.getElem?_eq_some_iff.1 h1
    obtain ⟨hi2, e2⟩ := List.getElem?_eq_some_iff.1 h2
    subst e1; subst e2
    simpa [hi1] using hf1 ⟨i, hi1⟩

theorem lastNamed_nodup {rs : List (Value × List Byte)} (h : (rs.map Prod.snd).Nodup) {v : Value} {n : List Byte}
    (hm : (v, n) ∈ rs) : lastNamed rs n = some v := by
  induction rs with
  | nil => simp at hm
  | cons r rs ih =>
    rw [List.map_cons, List.nodup_cons] at h
    rw [lastNamed]
    rcases List.mem_cons.1 hm with rfl | hm
    · have : lastNamed rs n = none := by
        cases hl : lastNamed rs n with
        | none => rfl
        | some w => exact absurd (List.mem_map_of_mem (f := Prod.snd) (lastNamed_mem hl)) h.1
      simp [this]
    · rw [ih h.2 hm]; rfl

section

variable {bits : α → Word} {bytes : Str → List Byte} {vs : List (Var α)} {idx : List Nat}
  {rs : List (Value × List Byte)}

theorem Saves.names (h : Saves bits bytes vs idx rs) (hi : InB idx (sizes vs)) :
    rs.map Prod.snd = vs.map fun v => bytes v.name := by
  obtain ⟨as, h1, rfl, _⟩ := h.eq hi
  refine List.ext_getElem? fun i => ?_
  rw [List.getElem?_map, List.getElem?_zipWith, List.getElem?_map]
  by_cases hi : i < vs.length
  · simp [hi, h1]
  · simp [hi]

theorem Saves.mem (h : Saves bits bytes vs idx rs) (hi : InB idx (sizes vs)) {r : Value × List Byte} (hr : r ∈ rs) :
    ∃ v ∈ vs, ∃ a, r = (.double (bits a), bytes v.name) := by
  have hlen : idx.length = vs.length := by rw [hi.length]; simp [sizes]
  obtain ⟨i, hi⟩ := List.mem_iff_getElem?.1 hr
  have hlt := (List.getElem?_eq_some_iff.1 hi).1
  rw [h.length] at hlt
  obtain ⟨a, _, e⟩ := h.value i vs[i] (idx[i]'(by omega)) (List.getElem?_eq_getElem hlt) (List.getElem?_eq_getElem _)
  rw [hi, Option.some.injEq] at e
  exact ⟨vs[i], List.getElem_mem hlt, a, e⟩

/-- C108: what a job has saved is read again, variable by variable, by the program which loads them by their names, in
order; and nothing is left but what was written after them. Missing: names of more than 63 characters. -/
theorem c108_load_partial (h : Saves bits bytes vs idx rs) (hi : InB idx (sizes vs))
    (hn : ∀ v ∈ vs, NameOk (bytes v.name)) (rest : List Byte) :
    ∃ as : List α, as.length = vs.length ∧
      (∀ (i : Nat) (v : Var α) (x : Nat), vs[i]? = some v → idx[i]? = some x → v.values[x]? = as[i]?) ∧
      (openIn (some (header ++ dumpAll rs ++ rest)) >>= loadAll (vs.map fun v => (.double, bytes v.name)))
        = .ok (as.map fun a => .double (bits a), ⟨rest, false⟩) := by
  obtain ⟨as, h1, h2, h3⟩ := h.eq hi
  refine ⟨as, h1, h3, ?_⟩
  have := c42_round_trip_partial rs (fun r hr => by
    obtain ⟨v, hv, a, rfl⟩ := h.mem hi hr
    exact ⟨trivial, hn v hv⟩) rest
  have e1 : (rs.map fun r => (r.1.kind, r.2)) = vs.map fun v => (.double, bytes v.name) := by
    rw [h2]
    refine List.ext_getElem? fun i => ?_
    rw [List.getElem?_map, List.getElem?_zipWith, List.getElem?_map]
    by_cases hi : i < vs.length
    · simp [hi, h1, Value.kind]
    · simp [hi]
  have e2 : (rs.map fun r => same r.1) = as.map fun a => .double (bits a) := by
    rw [h2]
    refine List.ext_getElem? fun i => ?_
    rw [List.getElem?_map, List.getElem?_zipWith, List.getElem?_map]
    by_cases hi : i < vs.length
    · simp [hi, h1, same]
    · simp [hi, h1]
  rwa [e1, e2] at this

/-- The value of a variable which Python finds. -/
theorem Saves.last (h : Saves bits bytes vs idx rs) (hi : InB idx (sizes vs))
    (hd : (vs.map fun v => bytes v.name).Nodup) {j : Job α} (hj : Shows vs j idx) {v : Var α} (hv : v ∈ vs) :
    ∃ a, getValue j v.name = .ok a ∧ lastNamed rs (bytes v.name) = some (.double (bits a)) := by
  have hlen : idx.length = vs.length := by rw [hi.length]; simp [sizes]
  obtain ⟨i, hi'⟩ := List.mem_iff_getElem?.1 hv
  have hlt := (List.getElem?_eq_some_iff.1 hi').1
  have hx := List.getElem?_eq_getElem (l := idx) (i := i) (by omega)
  obtain ⟨a, ha, hr⟩ := h.value i v _ hi' hx
  obtain ⟨b, hb, hg, _⟩ := hj.value i v _ hi' (fun i' v' h1 h2 e => by
    have := (List.nodup_iff_getElem?_ne_getElem?.1 hd) i' i h1 (by simpa using hlt)
    rw [List.getElem?_map, List.getElem?_map, h2, hi'] at this
    simp [e] at this) hx
  rw [ha, Option.some.injEq] at hb
  subst hb
  refine ⟨a, hg, lastNamed_nodup ?_ (List.mem_of_getElem? hr)⟩
  rw [h.names hi]
  exact hd

end

section

variable [Field α]

/-- The hypotheses about the names of variables with which Python tells them apart. -/
structure PyNames (bytes : Str → List Byte) (vs : List (Var α)) : Prop where
  nonempty : vs ≠ []
  readable : ∀ v ∈ vs, ReadableName (bytes v.name) ∧ bytes v.name ≠ []
  distinct : (vs.map fun v => bytes v.name).Nodup

/-- The jobs of a program and what they save. -/
structure Saved (bits : α → Word) (bytes : Str → List Byte) (vs : List (Var α)) (js : List (Job α))
    (rss : List (List (Value × List Byte))) : Prop where
  dumped : List.Forall₂ (fun j rs => dumpVariables bits bytes j = .ok rs) js rss
  nonempty : ∀ rs ∈ rss, rs ≠ []
  readable : ∀ maxdims, ∀ rs ∈ rss, ∀ r ∈ rs, Readable maxdims r.1 ∧ ReadableName r.2 ∧ r.2 ≠ []
  value : ∀ (k : Nat) j rs, js[k]? = some j → rss[k]? = some rs → ∀ v ∈ vs,
    ∃ a, getValue j v.name = .ok a ∧ lastNamed rs (bytes v.name) = some (.double (bits a))
  only : ∀ rs ∈ rss, ∀ name v, lastNamed rs name = some v → ∃ w ∈ vs, name = bytes w.name

theorem program_saved {c : Lib α} (files : Str → Str) {p : Str} (hp : NotOption p) {ls : List Str}
    {vs : List (Var α)} (h : List.Forall₂ (Declares c) ls vs) (hv : ∀ v ∈ vs, v.values ≠ [])
    (bits : α → Word) {bytes : Str → List Byte} (hn : PyNames bytes vs) :
    ∃ js rss, Finishes (program c files (p :: variableArgs ls)) (.ok (some js)) ∧
      js.length = prod (sizes vs) ∧ Saved bits bytes vs js rss := by
  obtain ⟨js, h1, h2, h3⟩ := c108_dump_partial files hp h hv bits bytes
  have key : ∀ i : Fin js.length, ∃ rs, dumpVariables bits bytes js[i] = .ok rs ∧
      ∃ idx, Shows vs js[i] idx ∧ Saves bits bytes vs idx rs := fun i => by
    obtain ⟨idx, _, hs, rs, e, hr⟩ := h3 i js[i] (List.getElem?_eq_getElem i.2)
    exact ⟨rs, e, idx, hs, hr⟩
  choose f hf1 hf2 using key
  have hmem : ∀ rs ∈ List.ofFn f, ∃ idx j, Shows vs j idx ∧ Saves bits bytes vs idx rs := by
    intro rs hrs
    obtain ⟨i, rfl⟩ := List.mem_ofFn.1 hrs
    obtain ⟨idx, a, b⟩ := hf2 i
    exact ⟨idx, _, a, b⟩
  refine ⟨js, List.ofFn f, h1, h2, ?_, ?_, ?_, ?_, ?_⟩
  · rw [List.forall₂_iff_get]
    refine ⟨by simp, fun i hi hi' => ?_⟩
    simpa using hf1 ⟨i, hi⟩
  · intro rs hrs
    obtain ⟨idx, j, hs, hr⟩ := hmem rs hrs
    have := hr.length
    have hne := List.length_pos_iff.2 hn.nonempty
    rintro rfl
    simp at this
    omega
  · intro maxdims rs hrs r hr
    obtain ⟨idx, j, hs, hsv⟩ := hmem rs hrs
    obtain ⟨v, hv, a, rfl⟩ := hsv.mem hs.valid hr
    exact ⟨trivial, hn.readable v hv⟩
  · intro k j rs hj hrs v hv
    obtain ⟨hk, rfl⟩ := List.getElem?_eq_some_iff.1 hj
    obtain ⟨idx, hs, hr⟩ := hf2 ⟨k, hk⟩
    obtain rfl : f ⟨k, hk⟩ = rs := by simpa [hk] using hrs
    exact hr.last hs.valid hn.distinct hs hv
  · intro rs hrs name v hl
    obtain ⟨idx, j, hs, hr⟩ := hmem rs hrs
    obtain ⟨w, hw, a, e⟩ := hr.mem hs.valid (lastNamed_mem hl)
    exact ⟨w, hw, congrArg Prod.snd e⟩

omit [Field α] in
theorem Saved.dataset {bits : α → Word} {bytes : Str → List Byte} {vs : List (Var α)} {js : List (Job α)}
    {rss : List (List (Value × List Byte))} (h : Saved bits bytes vs js rss) {maxdims depth : Nat}
    (hmax : 2 ≤ maxdims) (hdepth : 1 ≤ depth) {order : List Nat} (ho : order ≠ [])
    (hb : ∀ k ∈ order, k < js.length) :
    ∃ res, Finishes (loadDataset maxdims depth (reorder (rss.map fun rs => header ++ dumpAll rs) order)) (.ok res) ∧
      ∀ v ∈ vs, ∃ m, named res (bytes v.name) = some m ∧ m.shape = some [1, order.length] ∧
        ∀ (i k : Nat) (j : Job α), order[i]? = some k → js[k]? = some j →
          ∃ a, getValue j v.name = .ok a ∧ m.value [0, i] = some (some (bits a, 0)) := by
  have hlen := h.dumped.length_eq
  have hb' : ∀ k ∈ order, k < rss.length := by rwa [← hlen]
  have hmem : ∀ rs ∈ reorder rss order, rs ∈ rss ∧ ∀ v ∈ vs, ∃ a : α,
      lastNamed rs (bytes v.name) = some (.double (bits a)) := by
    intro rs hrs
    rw [reorder, List.mem_filterMap] at hrs
    obtain ⟨k, hk, e⟩ := hrs
    refine ⟨List.mem_of_getElem? e, fun v hv => ?_⟩
    obtain ⟨a, _, ha⟩ := h.value k _ rs (List.getElem?_eq_getElem (hb k hk)) e v hv
    exact ⟨a, ha⟩
  have hlo := reorder_length hb'
  have hpos := List.length_pos_iff.2 ho
  obtain ⟨rs0, h0⟩ : ∃ rs0, (reorder rss order)[0]? = some rs0 :=
    ⟨_, List.getElem?_eq_getElem (by omega)⟩
  obtain ⟨res, hr1, hr2⟩ := c80_dataset_partial (maxdims := maxdims) (depth := depth) (by omega) hdepth
    (rss := reorder rss order) h0
    (fun rs hrs => ⟨h.nonempty rs (hmem rs hrs).1, h.readable maxdims rs (hmem rs hrs).1⟩)
    (shape := fun _ => [1]) (by
      rintro name ⟨v, hv⟩
      obtain ⟨w, hw, rfl⟩ := h.only rs0 (hmem rs0 (List.mem_of_getElem? h0)).1 name v hv
      refine ⟨by simpa using hmax, fun v hv => ?_, fun rs hrs => ?_⟩
      · obtain ⟨a, ha⟩ := (hmem rs0 (List.mem_of_getElem? h0)).2 w hw
        rw [ha, Option.some.injEq] at hv
        subst hv
        simp [Value.kind]
      · obtain ⟨a, ha⟩ := (hmem rs hrs).2 w hw
        exact ⟨_, ha, rfl⟩)
  rw [← reorder_map] at hr1
  refine ⟨res, hr1, fun v hv => ?_⟩
  obtain ⟨a0, ha0⟩ := (hmem rs0 (List.mem_of_getElem? h0)).2 v hv
  obtain ⟨m, hm1, hm2, hm3⟩ := hr2 (bytes v.name) ⟨_, ha0⟩
  refine ⟨m, hm1, by rw [hm2, hlo]; rfl, fun i k j hi hj => ?_⟩
  obtain ⟨rs, hrs⟩ : ∃ rs, rss[k]? = some rs :=
    ⟨_, List.getElem?_eq_getElem (hlen ▸ (List.getElem?_eq_some_iff.1 hj).1)⟩
  obtain ⟨a, ha1, ha2⟩ := h.value k j rs hj hrs v hv
  refine ⟨a, ha1, ?_⟩
  have := hm3 i rs _ (by rw [reorder_get hb', hi]; exact hrs) ha2 [0]
  simpa [asObj, Obj.value, Spec.elem, Spec.InB, Spec.colPos] using this

/-- C108: a program saves the variables of every job in a file of its own, and some of the files, in any order, are
loaded as a dataset with Python. For every variable there is an array with one row and as many columns as files: column
k has the value which the k-th of those jobs has seen. Missing: what is missing in C79 and C80, and variables with the
same name, `c108_negation_same_name`. -/
theorem c108_dataset_partial {c : Lib α} (files : Str → Str) {p : Str} (hp : NotOption p) {ls : List Str}
    {vs : List (Var α)} (h : List.Forall₂ (Declares c) ls vs) (hv : ∀ v ∈ vs, v.values ≠ [])
    (bits : α → Word) {bytes : Str → List Byte} (hn : PyNames bytes vs) {maxdims depth : Nat} (hmax : 2 ≤ maxdims)
    (hdepth : 1 ≤ depth) :
    ∃ js rss, Finishes (program c files (p :: variableArgs ls)) (.ok (some js)) ∧
      js.length = prod (sizes vs) ∧
      List.Forall₂ (fun j rs => dumpVariables bits bytes j = .ok rs) js rss ∧
      ∀ order : List Nat, order ≠ [] → (∀ k ∈ order, k < js.length) →
        ∃ res, Finishes (loadDataset maxdims depth (reorder (rss.map fun rs => header ++ dumpAll rs) order)) (.ok res) ∧
          ∀ v ∈ vs, ∃ m, named res (bytes v.name) = some m ∧ m.shape = some [1, order.length] ∧
            ∀ (i k : Nat) (j : Job α), order[i]? = some k → js[k]? = some j →
              ∃ a, getValue j v.name = .ok a ∧ m.value [0, i] = some (some (bits a, 0)) := by
  obtain ⟨js, rss, h1, h2, h3⟩ := program_saved files hp h hv bits hn
  exact ⟨js, rss, h1, h2, h3.dumped, fun order ho hb => h3.dataset hmax hdepth ho hb⟩

/-- C108: the same with load_sorted_dataset, for a variable as field: the columns are in the order of its values, and
the same jobs are there as in the directory. Missing: as above, values which are NaN, and fields which are not numbers. -/
theorem c108_sorted_partial {κ : Type} [LinearOrder κ] (num : Word → κ) {c : Lib α} (files : Str → Str) {p : Str}
    (hp : NotOption p) {ls : List Str} {vs : List (Var α)} (h : List.Forall₂ (Declares c) ls vs)
    (hv : ∀ v ∈ vs, v.values ≠ []) (bits : α → Word) {bytes : Str → List Byte} (hn : PyNames bytes vs)
    {maxdims depth : Nat} (hmax : 2 ≤ maxdims) (hdepth : 1 ≤ depth) {u : Var α} (hu : u ∈ vs) :
    ∃ js rss, Finishes (program c files (p :: variableArgs ls)) (.ok (some js)) ∧
      js.length = prod (sizes vs) ∧
      List.Forall₂ (fun j rs => dumpVariables bits bytes j = .ok rs) js rss ∧
      ∀ dir : List Nat, dir ≠ [] → (∀ k ∈ dir, k < js.length) →
        ∃ (order : List Nat) (res : _), Finishes (loadSorted num maxdims depth
            (reorder (rss.map fun rs => header ++ dumpAll rs) dir) (bytes u.name)) (.ok res) ∧
          order.Perm dir ∧
          (order.Pairwise fun k l => ∃ j j' a b, js[k]? = some j ∧ js[l]? = some j' ∧ getValue j u.name = .ok a ∧
            getValue j' u.name = .ok b ∧ num (bits a) ≤ num (bits b)) ∧
          ∀ v ∈ vs, ∃ m, named res (bytes v.name) = some m ∧ m.shape = some [1, order.length] ∧
            ∀ (i k : Nat) (j : Job α), order[i]? = some k → js[k]? = some j →
              ∃ a, getValue j v.name = .ok a ∧ m.value [0, i] = some (some (bits a, 0)) := by
  obtain ⟨js, rss, h1, h2, h3⟩ := program_saved files hp h hv bits hn
  refine ⟨js, rss, h1, h2, h3.dumped, fun dir hne hb => ?_⟩
  have hlen := h3.dumped.length_eq
  -- what each file is read as, and the element by which it is sorted
  have key : ∀ i : Fin dir.length, ∃ d a j, Finishes (load maxdims depth
      (header ++ dumpAll (rss[dir[i]]'(hlen ▸ hb _ (List.getElem_mem i.2))))) (.ok d) ∧
      js[dir[i]]? = some j ∧ getValue j u.name = .ok a ∧
      ∃ n l, lookup d (bytes u.name) = some (.real ⟨[n], some (bits a) :: l⟩) := by
    intro i
    have hk := hb _ (List.getElem_mem i.2)
    have hm : rss[dir[i]]'(hlen ▸ hk) ∈ rss := List.getElem_mem _
    obtain ⟨d, hd1, hd2⟩ := c79_read_partial (maxdims := maxdims) (depth := depth) (by omega) hdepth
      (h3.nonempty _ hm) (h3.readable maxdims _ hm)
    obtain ⟨a, ha1, ha2⟩ := h3.value dir[i] _ _ (List.getElem?_eq_getElem hk)
      (List.getElem?_eq_getElem (hlen ▸ hk)) u hu
    refine ⟨d, a, _, hd1, List.getElem?_eq_getElem hk, ha1, 1, [], ?_⟩
    rw [hd2, ha2]
    rfl
  choose fd fa fj hf1 hf2 hf3 hf4 using key
  have hb' : ∀ k ∈ dir, k < (rss.map fun rs => header ++ dumpAll rs).length := by simpa [← hlen] using hb
  obtain ⟨o, ho1, ho2, x, hx1, hx2⟩ := c108_sort num (maxdims := maxdims) (depth := depth)
    (files := reorder (rss.map fun rs => header ++ dumpAll rs) dir) (ds := List.ofFn fd)
    (ws := List.ofFn fun i => bits (fa i)) (field := bytes u.name)
    (by
      rw [List.forall₂_iff_get]
      refine ⟨by rw [reorder_length hb']; simp, fun i hi hi' => ?_⟩
      have hi2 : i < dir.length := by simpa using hi'
      have e := reorder_get hb' i
      rw [List.getElem?_eq_getElem hi, List.getElem?_eq_getElem hi2, Option.bind_some,
        List.getElem?_eq_getElem (hb' _ (List.getElem_mem hi2)), Option.some.injEq] at e
      rw [List.get_eq_getElem, e]
      simpa using hf1 ⟨i, hi2⟩)
    (by
      rw [List.forall₂_iff_get]
      refine ⟨by simp, fun i hi hi' => ?_⟩
      simpa using hf4 ⟨i, by simpa using hi⟩)
  rw [reorder_length hb'] at ho1
  have hperm : (reorder dir o).Perm dir := by
    have := ho1.filterMap (dir[·]?)
    rw [reorder]
    refine this.trans (List.Perm.of_eq ?_)
    refine List.ext_getElem? fun i => ?_
    have e := reorder_get (l := dir) (order := List.range dir.length) (by simp) i
    rw [reorder] at e
    rw [e]
    by_cases hi : i < dir.length <;> simp [hi]
  have hbo : ∀ k ∈ reorder dir o, k < js.length := fun k hk => hb k (hperm.mem_iff.1 hk)
  rw [reorder_reorder hb'] at hx2
  obtain ⟨res, hr1, hr2⟩ := h3.dataset (maxdims := maxdims) (depth := depth) hmax hdepth
    (order := reorder dir o) (fun e => hne (by rw [e] at hperm; exact hperm.symm.eq_nil)) hbo
  obtain rfl := Finishes.unique hx2 hr1
  refine ⟨reorder dir o, res, hx1, hperm, ?_, hr2⟩
  rw [reorder, List.pairwise_filterMap]
  refine ho2.imp fun {s t} => ?_
  rintro ⟨a, b, ha, hb, hab⟩ k hk l hl
  obtain ⟨hs, e1⟩ := List.getElem?_eq_some_iff.1 hk
  obtain ⟨ht, e2⟩ := List.getElem?_eq_some_iff.1 hl
  subst e1; subst e2
  refine ⟨_, _, _, _, hf2 ⟨s, hs⟩, hf2 ⟨t, ht⟩, hf3 ⟨s, hs⟩, hf3 ⟨t, ht⟩, ?_⟩
  obtain rfl : bits (fa ⟨s, hs⟩) = a := by simpa [hs] using ha
  obtain rfl : bits (fa ⟨t, ht⟩) = b := by simpa [ht] using hb
  rcases hab with h | h
  · exact h.le
  · exact h.1.le

/-- C108: a field which is none of the variables stops load_sorted_dataset. -/
theorem c108_sorted_missing {κ : Type} [LinearOrder κ] (num : Word → κ) {c : Lib α} (files : Str → Str) {p : Str}
    (hp : NotOption p) {ls : List Str} {vs : List (Var α)} (h : List.Forall₂ (Declares c) ls vs)
    (hv : ∀ v ∈ vs, v.values ≠ []) (bits : α → Word) {bytes : Str → List Byte} (hn : PyNames bytes vs)
    {maxdims depth : Nat} (hmax : 1 ≤ maxdims) (hdepth : 1 ≤ depth) {field : List Byte}
    (hf : ∀ v ∈ vs, bytes v.name ≠ field) :
    ∃ js rss, Finishes (program c files (p :: variableArgs ls)) (.ok (some js)) ∧
      List.Forall₂ (fun j rs => dumpVariables bits bytes j = .ok rs) js rss ∧
      ∀ rss', rss' ≠ [] → (∀ rs ∈ rss', rs ∈ rss) →
        Finishes (loadSorted num maxdims depth (rss'.map fun rs => header ++ dumpAll rs) field) .abort := by
  obtain ⟨js, rss, h1, h2, h3⟩ := program_saved files hp h hv bits hn
  refine ⟨js, rss, h1, h3.dumped, fun rss' hne hsub => ?_⟩
  have key : ∀ l : List (List (Value × List Byte)), (∀ rs ∈ l, rs ∈ rss) →
      ∃ ds, List.Forall₂ (fun f d => Finishes (load maxdims depth f) (.ok d))
        (l.map fun rs => header ++ dumpAll rs) ds ∧ ∀ d ∈ ds, lookup d field = none := by
    intro l
    induction l with
    | nil => intro _; exact ⟨[], .nil, by simp⟩
    | cons rs l ih =>
      intro hs
      have hm := hs rs (List.mem_cons_self ..)
      obtain ⟨d, hd1, hd2⟩ := c79_read_partial (maxdims := maxdims) (depth := depth) hmax hdepth
        (h3.nonempty _ hm) (h3.readable maxdims _ hm)
      obtain ⟨ds, hds1, hds2⟩ := ih fun rs h => hs rs (List.mem_cons_of_mem _ h)
      refine ⟨d :: ds, .cons hd1 hds1, ?_⟩
      intro e he
      rcases List.mem_cons.1 he with rfl | he
      · rw [hd2, Option.map_eq_none_iff]
        cases hl : lastNamed rs field with
        | none => rfl
        | some v =>
          obtain ⟨w, hw, e⟩ := h3.only rs hm field v hl
          exact absurd e.symm (hf w hw)
      · exact hds2 e he
  obtain ⟨ds, hds1, hds2⟩ := key rss' hsub
  obtain ⟨N, hN⟩ := loadFiles_ok hds1
  refine ⟨N, fun n hn => ?_⟩
  have := hN n hn
  simp only at this
  rw [loadSorted, this, Run.ok_bind]
  have hlen := hds1.length_eq
  match ds, hds2 with
  | [], _ => simp at hlen; exact absurd hlen hne
  | d :: ds, hds2 =>
    have : sortKey field d = .abort := by rw [sortKey, hds2 d (List.mem_cons_self ..)]
    rw [sortKeys, this]
    rfl

/-- C108 does not hold for two variables with the same name, which a program accepts: the job sees the value of the
first, but what is read with Python is that of the last. -/
theorem c108_negation_same_name {c : Lib α} (files : Str → Str) {p : Str} (hp : NotOption p) {l1 l2 : Str} {nm : Str}
    {a b : α} (hl1 : Declares c l1 ⟨nm, [a], 0⟩) (hl2 : Declares c l2 ⟨nm, [b], 0⟩) (bits : α → Word)
    {bytes : Str → List Byte} (hr : ReadableName (bytes nm)) (hne : bytes nm ≠ []) {maxdims depth : Nat}
    (hmax : 1 ≤ maxdims) (hdepth : 1 ≤ depth) :
    ∃ j rs d, Finishes (program c files (p :: variableArgs [l1, l2])) (.ok (some [j])) ∧
      dumpVariables bits bytes j = .ok rs ∧ getValue j nm = .ok a ∧
      Finishes (load maxdims depth (header ++ dumpAll rs)) (.ok d) ∧
      lookup d (bytes nm) = some (.real ⟨[1], [some (bits b)]⟩) := by
  have h := program_default (c := c) files hp (ls := [l1, l2]) (vs := [⟨nm, [a], 0⟩, ⟨nm, [b], 0⟩])
    (.cons hl1 (.cons hl2 .nil)) (by simp)
  obtain ⟨d, hd1, hd2⟩ := c79_read_partial (maxdims := maxdims) (depth := depth) hmax hdepth
    (rs := [(.double (bits a), bytes nm), (.double (bits b), bytes nm)]) (by simp)
    (by simpa using ⟨⟨trivial, hr, hne⟩, trivial, hr, hne⟩)
  refine ⟨_, _, d, h, by simp [dumpVariables, dumpVars, st, setDigits, Var.value, Res.ofOption], ?_, hd1, ?_⟩
  · simp [getValue, findVar, st, setDigits, Var.value, Res.ofOption]
  · rw [hd2]
    simp [lastNamed, asObj]

end

/-! The hypotheses can be met. -/

/-- Characters with codes below 256 as bytes. -/
def latin (s : Str) : List Byte := s.map fun c => BitVec.ofNat 8 c.toNat

theorem latin_x : ReadableName (latin "x".toList) ∧ latin "x".toList ≠ [] :=
  ⟨⟨by simp [NameOk, latin], ⟨[120], by simp [Scalar], by decide⟩, by decide⟩, by decide⟩

theorem latin_pyNames : PyNames latin [(⟨"x".toList, linVals 1 2 3, 0⟩ : Var ℚ)] :=
  ⟨by simp, by simpa using latin_x, by simp⟩

/-- Three jobs with values 1, 3/2 and 2, of which the last and the first are in the directory. -/
example (bits : ℚ → Word) (num : Word → ℚ) (hb : ∀ a, num (bits a) = a) :
    ∃ js rss, Finishes (program testLib (fun _ => []) ("prog".toList :: variableArgs ["x,1,22,333".toList]))
        (.ok (some js)) ∧ js.length = 3 ∧
      List.Forall₂ (fun j rs => dumpVariables bits latin j = .ok rs) js rss ∧
      ∃ (order : List Nat) (res : _), Finishes (loadSorted num 32 1
          (reorder (rss.map fun rs => header ++ dumpAll rs) [2, 0]) (latin "x".toList)) (.ok res) ∧
        order.Perm [2, 0] ∧
        order.Pairwise fun k l => ∃ j j' a b, js[k]? = some j ∧ js[l]? = some j' ∧ getValue j "x".toList = .ok a ∧
          getValue j' "x".toList = .ok b ∧ a ≤ b := by
  obtain ⟨js, rss, h1, h2, h3, h4⟩ := c108_sorted_partial num (c := testLib) (fun _ => []) (p := "prog".toList)
    (by simp [NotOption]) testDeclares testValues bits latin_pyNames (maxdims := 32) (depth := 1) (by omega) (by omega)
    (u := ⟨"x".toList, linVals 1 2 3, 0⟩) (by simp)
  have h2' : js.length = 3 := by rw [h2]; simp [sizes, linVals, prod]
  obtain ⟨order, res, h5, h6, h7, _⟩ := h4 [2, 0] (by simp) (by simp [h2'])
  refine ⟨js, rss, h1, h2', h3, order, res, h5, h6, ?_⟩
  simpa only [hb] using h7

/-- Two variables with the same name. -/
example : Declares (⟨fun s => s.length, fun _ => 1⟩ : Lib ℚ) "x,1".toList ⟨"x".toList, [1], 0⟩ ∧
    Declares (⟨fun s => s.length, fun _ => 1⟩ : Lib ℚ) "x,22".toList ⟨"x".toList, [2], 0⟩ := by
  have h1 := (c48_declaration (⟨fun s => s.length, fun _ => 1⟩ : Lib ℚ) (g := []) (nm := "x".toList)
    (g1 := ",".toList) (a := "1".toList) (g2 := []) (b := []) (n := []) (g3 := []) (g4 := [])).1
    (by simp [Pieces, isSep])
  have h2 := (c48_declaration (⟨fun s => s.length, fun _ => 1⟩ : Lib ℚ) (g := []) (nm := "x".toList)
    (g1 := ",".toList) (a := "22".toList) (g2 := []) (b := []) (n := []) (g3 := []) (g4 := [])).1
    (by simp [Pieces, isSep])
  refine ⟨⟨?_, by simp⟩, ⟨?_, by simp⟩⟩
  · simpa [joined] using h1
  · simpa [joined] using h2

end Verif.Jobs
