import Verif.Lemmas.RefCountSim
import Verif.Spec.MapMem
import Mathlib.Data.List.Nodup
/-
Simulation of programs which call solvers.
-/
namespace Verif.MapMem

open RefCount

variable {α : Type}

/-- The variables of the caller are some of the handles. -/
structure V (vars : List Nat) (a b : RefCount.Spec.ASt α) : Prop where
  ext : a.ext = b.ext
  len : vars.length = a.vals.length
  lt : ∀ h ∈ vars, h < b.vals.length
  nodup : vars.Nodup
  val : ∀ (v : Nat) (h : Nat), vars[v]? = some h → a.vals[v]? = b.vals[h]?

theorem V.append {vars : List Nat} {a b : RefCount.Spec.ASt α} (r : V vars a b) (x : Option (List (Option α)))
    (e : List (Option (List (Option α)))) :
    V (vars ++ [b.vals.length]) ⟨a.vals ++ [x], e⟩ ⟨b.vals ++ [x], e⟩ := by
  refine ⟨rfl, by simp [r.len], ?_, ?_, ?_⟩
  · intro h hh
    simp only [List.length_append, List.length_singleton]
    rcases List.mem_append.1 hh with hh | hh
    · have := r.lt h hh
      omega
    · simp at hh
      omega
  · refine List.nodup_append.2 ⟨r.nodup, by simp, ?_⟩
    intro x hx y hy
    simp at hy
    have := r.lt x hx
    omega
  · intro v h hv
    by_cases hlt : v < vars.length
    · rw [List.getElem?_append_left hlt] at hv
      rw [List.getElem?_append_left (by rw [← r.len]; exact hlt), List.getElem?_append_left (r.lt h
        (List.mem_of_getElem? hv))]
      exact r.val v h hv
    · have hv' : v = vars.length ∧ h = b.vals.length := by
        have hl := (List.getElem?_eq_some_iff.1 hv).1
        simp at hl
        have : v = vars.length := by omega
        subst this
        simp at hv
        exact ⟨rfl, hv.symm⟩
      obtain ⟨rfl, rfl⟩ := hv'
      rw [r.len]
      simp

theorem V.set {vars : List Nat} {a b : RefCount.Spec.ASt α} (r : V vars a b) {v h : Nat} (e : vars[v]? = some h)
    (x : Option (List (Option α))) : V vars ⟨a.vals.set v x, a.ext⟩ ⟨b.vals.set h x, b.ext⟩ := by
  refine ⟨r.ext, by simp [r.len], by simpa using r.lt, r.nodup, ?_⟩
  intro w g hw
  have hlv : v < a.vals.length := by
    rw [← r.len]
    exact (List.getElem?_eq_some_iff.1 e).1
  have hlh := r.lt h (List.mem_of_getElem? e)
  by_cases hvw : v = w
  · subst hvw
    rw [e] at hw
    cases hw
    simp only
    rw [List.getElem?_set_self hlv, List.getElem?_set_self hlh]
  · have hgh : h ≠ g := by
      rintro rfl
      obtain ⟨l1, e1⟩ := List.getElem?_eq_some_iff.1 e
      obtain ⟨l2, e2⟩ := List.getElem?_eq_some_iff.1 hw
      exact hvw ((r.nodup.getElem_inj_iff).1 (e1.trans e2.symm))
    simp only
    rw [List.getElem?_set_ne hvw, List.getElem?_set_ne hgh]
    exact r.val w g hw

theorem V.find {vars : List Nat} {a b : RefCount.Spec.ASt α} (r : V vars a b) {v : Nat} {c : List (Option α)}
    (e : a.vals[v]?.join = some c) : ∃ h, vars[v]? = some h ∧ b.vals[h]?.join = some c := by
  cases hv : vars[v]? with
  | none =>
    have h1 : vars.length ≤ v := by simpa using hv
    rw [r.len] at h1
    have h2 : a.vals[v]? = none := by simpa using h1
    rw [h2] at e
    cases e
  | some h => exact ⟨h, rfl, by rw [← r.val v h hv]; exact e⟩

/-- The other handles do not change. -/
def Frame (vars : List Nat) (b b' : RefCount.Spec.ASt α) : Prop :=
  b.vals.length ≤ b'.vals.length ∧ ∀ j, j ∉ vars → j < b.vals.length → b'.vals[j]? = b.vals[j]?

theorem Frame.refl (vars : List Nat) (b : RefCount.Spec.ASt α) : Frame vars b b := ⟨Nat.le_refl _, fun _ _ _ => rfl⟩

theorem Frame.append (vars : List Nat) (b : RefCount.Spec.ASt α) (l e : List (Option (List (Option α)))) :
    Frame vars b ⟨b.vals ++ l, e⟩ := by
  refine ⟨by simp, ?_⟩
  intro j _ hj
  rw [List.getElem?_append_left hj]

theorem Frame.set {vars : List Nat} (b : RefCount.Spec.ASt α) {v h : Nat} (e : vars[v]? = some h)
    (x : Option (List (Option α))) (ext : List (Option (List (Option α)))) :
    Frame vars b ⟨b.vals.set h x, ext⟩ := by
  refine ⟨by simp, ?_⟩
  intro j hj _
  have : h ≠ j := by
    rintro rfl
    exact hj (List.mem_of_getElem? e)
  rw [List.getElem?_set_ne this]

/-- One operation of the caller. -/
theorem spec_rename {vars : List Nat} {a b a' : RefCount.Spec.ASt α} (r : V vars a b) (op : Op α) {o : Out α}
    (hs : RefCount.Spec.step a op = some (a', o)) :
    ∃ op' b', rename vars op = some op' ∧ RefCount.Spec.step b op' = some (b', o) ∧
      V (if creates op then vars ++ [b.vals.length] else vars) a' b' ∧ Frame vars b b' ∧
      b'.vals.length = b.vals.length + (if creates op then 1 else 0) := by
  cases op with
  | newEmpty =>
    simp only [RefCount.Spec.step, Option.some.injEq, Prod.mk.injEq] at hs
    obtain ⟨rfl, rfl⟩ := hs
    exact ⟨_, _, rfl, rfl, by rw [r.ext]; exact r.append _ _, Frame.append _ _ _ _, by simp [creates]⟩
  | newSize n =>
    simp only [RefCount.Spec.step, Option.some.injEq, Prod.mk.injEq] at hs
    obtain ⟨rfl, rfl⟩ := hs
    exact ⟨_, _, rfl, rfl, by rw [r.ext]; exact r.append _ _, Frame.append _ _ _ _, by simp [creates]⟩
  | wrap x n =>
    simp only [RefCount.Spec.step, Option.bind_eq_bind, Option.bind_eq_some_iff] at hs
    obtain ⟨c, hc, hs⟩ := hs
    split at hs
    case isFalse => cases hs
    case isTrue hn =>
      simp only [Option.some.injEq, Prod.mk.injEq] at hs
      obtain ⟨rfl, rfl⟩ := hs
      rw [r.ext] at hc
      refine ⟨_, ⟨b.vals ++ [some c], b.ext.set x none⟩, rfl, ?_, by rw [r.ext]; exact r.append _ _,
        Frame.append _ _ _ _, by simp [creates]⟩
      simp [RefCount.Spec.step, hc, hn]
  | copy v =>
    simp only [RefCount.Spec.step, Option.bind_eq_bind, Option.bind_eq_some_iff, Option.some.injEq,
      Prod.mk.injEq] at hs
    obtain ⟨c, hc, rfl, rfl⟩ := hs
    obtain ⟨h, hv, hb⟩ := r.find hc
    refine ⟨.copy h, ⟨b.vals ++ [some c], b.ext⟩, by simp [rename, hv], by simp [RefCount.Spec.step, hb], ?_,
      Frame.append _ _ _ _, by simp [creates]⟩
    rw [r.ext]
    exact r.append _ _
  | destroy v =>
    simp only [RefCount.Spec.step, Option.bind_eq_bind, Option.bind_eq_some_iff, Option.some.injEq,
      Prod.mk.injEq] at hs
    obtain ⟨c, hc, rfl, rfl⟩ := hs
    obtain ⟨h, hv, hb⟩ := r.find hc
    exact ⟨.destroy h, ⟨b.vals.set h none, b.ext⟩, by simp [rename, hv], by simp [RefCount.Spec.step, hb],
      r.set hv _, Frame.set _ hv _ _, by simp [creates]⟩
  | assign v w =>
    simp only [RefCount.Spec.step, Option.bind_eq_bind, Option.bind_eq_some_iff, Option.some.injEq,
      Prod.mk.injEq] at hs
    obtain ⟨c, hc, d, hd, rfl, rfl⟩ := hs
    obtain ⟨h, hv, hb⟩ := r.find hc
    obtain ⟨g, hw, hg⟩ := r.find hd
    exact ⟨.assign h g, ⟨b.vals.set h (some d), b.ext⟩, by simp [rename, hv, hw], by simp [RefCount.Spec.step, hb, hg],
      r.set hv _, Frame.set _ hv _ _, by simp [creates]⟩
  | write v i x =>
    simp only [RefCount.Spec.step, Option.bind_eq_bind, Option.bind_eq_some_iff] at hs
    obtain ⟨c, hc, hs⟩ := hs
    split at hs
    case isFalse => cases hs
    case isTrue hi =>
      simp only [Option.some.injEq, Prod.mk.injEq] at hs
      obtain ⟨rfl, rfl⟩ := hs
      obtain ⟨h, hv, hb⟩ := r.find hc
      exact ⟨.write h i x, ⟨b.vals.set h (some (c.set i (some x))), b.ext⟩, by simp [rename, hv],
        by simp [RefCount.Spec.step, hb, hi], r.set hv _, Frame.set _ hv _ _, by simp [creates]⟩
  | read v i =>
    simp only [RefCount.Spec.step, Option.bind_eq_bind, Option.bind_eq_some_iff, Option.some.injEq,
      Prod.mk.injEq] at hs
    obtain ⟨c, hc, x, hx, rfl, rfl⟩ := hs
    obtain ⟨h, hv, hb⟩ := r.find hc
    exact ⟨.read h i, b, by simp [rename, hv], by simp [RefCount.Spec.step, hb, hx], r, Frame.refl _ _,
      by simp [creates]⟩
  | size v =>
    simp only [RefCount.Spec.step, Option.bind_eq_bind, Option.bind_eq_some_iff, Option.some.injEq,
      Prod.mk.injEq] at hs
    obtain ⟨c, hc, rfl, rfl⟩ := hs
    obtain ⟨h, hv, hb⟩ := r.find hc
    exact ⟨.size h, b, by simp [rename, hv], by simp [RefCount.Spec.step, hb], r, Frame.refl _ _, by simp [creates]⟩
  | resize v n =>
    simp only [RefCount.Spec.step, Option.bind_eq_bind, Option.bind_eq_some_iff, Option.some.injEq,
      Prod.mk.injEq] at hs
    obtain ⟨c, hc, rfl, rfl⟩ := hs
    obtain ⟨h, hv, hb⟩ := r.find hc
    exact ⟨.resize h n, ⟨b.vals.set h (some (List.replicate n none)), b.ext⟩, by simp [rename, hv],
      by simp [RefCount.Spec.step, hb], r.set hv _, Frame.set _ hv _ _, by simp [creates]⟩
  | touch v =>
    simp only [RefCount.Spec.step, Option.bind_eq_bind, Option.bind_eq_some_iff, Option.some.injEq,
      Prod.mk.injEq] at hs
    obtain ⟨c, hc, rfl, rfl⟩ := hs
    obtain ⟨h, hv, hb⟩ := r.find hc
    exact ⟨.touch h, b, by simp [rename, hv], by simp [RefCount.Spec.step, hb], r, Frame.refl _ _, by simp [creates]⟩

theorem Rel.length {m : RefCount.St α} {b : RefCount.Spec.ASt α} {k : Nat} (r : Rel m b k) :
    m.hs.length = b.vals.length := by
  rw [r.vals]
  simp

/-- The members of a new map. -/
theorem copyAll_sim {m : RefCount.St α} {b : RefCount.Spec.ASt α} {k : Nat} (r : Rel m b k) (hs : List Nat)
    (ha : ∀ h ∈ hs, (b.vals[h]?.join).isSome = true) :
    ∃ m' b' ms, copyAll m hs = .ok (m', ms) ∧ Rel m' b' k ∧ b'.ext = b.ext ∧
      ms = List.range' b.vals.length hs.length ∧ b'.vals.length = b.vals.length + hs.length ∧
      (∀ j, j < b.vals.length → b'.vals[j]? = b.vals[j]?) ∧
      (∀ j ∈ ms, (b'.vals[j]?.join).isSome = true) := by
  induction hs generalizing m b with
  | nil => exact ⟨m, b, [], rfl, r, rfl, rfl, rfl, fun _ _ => rfl, by simp⟩
  | cons h hs ih =>
    have h1 := ha h List.mem_cons_self
    cases hc : b.vals[h]?.join with
    | none => simp [hc] at h1
    | some c =>
      have hst : RefCount.Spec.step b (.copy h) = some (⟨b.vals ++ [some c], b.ext⟩, .unit) := by
        simp [RefCount.Spec.step, hc]
      obtain ⟨m1, e1, r1⟩ := RefCount.step_sim r (.copy h) hst
      have hlt : ∀ g, (b.vals[g]?.join).isSome = true → g < b.vals.length := by
        intro g hg
        cases hx : b.vals[g]? with
        | none => simp [hx] at hg
        | some o => exact (List.getElem?_eq_some_iff.1 hx).1
      obtain ⟨m', b', ms, e2, r2, x1, x2, x3, x4, x5⟩ := ih r1 (by
        intro g hg
        have := ha g (List.mem_cons_of_mem _ hg)
        simp only
        rw [List.getElem?_append_left (hlt g this)]
        exact this)
      simp only [List.length_append, List.length_singleton] at x2 x3 x4
      refine ⟨m', b', m.hs.length :: ms, ?_, r2, x1, ?_, ?_, ?_, ?_⟩
      · simp only [copyAll, e1, Res.ok_bind, e2, Res.pure_eq]
      · rw [x2, Rel.length r, List.length_cons, List.range'_succ]
      · rw [x3, List.length_cons]
        omega
      · intro j hj
        rw [x4 j (by omega), List.getElem?_append_left hj]
      · intro j hj
        rcases List.mem_cons.1 hj with rfl | hj
        · rw [Rel.length r, x4 _ (by omega)]
          simp
        · exact x5 j hj

/-- The members of a map which is deleted. -/
theorem destroyAll_sim {m : RefCount.St α} {b : RefCount.Spec.ASt α} {k : Nat} (r : Rel m b k) (hs : List Nat)
    (hn : hs.Nodup) (ha : ∀ h ∈ hs, (b.vals[h]?.join).isSome = true) :
    ∃ m' b', destroyAll m hs = .ok m' ∧ Rel m' b' k ∧ b'.ext = b.ext ∧ b'.vals.length = b.vals.length ∧
      (∀ j, j ∉ hs → b'.vals[j]? = b.vals[j]?) ∧ (∀ j ∈ hs, b'.vals[j]? = some none) := by
  induction hs generalizing m b with
  | nil => exact ⟨m, b, rfl, r, rfl, rfl, fun _ _ => rfl, by simp⟩
  | cons h hs ih =>
    have h1 := ha h List.mem_cons_self
    obtain ⟨hnh, hn⟩ := List.nodup_cons.1 hn
    cases hc : b.vals[h]?.join with
    | none => simp [hc] at h1
    | some c =>
      have hlt : h < b.vals.length := by
        cases hx : b.vals[h]? with
        | none => simp [hx] at hc
        | some o => exact (List.getElem?_eq_some_iff.1 hx).1
      have hst : RefCount.Spec.step b (.destroy h) = some (⟨b.vals.set h none, b.ext⟩, .unit) := by
        simp [RefCount.Spec.step, hc]
      obtain ⟨m1, e1, r1⟩ := RefCount.step_sim r (.destroy h) hst
      obtain ⟨m', b', e2, r2, x1, x2, x3, x4⟩ := ih r1 hn (by
        intro g hg
        have hgh : h ≠ g := by
          rintro rfl
          exact hnh hg
        simp only
        rw [List.getElem?_set_ne hgh]
        exact ha g (List.mem_cons_of_mem _ hg))
      simp only [List.length_set] at x2
      refine ⟨m', b', ?_, r2, x1, x2, ?_, ?_⟩
      · simp only [destroyAll, e1, Res.ok_bind, e2]
      · intro j hj
        rw [List.mem_cons, not_or] at hj
        rw [x3 j hj.2]
        simp only
        rw [List.getElem?_set_ne (Ne.symm hj.1)]
      · intro j hj
        by_cases hjs : j ∈ hs
        · exact x4 j hjs
        · rcases List.mem_cons.1 hj with rfl | hj
          · rw [x3 j hjs]
            simp [hlt]
          · exact absurd hj hjs

theorem handles_sim {vars : List Nat} {a b : RefCount.Spec.ASt α} (r : V vars a b) (vs : List Nat)
    (ha : (vs.all fun v => (a.vals[v]?.join).isSome) = true) :
    ∃ hs, handles vars vs = some hs ∧ ∀ h ∈ hs, (b.vals[h]?.join).isSome = true := by
  induction vs with
  | nil => exact ⟨[], rfl, by simp⟩
  | cons v vs ih =>
    simp only [List.all_cons, Bool.and_eq_true] at ha
    obtain ⟨hs, e, hh⟩ := ih ha.2
    cases hc : a.vals[v]?.join with
    | none => simp [hc] at ha
    | some c =>
      obtain ⟨h, hv, hb⟩ := r.find hc
      refine ⟨h :: hs, by simp [handles, hv, e], ?_⟩
      intro g hg
      rcases List.mem_cons.1 hg with rfl | hg
      · simp [hb]
      · exact hh g hg

/-- Members of the maps of the solvers which are running. -/
def members (st : List (Solver × List Nat)) : List Nat := st.flatMap Prod.snd

/-- The relation between states. `ls` are the handles in maps which are lost, `n` the number of those maps. -/
structure T (s : St α) (a : MapMem.Spec.ASt α) (k : Nat) (ls : List Nat) (n : Nat) : Prop where
  heap : ∃ b, Rel s.mem b k ∧ V s.vars a.vec b ∧
    (∀ m ∈ members s.stack, (b.vals[m]?.join).isSome = true ∧ m ∉ s.vars) ∧
    (∀ j, j < b.vals.length → j ∈ s.vars ∨ j ∈ members s.stack ∨ j ∈ ls ∨ b.vals[j]? = some none)
  nodup : (members s.stack).Nodup
  running : a.running = s.stack.length
  maps : s.maps = s.stack.length + n

theorem isSome_lt {β : Type} {l : List (Option β)} {j : Nat} (h : (l[j]?.join).isSome = true) : j < l.length := by
  cases hx : l[j]? with
  | none => simp [hx] at h
  | some o => exact (List.getElem?_eq_some_iff.1 hx).1

theorem op_sim {s : St α} {a a' : MapMem.Spec.ASt α} {k n : Nat} {ls : List Nat} (t : T s a k ls n) (op : Op α)
    {o : Out α} (hs : MapMem.Spec.step a (.op op) = some (a', o)) :
    ∃ s', step s (.op op) = .ok (s', o) ∧ T s' a' k ls n ∧ s'.stack = s.stack := by
  obtain ⟨⟨b, r, v, hm, hj⟩, hnd, hrun, hmaps⟩ := t
  simp only [Spec.step, Option.bind_eq_bind, Option.bind_eq_some_iff, Option.some.injEq, Prod.mk.injEq] at hs
  obtain ⟨⟨a1, o1⟩, h1, rfl, rfl⟩ := hs
  obtain ⟨op', b', e1, e2, v', fr, hl⟩ := spec_rename v op h1
  obtain ⟨m', e3, r'⟩ := RefCount.step_sim r op' e2
  refine ⟨{ s with mem := m', vars := if creates op then s.vars ++ [s.mem.hs.length] else s.vars }, ?_, ?_, rfl⟩
  · simp only [step, e1, Res.ofOption_some, Res.ok_bind, e3, Res.pure_eq]
  · refine ⟨⟨b', r', ?_, ?_, ?_⟩, hnd, hrun, hmaps⟩
    · rw [Rel.length r]
      exact v'
    · intro m hmm
      obtain ⟨y1, y2⟩ := hm m hmm
      have hlt := isSome_lt y1
      refine ⟨by rw [fr.2 m y2 hlt]; exact y1, ?_⟩
      simp only
      split
      · rw [List.mem_append, not_or]
        refine ⟨y2, ?_⟩
        rw [Rel.length r]
        simp
        omega
      · exact y2
    · intro j hjl
      by_cases hlt : j < b.vals.length
      · by_cases hv : j ∈ s.vars
        · left
          simp only
          split
          · exact List.mem_append_left _ hv
          · exact hv
        · rcases hj j hlt with h | h | h | h
          · exact absurd h hv
          · exact .inr (.inl h)
          · exact .inr (.inr (.inl h))
          · exact .inr (.inr (.inr (by rw [fr.2 j hv hlt]; exact h)))
      · left
        by_cases hc : creates op = true
        · rw [if_pos hc] at hl
          simp only [if_pos hc]
          apply List.mem_append_right
          rw [Rel.length r]
          simp
          omega
        · rw [if_neg hc] at hl
          omega

theorem enter_sim {s : St α} {a a' : MapMem.Spec.ASt α} {k n : Nat} {ls : List Nat} (t : T s a k ls n) (q : Solver)
    (vs : List Nat) {o : Out α} (hs : MapMem.Spec.step a (.enter q vs) = some (a', o)) :
    ∃ s', step s (.enter q vs) = .ok (s', o) ∧ T s' a' k ls n ∧ s'.stack.map Prod.fst = q :: s.stack.map Prod.fst := by
  obtain ⟨⟨b, r, v, hm, hj⟩, hnd, hrun, hmaps⟩ := t
  simp only [Spec.step] at hs
  split at hs
  case isFalse => cases hs
  case isTrue ha =>
    simp only [Option.some.injEq, Prod.mk.injEq] at hs
    obtain ⟨rfl, rfl⟩ := hs
    obtain ⟨hl, e1, ha'⟩ := handles_sim v vs ha
    obtain ⟨m', b', ms, e2, r', x1, x2, x3, x4, x5⟩ := copyAll_sim r hl ha'
    have hms : ∀ j, j ∈ ms ↔ b.vals.length ≤ j ∧ j < b.vals.length + hl.length := by
      intro j
      rw [x2, List.mem_range'_1]
    refine ⟨{ s with mem := m', stack := (q, ms) :: s.stack, maps := s.maps + 1 }, ?_, ?_, rfl⟩
    · simp only [step, e1, Res.ofOption_some, Res.ok_bind, e2, Res.pure_eq]
    · refine ⟨⟨b', r', ?_, ?_, ?_⟩, ?_, by simp [hrun], by simp [hmaps]; omega⟩
      · refine ⟨by rw [x1]; exact v.ext, v.len, ?_, v.nodup, ?_⟩
        · intro h hh
          have := v.lt h hh
          omega
        · intro w h hw
          rw [x4 h (v.lt h (List.mem_of_getElem? hw))]
          exact v.val w h hw
      · intro m hmm
        simp only [members, List.flatMap_cons, List.mem_append] at hmm
        rcases hmm with hmm | hmm
        · refine ⟨x5 m hmm, ?_⟩
          intro hv
          have := v.lt m hv
          have := (hms m).1 hmm
          omega
        · obtain ⟨y1, y2⟩ := hm m hmm
          exact ⟨by rw [x4 m (isSome_lt y1)]; exact y1, y2⟩
      · intro j hjl
        by_cases hlt : j < b.vals.length
        · rcases hj j hlt with h | h | h | h
          · exact .inl h
          · exact .inr (.inl (by simp only [members, List.flatMap_cons, List.mem_append]; exact .inr h))
          · exact .inr (.inr (.inl h))
          · exact .inr (.inr (.inr (by rw [x4 j hlt]; exact h)))
        · refine .inr (.inl ?_)
          simp only [members, List.flatMap_cons, List.mem_append]
          exact .inl ((hms j).2 ⟨by omega, by omega⟩)
      · simp only [members, List.flatMap_cons]
        refine List.nodup_append.2 ⟨by rw [x2]; exact List.nodup_range', hnd, ?_⟩
        intro x hx y hy
        have h1 := isSome_lt (hm y hy).1
        have h2 := (hms x).1 hx
        omega

/-- A solver which deletes its map. -/
theorem delete_sim {s : St α} {a : MapMem.Spec.ASt α} {k n : Nat} {ls ms : List Nat} {q : Solver}
    {st : List (Solver × List Nat)} (t : T s a k ls n) (hst : s.stack = (q, ms) :: st) (hq : deletes q = true) :
    ∃ s', step s .leave = .ok (s', .unit) ∧ T s' { a with running := a.running - 1 } k ls n ∧ s'.stack = st := by
  obtain ⟨⟨b, r, v, hm, hj⟩, hnd, hrun, hmaps⟩ := t
  rw [hst] at hm hj hnd hrun hmaps
  simp only [members, List.flatMap_cons] at hm hj hnd
  obtain ⟨n1, n2, n3⟩ := List.nodup_append.1 hnd
  obtain ⟨m', b', e, r', x1, x2, x3, x4⟩ := destroyAll_sim r ms.reverse (List.nodup_reverse.2 n1) (by
    intro h hh
    exact (hm h (List.mem_append_left _ (List.mem_reverse.1 hh))).1)
  simp only [List.mem_reverse] at x3 x4
  refine ⟨{ s with mem := m', stack := st, maps := s.maps - 1 }, ?_, ?_, rfl⟩
  · simp only [step, hst, if_pos hq, e, Res.ok_bind, Res.pure_eq]
  · refine ⟨⟨b', r', ?_, ?_, ?_⟩, n2, ?_, ?_⟩
    · refine ⟨by rw [x1]; exact v.ext, v.len, by rw [x2]; exact v.lt, v.nodup, ?_⟩
      intro w h hw
      have hv : h ∈ s.vars := List.mem_of_getElem? hw
      rw [x3 h (fun hh => (hm h (List.mem_append_left _ hh)).2 hv)]
      exact v.val w h hw
    · intro m hmm
      obtain ⟨y1, y2⟩ := hm m (List.mem_append_right _ hmm)
      refine ⟨?_, y2⟩
      rw [x3 m (fun hh => n3 m hh m hmm rfl)]
      exact y1
    · intro j hjl
      rw [x2] at hjl
      by_cases hjm : j ∈ ms
      · exact .inr (.inr (.inr (x4 j hjm)))
      · rcases hj j hjl with h | h | h | h
        · exact .inl h
        · rcases List.mem_append.1 h with h | h
          · exact absurd h hjm
          · exact .inr (.inl h)
        · exact .inr (.inr (.inl h))
        · exact .inr (.inr (.inr (by rw [x3 j hjm]; exact h)))
    · simp [hrun]
    · simp only [List.length_cons] at hmaps ⊢
      omega

/-- A call after which the map is lost. -/
theorem lose_sim {s : St α} {a : MapMem.Spec.ASt α} {k n : Nat} {ls ms : List Nat} {q : Solver}
    {st : List (Solver × List Nat)} (t : T s a k ls n) (hst : s.stack = (q, ms) :: st) :
    T { s with stack := st } { a with running := a.running - 1 } k (ms ++ ls) (n + 1) := by
  obtain ⟨⟨b, r, v, hm, hj⟩, hnd, hrun, hmaps⟩ := t
  rw [hst] at hm hj hnd hrun hmaps
  simp only [members, List.flatMap_cons] at hm hj hnd
  obtain ⟨n1, n2, n3⟩ := List.nodup_append.1 hnd
  refine ⟨⟨b, r, v, ?_, ?_⟩, n2, by simp [hrun], ?_⟩
  · intro m hmm
    exact hm m (List.mem_append_right _ hmm)
  · intro j hjl
    rcases hj j hjl with h | h | h | h
    · exact .inl h
    · rcases List.mem_append.1 h with h | h
      · exact .inr (.inr (.inl (List.mem_append_left _ h)))
      · exact .inr (.inl h)
    · exact .inr (.inr (.inl (List.mem_append_right _ h)))
    · exact .inr (.inr (.inr h))
  · simp only [List.length_cons] at hmaps ⊢
    omega

theorem run_sim {s : St α} {a a' : MapMem.Spec.ASt α} {k n : Nat} {ls : List Nat} (t : T s a k ls n)
    (cs : List (Stmt α)) {os : List (Out α)} (hs : MapMem.Spec.run a cs = some (a', os)) :
    ∃ s' ls', run s cs = .ok (s', os) ∧ T s' a' k ls' (n + MapMem.Spec.leaks (s.stack.map Prod.fst) cs) ∧
      (MapMem.Spec.leaks (s.stack.map Prod.fst) cs = 0 → ls' = ls) := by
  induction cs generalizing s a n ls os with
  | nil =>
    simp only [Spec.run, Option.some.injEq, Prod.mk.injEq] at hs
    obtain ⟨rfl, rfl⟩ := hs
    exact ⟨s, ls, rfl, t, fun _ => rfl⟩
  | cons c cs ih =>
    simp only [Spec.run, Option.bind_eq_bind, Option.bind_eq_some_iff, Option.some.injEq, Prod.mk.injEq] at hs
    obtain ⟨⟨a1, o⟩, h1, ⟨a2, os'⟩, h2, rfl, rfl⟩ := hs
    cases c with
    | op op =>
      obtain ⟨s1, e1, t1, hst⟩ := op_sim t op h1
      obtain ⟨s2, ls2, e2, t2, hl⟩ := ih t1 h2
      rw [hst] at t2 hl
      exact ⟨s2, ls2, by simp [run, e1, e2], t2, hl⟩
    | enter q vs =>
      obtain ⟨s1, e1, t1, hst⟩ := enter_sim t q vs h1
      obtain ⟨s2, ls2, e2, t2, hl⟩ := ih t1 h2
      rw [hst] at t2 hl
      exact ⟨s2, ls2, by simp [run, e1, e2], t2, hl⟩
    | leave =>
      simp only [Spec.step] at h1
      split at h1
      case isTrue => cases h1
      case isFalse hr =>
        simp only [Option.some.injEq, Prod.mk.injEq] at h1
        obtain ⟨rfl, rfl⟩ := h1
        cases hst : s.stack with
        | nil =>
          have := t.running
          rw [hst] at this
          exact absurd this hr
        | cons x st =>
          obtain ⟨q, ms⟩ := x
          by_cases hq : deletes q = true
          · obtain ⟨s1, e1, t1, hs1⟩ := delete_sim t hst hq
            obtain ⟨s2, ls2, e2, t2, hl⟩ := ih t1 h2
            rw [hs1] at t2 hl
            have hlk : MapMem.Spec.leaks (((q, ms) :: st).map Prod.fst) (.leave :: cs) =
                MapMem.Spec.leaks (st.map Prod.fst) cs := by
              cases q <;> first | rfl | cases hq
            rw [hlk]
            exact ⟨s2, ls2, by simp [run, e1, e2], t2, hl⟩
          · have e1 : step s .leave = .ok ({ s with stack := st }, .unit) := by
              simp only [step, hst, if_neg hq, Res.pure_eq]
            obtain ⟨s2, ls2, e2, t2, hl⟩ := ih (lose_sim t hst) h2
            have hlk : MapMem.Spec.leaks (((q, ms) :: st).map Prod.fst) (.leave :: cs) =
                MapMem.Spec.leaks (st.map Prod.fst) cs + 1 := by
              cases q <;> first | rfl | exact absurd rfl hq
            rw [hlk]
            refine ⟨s2, ls2, by simp [run, e1, e2], ?_, by omega⟩
            have he : n + (MapMem.Spec.leaks (st.map Prod.fst) cs + 1) =
                n + 1 + MapMem.Spec.leaks (st.map Prod.fst) cs := by omega
            rw [he]
            exact t2
    | throw =>
      simp only [Spec.step] at h1
      split at h1
      case isTrue => cases h1
      case isFalse hr =>
        simp only [Option.some.injEq, Prod.mk.injEq] at h1
        obtain ⟨rfl, rfl⟩ := h1
        cases hst : s.stack with
        | nil =>
          have := t.running
          rw [hst] at this
          exact absurd this hr
        | cons x st =>
          obtain ⟨q, ms⟩ := x
          have e1 : step s .throw = .ok ({ s with stack := st }, .unit) := by
            simp only [step, hst, Res.pure_eq]
          obtain ⟨s2, ls2, e2, t2, hl⟩ := ih (lose_sim t hst) h2
          have hlk : MapMem.Spec.leaks (((q, ms) :: st).map Prod.fst) (.throw :: cs) =
              MapMem.Spec.leaks (st.map Prod.fst) cs + 1 := rfl
          rw [hlk]
          refine ⟨s2, ls2, by simp [run, e1, e2], ?_, by omega⟩
          have he : n + (MapMem.Spec.leaks (st.map Prod.fst) cs + 1) =
              n + 1 + MapMem.Spec.leaks (st.map Prod.fst) cs := by omega
          rw [he]
          exact t2

theorem t_init (ext : List (Cells α)) : T (init ext) (MapMem.Spec.init ext) ext.length [] 0 :=
  ⟨⟨RefCount.Spec.init ext, rel_init ext, ⟨rfl, rfl, by simp [init], by simp [init], by simp [init]⟩,
    by simp [init, members], by simp [RefCount.Spec.init]⟩, by simp [init, members], rfl, rfl⟩

end Verif.MapMem
