import Verif.Lemmas.RefCountSim
import Verif.Model.SharedPtr
/-
Properties C01, C02 (copy-on-write buffers) and C03 (data set handles).
-/
namespace Verif.RefCount

variable {α : Type}

/-- **C01.** Every history that makes sense for independent values (`Spec.run` accepts it: no use of
destroyed handles, no index out of bounds, external arrays handed over once) runs on the shared
copy-on-write buffers without abort or undefined behaviour and gives the same observations. -/
theorem c01_copies_are_independent_values (ext : List (List (Option α))) (ops : List (Op α))
    (a : Spec.ASt α) (os : List (Out α)) (h : Spec.run (Spec.init ext) ops = some (a, os)) :
    ∃ s, run (init ext) ops = .ok (s, os) := by
  obtain ⟨s, e, -⟩ := run_sim (rel_init ext) ops h
  exact ⟨s, e⟩

/-- The hypothesis of C01 is met by a history with sharing: a vector is written, copied, the copy
is written, assigned back and forth, and the copy is destroyed; the reads show separate values. -/
example : ∃ a, Spec.run (Spec.init [[some 7]])
    [.newSize 2, .write 0 0 (1 : Nat), .copy 0, .write 1 0 2, .read 0 0, .read 1 0, .copy 1,
     .destroy 1, .write 2 1 5, .assign 0 2, .write 2 0 9, .read 0 0, .read 0 1, .wrap 0 1, .copy 3,
     .write 4 0 8, .read 3 0, .size 2] =
    some (a, [.unit, .unit, .unit, .unit, .val (some 1), .val (some 2), .unit, .unit, .unit, .unit,
      .unit, .val (some 2), .val (some 5), .unit, .unit, .unit, .val (some 7), .num 2]) :=
  ⟨_, rfl⟩

/-- **C02.** After any history: the reference count stored with a buffer is the number of handles on
it, a buffer exists exactly as long as some handle refers to it, and external arrays are never
released.  (Access to a released buffer and releasing twice are `ub` in the model, and do not
occur.)  Since it holds for every history it holds at every moment of a history. -/
theorem c02_buffers_released_exactly_once (ext : List (List (Option α))) (ops : List (Op α))
    (a : Spec.ASt α) (os : List (Out α)) (h : Spec.run (Spec.init ext) ops = some (a, os)) :
    ∃ s, run (init ext) ops = .ok (s, os) ∧
      (∀ (p : Nat) (P : Ptr), s.ptrs p = some P → P.refs = s.hs.count (some p)) ∧
      (∀ p : Nat, (∃ P, s.ptrs p = some P) ↔ some p ∈ s.hs) ∧
      (∀ b : Nat, ext.length ≤ b →
        ((∃ l, s.blks b = some l) ↔ ∃ p P, some p ∈ s.hs ∧ s.ptrs p = some P ∧ P.blk = b)) ∧
      (∀ b : Nat, b < ext.length → ∃ l, s.blks b = some l) := by
  obtain ⟨s, e, r⟩ := run_sim (rel_init ext) ops h
  have i := r.inv
  refine ⟨s, e, fun p P hp => (i.cnt p P hp).1, ?_, ?_, i.ext⟩
  · intro p
    constructor
    · rintro ⟨P, hP⟩
      exact List.count_pos_iff.1 (i.cnt p P hP).2
    · intro hm
      exact i.live p (List.count_pos_iff.2 hm)
  · intro b hb
    constructor
    · rintro ⟨l, hl⟩
      obtain ⟨p, P, hP, e2⟩ := i.noleak b l hb hl
      exact ⟨p, P, List.count_pos_iff.1 (i.cnt p P hP).2, hP, e2⟩
    · rintro ⟨p, P, -, hP, rfl⟩
      obtain ⟨l, hl, -⟩ := i.data p P hP
      exact ⟨l, hl⟩

/-- **C02**, the end of the program: when all handles have been destroyed no buffer is left, and all
external arrays are still there. -/
theorem c02_nothing_left_at_the_end (ext : List (List (Option α))) (ops : List (Op α))
    (a : Spec.ASt α) (os : List (Out α)) (h : Spec.run (Spec.init ext) ops = some (a, os))
    (hd : ∀ v ∈ a.vals, v = none) :
    ∃ s, run (init ext) ops = .ok (s, os) ∧ (∀ p, s.ptrs p = none) ∧
      (∀ b, (∃ l, s.blks b = some l) ↔ b < ext.length) := by
  obtain ⟨s, e, r⟩ := run_sim (rel_init ext) ops h
  have i := r.inv
  have hz : ∀ p, s.ptrs p = none := by
    intro p
    cases hP : s.ptrs p with
    | none => rfl
    | some P =>
      exfalso
      have hm : some p ∈ s.hs := List.count_pos_iff.1 (i.cnt p P hP).2
      obtain ⟨P', l, -, -, -, hc, -⟩ := i.content_some (i.cnt p P hP).2
      have := hd (some l) (by rw [r.vals]; exact List.mem_map.2 ⟨some p, hm, by simp [hc]⟩)
      cases this
  refine ⟨s, e, hz, fun b => ⟨?_, i.ext b⟩⟩
  rintro ⟨l, hl⟩
  rcases Nat.lt_or_ge b ext.length with hb | hb
  · exact hb
  · obtain ⟨p, P, hP, -⟩ := i.noleak b l hb hl
    rw [hz] at hP; cases hP

example : ∃ a os, Spec.run (Spec.init [[some 3, none]])
    [.newSize 2, .copy 0, .write 1 1 (4 : Nat), .wrap 0 2, .assign 1 2, .write 1 0 9, .destroy 2,
     .destroy 0, .resize 1 3, .destroy 1] = some (a, os) ∧ ∀ v ∈ a.vals, v = none :=
  ⟨_, _, rfl, by decide⟩

/-- The restriction of C01 that an external array is handed over once is necessary: two vectors
created around the same external memory do see each other's writes. -/
theorem c01_negation_two_wraps_alias :
    ∃ s : St Nat, run (init [[some 1]]) [.wrap 0 1, .wrap 0 1, .write 0 0 5, .read 1 0] =
      .ok (s, [.unit, .unit, .unit, .val (some 5)]) :=
  ⟨_, rfl⟩

end Verif.RefCount

namespace Verif.SharedPtr

/-- **C03 is false.** A well formed program which copies a data set handle and lets both handles go
out of scope has undefined behaviour (the object is deleted twice). -/
theorem c03_negation_copy_deletes_twice :
    valid 0 [] [.create, .copy 0, .destroy 0, .destroy 1] ∧
    run init [.create, .copy 0, .destroy 0, .destroy 1] = .ub := by
  decide

/-- Also using the remaining handle is undefined, the object is already gone. -/
theorem c03_negation_copy_dangles :
    valid 0 [] [.create, .copy 0, .destroy 0, .use 1] ∧
    run init [.create, .copy 0, .destroy 0, .use 1] = .ub := by
  decide

/-- Histories without copies. -/
def noCopy : List Op → Prop
  | [] => True
  | .copy _ :: _ => False
  | _ :: ops => noCopy ops

/-- Each live handle has its own live object with counter 1, and objects without handle are gone. -/
structure Inv (s : St) (dead : List Nat) : Prop where
  len : s.objs.length = s.hs.length
  hs : ∀ h, h < s.hs.length → s.hs[h]? = some (if h ∈ dead then none else some h)
  objs : ∀ h, h < s.hs.length → s.objs[h]? = some (if h ∈ dead then none else some 1)

theorem step_inv {s : St} {dead : List Nat} (i : Inv s dead) :
    (∀ h ∈ dead, h < s.hs.length) →
    ∀ ops, noCopy ops → valid s.hs.length dead ops →
      ∃ s' dead', run s ops = .ok s' ∧ Inv s' dead' ∧ (∀ h ∈ dead', h < s'.hs.length) := by
  intro hd ops hn hv
  induction ops generalizing s dead with
  | nil => exact ⟨s, dead, rfl, i, hd⟩
  | cons op ops ih =>
    cases op with
    | create =>
      have e : run s (.create :: ops) = run ⟨s.objs ++ [some 1], s.hs ++ [some s.objs.length]⟩ ops :=
        rfl
      rw [e]
      have hnd : s.hs.length ∉ dead := fun hm => Nat.lt_irrefl _ (hd _ hm)
      refine ih (s := ⟨s.objs ++ [some 1], s.hs ++ [some s.objs.length]⟩) (dead := dead) ?_ ?_ hn ?_
      · constructor
        · simp [i.len]
        · intro h hh
          simp only [List.length_append, List.length_cons, List.length_nil] at hh
          by_cases hl : h < s.hs.length
          · simp only [List.getElem?_append_left hl]; exact i.hs h hl
          · have : h = s.hs.length := by omega
            subst this
            simp [hnd, i.len]
        · intro h hh
          simp only [List.length_append, List.length_cons, List.length_nil] at hh
          by_cases hl : h < s.hs.length
          · simp only [List.getElem?_append_left (i.len ▸ hl)]; exact i.objs h hl
          · have : h = s.objs.length := by rw [i.len]; omega
            subst this
            simp [i.len, hnd]
      · intro h hh; have := hd h hh; simp; omega
      · simpa [valid] using hv
    | copy h => exact hn.elim
    | destroy h =>
      obtain ⟨h1, h2, h3⟩ := hv
      have e1 : s.hs[h]? = some (some h) := by rw [i.hs h h1, if_neg h2]
      have e2 : s.objs[h]? = some (some 1) := by rw [i.objs h h1, if_neg h2]
      have e : run s (.destroy h :: ops) = run ⟨s.objs.set h none, s.hs.set h none⟩ ops := by
        simp [run, step, e1, e2]
      rw [e]
      refine ih (s := ⟨s.objs.set h none, s.hs.set h none⟩) (dead := h :: dead) ?_ ?_ hn ?_
      · constructor
        · simp [i.len]
        · intro g hg
          simp only [List.length_set] at hg
          by_cases hgh : h = g
          · subst hgh; simp [List.getElem?_set_self hg]
          · simp only [List.getElem?_set_ne hgh, i.hs g hg, List.mem_cons, Ne.symm hgh, false_or]
        · intro g hg
          simp only [List.length_set] at hg
          by_cases hgh : h = g
          · subst hgh; simp [List.getElem?_set_self (i.len ▸ hg)]
          · simp only [List.getElem?_set_ne hgh, i.objs g hg, List.mem_cons, Ne.symm hgh, false_or]
      · intro g hg
        simp only [List.length_set]
        rcases List.mem_cons.1 hg with rfl | hg
        · exact h1
        · exact hd g hg
      · simpa using h3
    | use h =>
      obtain ⟨h1, h2, h3⟩ := hv
      have e1 : s.hs[h]? = some (some h) := by rw [i.hs h h1, if_neg h2]
      have e2 : s.objs[h]? = some (some 1) := by rw [i.objs h h1, if_neg h2]
      have e : run s (.use h :: ops) = run s ops := by simp [run, step, e1, e2]
      rw [e]
      exact ih i hd hn h3

/-- **C03**, what is left of it: handles which are never copied are safe, and an object is deleted
exactly when its handle is destroyed.  Missing from the full statement: copies. -/
theorem c03_unshared_handles_partial (ops : List Op) (hn : noCopy ops) (hv : valid 0 [] ops) :
    ∃ s, run init ops = .ok s ∧
      ∀ o < s.objs.length, (s.objs[o]? = some none ↔ s.hs[o]? = some none) := by
  obtain ⟨s, dead, e, i, -⟩ := step_inv (s := init) (dead := [])
    ⟨rfl, by simp [init], by simp [init]⟩ (by simp) ops hn hv
  refine ⟨s, e, fun o ho => ?_⟩
  rw [i.len] at ho
  rw [i.hs o ho, i.objs o ho]
  by_cases hm : o ∈ dead <;> simp [hm]

example : noCopy [.create, .create, .use 1, .destroy 0, .use 1, .destroy 1] ∧
    valid 0 [] [.create, .create, .use 1, .destroy 0, .use 1, .destroy 1] := by
  exact ⟨trivial, by decide⟩

end Verif.SharedPtr
