import Verif.Model.FileLock
import Mathlib.Tactic.Basic
/-
C45: the lock of data files.
-/
namespace Verif.Lock

/-- C45 does not hold: process 1 opens the lock file of process 0; process 0 deletes the name and
releases the lock; process 1 locks the file without a name, and process 2 makes and locks a new one. -/
theorem c45_two_holders : ∃ ops s, run ops init = some s ∧ s.Holds 1 ∧ s.Holds 2 := by
  refine ⟨[(0, .openFile), (0, .flock), (1, .openFile), (0, .unlink), (0, .close), (1, .flock),
    (2, .openFile), (2, .flock)], _, rfl, ⟨0, rfl⟩, ⟨1, rfl⟩⟩

/-- C45 does not hold with two processes either, when the first one opens the file again. -/
theorem c45_two_processes : ∃ ops s, (∀ o ∈ ops, o.1 = 0 ∨ o.1 = 1) ∧ run ops init = some s ∧
    s.Holds 0 ∧ s.Holds 1 := by
  refine ⟨[(0, .openFile), (0, .flock), (1, .openFile), (0, .unlink), (0, .close), (1, .flock),
    (0, .openFile), (0, .flock)], _, by decide, rfl, ⟨1, rfl⟩, ⟨0, rfl⟩⟩

/-- Each locked file is locked by the process which believes to have it locked. -/
def Owned (s : State) : Prop :=
  ∀ p f, s.pc p = .holding f ∨ s.pc p = .unlinked f → s.lock f = some p

theorem step_owned {s s' : State} {p : Nat} {o : Op} (h : Owned s) (hs : step s p o = some s') :
    Owned s' := by
  intro q f hq
  cases o <;> simp only [step] at hs
  · simp only [openFile] at hs
    split at hs
    · split at hs
      all_goals
        simp only [Option.some.injEq] at hs
        subst hs
        simp only [update] at hq
        split at hq
        · simp at hq
        · exact h q f hq
    · simp at hs
  · simp only [flock] at hs
    split at hs
    · rename_i g hg
      split at hs
      · rename_i hl
        simp only [Option.some.injEq] at hs
        subst hs
        simp only [update] at hq ⊢
        by_cases hqp : q = p
        · subst hqp
          simp only [if_true] at hq
          rcases hq with hq | hq
          · cases hq; simp
          · cases hq
        · simp only [if_neg hqp] at hq
          have := h q f hq
          rw [if_neg]
          · exact this
          · rintro rfl; rw [hl] at this; cases this
      · simp only [Option.some.injEq] at hs
        subst hs
        simp only [update] at hq
        split at hq
        · simp at hq
        · exact h q f hq
    · simp at hs
  · simp only [unlink] at hs
    split at hs
    · rename_i g hg
      simp only [Option.some.injEq] at hs
      subst hs
      simp only [update] at hq
      by_cases hqp : q = p
      · subst hqp
        simp only [if_true] at hq
        rcases hq with hq | hq
        · cases hq
        · cases hq; exact h q _ (Or.inl hg)
      · simp only [if_neg hqp] at hq
        exact h q f hq
    · simp at hs
  · simp only [close] at hs
    split at hs
    · rename_i g hg
      simp only [Option.some.injEq] at hs
      subst hs
      simp only [update] at hq ⊢
      by_cases hqp : q = p
      · subst hqp; simp at hq
      · simp only [if_neg hqp] at hq
        have h1 := h q f hq
        have h2 := h p g (Or.inr hg)
        rw [if_neg]
        · exact h1
        · rintro rfl; rw [h1] at h2; cases h2; exact hqp rfl
    · simp at hs
  · simp only [stop] at hs
    have key : ∀ g, (s.pc p = .holding g ∨ s.pc p = .unlinked g) →
        some { s with lock := update s.lock g none, pc := update s.pc p .idle } = some s' →
        s'.lock f = some q := by
      intro g hg hs
      simp only [Option.some.injEq] at hs
      subst hs
      simp only [update] at hq ⊢
      by_cases hqp : q = p
      · subst hqp; simp at hq
      · simp only [if_neg hqp] at hq
        have h1 := h q f hq
        have h2 := h p g hg
        rw [if_neg]
        · exact h1
        · rintro rfl; rw [h1] at h2; cases h2; exact hqp rfl
    split at hs
    · simp only [Option.some.injEq] at hs
      subst hs
      exact h q f hq
    · simp only [Option.some.injEq] at hs
      subst hs
      simp only [update] at hq
      split at hq
      · simp at hq
      · exact h q f hq
    · rename_i g hg; exact key g (Or.inl hg) hs
    · rename_i g hg; exact key g (Or.inr hg) hs

theorem run_owned {ops : List (Nat × Op)} {s s' : State} (h : Owned s) (hs : run ops s = some s') :
    Owned s' := by
  induction ops generalizing s with
  | nil => simp only [run, Option.some.injEq] at hs; subst hs; exact h
  | cons o l ih =>
    obtain ⟨p, o⟩ := o
    simp only [run, Option.bind_eq_some_iff] at hs
    obtain ⟨s1, h1, h2⟩ := hs
    exact ih (step_owned h h1) h2

theorem init_owned : Owned init := by
  intro p f h
  simp [init] at h

/-- C45, what does hold for every execution: two processes never hold the same lock file. Missing:
they may hold two different files which had the same name. -/
theorem c45_same_file_partial {ops : List (Nat × Op)} {s : State} (h : run ops init = some s)
    {p q f : Nat} (hp : s.pc p = .holding f) (hq : s.pc q = .holding f) : p = q := by
  have ho := run_owned init_owned h
  have h1 := ho p f (Or.inl hp)
  have h2 := ho q f (Or.inl hq)
  rw [h1] at h2
  exact Option.some.inj h2

/-- The name is not deleted while another process is between `open` and `flock`. -/
def Careful (s : State) (o : Op) : Prop :=
  o = .unlink → ∀ q f, s.pc q ≠ .opened f

/-- An execution all of whose deletions are careful. -/
def CarefulRun : List (Nat × Op) → State → Prop
  | [], _ => True
  | (p, o) :: l, s => Careful s o ∧ ∀ s', step s p o = some s' → CarefulRun l s'

/-- Every process which has opened or locked the file has the one which has the name. -/
def Linked (s : State) : Prop :=
  ∀ p f, s.pc p = .opened f ∨ s.pc p = .holding f → s.link = some f

theorem step_linked {s s' : State} {p : Nat} {o : Op} (ho : Owned s) (h : Linked s)
    (hc : Careful s o) (hs : step s p o = some s') : Linked s' := by
  intro q f hq
  have idle : ∀ s0 : State, s0.link = s.link → s0.pc = update s.pc p .idle →
      (s0.pc q = .opened f ∨ s0.pc q = .holding f) → s0.link = some f := by
    intro s0 hl hpc hq
    rw [hpc] at hq
    rw [hl]
    simp only [update] at hq
    split at hq
    · simp at hq
    · exact h q f hq
  cases o <;> simp only [step] at hs
  · simp only [openFile] at hs
    split at hs
    · split at hs
      · rename_i g hg
        simp only [Option.some.injEq] at hs
        subst hs
        simp only [update] at hq ⊢
        split at hq
        · rcases hq with hq | hq
          · cases hq; exact hg
          · cases hq
        · exact h q f hq
      · rename_i hg
        simp only [Option.some.injEq] at hs
        subst hs
        simp only [update] at hq ⊢
        split at hq
        · rcases hq with hq | hq
          · cases hq; rfl
          · cases hq
        · have := h q f hq; rw [hg] at this; cases this
    · simp at hs
  · simp only [flock] at hs
    split at hs
    · rename_i g hg
      split at hs
      · simp only [Option.some.injEq] at hs
        subst hs
        simp only [update] at hq ⊢
        split at hq
        · rcases hq with hq | hq
          · cases hq
          · cases hq; exact h p _ (Or.inl hg)
        · exact h q f hq
      · simp only [Option.some.injEq] at hs
        subst hs
        exact idle _ rfl rfl hq
    · simp at hs
  · simp only [unlink] at hs
    split at hs
    · rename_i g hg
      simp only [Option.some.injEq] at hs
      subst hs
      exfalso
      simp only [update] at hq
      by_cases hqp : q = p
      · subst hqp; simp at hq
      · simp only [if_neg hqp] at hq
        rcases hq with hq | hq
        · exact hc rfl q f hq
        · have h1 := h q f (Or.inr hq)
          have h2 := h p g (Or.inr hg)
          rw [h1] at h2
          cases h2
          have h3 := ho q f (Or.inl hq)
          have h4 := ho p f (Or.inl hg)
          rw [h3] at h4
          cases h4
          exact hqp rfl
    · simp at hs
  · simp only [close] at hs
    split at hs
    · simp only [Option.some.injEq] at hs
      subst hs
      exact idle _ rfl rfl hq
    · simp at hs
  · simp only [stop] at hs
    split at hs
    · simp only [Option.some.injEq] at hs
      subst hs
      exact h q f hq
    all_goals
      simp only [Option.some.injEq] at hs
      subst hs
      exact idle _ rfl rfl hq

theorem run_linked {ops : List (Nat × Op)} {s s' : State} (ho : Owned s) (h : Linked s)
    (hc : CarefulRun ops s) (hs : run ops s = some s') : Linked s' := by
  induction ops generalizing s with
  | nil => simp only [run, Option.some.injEq] at hs; subst hs; exact h
  | cons o l ih =>
    obtain ⟨p, o⟩ := o
    simp only [run, Option.bind_eq_some_iff] at hs
    obtain ⟨s1, h1, h2⟩ := hs
    exact ih (step_owned ho h1) (step_linked ho h hc.1 h1) (hc.2 s1 h1) h2

/-- C45, what does hold: at most one process has the lock in every execution in which no process
deletes the name of the lock file while another one is between `open` and `flock`. Missing: the other
executions, for which it does not hold. -/
theorem c45_exclusive_partial {ops : List (Nat × Op)} {s : State} (hc : CarefulRun ops init)
    (h : run ops init = some s) {p q : Nat} (hp : s.Holds p) (hq : s.Holds q) : p = q := by
  obtain ⟨f, hp⟩ := hp
  obtain ⟨g, hq⟩ := hq
  have hl := run_linked init_owned (by intro p f h; simp [init] at h) hc h
  have h1 := hl p f (Or.inr hp)
  have h2 := hl q g (Or.inr hq)
  rw [h1] at h2
  cases h2
  exact c45_same_file_partial h hp hq

/-- Files are only locked by processes which have the lock or are about to release it. -/
def Released (s : State) : Prop :=
  ∀ p f, s.lock f = some p → s.pc p = .holding f ∨ s.pc p = .unlinked f

theorem step_released {s s' : State} {p : Nat} {o : Op} (h : Released s)
    (hs : step s p o = some s') : Released s' := by
  intro q f hq
  have other : ∀ (s0 : State) (c : Pc), s0.lock = s.lock → s0.pc = update s.pc p c →
      (∀ f, s.pc p ≠ .holding f ∧ s.pc p ≠ .unlinked f) → s0.lock f = some q →
      s0.pc q = .holding f ∨ s0.pc q = .unlinked f := by
    intro s0 c hl hpc hne hq
    rw [hl] at hq
    have h1 := h q f hq
    rw [hpc]
    simp only [update]
    split
    · subst_vars
      rcases h1 with h1 | h1
      · exact absurd h1 (hne f).1
      · exact absurd h1 (hne f).2
    · exact h1
  have freed : ∀ (s0 : State) (g : Nat), s0.lock = update s.lock g none →
      s0.pc = update s.pc p .idle → (s.pc p = .holding g ∨ s.pc p = .unlinked g) →
      s0.lock f = some q → s0.pc q = .holding f ∨ s0.pc q = .unlinked f := by
    intro s0 g hl hpc hg hq
    rw [hl] at hq
    rw [hpc]
    simp only [update] at hq ⊢
    split at hq
    · cases hq
    · rename_i hfg
      have h1 := h q f hq
      split
      · subst_vars
        exfalso
        rcases hg with hg | hg <;> rw [hg] at h1 <;> rcases h1 with h1 | h1 <;> cases h1 <;>
          exact hfg rfl
      · exact h1
  cases o <;> simp only [step] at hs
  · simp only [openFile] at hs
    split at hs
    · rename_i hp
      split at hs
      all_goals
        simp only [Option.some.injEq] at hs
        subst hs
        exact other _ _ rfl rfl (by simp [hp]) hq
    · simp at hs
  · simp only [flock] at hs
    split at hs
    · rename_i g hg
      split at hs
      · simp only [Option.some.injEq] at hs
        subst hs
        simp only [update] at hq ⊢
        by_cases hfg : f = g
        · subst hfg
          simp only [if_true, Option.some.injEq] at hq
          subst hq
          simp
        · rw [if_neg hfg] at hq
          have h1 := h q f hq
          by_cases hqp : q = p
          · subst hqp; rw [hg] at h1; simp at h1
          · rw [if_neg hqp]; exact h1
      · simp only [Option.some.injEq] at hs
        subst hs
        exact other _ _ rfl rfl (by simp [hg]) hq
    · simp at hs
  · simp only [unlink] at hs
    split at hs
    · rename_i g hg
      simp only [Option.some.injEq] at hs
      subst hs
      have h1 := h q f hq
      simp only [update]
      by_cases hqp : q = p
      · subst hqp
        rw [hg] at h1
        rcases h1 with h1 | h1 <;> cases h1
        simp
      · rw [if_neg hqp]; exact h1
    · simp at hs
  · simp only [close] at hs
    split at hs
    · rename_i g hg
      simp only [Option.some.injEq] at hs
      subst hs
      exact freed _ g rfl rfl (Or.inr hg) hq
    · simp at hs
  · simp only [stop] at hs
    split at hs
    · simp only [Option.some.injEq] at hs
      subst hs
      exact h q f hq
    · rename_i g hg
      simp only [Option.some.injEq] at hs
      subst hs
      exact other _ _ rfl rfl (by simp [hg]) hq
    · rename_i g hg
      simp only [Option.some.injEq] at hs
      subst hs
      exact freed _ g rfl rfl (Or.inl hg) hq
    · rename_i g hg
      simp only [Option.some.injEq] at hs
      subst hs
      exact freed _ g rfl rfl (Or.inr hg) hq

theorem run_released {ops : List (Nat × Op)} {s s' : State} (h : Released s)
    (hs : run ops s = some s') : Released s' := by
  induction ops generalizing s with
  | nil => simp only [run, Option.some.injEq] at hs; subst hs; exact h
  | cons o l ih =>
    obtain ⟨p, o⟩ := o
    simp only [run, Option.bind_eq_some_iff] at hs
    obtain ⟨s1, h1, h2⟩ := hs
    exact ih (step_released h h1) h2

/-- C45: no lock is left behind by processes which have stopped: when no other process has the lock
or is releasing it, a process which tries obtains the lock at once. -/
theorem c45_available {ops : List (Nat × Op)} {s : State} (h : run ops init = some s) {p : Nat}
    (hp : s.pc p = .idle) (ho : ∀ q f, s.pc q ≠ .holding f ∧ s.pc q ≠ .unlinked f) :
    ∃ s', run [(p, .openFile), (p, .flock)] s = some s' ∧ s'.Holds p := by
  have hr := run_released (s := init) (by intro p f h; simp [init] at h) h
  have hfree : ∀ f, s.lock f = none := by
    intro f
    cases hl : s.lock f with
    | none => rfl
    | some q =>
      rcases hr q f hl with h1 | h1
      · exact absurd h1 (ho q f).1
      · exact absurd h1 (ho q f).2
  cases hl : s.link with
  | some f =>
    refine ⟨⟨some f, s.next, update s.lock f (some p),
      update (update s.pc p (.opened f)) p (.holding f)⟩,
      by simp [run, step, openFile, flock, hp, hl, update, hfree], f, by simp [update]⟩
  | none =>
    refine ⟨⟨some s.next, s.next + 1, update s.lock s.next (some p),
      update (update s.pc p (.opened s.next)) p (.holding s.next)⟩,
      by simp [run, step, openFile, flock, hp, hl, update, hfree], s.next, by simp [update]⟩

example : ∃ s, run [(0, .openFile), (0, .flock), (0, .unlink), (0, .close), (1, .openFile),
    (1, .flock)] init = some s ∧ s.Holds 1 := ⟨_, rfl, 1, rfl⟩
example : CarefulRun [(0, .openFile), (0, .flock), (1, .stop)] init := by
  simp [CarefulRun, Careful]

end Verif.Lock
