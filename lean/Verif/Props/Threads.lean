import Verif.Lemmas.Threads
/-
C96: copies of vectors and tensors in different threads.
-/
namespace Verif.Threads

variable {α : Type}

/-- C96, for threads which share vectors only to read their elements: whatever the order of their steps, no thread
uses memory which has been released, and a thread which has finished has the values, and has read the elements,
which its own statements define. Between statements the counters are right, and there are no objects without a
variable. -/
theorem c96_threads_partial (s : St α) (shared : Nat → Nat → Prop) (sched : List Nat) (hs : Spec.Settled s)
    (hp : ∀ t, Spec.Private s t (shared t)) (hr : ∀ t, ∀ c ∈ (s.threads t).code, Spec.OnlyReads (shared t) c)
    (hc : ∀ t ∈ sched, (Spec.execAll (Spec.view s t) (s.threads t).code).isSome) :
    ∃ s', run s sched = .ok s' ∧
      (∀ t, Spec.Finished s' t → Spec.execAll (Spec.view s t) (s.threads t).code = some (Spec.view s' t)) ∧
      ((∀ t, (s'.threads t).todo = []) → Spec.Settled s') := by
  have halone : ∀ t, (Spec.execAll (Spec.view s t) (s.threads t).code).isSome → ∀ n,
      ∃ r, run s (List.replicate n t) = .ok r ∧ Ends s r := by
    intro t ht n
    refine atomic_run n _ (by simp) s hs ?_ (atomic_replicate t n s fun u _ => hs.idle u)
    intro u hu
    rw [List.eq_of_mem_replicate hu]
    exact ht
  obtain ⟨s', hrun, hall⟩ := run_local shared sched s (fun _ => s) (fun t => ⟨rfl, rfl, rfl⟩)
    (fun t => ⟨hp t, hr t, fun x hx => by rw [hs.idle t] at hx; simp at hx⟩)
    (fun t ht n => (halone t (hc t ht) n).imp fun _ h => h.1)
  -- the thread alone
  have hends : ∀ t, ∃ r, Same t r s' ∧ Guard t (shared t) (r.threads t) ∧ Ends s r ∧
      (∀ u, u ≠ t → r.threads u = s.threads u) ∧ ∀ v, shared t v → (r.threads t).vars v = (s.threads t).vars v := by
    intro t
    obtain ⟨r, h1, h2, h3, h4⟩ := hall t
    refine ⟨r, h2, h3, ?_, run_replicate_other t _ s r h1, h4⟩
    by_cases ht : t ∈ sched
    · obtain ⟨r', hr1, hr2⟩ := halone t (hc t ht) (sched.count t)
      rw [hr1] at h1
      cases h1
      exact hr2
    · rw [List.count_eq_zero_of_not_mem ht] at h1
      cases h1
      exact ends_refl hs
  have hidle : ∀ (t : Nat) (r : St α), (∀ u, u ≠ t → r.threads u = s.threads u) → (r.threads t).todo = [] →
      ∀ u, (r.threads u).todo = [] := by
    intro t r h1 h2 u
    by_cases hu : u = t
    · rw [hu]; exact h2
    · rw [h1 u hu]; exact hs.idle u
  have hval : ∀ (t : Nat) (r : St α), Same t r s' → Guard t (shared t) (r.threads t) → Spec.value s' t = Spec.value r t := by
    intro t r h1 h2
    funext v
    unfold Spec.value
    rw [← h1.thread]
    cases hv : (r.threads t).vars v with
    | none => rfl
    | some p =>
      have := h2.vars v p hv
      have hp : p.1 = 0 ∨ p.1 = t + 1 := by
        by_cases hsh : shared t v
        · exact .inl (this.1 hsh)
        · exact .inr (this.2 hsh)
      simp only [Option.bind_some, h1.mem hp]
  refine ⟨s', hrun, ?_, ?_⟩
  · intro t hf
    obtain ⟨r, h1, h2, h3, h4, _⟩ := hends t
    have hf' : Spec.Finished r t := by
      unfold Spec.Finished
      rw [h1.thread]; exact hf
    have := h3.rest (hidle t r h4 hf'.2) t
    rw [hf'.1] at this
    rw [← this]
    unfold Spec.execAll Spec.view
    rw [hval t r h1 h2, h1.thread]
  · intro hid
    have hset : ∀ t, ∃ r, Same t r s' ∧ Guard t (shared t) (r.threads t) ∧ Spec.Settled r ∧
        (∀ u, u ≠ t → r.threads u = s.threads u) ∧ ∀ v, shared t v → (r.threads t).vars v = (s.threads t).vars v := by
      intro t
      obtain ⟨r, h1, h2, h3, h4, h5⟩ := hends t
      exact ⟨r, h1, h2, h3.settled (hidle t r h4 (by rw [h1.thread]; exact hid t)), h4, h5⟩
    -- the objects of the variables
    have hown : ∀ t v p, (s'.threads t).vars v = some p → (shared t v → p.1 = 0) ∧ (¬shared t v → p.1 = t + 1) := by
      intro t v p h
      obtain ⟨r, h1, h2, _⟩ := hset t
      rw [← h1.thread] at h
      exact h2.vars v p h
    have hmem0 : s'.mem 0 = s.mem 0 := by
      obtain ⟨r, h1, h2, _⟩ := hall (sched.sum + 1)
      have hn : sched.sum + 1 ∉ sched := fun h => by
        have : ∀ (l : List Nat) (x : Nat), x ∈ l → x ≤ l.sum := by
          intro l
          induction l with
          | nil => simp
          | cons y l ih =>
            intro x hx
            rcases List.mem_cons.1 hx with e | e
            · subst e; simp
            · have := ih x e
              rw [List.sum_cons]; omega
        have := this _ _ h
        omega
      rw [List.count_eq_zero_of_not_mem hn] at h1
      cases h1
      exact h2.shared.symm
    refine ⟨hid, ?_, ?_, ?_⟩
    · intro t v p hv
      obtain ⟨r, h1, h2, h3, _⟩ := hset t
      have hv' : (r.threads t).vars v = some p := by rw [h1.thread]; exact hv
      have hp' : p.1 = 0 ∨ p.1 = t + 1 := by
        by_cases hsh : shared t v
        · exact .inl ((hown t v p hv).1 hsh)
        · exact .inr ((hown t v p hv).2 hsh)
      rw [← h1.mem hp']
      exact h3.live t v p hv'
    · intro p o ho
      obtain ⟨a, b⟩ := p
      cases a with
      | zero =>
        simp only [hmem0] at ho
        obtain ⟨H, hne, hcard, hH⟩ := hs.counts (0, b) o ho
        refine ⟨H, hne, hcard, fun t v => ?_⟩
        rw [hH]
        obtain ⟨r, h1, h2, h3, h4, h5⟩ := hset t
        by_cases hsh : shared t v
        · rw [← h1.thread, h5 v hsh]
        · constructor
          · intro h
            have := (hp t v _ h).2 hsh
            simp at this
          · intro h
            have := (hown t v _ h).2 hsh
            simp at this
      | succ t =>
        obtain ⟨r, h1, h2, h3, h4, h5⟩ := hset t
        have ho' : r.mem (t + 1) b = some o := by rw [h1.own]; exact ho
        obtain ⟨H, hne, hcard, hH⟩ := h3.counts (t + 1, b) o ho'
        refine ⟨H, hne, hcard, fun u v => ?_⟩
        rw [hH]
        by_cases hu : u = t
        · subst hu
          rw [h1.thread]
        · have hno : ∀ {w : Thread α}, (∀ v p, w.vars v = some p → (shared u v → p.1 = 0) ∧ (¬shared u v → p.1 = u + 1)) →
              w.vars v ≠ some (t + 1, b) := by
            intro w hw h
            by_cases hsh : shared u v
            · have := (hw v _ h).1 hsh
              simp at this
            · have := (hw v _ h).2 hsh
              simp at this
              omega
          rw [h4 u hu]
          exact ⟨fun h => absurd h (hno (hp u)), fun h => absurd h (hno (hown u))⟩
    · intro t n hn
      obtain ⟨r, h1, h2, h3, _⟩ := hset t
      rw [← h1.own]
      refine h3.fresh t n ?_
      rw [h1.thread]
      exact hn

/-- C96, for threads which share vectors in any way, if a thread in the middle of a statement is not interrupted by
others, for instance because of a lock. -/
theorem c96_atomic (s : St α) (sched : List Nat) (hs : Spec.Settled s) (ha : Spec.Atomic s sched)
    (hc : ∀ t ∈ sched, (Spec.execAll (Spec.view s t) (s.threads t).code).isSome) :
    ∃ s', run s sched = .ok s' ∧
      (∀ t, Spec.Finished s' t →
        (Spec.execAll (Spec.view s t) (s.threads t).code).map (·.out) = some (s'.threads t).out) ∧
      ((∀ t, (s'.threads t).todo = []) → Spec.Settled s' ∧
        ∀ t, (s'.threads t).code = [] → Spec.execAll (Spec.view s t) (s.threads t).code = some (Spec.view s' t)) := by
  obtain ⟨s', h1, h2⟩ := atomic_run _ sched (le_refl _) s hs hc ha
  refine ⟨s', h1, h2.out, fun h => ⟨h2.settled h, fun t ht => ?_⟩⟩
  rw [← h2.rest h t, ht]
  rfl

/-! ### Threads which copy or destroy shared vectors -/

/-- Two threads: `x` in the first one, `y` in the second are copies of the vector with one element, 5. -/
def two (code0 code1 : List (Stmt Nat)) : St Nat :=
  { mem := fun a b => if a = 0 ∧ b = 0 then some ⟨2, [5]⟩ else none
    threads := fun t =>
      if t = 0 then start code0 (fun v => if v = 0 then some (0, 0) else none)
      else if t = 1 then start code1 (fun v => if v = 0 then some (0, 0) else none)
      else start [] fun _ => none }

theorem two_settled (code0 code1 : List (Stmt Nat)) : Spec.Settled (two code0 code1) := by
  refine ⟨?_, ?_, ?_, ?_⟩
  · intro t
    by_cases h0 : t = 0
    · simp [two, start, h0]
    · by_cases h1 : t = 1 <;> simp [two, start, h0, h1]
  · intro t v p h
    have hp : p = (0, 0) := by
      by_cases h0 : t = 0
      · simp [two, start, h0] at h
        exact h.2.symm
      · by_cases h1 : t = 1
        · simp [two, start, h1] at h
          exact h.2.symm
        · simp [two, start, h0, h1] at h
    subst hp
    simp [two]
  · intro p o ho
    have hp : p = (0, 0) ∧ o = ⟨2, [5]⟩ := by
      simp [two] at ho
      exact ⟨Prod.ext ho.1.1 ho.1.2, ho.2.symm⟩
    obtain ⟨h1, h2⟩ := hp
    subst h1 h2
    refine ⟨{(0, 0), (1, 0)}, by simp, by decide, fun t v => ?_⟩
    by_cases h0 : t = 0
    · subst h0; simp [two, start]
    · by_cases h1 : t = 1
      · subst h1; simp [two, start]
      · simp [two, start, h0, h1]
  · intro t n _
    simp [two]

/-- What the program does, from the state `two`. -/
def outcome (code0 code1 : List (Stmt Nat)) (sched : List Nat) : Res (List Nat × List Nat × Option (Obj Nat)) := do
  let s ← run (two code0 code1) sched
  pure ((s.threads 0).out, (s.threads 1).out, s.mem 0 0)

/-- What a thread of the state `two` reads, if its variables have values of their own. -/
def expected (code : List (Stmt Nat)) : Option (List Nat) :=
  (Spec.execAll ⟨fun v => if v = 0 then some [5] else none, []⟩ code).map (·.out)

theorem two_view (code0 code1 : List (Stmt Nat)) :
    (Spec.execAll (Spec.view (two code0 code1) 0) ((two code0 code1).threads 0).code).map (·.out) = expected code0 ∧
    (Spec.execAll (Spec.view (two code0 code1) 1) ((two code0 code1).threads 1).code).map (·.out) = expected code1 := by
  have h : ∀ t, t < 2 → Spec.view (two code0 code1) t = ⟨fun v => if v = 0 then some [5] else none, []⟩ := by
    intro t ht
    have hv : Spec.value (two code0 code1) t = fun v => if v = 0 then some [5] else none := by
      funext v
      obtain rfl | rfl : t = 0 ∨ t = 1 := by omega
      all_goals by_cases h0 : v = 0 <;> simp [Spec.value, two, start, h0]
    rw [Spec.view, hv]
    obtain rfl | rfl : t = 0 ∨ t = 1 := by omega
    all_goals rfl
  rw [h 0 (by omega), h 1 (by omega)]
  exact ⟨rfl, rfl⟩

/-- C96 is false of the code in general: two threads destroy their copies, and the memory is never released. -/
theorem c96_negation_leak : ∃ s, run (two [.destroy 0] [.destroy 0]) [0, 1, 0, 1, 0, 1, 0, 1, 0, 1] = .ok s ∧
    (∀ t, Spec.Finished s t) ∧ (∀ t v, (s.threads t).vars v = none) ∧ s.mem 0 0 = some ⟨1, [5]⟩ := by
  refine ⟨_, rfl, fun t => ?_, fun t v => ?_, rfl⟩
  · rcases t with _ | _ | t
    · exact ⟨rfl, rfl⟩
    · exact ⟨rfl, rfl⟩
    · exact ⟨rfl, rfl⟩
  · rcases t with _ | _ | t
    · rcases v with _ | v <;> rfl
    · rcases v with _ | v <;> rfl
    · rfl

/-- C96 is false of the code in general: two threads copy their vectors, and one of them later uses memory which
has been released, which is undefined. The program of each thread is right. -/
theorem c96_negation_released :
    outcome [.copy 1 0, .destroy 1, .destroy 0] [.copy 1 0, .destroy 1, .read 0 0]
      ([0, 1, 0, 1, 0, 1, 0, 1] ++ List.replicate 10 0 ++ List.replicate 7 1) = .ub ∧
    expected [.copy 1 0, .destroy 1, .destroy 0] = some [] ∧
    expected [.copy 1 0, .destroy 1, .read 0 0] = some [5] :=
  ⟨by decide, by decide, by decide⟩

/-- C96 is false of the code in general: after two threads have copied their vectors, a write to a copy in the
second thread also changes the original of that thread, which reads 7 instead of 5. -/
theorem c96_negation_aliasing :
    outcome [.copy 1 0, .destroy 1, .destroy 0] [.copy 1 0, .write 1 0 7, .read 0 0]
      ([0, 1, 0, 1, 0, 1, 0, 1] ++ List.replicate 10 0 ++ List.replicate 6 1) = .ok ([], [7], some ⟨1, [7]⟩) ∧
    expected [.copy 1 0, .write 1 0 7, .read 0 0] = some [5] :=
  ⟨by decide, by decide⟩

/-! ### Examples -/

/-- Both threads read the shared vector, and the first one has also vectors of its own. -/
example : ∃ s', run (two [.read 0 0, .new 1 [1, 2], .copy 2 1, .write 2 0 3, .read 1 0, .read 2 0] [.read 0 0])
      ([0, 1, 0, 1] ++ List.replicate 30 0) = .ok s' ∧ (s'.threads 0).out = [5, 1, 3] := by
  obtain ⟨s', h1, h2, _⟩ := c96_threads_partial
    (two [.read 0 0, .new 1 [1, 2], .copy 2 1, .write 2 0 3, .read 1 0, .read 2 0] [.read 0 0]) (fun _ v => v = 0)
    ([0, 1, 0, 1] ++ List.replicate 30 0) (two_settled _ _)
    (by
      intro t v p h
      rcases t with _ | _ | t
      · by_cases hv : v = 0 <;> simp [two, start, hv] at h ⊢
        rw [← h]
      · by_cases hv : v = 0 <;> simp [two, start, hv] at h ⊢
        rw [← h]
      · simp [two, start] at h)
    (by
      intro t c hc
      rcases t with _ | _ | t <;> simp [two, start] at hc
      · rcases hc with e | e | e | e | e | e <;> subst e <;> simp [Spec.OnlyReads]
      · subst hc; simp [Spec.OnlyReads])
    (by
      intro t ht
      simp at ht
      obtain rfl | rfl : t = 0 ∨ t = 1 := by omega
      all_goals decide)
  refine ⟨s', h1, ?_⟩
  have : outcome [.read 0 0, .new 1 [1, 2], .copy 2 1, .write 2 0 3, .read 1 0, .read 2 0] [.read 0 0]
      ([0, 1, 0, 1] ++ List.replicate 30 0) = .ok ([5, 1, 3], [5], some ⟨2, [5]⟩) := by decide
  unfold outcome at this
  rw [h1] at this
  simp at this
  exact this.1

/-- The second thread writes to its copy of the shared vector, without interruption. -/
example : ∃ s', run (two [.read 0 0] [.write 0 0 8, .read 0 0]) (List.replicate 10 1) = .ok s' ∧
    (Spec.Finished s' 1 → some (s'.threads 1).out = expected [.write 0 0 8, .read 0 0]) := by
  have hc : ∀ t ∈ List.replicate 10 1, (Spec.execAll (Spec.view (two [.read 0 0] [.write 0 0 8, .read 0 0]) t)
      ((two [.read 0 0] [.write 0 0 8, .read 0 0]).threads t).code).isSome := by
    intro t ht
    rw [List.eq_of_mem_replicate ht]
    decide
  obtain ⟨s', h1, h2, _⟩ := c96_atomic (two [.read 0 0] [.write 0 0 8, .read 0 0]) (List.replicate 10 1)
    (two_settled _ _) (atomic_replicate 1 _ _ fun u _ => (two_settled _ _).idle u) hc
  refine ⟨s', h1, fun hf => ?_⟩
  rw [← h2 1 hf, (two_view _ _).2]

example : expected [.write 0 0 8, .read 0 0] = some [8] := by decide

end Verif.Threads
