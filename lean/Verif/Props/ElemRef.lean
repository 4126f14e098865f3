import Verif.Lemmas.ElemRef
/-
Property C99: pointers, references and iterators to elements which are kept in variables.
-/
namespace Verif.ElemRef

open Verif RefCount

variable {α : Type}

/-- **C99 (partial).** Every program which keeps to the rules of Spec/ElemRef.lean runs without abort or undefined
behaviour, and gives the same observations as if a pointer were the name of an element of a vector and vectors were
independent values. Missing: programs which break the rules, for which see the negations below; the position after
the last element; and pointers of the caller into an array which was handed to a vector. -/
theorem c99_references_partial (ext : List (List (Option α))) (cs : List (Stmt α)) (a : Spec.ASt α)
    (os : List (Out α)) (h : Spec.run (Spec.init ext) cs = some (a, os)) : ∃ s, run (init ext) cs = .ok (s, os) := by
  obtain ⟨s, e, -⟩ := run_sim (sim_init ext) cs h
  exact ⟨s, e⟩

/-- A program which keeps to the rules: a vector is written through two pointers to its elements while another one is
changed, it is copied, the pointer is read and a new one is used for writing; the copy does not change. -/
example : ∃ a, Spec.run (Spec.init [])
    [.op (.newSize 2), .op (.newSize 1), .at 0 0 0, .at 1 0 1, .set 0 (4 : Nat), .op (.write 1 0 9), .set 1 5,
     .op (.copy 0), .get 0, .at 2 0 0, .set 2 6, .op (.read 0 0), .op (.read 2 0), .cat 3 2 1, .get 3,
     .op (.destroy 0), .get 3] =
    some (a, [.unit, .unit, .unit, .unit, .unit, .unit, .unit, .unit, .val (some 4), .unit, .unit, .val (some 6),
      .val (some 4), .unit, .val (some 5), .unit, .val (some 5)]) := ⟨_, rfl⟩

/-- **C99**, an element assigned to another one, `h.at(j) = g[i]`: whichever vectors `g` and `h` are, and whichever
copies of them exist, the reference to the element of `g` is still good after `h.at(j)`, and what is read is the
element of `g` before; the program goes on with vectors where only that element of `h` has changed. (This matters for complex numbers, whose assignment takes a reference.) -/
theorem c99_assign_element (ext : List (List (Option α))) (cs : List (Stmt α)) (a : Spec.ASt α) (os : List (Out α))
    (h : Spec.run (Spec.init ext) cs = some (a, os)) (g t i j n m : Nat) (hnm : n ≠ m) (l l' : List (Option α))
    (hl : a.vecs.vals[g]?.join = some l) (hl' : a.vecs.vals[t]?.join = some l') (x : α)
    (hi : l[i]? = some (some x)) (hj : j < l'.length) :
    ∃ s, run (init ext) (cs ++ [.cat n g i, .at m t j, .get n, .set m x]) =
      .ok (s, os ++ [.unit, .unit, .val (some x), .unit]) ∧
      ∀ cs' a' os', Spec.run ⟨⟨a.vecs.vals.set t (some (l'.set j (some x))), a.vecs.ext⟩, fun _ => none⟩ cs' =
        some (a', os') → ∃ s', run s cs' = .ok (s', os') := by
  obtain ⟨s, e, r⟩ := run_sim (sim_init ext) cs h
  have hil : i < l.length := (List.getElem?_eq_some_iff.1 hi).1
  -- the constant reference
  have h1 : Spec.step a (.cat n g i) = some (⟨a.vecs, upd a.refs n (some (g, i, false))⟩, .unit) := by
    simp [Spec.step, hl, hil]
  obtain ⟨s1, e1, r1⟩ := step_sim r _ h1
  obtain ⟨b, c, hr1, ⟨p, P, hp, hP, hPb, -, -⟩, -⟩ := r1.refs n g i false (by simp)
  obtain ⟨p', hp', -, hcont⟩ := handle_of_vals r1.rel hl
  rw [hp] at hp'
  cases hp'
  have hb : s1.mem.blks b = some l := by
    subst hPb
    simpa [content, hP] using hcont
  -- the element to be written
  have h2 : Spec.step ⟨a.vecs, upd a.refs n (some (g, i, false))⟩ (.at m t j) =
      some (⟨a.vecs, upd (Spec.killRead (upd a.refs n (some (g, i, false))) t) m (some (t, j, true))⟩,
        (.unit : Out α)) := by
    simp [Spec.step, hl', hj]
  obtain ⟨s2, e2, r2⟩ := step_sim r1 _ h2
  -- the reference is still good
  have hb2 : s2.mem.blks b = some l ∧ s2.refs n = some (b, i, c) := by
    simp only [step] at e2
    cases ha : appropriate s1.mem t with
    | ub => simp [ha] at e2
    | abort => simp [ha] at e2
    | ok x =>
      simp only [ha, Res.ok_bind] at e2
      cases hd : addr x.1 x.2 j with
      | ub => simp [hd] at e2
      | abort => simp [hd] at e2
      | ok y =>
        simp only [hd, Res.ok_bind, Res.pure_eq, Res.ok.injEq, Prod.mk.injEq, and_true] at e2
        subst e2
        exact ⟨appropriate_blks r1.rel ha hb, by simp [upd_ne _ _ hnm, hr1]⟩
  have e3 : step s2 (.get n) = .ok (s2, .val (some x)) := by
    simp [step, hb2.2, getBlk, hb2.1, hi]
  have h4 : Spec.step ⟨a.vecs, upd (Spec.killRead (upd a.refs n (some (g, i, false))) t) m (some (t, j, true))⟩
      (.set m x) =
      some (⟨{ a.vecs with vals := a.vecs.vals.set t (some (l'.set j (some x))) },
        upd (Spec.killRead (upd a.refs n (some (g, i, false))) t) m (some (t, j, true))⟩, (.unit : Out α)) := by
    simp [Spec.step, hl']
  obtain ⟨s4, e4, r4⟩ := step_sim r2 _ h4
  refine ⟨s4, ?_, fun cs' a' os' h' => ?_⟩
  rotate_left
  · have r5 : Sim s4 ⟨⟨a.vecs.vals.set t (some (l'.set j (some x))), a.vecs.ext⟩, fun _ => none⟩ ext.length :=
      ⟨r4.rel, by simp⟩
    obtain ⟨s', e', -⟩ := run_sim r5 cs' h'
    exact ⟨s', e'⟩
  have app : ∀ (xs ys : List (Stmt α)) (s0 s1 s2 : St α) (o1 o2 : List (Out α)), run s0 xs = .ok (s1, o1) →
      run s1 ys = .ok (s2, o2) → run s0 (xs ++ ys) = .ok (s2, o1 ++ o2) := by
    intro xs
    induction xs with
    | nil =>
      intro ys s0 s1 s2 o1 o2 h1 h2
      simp only [run, Res.ok.injEq, Prod.mk.injEq] at h1
      obtain ⟨rfl, rfl⟩ := h1
      simpa using h2
    | cons x xs ih =>
      intro ys s0 s1 s2 o1 o2 h1 h2
      simp only [run] at h1
      cases hx : step s0 x with
      | ub => simp [hx] at h1
      | abort => simp [hx] at h1
      | ok y =>
        simp only [hx, Res.ok_bind] at h1
        cases hy : run y.1 xs with
        | ub => simp [hy] at h1
        | abort => simp [hy] at h1
        | ok z =>
          simp only [hy, Res.ok_bind, Res.pure_eq, Res.ok.injEq, Prod.mk.injEq] at h1
          obtain ⟨rfl, rfl⟩ := h1
          have := ih ys y.1 z.1 s2 z.2 o2 hy h2
          simp [run, hx, this]
  refine app cs _ _ s s4 os _ e ?_
  simp [run, e1, e2, e3, e4]

/-- The hypotheses are met by `t.at(1) = t[0]` while there is a copy of `t`. -/
example : ∃ a, Spec.run (Spec.init []) [.op (.newSize 2), .op (.write 0 0 (4 : Nat)), .op (.copy 0)] =
      some (a, [.unit, .unit, .unit]) ∧ a.vecs.vals[0]?.join = some [some 4, none] := ⟨_, rfl, rfl⟩

/-- **C99, negation.** Without the rules it is not true. A pointer from `at` which is used for writing after the vector
has been copied changes the copy, too: `double &x = t.at(0); x = 4; u = t; x = v;` and `u[0]` is `v`, whatever `v`. -/
theorem c99_negation_write_after_copy (v : α) (w : α) : ∃ s, run (init [])
    [.op (.newSize 1), .at 0 0 0, .set 0 w, .op (.copy 0), .set 0 v, .op (.read 1 0)] =
      .ok (s, [.unit, .unit, .unit, .unit, .unit, .val (some v)]) := ⟨_, rfl⟩

/-- **C99, negation.** A constant reference shows a later change of the element, or does not, and which one it is
depends on whether a copy of the vector exists: `t.at(0) = w; const double &x = t[0]; t.at(0) = v;` and `x` is `v`,
but if a copy has been made before, `x` is `w`. -/
theorem c99_negation_constant_reference (v w : α) :
    (∃ s, run (init [])
      [.op (.newSize 1), .op (.write 0 0 w), .cat 0 0 0, .op (.write 0 0 v), .get 0] =
        .ok (s, [.unit, .unit, .unit, .unit, .val (some v)])) ∧
    (∃ s, run (init [])
      [.op (.newSize 1), .op (.write 0 0 w), .op (.copy 0), .cat 0 0 0, .op (.write 0 0 v), .get 0] =
        .ok (s, [.unit, .unit, .unit, .unit, .unit, .val (some w)])) := ⟨⟨_, rfl⟩, ⟨_, rfl⟩⟩

/-- **C99, negation.** A constant reference into a vector which still exists and has its size can refer to memory
which has been released: a copy exists, the vector is written to, the copy is destroyed. The same with an iterator
of a constant vector, and if only `begin` of the vector is called. -/
theorem c99_negation_dangling (v w : α) :
    run (init [])
      [.op (.newSize 1), .op (.write 0 0 w), .op (.copy 0), .cat 0 0 0, .op (.write 0 0 v), .op (.destroy 1), .get 0] =
        .ub ∧
    run (init [])
      [.op (.newSize 1), .op (.write 0 0 w), .op (.copy 0), .cat 0 0 0, .op (.touch 0), .op (.destroy 1), .get 0] =
        .ub := ⟨rfl, rfl⟩

/-- **C99, negation.** A pointer to an element of a vector is of no use after another vector of the same size has been
assigned to the vector (for a `std::vector` it would be), or after `resize` to the same size: reading it is undefined,
and so is writing. -/
theorem c99_negation_assignment (v w : α) :
    run (init []) [.op (.newSize 1), .op (.newSize 1), .op (.write 1 0 w), .at 0 0 0, .op (.assign 0 1), .get 0] = .ub ∧
    run (init []) [.op (.newSize 1), .op (.newSize 1), .op (.write 1 0 w), .at 0 0 0, .op (.assign 0 1), .set 0 v] =
      .ub ∧
    run (init []) [.op (.newSize 1), .op (.write 0 0 w), .at 0 0 0, .op (.resize 0 1), .get 0] = .ub :=
  ⟨rfl, rfl, rfl⟩

end Verif.ElemRef
