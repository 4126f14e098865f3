import Verif.Lemmas.ViewHeap
/-
C97: ranges and views kept in variables.
-/
namespace Verif.ViewHeap

open Verif
open Spec (Sim)

variable {α : Type}

/-- C97. If each range is used for one view, variables are used while they exist, and mutable views while their tensor
keeps its dimensions (`Spec.run` is defined), a program does what its statements say: a view is the slice of the
tensor as it was when the view was made, however often it is used and whatever happens to the tensor; an assignment
to a mutable view is an assignment to the slice. No range object is used after it was deleted, and when all ranges
have been used and all views have ended, none is left in memory. Missing: the other programs, see the negations. -/
theorem c97_views_partial (n : Nat) (prog : List (Stmt α)) (r : Run (Spec.St α))
    (h : Spec.run n Spec.start prog = some r) :
    Sim (fun s a => s.tensors = a.tensors ∧ s.out = a.out ∧
        ((∀ k, a.ranges k = none) → (∀ v, a.views v = none) → (∀ w, a.mviews w = none) →
          ∀ p, s.heap.cells p = none))
      (run n start prog) r := by
  refine Sim.mono (sim_run n prog rel_start h) ?_
  intro s a hr
  refine ⟨hr.tensors, hr.out, fun h1 h2 h3 p => ?_⟩
  refine Classical.not_not.1 fun hp => ?_
  obtain ⟨o, ho⟩ := (hr.live p).1 hp
  cases o with
  | range k =>
    rw [Owns, h1 k] at ho
    simp at ho
  | view v =>
    have := hr.views v
    rw [h2 v] at this
    rw [Owns, this.none] at ho
    simp at ho
  | mview w =>
    have := hr.mviews w
    rw [h3 w] at this
    rw [Owns, this.none] at ho
    simp at ho

/-- A program with two views at the same time, an assignment and a change of the tensor. -/
def sample : List (Stmt Int) :=
  [.tensor 0 ⟨[2, 2], [1, 2, 3, 4]⟩, .range 0 .all, .range 1 (.single 1), .view 0 0 [0, 1],
    .range 2 (.single 0), .range 3 .all, .mview 0 0 [2, 3], .number 0 7, .convert 0, .assignView 0 0, .endMView 0,
    .convert 0, .endView 0]

/-- What can be seen of the result of a program. -/
def seen : Run (St Int) → Option (Option (Tensor Int) × List (List Int × List Int))
  | .done (.ok s) => some (s.tensors 0, s.out)
  | _ => none

def seen' : Option (Run (Spec.St Int)) → Option (Option (Tensor Int) × List (List Int × List Int))
  | some (.done (.ok s)) => some (s.tensors 0, s.out)
  | _ => none

example : seen' (Spec.run 20 Spec.start sample) = some (some ⟨[2, 2], [3, 2, 4, 4]⟩, [([2, 1], [3, 4]), ([2, 1], [3, 4])]) := by
  decide

example : seen (run 20 start sample) = some (some ⟨[2, 2], [3, 2, 4, 4]⟩, [([2, 1], [3, 4]), ([2, 1], [3, 4])]) := by
  decide

/-- C97. A view is a slice of the tensor as it was: assigning to the tensor does not change it. -/
theorem c97_snapshot (n : Nat) (x y : Tensor α) (spec : View.Spec) :
    Sim (fun s z => s.out = [z])
      (run n start [.tensor 0 x, .range 0 spec, .view 0 0 [0], .tensor 0 y, .endTensor 0, .convert 0])
      (View.slice n x [spec]) := by
  have key : ∃ f : List Int × List α → Spec.St α, (∀ z, (f z).out = [z]) ∧
      Spec.run n Spec.start [.tensor 0 x, .range 0 spec, .view 0 0 [0], .tensor 0 y, .endTensor 0, .convert 0] =
        some (View.slice n x [spec] >>= fun z => pure (f z)) := by
    refine ⟨fun z => ⟨upd (upd (upd (fun _ => none) 0 (some x)) 0 (some y)) 0 none,
      Spec.use ⟨upd (fun _ => none) 0 (some x), upd (fun _ => none) 0 (some spec), fun _ => none, fun _ => none, []⟩ [0],
      upd (fun _ => none) 0 (some (x, [spec])), fun _ => none, [z]⟩, fun _ => rfl, ?_⟩
    cases hm : View.mkView x [spec] with
    | ok z =>
      cases hs : View.slice n x [spec] with
      | out => simp [Spec.run, Spec.step, Spec.start, Spec.specs, hm, hs, upd]
      | done q =>
        cases q <;> simp [Spec.run, Spec.step, Spec.start, Spec.specs, hm, hs, upd] <;> rfl
    | abort =>
      have hs : View.slice n x [spec] = .done .abort := by simp only [View.slice, hm]; rfl
      rw [hs]
      simp [Spec.run, Spec.step, Spec.start, Spec.specs, hm, upd]
    | ub =>
      have hs : View.slice n x [spec] = .done .ub := by simp only [View.slice, hm]; rfl
      rw [hs]
      simp [Spec.run, Spec.step, Spec.start, Spec.specs, hm, upd]
  obtain ⟨f, hf, h⟩ := key
  have hs := sim_run n _ rel_start h
  clear h
  generalize run n start [.tensor 0 x, .range 0 spec, .view 0 0 [0], .tensor 0 y, .endTensor 0, .convert 0] = X at hs ⊢
  generalize View.slice n x [spec] = Y at hs ⊢
  rcases X with _ | (s | _ | _) <;> rcases Y with _ | (z | _ | _) <;>
    first | trivial | exact (hs : False).elim | skip
  have hr : Rel s (f z) := hs
  show s.out = [z]
  rw [hr.out, hf]

/-- C97. A range which is kept in a variable can not be used for a second slice when the first one has ended. -/
theorem c97_negation_reused (n : Nat) (x : Tensor α) :
    run n start [.tensor 0 x, .range 0 .all, .view 0 0 [0], .endView 0, .view 1 0 [0]] = .done .ub := by
  simp [run, step, mkView, setLimits, sizes, build, destroy, vars, var, start, upd, Heap.get, Heap.set, Res.ofOption,
    View.Spec.new, View.Leaf.setLimit, View.Leaf.size, Res.assert]

/-- C97. Nor while the first one exists: the range is deleted twice. -/
theorem c97_negation_twice (n : Nat) (x : Tensor α) :
    run n start [.tensor 0 x, .range 0 .all, .view 0 0 [0], .view 1 0 [0], .endView 0, .endView 1] = .done .ub := by
  simp [run, step, mkView, setLimits, sizes, build, destroy, vars, var, start, upd, Heap.get, Heap.set, Res.ofOption,
    View.Spec.new, View.Leaf.setLimit, View.Leaf.size, Res.assert]

/-- C97. Nor twice for one slice, `t(r, r)`. -/
theorem c97_negation_same (n : Nat) (a b : Nat) (data : List α) :
    run n start [.tensor 0 ⟨[a, b], data⟩, .range 0 .all, .view 0 0 [0, 0], .endView 0] = .done .ub := by
  simp [run, step, mkView, setLimits, sizes, build, mkProduct, setFactor, destroy, vars, var, start, upd, Heap.get,
    Heap.set, Res.ofOption, View.Spec.new, View.Leaf.setLimit, View.Leaf.size, View.Leaf.setFactor, View.Leaf.limit,
    View.Leaf.factor, Res.assert]

/-- C97. A range which is used for a second tensor also changes the first view: here two of its four elements are
never written. -/
theorem c97_negation_shared :
    run 20 start [.tensor 0 (⟨[4], [1, 2, 3, 4]⟩ : Tensor Int), .tensor 1 ⟨[2], [5, 6]⟩, .range 0 .all, .view 0 0 [0],
      .view 1 1 [0], .convert 0] = .done .ub := by
  rfl

/-- C97. A range which is never used is never deleted. -/
theorem c97_negation_leak (n : Nat) (x : View.Spec) :
    ∃ s : St α, run n start [.range 0 x] = .done (.ok s) ∧ s.views = (fun _ => none) ∧ s.mviews = (fun _ => none) ∧
      ∃ p, s.heap.cells p ≠ none :=
  ⟨_, rfl, rfl, rfl, 0, by simp [start, upd]⟩

/-- C97. A mutable view refers to the variable, not to the elements: after an assignment of a smaller tensor,
writing to it is out of bounds. -/
theorem c97_negation_resized :
    run 20 start [.tensor 0 (⟨[4], [1, 2, 3, 4]⟩ : Tensor Int), .range 0 .all, .mview 0 0 [0], .tensor 0 ⟨[2], [5, 6]⟩,
      .number 0 7] = .done .ub := by
  rfl

/-- C97. A mutable view can not be used after the end of the tensor. -/
theorem c97_negation_ended (n : Nat) (x : Tensor α) (y : α) :
    run n start [.tensor 0 x, .range 0 .all, .mview 0 0 [0], .endTensor 0, .number 0 y] = .done .ub := by
  simp [run, step, mkView, setLimits, sizes, build, vars, var, start, upd, Heap.get, Heap.set, Res.ofOption,
    View.Spec.new, View.Leaf.setLimit, View.Leaf.size, Res.assert]

end Verif.ViewHeap
