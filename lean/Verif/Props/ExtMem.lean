import Verif.Lemmas.ExtMem
/-
Property C100: vectors over arrays of the caller, `Vector(n, data)`.
-/
namespace Verif.ExtMem

open RefCount
open Verif.ExtMem.Spec (Val alone elems)

variable {α : Type}

/-- **C100 (partial).** Every program accepted by Spec/ExtMem.lean runs without abort or undefined behaviour and gives
the same observations: vectors are independent values, except for views, which are windows on the array; and a view
which has copies stops being one when it is written to. Missing: a view is not a window while it has copies, and a
copy of a view is not independent of the array, for which see the negations; vectors which begin in the middle of an
array. -/
theorem c100_views_partial (ext : List (List (Option α))) (cs : List (Stmt α)) (a : ExtMem.Spec.ASt α)
    (os : List (Out α)) (h : ExtMem.Spec.run (ExtMem.Spec.init ext) cs = some (a, os)) :
    ∃ s, run (init ext) cs = .ok (s, os) := by
  obtain ⟨s, e, -⟩ := run_sim (sim_init ext) cs h
  exact ⟨s, e⟩

/-- A view and the array show the same elements; another vector made from the view and resized is independent; the
array is still there when all vectors are destroyed. -/
example : ∃ a, ExtMem.Spec.run (ExtMem.Spec.init [[some 1, some 2, some (3 : Nat)]])
    [.op (.wrap 0 2), .op (.read 0 1), .poke 0 1 7, .op (.read 0 1), .op (.write 0 0 8), .peek 0 0, .op (.size 0),
     .op (.copy 0), .op (.resize 1 1), .op (.write 1 0 5), .op (.write 0 1 4), .peek 0 1, .op (.destroy 0),
     .op (.destroy 1), .peek 0 2, .free 0] =
    some (a, [.unit, .val (some 2), .unit, .val (some 7), .unit, .val (some 8), .num 2, .unit, .unit, .unit, .unit,
      .val (some 4), .unit, .unit, .val (some 3), .unit]) := ⟨_, rfl⟩

/-- **C100**, writing. After any program, what is written to a view without copies is in the array of the caller. -/
theorem c100_write_reaches_array (ext : List (List (Option α))) (cs : List (Stmt α)) (a : ExtMem.Spec.ASt α)
    (os : List (Out α)) (h : ExtMem.Spec.run (ExtMem.Spec.init ext) cs = some (a, os)) (v g b n i : Nat)
    (c : List (Option α)) (x : α) (hv : a.vals[v]? = some (some (.view g))) (hal : alone a (.view g) = true)
    (hg : a.grps[g]? = some (b, n)) (hb : a.ext[b]? = some (some c)) (hn : i < n) (hi : i < c.length) :
    ∃ s, run (init ext) (cs ++ [.op (.write v i x), .peek b i]) = .ok (s, os ++ [.unit, .val (some x)]) := by
  have hlt := (List.getElem?_eq_some_iff.1 hb).1
  have : ∃ a', ExtMem.Spec.run (ExtMem.Spec.init ext) (cs ++ [.op (.write v i x), .peek b i]) =
      some (a', os ++ [.unit, .val (some x)]) := by
    refine ⟨{ a with ext := a.ext.set b (some (c.set i (some x))) }, ?_⟩
    rw [spec_run_append, h]
    have hl : i < (c.take n).length := by
      simp
      omega
    have h1 : ExtMem.Spec.step a (.op (.write v i x)) =
        some ({ a with ext := a.ext.set b (some (c.set i (some x))) }, .unit) := by
      simp only [Spec.step, hv, Option.join_some, Option.bind_eq_bind, Option.bind_some, elems, hg, hb, if_pos hl, hal,
        if_true]
    simp only [Spec.run, h1, Option.bind_some, Option.bind_eq_bind]
    simp [Spec.step, hlt, hi]
  obtain ⟨a', h'⟩ := this
  exact c100_views_partial ext _ a' _ h'

/-- **C100**, reading. After any program, a view shows what the caller writes into the array, also if it has copies. -/
theorem c100_poke_reaches_view (ext : List (List (Option α))) (cs : List (Stmt α)) (a : ExtMem.Spec.ASt α)
    (os : List (Out α)) (h : ExtMem.Spec.run (ExtMem.Spec.init ext) cs = some (a, os)) (v g b n i : Nat)
    (c : List (Option α)) (x : α) (hv : a.vals[v]? = some (some (.view g)))
    (hg : a.grps[g]? = some (b, n)) (hb : a.ext[b]? = some (some c)) (hn : i < n) (hi : i < c.length) :
    ∃ s, run (init ext) (cs ++ [.poke b i x, .op (.read v i)]) = .ok (s, os ++ [.unit, .val (some x)]) := by
  have hlt := (List.getElem?_eq_some_iff.1 hb).1
  have : ∃ a', ExtMem.Spec.run (ExtMem.Spec.init ext) (cs ++ [.poke b i x, .op (.read v i)]) =
      some (a', os ++ [.unit, .val (some x)]) := by
    refine ⟨{ a with ext := a.ext.set b (some (c.set i (some x))) }, ?_⟩
    rw [spec_run_append, h]
    have h1 : ExtMem.Spec.step a (.poke b i x) =
        some ({ a with ext := a.ext.set b (some (c.set i (some x))) }, .unit) := by
      simp only [Spec.step, hb, Option.join_some, Option.bind_eq_bind, Option.bind_some, if_pos hi]
    simp only [Spec.run, h1, Option.bind_some, Option.bind_eq_bind]
    simp [Spec.step, hv, elems, hg, hlt, hn, hi]
  obtain ⟨a', h'⟩ := this
  exact c100_views_partial ext _ a' _ h'

/-- **C100**, ownership. No operation on vectors releases an array of the caller or makes it shorter: after any
program in which the caller does not release arrays, all their elements can be read, and the caller can release them.
-/
theorem c100_array_survives (ext : List (List (Option α))) (cs : List (Stmt α)) (a : ExtMem.Spec.ASt α)
    (os : List (Out α)) (h : ExtMem.Spec.run (ExtMem.Spec.init ext) cs = some (a, os)) (hf : ∀ b, .free b ∉ cs)
    (b i : Nat) (c : List (Option α)) (hc : ext[b]? = some c) (hi : i < c.length) :
    ∃ s x, run (init ext) (cs ++ [.peek b i, .free b]) = .ok (s, os ++ [.val x, .unit]) := by
  have hsz := sizes_run h hf
  have hb : (sizes a)[b]? = some (some c.length) := by
    rw [hsz]
    simp [sizes, Spec.init, hc]
  simp only [sizes, List.getElem?_map, Option.map_eq_some_iff] at hb
  obtain ⟨o, ho, c', rfl, hc'⟩ := hb
  have hi' : i < c'.length := by omega
  have : ∃ a', ExtMem.Spec.run (ExtMem.Spec.init ext) (cs ++ [.peek b i, .free b]) =
      some (a', os ++ [.val c'[i], .unit]) := by
    refine ⟨{ a with ext := a.ext.set b none }, ?_⟩
    rw [spec_run_append, h]
    simp [Spec.run, Spec.step, ho, hi']
  obtain ⟨a', h'⟩ := this
  obtain ⟨s, hs⟩ := c100_views_partial ext _ a' _ h'
  exact ⟨s, _, hs⟩

/-- The hypotheses of the three theorems can be met: a view is made, and it has had a copy for a while. -/
example : ∃ (a : ExtMem.Spec.ASt Nat) (os : List (Out Nat)) (c : List (Option Nat)),
    ExtMem.Spec.run (ExtMem.Spec.init [[some 1, some 2, some 3]]) [.op (.wrap 0 2), .op (.copy 0), .op (.destroy 1)] =
      some (a, os) ∧ a.vals[0]? = some (some (.view 0)) ∧ alone a (.view 0) = true ∧ a.grps[0]? = some (0, 2) ∧
    a.ext[0]? = some (some c) ∧ 1 < 2 ∧ 1 < c.length := ⟨_, _, _, rfl, rfl, rfl, rfl, rfl, by decide, by decide⟩

/-- **C100, negation**: what is written to a view does not reach the array while a copy of the view is alive, for
instance one kept by somebody else. The first program writes 5 into the array; in the second one, which only differs
by a copy which is never used, the array does not change. -/
theorem c100_negation_hidden_copy :
    (∃ s, run (init [[some 1]]) [.op (.wrap 0 1), .op (.write 0 0 (5 : Nat)), .peek 0 0] =
      .ok (s, [.unit, .unit, .val (some 5)])) ∧
    (∃ s, run (init [[some 1]]) [.op (.wrap 0 1), .op (.copy 0), .op (.write 0 0 (5 : Nat)), .peek 0 0] =
      .ok (s, [.unit, .unit, .unit, .val (some 1)])) := ⟨⟨_, rfl⟩, ⟨_, rfl⟩⟩

/-- **C100, negation**: a copy of a view is not a value of its own. It changes when the caller writes to the array,
and when two vectors are made over the same array, when the other one is written to. -/
theorem c100_negation_copy_not_independent :
    (∃ s, run (init [[some 1]]) [.op (.wrap 0 1), .op (.copy 0), .poke 0 0 (5 : Nat), .op (.read 1 0)] =
      .ok (s, [.unit, .unit, .unit, .val (some 5)])) ∧
    (∃ s, run (init [[some 1]]) [.op (.wrap 0 1), .op (.wrap 0 1), .op (.copy 0), .op (.write 1 0 (5 : Nat)),
      .op (.read 2 0)] = .ok (s, [.unit, .unit, .unit, .unit, .val (some 5)])) := ⟨⟨_, rfl⟩, ⟨_, rfl⟩⟩

/-- **C100, negation**: a copy of a view must not be used after the array is released, although a copy of any other
vector can be kept for ever. A function which keeps the vector which it is given by `eigs`, a view of the workspace
of ARPACK, ends in undefined behaviour. -/
theorem c100_negation_dangling_copy :
    run (init [[some (1 : Nat)]]) [.op (.wrap 0 1), .op (.copy 0), .op (.destroy 0), .free 0, .op (.read 1 0)] = .ub :=
  rfl

/-- **C100, negation**: `y = x` with a view `y` does not write into the array, as opposed to element by element
assignments: the result of a multiplication assigned to `arpack.get_y()` kept in a variable is lost. -/
theorem c100_negation_assignment :
    (∃ s, run (init [[some 1]]) [.op (.wrap 0 1), .op (.newSize 1), .op (.write 1 0 (5 : Nat)), .op (.assign 0 1),
      .op (.read 0 0), .peek 0 0] = .ok (s, [.unit, .unit, .unit, .unit, .val (some 5), .val (some 1)])) ∧
    (∃ s, run (init [[some 1]]) [.op (.wrap 0 1), .op (.write 0 0 (5 : Nat)), .op (.read 0 0), .peek 0 0] =
      .ok (s, [.unit, .unit, .val (some 5), .val (some 5)])) := ⟨⟨_, rfl⟩, ⟨_, rfl⟩⟩

end Verif.ExtMem
