import Verif.Lemmas.Inplace
/-
Property C114: the operators `+=`, `-=`, `*=`, `/=` and tensors which share their data.
-/
namespace Verif.Inplace

open Verif RefCount

variable {α : Type}

/-- **C114 (partial).** Every program made of operations on tensors and of `a += b`, `a -= b`, `a *= b`, `a /= b`, where
`b` is a tensor (the same one or one which shares its data with `a`, too), a number, or an element `g[i]` or `g.at(i)`
of another tensor, gives the observations which tensors would give if each had its own elements: in whichever order the
arguments are evaluated, whatever shares data with whatever. It does not abort and has no undefined behaviour. Missing:
elements of the tensor on the left (`c114_own_element`, `c114_own_element_at`), references to the result of `*=` and
`/=` with a number (`c114_result_copy`), for which it is false. -/
theorem c114_programs_partial (sem : Kind → α → α → α) (ext : List (List (Option α))) (cs : List (Stmt α))
    (hc : ∀ c ∈ cs, Spec.Plain c) (a : Spec.ASt α) (os : List (Out α))
    (h : Spec.run sem (Spec.init ext) cs = some (a, os)) : ∃ s, run sem (init ext) cs = .ok (s, os) := by
  obtain ⟨s, e, -⟩ := run_sim sem (sim_init ext) cs hc h
  exact ⟨s, e⟩

/-- The operators for integers. -/
private def ints : Kind → Int → Int → Int
  | .plus => (· + ·)
  | .minus => (· - ·)
  | .times => (· * ·)
  | .divided => (· / ·)

/-- A program of this kind: with `b = a`, after `a += b`, `a *= a`, `a -= b[0]`, `b *= 3`, a reference to the result
of `a += b`, and a change of `a` which is seen through the reference. -/
example : ∃ a cs, cs = [.op (.newSize 2), .op (.write 0 0 4), .op (.write 0 1 7), .op (.copy 0),
      .assign .plus true 0 (.tensor 1), .assign .times false 0 (.tensor 0), .assign .minus true 0 (.elem 1 0),
      .assign .times true 1 (.number 3), .op (.read 0 0), .op (.read 0 1), .op (.read 1 0),
      .keep .plus true 0 (.tensor 1), .op (.write 0 0 5), .look 0 0, .look 0 1] ∧ (∀ c ∈ cs, Spec.Plain c) ∧
    Spec.run ints (Spec.init []) cs =
    some (a, [.unit, .unit, .unit, .unit, .unit, .unit, .unit, .unit, .val (some 60), .val (some 192), .val (some 12),
      .unit, .unit, .val (some 5), .val (some 213)]) :=
  ⟨_, _, rfl, by simp [Spec.Plain, Spec.Apart, Spec.ByReference], rfl⟩

/-- **C114**, an element of the tensor on the left, `h op= h[i]`, after any program of the kind above. If another
tensor shares the data of `h`, the elements are combined with the old value of `h[i]`. If not, the elements after
position `i` are combined with the new one. In both cases other tensors do not change, and the program goes on with
these values. -/
theorem c114_own_element (sem : Kind → α → α → α) (ext : List (List (Option α))) (cs : List (Stmt α))
    (hc : ∀ c ∈ cs, Spec.Plain c) (a : Spec.ASt α) (os : List (Out α))
    (h : Spec.run sem (Spec.init ext) cs = some (a, os)) (k : Kind) (first : Bool) (t i : Nat) (l : List (Option α))
    (x : Option α) (hl : a.mem.vals[t]?.join = some l) (hx : l[i]? = some x) :
    ∃ s, run sem (init ext) cs = .ok (s, os) ∧ ∃ s',
      run sem (init ext) (cs ++ [.assign k first t (.elem t i)]) = .ok (s', os ++ [.unit]) ∧
      ((∃ g, g ≠ t ∧ s.mem.hs[g]? = s.mem.hs[t]?) → ∀ ds a' os', (∀ c ∈ ds, Spec.Plain c) →
        Spec.run sem ⟨{ a.mem with vals := a.mem.vals.set t (some (l.map fun y => Spec.both (sem k) y x)) }, a.names⟩
          ds = some (a', os') → ∃ s'', run sem s' ds = .ok (s'', os')) ∧
      ((∀ g, g ≠ t → s.mem.hs[g]? ≠ s.mem.hs[t]?) → ∀ ds a' os', (∀ c ∈ ds, Spec.Plain c) →
        Spec.run sem ⟨{ a.mem with vals := a.mem.vals.set t (some (Spec.ownValue (sem k) l i x)) }, a.names⟩
          ds = some (a', os') → ∃ s'', run sem s' ds = .ok (s'', os')) := by
  obtain ⟨s, e, r⟩ := run_sim sem (sim_init ext) cs hc h
  obtain ⟨p, hp, -, -⟩ := handle_of_vals r.rel hl
  obtain ⟨m, em, r1, r2⟩ := own_sim r.rel (sem k) first hl hx hp
  have hlt : t < a.mem.vals.length := by
    rcases Nat.lt_or_ge t a.mem.vals.length with h1 | h1
    · exact h1
    · rw [List.getElem?_eq_none h1] at hl; cases hl
  have fin : ∀ v : List (Option α), Rel m { a.mem with vals := a.mem.vals.set t (some v) } ext.length →
      ∃ s2, run sem (init ext) (cs ++ [.assign k first t (.elem t i)]) = .ok (⟨s2, s.names⟩, os ++ [.unit]) ∧
        Rel s2 { a.mem with vals := a.mem.vals.set t (some v) } ext.length := by
    intro v rv
    obtain ⟨s2, e2, r2⟩ := finish_sim rv k t (.elem t i) (l := v) (by simp [hlt]) s.names
    refine ⟨s2, ?_, r2⟩
    have es : step sem s (.assign k first t (.elem t i)) = .ok (⟨s2, s.names⟩, .unit) := by
      simp only [step, em, Res.ok_bind]
      exact e2
    rw [run_append, e]
    simp [run, es]
  have go : ∀ (s2 : RefCount.St α) (b : RefCount.Spec.ASt α), Rel s2 b ext.length →
      ∀ (ds : List (Stmt α)) a' os', (∀ c ∈ ds, Spec.Plain c) → Spec.run sem ⟨b, a.names⟩ ds = some (a', os') →
      ∃ s'', run sem ⟨s2, s.names⟩ ds = .ok (s'', os') := by
    intro s2 b rb ds a' os' hds hrun
    obtain ⟨s'', e'', -⟩ := run_sim sem (s := ⟨s2, s.names⟩) (a := ⟨b, a.names⟩) ⟨rb, r.names⟩ ds hds hrun
    exact ⟨s'', e''⟩
  refine ⟨s, e, ?_⟩
  by_cases hone : cnt s.mem.hs p = 1
  · obtain ⟨s2, e2, rs⟩ := fin _ (r2 hone)
    refine ⟨_, e2, ?_, fun _ => go s2 _ rs⟩
    rintro ⟨g, hg, hgt⟩
    rw [hp] at hgt
    have := ElemRef.other_handle hp hgt (Ne.symm hg)
    omega
  · have hmany : 1 < cnt s.mem.hs p := by
      have := cnt_pos hp
      omega
    obtain ⟨s2, e2, rs⟩ := fin _ (r1 hmany)
    refine ⟨_, e2, fun _ => go s2 _ rs, ?_⟩
    intro hno
    exfalso
    have h2 : 0 < cnt (s.mem.hs.set t none) p := by
      rw [cnt_set_none hp, upd_same]
      omega
    obtain ⟨g, hgl, hg⟩ := List.mem_iff_getElem.1 (List.count_pos_iff.1 h2)
    by_cases hgt : g = t
    · subst hgt
      simp at hg
    · rw [List.getElem_set_ne (Ne.symm hgt)] at hg
      refine hno g hgt ?_
      rw [hp]
      rw [List.getElem?_eq_getElem (by simpa using hgl), hg]

/-- The case of no other tensor with the same data, and the case of a copy. -/
example : ∃ s, run ints (init []) [.op (.newSize 2), .op (.write 0 0 4), .op (.write 0 1 7)] =
      .ok (s, [.unit, .unit, .unit]) ∧ ∀ g, g ≠ 0 → s.mem.hs[g]? ≠ s.mem.hs[0]? := by
  refine ⟨_, rfl, ?_⟩
  intro g hg
  match g, hg with
  | g + 1, _ => simp [init, RefCount.init]

example : ∃ s, run ints (init []) [.op (.newSize 2), .op (.write 0 0 4), .op (.write 0 1 7), .op (.copy 0)] =
      .ok (s, [.unit, .unit, .unit, .unit]) ∧ ∃ g, g ≠ 0 ∧ s.mem.hs[g]? = s.mem.hs[0]? :=
  ⟨_, rfl, 1, by decide, rfl⟩

/-- **C114**, an element of the tensor on the left through `at`, `h op= h.at(i)`: the elements after position `i` are
combined with the new value of that element, whether data is shared or not. -/
theorem c114_own_element_at (sem : Kind → α → α → α) (ext : List (List (Option α))) (cs : List (Stmt α))
    (hc : ∀ c ∈ cs, Spec.Plain c) (a : Spec.ASt α) (os : List (Out α))
    (h : Spec.run sem (Spec.init ext) cs = some (a, os)) (k : Kind) (first : Bool) (t i : Nat) (l : List (Option α))
    (x : Option α) (hl : a.mem.vals[t]?.join = some l) (hx : l[i]? = some x) :
    ∃ s', run sem (init ext) (cs ++ [.assign k first t (.elemAt t i)]) = .ok (s', os ++ [.unit]) ∧
      ∀ ds a' os', (∀ c ∈ ds, Spec.Plain c) →
        Spec.run sem ⟨{ a.mem with vals := a.mem.vals.set t (some (Spec.ownValue (sem k) l i x)) }, a.names⟩
          ds = some (a', os') → ∃ s'', run sem s' ds = .ok (s'', os') := by
  obtain ⟨s, e, r⟩ := run_sim sem (sim_init ext) cs hc h
  obtain ⟨m, em, rm⟩ := ownAt_sim r.rel (sem k) first hl hx
  have hlt : t < a.mem.vals.length := by
    rcases Nat.lt_or_ge t a.mem.vals.length with h1 | h1
    · exact h1
    · rw [List.getElem?_eq_none h1] at hl; cases hl
  obtain ⟨s2, e2, r2⟩ := finish_sim rm k t (.elemAt t i) (l := Spec.ownValue (sem k) l i x) (by simp [hlt]) s.names
  refine ⟨⟨s2, s.names⟩, ?_, ?_⟩
  · have es : step sem s (.assign k first t (.elemAt t i)) = .ok (⟨s2, s.names⟩, .unit) := by
      simp only [step, em, Res.ok_bind]
      exact e2
    rw [run_append, e]
    simp [run, es]
  · intro ds a' os' hds hrun
    obtain ⟨s'', e'', -⟩ := run_sim sem (s := ⟨s2, s.names⟩)
      (a := ⟨{ a.mem with vals := a.mem.vals.set t (some (Spec.ownValue (sem k) l i x)) }, a.names⟩)
      ⟨r2, r.names⟩ ds hds hrun
    exact ⟨s'', e''⟩

/-- A program, a tensor and an element as required; and the values: 4, 7, 9 minus the one at position 1. -/
example : (∃ a, Spec.run ints (Spec.init [])
      [.op (.newSize 2), .op (.write 0 0 4), .op (.write 0 1 7), .op (.copy 0)] = some (a, [.unit, .unit, .unit, .unit]) ∧
      a.mem.vals[0]?.join = some [some 4, some 7]) ∧
    Spec.ownValue (ints .minus) [some 4, some 7, some 9] 1 (some 7) = [some (-3), some 0, some 9] :=
  ⟨⟨_, rfl, rfl⟩, by decide⟩

/-- **C114 is false of the code** for an element of the tensor on the left: `a -= a[0]` on a tensor with the elements 4
and 7 leaves 0 and 7, not 0 and 3. And it is 0 and 3 when an unrelated copy of `a` exists: a program cannot know
what it will get from the values alone. -/
theorem c114_negation_own_element :
    (∃ s, run ints (init []) [.op (.newSize 2), .op (.write 0 0 4), .op (.write 0 1 7),
      .assign .minus true 0 (.elem 0 0), .op (.read 0 1)] = .ok (s, [.unit, .unit, .unit, .unit, .val (some 7)])) ∧
    (∃ s, run ints (init []) [.op (.newSize 2), .op (.write 0 0 4), .op (.write 0 1 7), .op (.copy 0),
      .assign .minus true 0 (.elem 0 0), .op (.read 0 1)] =
        .ok (s, [.unit, .unit, .unit, .unit, .unit, .val (some 3)])) ∧
    (∃ a, Spec.run ints (Spec.init []) [.op (.newSize 2), .op (.write 0 0 4), .op (.write 0 1 7),
      .assign .minus true 0 (.elem 0 0), .op (.read 0 1)] =
        some (a, [.unit, .unit, .unit, .unit, .val (some 3)])) :=
  ⟨⟨_, rfl⟩, ⟨_, rfl⟩, ⟨_, rfl⟩⟩

/-- **C114**, the result of `*=` and `/=` with a number, bound to a reference: it is one more tensor with the new value
of the tensor on the left, not another name of it; the program goes on with these values. -/
theorem c114_result_copy (sem : Kind → α → α → α) (ext : List (List (Option α))) (cs : List (Stmt α))
    (hc : ∀ c ∈ cs, Spec.Plain c) (a : Spec.ASt α) (os : List (Out α))
    (h : Spec.run sem (Spec.init ext) cs = some (a, os)) (k : Kind) (first : Bool) (t : Nat) (o : Operand α)
    (ho : Spec.Apart t o) (hk : ¬ Spec.ByReference k o) (b : RefCount.Spec.ASt α)
    (hb : Spec.assign (sem k) a.mem t o = some b) (l : List (Option α)) (hl : b.vals[t]?.join = some l) :
    ∃ s', run sem (init ext) (cs ++ [.keep k first t o]) = .ok (s', os ++ [.unit]) ∧
      ∀ ds a' os', (∀ c ∈ ds, Spec.Plain c) →
        Spec.run sem ⟨{ b with vals := b.vals ++ [some l] }, a.names ++ [a.mem.vals.length]⟩ ds = some (a', os') →
        ∃ s'', run sem s' ds = .ok (s'', os') := by
  obtain ⟨s, e, r⟩ := run_sim sem (sim_init ext) cs hc h
  obtain ⟨m, em, rm, hlen⟩ := inplace_sim r.rel (sem k) first t o ho hb
  have hv : byValue k o = true := by
    cases hv : byValue k o with
    | true => rfl
    | false => exact absurd ((byValue_iff k o).1 hv) hk
  obtain ⟨m2, e2, r2⟩ := RefCount.step_sim rm (.copy t) (a' := { b with vals := b.vals ++ [some l] }) (o := .unit)
    (by simp [RefCount.Spec.step, hl])
  have hn : m.hs.length = a.mem.vals.length := by
    rw [hlen, r.rel.vals, List.length_map]
  refine ⟨⟨m2, s.names ++ [m.hs.length]⟩, ?_, ?_⟩
  · rw [run_append, e]
    simp [run, step, em, hv, e2]
  · intro ds a' os' hds hrun
    obtain ⟨s'', e'', -⟩ := run_sim sem (s := ⟨m2, s.names ++ [m.hs.length]⟩)
      (a := ⟨{ b with vals := b.vals ++ [some l] }, a.names ++ [a.mem.vals.length]⟩)
      ⟨r2, by simp [r.names, hn]⟩ ds hds hrun
    exact ⟨s'', e''⟩

/-- `a *= 2` after `a` has been given the elements 4 and 7. -/
example : ∃ a b, Spec.run ints (Spec.init []) [.op (.newSize 2), .op (.write 0 0 4), .op (.write 0 1 7)] =
      some (a, [.unit, .unit, .unit]) ∧ Spec.Apart 0 (.number (2 : Int)) ∧ ¬ Spec.ByReference .times (.number (2 : Int)) ∧
      Spec.assign (ints .times) a.mem 0 (.number 2) = some b ∧ b.vals[0]?.join = some [some 8, some 14] :=
  ⟨_, _, rfl, trivial, id, rfl, rfl⟩

/-- **C114 is false of the code** for the result of `*=` with a number: a change of `a` after
`const RTensor &r = (a *= 2)` is not seen through `r`, and it is after `const RTensor &r = (a += 2)`. -/
theorem c114_negation_result :
    (∃ s, run ints (init []) [.op (.newSize 1), .op (.write 0 0 4), .keep .times true 0 (.number 2),
      .op (.write 0 0 9), .look 0 0] = .ok (s, [.unit, .unit, .unit, .unit, .val (some 8)])) ∧
    (∃ a, Spec.run ints (Spec.init []) [.op (.newSize 1), .op (.write 0 0 4), .keep .times true 0 (.number 2),
      .op (.write 0 0 9), .look 0 0] = some (a, [.unit, .unit, .unit, .unit, .val (some 9)])) ∧
    (∃ s, run ints (init []) [.op (.newSize 1), .op (.write 0 0 4), .keep .plus true 0 (.number 2),
      .op (.write 0 0 9), .look 0 0] = .ok (s, [.unit, .unit, .unit, .unit, .val (some 9)])) :=
  ⟨⟨_, rfl⟩, ⟨_, rfl⟩, ⟨_, rfl⟩⟩

/-- **C114**, tensors with different numbers of elements: the program stops before anything is changed. -/
theorem c114_refused (sem : Kind → α → α → α) (ext : List (List (Option α))) (cs : List (Stmt α))
    (hc : ∀ c ∈ cs, Spec.Plain c) (a : Spec.ASt α) (os : List (Out α))
    (h : Spec.run sem (Spec.init ext) cs = some (a, os)) (k : Kind) (first : Bool) (t g : Nat)
    (l m : List (Option α)) (hl : a.mem.vals[t]?.join = some l) (hm : a.mem.vals[g]?.join = some m)
    (hne : l.length ≠ m.length) :
    run sem (init ext) (cs ++ [.assign k first t (.tensor g)]) = .abort := by
  obtain ⟨s, e, r⟩ := run_sim sem (sim_init ext) cs hc h
  obtain ⟨p, P, hp, hh, hP, hb, hz⟩ := ptr_of_vals r.rel hl
  obtain ⟨pg, G, hpg, hhg, hG, hbg, hzg⟩ := ptr_of_vals r.rel hm
  have hsz : ¬ P.size = G.size := by omega
  rw [run_append, e]
  simp [run, step, inplace, sizeOf, hh, hhg, getPtr, hP, hG, hsz]

/-- Tensors of two and of three elements. -/
example : ∃ a, Spec.run ints (Spec.init []) [.op (.newSize 2), .op (.newSize 3)] = some (a, [.unit, .unit]) ∧
    a.mem.vals[0]?.join = some [none, none] ∧ a.mem.vals[1]?.join = some [none, none, none] :=
  ⟨_, rfl, rfl, rfl⟩

end Verif.Inplace
