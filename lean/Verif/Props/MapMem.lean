import Verif.Lemmas.MapMem
/-
Property C101: what the iterative solvers hold is released.
-/
namespace Verif.MapMem

open RefCount

variable {α : Type}

/-- **C101**, values. Solvers, whatever the function of the caller does meanwhile and however they end, do not change
any vector: the program gives the same observations as if vectors were independent values and calls did nothing. -/
theorem c101_values (ext : List (List (Option α))) (cs : List (Stmt α)) (a : MapMem.Spec.ASt α) (os : List (Out α))
    (h : MapMem.Spec.run (MapMem.Spec.init ext) cs = some (a, os)) : ∃ s, run (init ext) cs = .ok (s, os) := by
  obtain ⟨s, -, e, -, -⟩ := run_sim (t_init ext) cs h
  exact ⟨s, e⟩

/-- **C101**, map objects. At every moment the map objects in memory are those of the solvers which are running, and
those of all calls of eigs which have returned and of all calls which were left by an exception. -/
theorem c101_maps (ext : List (List (Option α))) (cs : List (Stmt α)) (a : MapMem.Spec.ASt α) (os : List (Out α))
    (h : MapMem.Spec.run (MapMem.Spec.init ext) cs = some (a, os)) :
    ∃ s, run (init ext) cs = .ok (s, os) ∧ s.maps = a.running + MapMem.Spec.leaks [] cs := by
  obtain ⟨s, _, e, t, -⟩ := run_sim (t_init ext) cs h
  refine ⟨s, e, ?_⟩
  rw [t.maps, t.running]
  simp [init]

/-- **C101 (partial).** In a program without calls of eigs with sparse matrices or functions and without exceptions,
everything is released: when all vectors are destroyed and no solver is running there are no map objects and no
buffers. Missing: eigs and exceptions, which leave the map object in memory, see c101_maps and the negations. -/
theorem c101_released_partial (ext : List (List (Option α))) (cs : List (Stmt α)) (a : MapMem.Spec.ASt α)
    (os : List (Out α)) (h : MapMem.Spec.run (MapMem.Spec.init ext) cs = some (a, os))
    (hl : MapMem.Spec.leaks [] cs = 0) (hr : a.running = 0) (hd : ∀ v ∈ a.vec.vals, v = none) :
    ∃ s, run (init ext) cs = .ok (s, os) ∧ s.maps = 0 ∧ (∀ p, s.mem.ptrs p = none) ∧
      (∀ b, (∃ l, s.mem.blks b = some l) ↔ b < ext.length) := by
  obtain ⟨s, ls, e, t, hls⟩ := run_sim (t_init ext) cs h
  obtain ⟨⟨b, r, v, hm, hj⟩, hnd, hrun, hmaps⟩ := t
  have hl' : MapMem.Spec.leaks ((init ext).stack.map Prod.fst) cs = 0 := hl
  rw [hl'] at hmaps
  have hst : s.stack = [] := List.length_eq_zero_iff.1 (by omega)
  rw [hls hl', hst] at hj
  have hnone : ∀ w ∈ b.vals, w = none := by
    intro w hw
    obtain ⟨j, hlt, rfl⟩ := List.getElem_of_mem hw
    have hb : b.vals[j]? = some b.vals[j] := List.getElem?_eq_getElem hlt
    rcases hj j hlt with h1 | h1 | h1 | h1
    · obtain ⟨i, hi, rfl⟩ := List.getElem_of_mem h1
      have h2 := v.val i _ (List.getElem?_eq_getElem hi)
      rw [hb] at h2
      exact hd _ (List.mem_of_getElem? h2)
    · simp [members] at h1
    · simp at h1
    · rw [hb] at h1
      exact Option.some.inj h1
  have i := r.inv
  have hz : ∀ p, s.mem.ptrs p = none := by
    intro p
    cases hP : s.mem.ptrs p with
    | none => rfl
    | some P =>
      exfalso
      have hmem : some p ∈ s.mem.hs := List.count_pos_iff.1 (i.cnt p P hP).2
      obtain ⟨P', l, -, -, -, hc, -⟩ := i.content_some (i.cnt p P hP).2
      have := hnone (some l) (by rw [r.vals]; exact List.mem_map.2 ⟨some p, hmem, by simp [hc]⟩)
      cases this
  refine ⟨s, e, by rw [hmaps, hst]; rfl, hz, fun b' => ⟨?_, i.ext b'⟩⟩
  rintro ⟨l, hbl⟩
  rcases Nat.lt_or_ge b' ext.length with hb | hb
  · exact hb
  · obtain ⟨p, P, hP, -⟩ := i.noleak b' l hb hbl
    rw [hz] at hP
    cases hP

/-- A sparse matrix made of two vectors is given to cgs; a power method is called with a function which writes to one
of the vectors and calls cgs; everything is destroyed. -/
example : ∃ a os, MapMem.Spec.run (MapMem.Spec.init [])
    [.op (.newSize 2), .op (.newSize 1), .op (.write 0 1 (4 : Nat)), .enter .cgs [0, 1], .leave, .enter .power [],
     .op (.write 0 1 5), .enter .cgs [0, 0], .op (.read 0 1), .leave, .leave, .op (.destroy 0), .op (.destroy 1)] =
      some (a, os) ∧
    MapMem.Spec.leaks [] [.op (.newSize 2), .op (.newSize 1), .op (.write 0 1 (4 : Nat)), .enter .cgs [0, 1], .leave,
     .enter .power [], .op (.write 0 1 5), .enter .cgs [0, 0], .op (.read 0 1), .leave, .leave, .op (.destroy 0),
     .op (.destroy 1)] = 0 ∧ a.running = 0 ∧ ∀ v ∈ a.vec.vals, v = none := ⟨_, _, rfl, rfl, rfl, by decide⟩

/-- A program which makes `k` matrices, one after the other, computes eigenvalues of each of them with eigs and
destroys it. -/
def eigsLoop (k : Nat) : List (Stmt Nat) :=
  (List.range k).flatMap fun j => [.op (.newSize 1), .enter .eigs [j], .leave, .op (.destroy j)]

/-- The memory after that. -/
def afterEigs (k : Nat) : St Nat where
  mem := { ptrs := fun p => if p < k then some ⟨p, 1, 1, true⟩ else none, nptr := k,
           blks := fun b => if b < k then some [none] else none, nblk := k,
           hs := (List.range k).flatMap fun j => [none, some j] }
  vars := (List.range k).map fun j => 2 * j
  stack := []
  maps := k

theorem run_append (s : St α) (cs ds : List (Stmt α)) :
    run s (cs ++ ds) = (run s cs >>= fun x => run x.1 ds >>= fun y => pure (y.1, x.2 ++ y.2)) := by
  induction cs generalizing s with
  | nil =>
    simp only [List.nil_append, run, Res.ok_bind]
    cases run s ds <;> rfl
  | cons c cs ih =>
    simp only [List.cons_append, run, ih]
    cases step s c with
    | ok x =>
      simp only [Res.ok_bind]
      cases run x.1 cs with
      | ok y =>
        simp only [Res.ok_bind, Res.pure_eq]
        cases run y.1 ds <;> rfl
      | abort => rfl
      | ub => rfl
    | abort => rfl
    | ub => rfl

/-- Handles after the loop. -/
def handlesAfter (k : Nat) : List (Option Nat) := (List.range k).flatMap fun j => [none, some j]

theorem handlesAfter_length (k : Nat) : (handlesAfter k).length = 2 * k := by
  induction k with
  | zero => rfl
  | succ k ih =>
    rw [handlesAfter, List.range_succ, List.flatMap_append]
    rw [handlesAfter] at ih
    simp [ih]
    omega

theorem handlesAfter_succ (k : Nat) : handlesAfter (k + 1) = handlesAfter k ++ [none, some k] := by
  simp [handlesAfter, List.range_succ]

theorem eigs_once (k : Nat) : run (afterEigs k) [.op (.newSize 1), .enter .eigs [k], .leave, .op (.destroy k)] =
    .ok (afterEigs (k + 1), [.unit, .unit, .unit, .unit]) := by
  have hl := handlesAfter_length k
  have hm : (afterEigs k).mem.hs = handlesAfter k := rfl
  let v1 := (afterEigs k).vars ++ [2 * k]
  have hv1 : v1[k]? = some (2 * k) := by simp [v1, afterEigs]
  let m1 : RefCount.St Nat :=
    { ptrs := upd (afterEigs k).mem.ptrs k (some ⟨k, 1, 1, true⟩), nptr := k + 1,
      blks := upd (afterEigs k).mem.blks k (some [none]), nblk := k + 1, hs := handlesAfter k ++ [some k] }
  let m2 : RefCount.St Nat :=
    { m1 with ptrs := upd m1.ptrs k (some ⟨k, 1, 2, true⟩), hs := handlesAfter k ++ [some k, some k] }
  let m3 : RefCount.St Nat :=
    { m1 with ptrs := upd m2.ptrs k (some ⟨k, 1, 1, true⟩), hs := handlesAfter k ++ [none, some k] }
  have e1 : step (afterEigs k) (.op (.newSize 1)) = .ok (⟨m1, v1, [], k⟩, .unit) := by
    simp only [step, rename, Res.ofOption_some, Res.ok_bind, RefCount.step, newBoth, newBlk, newPtr, creates, hm,
      Res.pure_eq, if_true, hl]
    rfl
  have e2 : step ⟨m1, v1, [], k⟩ (.enter .eigs [k]) = .ok (⟨m2, v1, [(.eigs, [2 * k + 1])], k + 1⟩, .unit) := by
    have h1 : m1.hs[2 * k]? = some (some k) := by simp [m1, hl]
    have h2 : m1.ptrs k = some ⟨k, 1, 1, true⟩ := by simp [m1]
    have h3 : m1.hs.length = 2 * k + 1 := by simp [m1, hl]
    have h4 : m1.hs ++ [some k] = handlesAfter k ++ [some k, some k] := by simp [m1]
    simp only [step, handles, hv1, Option.bind_eq_bind, Option.bind_some, Res.ofOption_some, Res.ok_bind, copyAll,
      RefCount.step, handle, h1, Option.join_some, reference, getPtr, h2, Res.pure_eq, h3, h4]
    rfl
  have e3 : step ⟨m2, v1, [(.eigs, [2 * k + 1])], k + 1⟩ .leave = .ok (⟨m2, v1, [], k + 1⟩, .unit) := rfl
  have e4 : step ⟨m2, v1, [], k + 1⟩ (.op (.destroy k)) = .ok (⟨m3, v1, [], k + 1⟩, .unit) := by
    have h1 : m2.hs[2 * k]? = some (some k) := by simp [m2, hl]
    have h2 : m2.ptrs k = some ⟨k, 1, 2, true⟩ := by simp [m2]
    have h4 : m2.hs.set (2 * k) none = handlesAfter k ++ [none, some k] := by
      simp only [m2]
      rw [← hl, List.set_append_right _ _ (Nat.le_refl _)]
      simp
    have h5 : ¬ (2 : Int) - 1 ≤ 0 := by decide
    simp only [step, rename, hv1, Option.bind_eq_bind, Option.bind_some, Res.ofOption_some, Res.ok_bind,
      RefCount.step, handle, h1, Option.join_some, dereference, getPtr, h2, Res.pure_eq, if_neg h5, h4, creates]
    rfl
  have e5 : (⟨m3, v1, [], k + 1⟩ : St Nat) = afterEigs (k + 1) := by
    have h1 : m3.ptrs = (afterEigs (k + 1)).mem.ptrs := by
      funext p
      simp only [m3, m2, m1, afterEigs, upd]
      by_cases hp : p = k
      · simp [hp]
      · simp only [if_neg hp]
        have : p < k + 1 ↔ p < k := by omega
        simp only [this]
    have h2 : m3.blks = (afterEigs (k + 1)).mem.blks := by
      funext p
      simp only [m3, m1, afterEigs, upd]
      by_cases hp : p = k
      · simp [hp]
      · simp only [if_neg hp]
        have : p < k + 1 ↔ p < k := by omega
        simp only [this]
    have h3 : m3.hs = (afterEigs (k + 1)).mem.hs := (handlesAfter_succ k).symm
    have h4 : v1 = (afterEigs (k + 1)).vars := by simp [v1, afterEigs, List.range_succ]
    have h5 : m3 = (afterEigs (k + 1)).mem := by
      have : m3 = ⟨m3.ptrs, k + 1, m3.blks, k + 1, m3.hs⟩ := rfl
      rw [this, h1, h2, h3]
      rfl
    rw [h5, h4]
    rfl
  simp only [run, e1, e2, e3, e4, e5, Res.ok_bind, Res.pure_eq]

/-- **C101, negation**: eigs never releases the copy of a sparse matrix. After `k` matrices have been made, given to
eigs and destroyed, `k` map objects and `k` buffers are in memory, and no variable is left to release them. -/
theorem c101_negation_eigs (k : Nat) :
    ∃ s os, run (init []) (eigsLoop k) = .ok (s, os) ∧ s.maps = k ∧ s.stack = [] ∧
      (∀ b, (∃ l, s.mem.blks b = some l) ↔ b < k) ∧ (∀ h ∈ s.vars, s.mem.hs[h]? = some none) := by
  have : ∃ os, run (init []) (eigsLoop k) = .ok (afterEigs k, os) := by
    induction k with
    | zero => exact ⟨[], rfl⟩
    | succ k ih =>
      obtain ⟨os, e⟩ := ih
      refine ⟨os ++ [.unit, .unit, .unit, .unit], ?_⟩
      have : eigsLoop (k + 1) = eigsLoop k ++ [.op (.newSize 1), .enter .eigs [k], .leave, .op (.destroy k)] := by
        simp [eigsLoop, List.range_succ]
      rw [this, run_append, e]
      simp only [Res.ok_bind, eigs_once, Res.pure_eq]
  obtain ⟨os, e⟩ := this
  refine ⟨afterEigs k, os, e, rfl, rfl, ?_, ?_⟩
  · intro b
    simp only [afterEigs]
    split <;> simp_all
  · intro h hh
    have : ∀ k j, j < k → (handlesAfter k)[2 * j]? = some none := by
      intro k
      induction k with
      | zero => intro j hj; omega
      | succ k ih =>
        intro j hj
        rw [handlesAfter_succ]
        by_cases hjk : j < k
        · rw [List.getElem?_append_left (by rw [handlesAfter_length]; omega)]
          exact ih j hjk
        · have : j = k := by omega
          subst this
          rw [← handlesAfter_length]
          simp
    simp only [afterEigs, List.mem_map, List.mem_range] at hh
    obtain ⟨j, hj, rfl⟩ := hh
    exact this k j hj

/-- **C101, negation**: a call of cgs which is left by an exception (of the function of the caller, or of the allocation of
memory) leaves its map, with the copy of the matrix, in memory. -/
theorem c101_negation_exception :
    ∃ (s : St Nat) (os : List (Out Nat)) (l : Cells Nat),
      run (init []) [.op (.newSize 1), .enter .cgs [0], .throw, .op (.destroy 0)] = .ok (s, os) ∧ s.maps = 1 ∧
        s.stack = [] ∧ s.mem.hs[0]? = some none ∧ s.mem.blks 0 = some l := ⟨_, _, _, rfl, rfl, rfl, rfl, rfl⟩

/-- **C101, negation**: after eigs, writing an element of a matrix which nobody else has copies all its elements,
because the lost map is counted as an owner; after cgs it does not. -/
theorem c101_negation_copy :
    (∃ (s : St Nat) (os : List (Out Nat)) (l : Cells Nat),
      run (init []) [.op (.newSize 2), .enter .eigs [0], .leave, .op (.write 0 1 7)] = .ok (s, os) ∧
        s.mem.blks 0 = some l ∧ s.mem.blks 1 = some [none, some 7]) ∧
    (∃ (s : St Nat) (os : List (Out Nat)),
      run (init []) [.op (.newSize 2), .enter .cgs [0], .leave, .op (.write 0 1 7)] = .ok (s, os) ∧
        s.mem.blks 0 = some [none, some 7] ∧ s.mem.blks 1 = none) := ⟨⟨_, _, _, rfl, rfl, rfl⟩, ⟨_, _, rfl, rfl, rfl⟩⟩

end Verif.MapMem
