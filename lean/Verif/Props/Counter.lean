import Verif.Model.Counter
import Verif.Lemmas.RefCountSim
/-
Properties of counters of type `int`: C121.
-/
namespace Verif.Counter

open Verif RefCount

variable {α : Type}

/-- Specification: the vectors which exist. -/
def alive (a : Spec.ASt α) : Nat := a.vals.countP Option.isSome

theorem reference_eq {s : St α} {p : Nat} {P : Ptr} (hP : s.ptrs p = some P) (h : P.refs + 1 < 2 ^ 31) :
    reference s p = RefCount.reference s p := by
  rw [reference, RefCount.reference, getPtr, hP]
  simp only [Res.ofOption_some, Res.ok_bind]
  rw [if_pos h]

theorem alive_eq {s : St α} {a : Spec.ASt α} {k : Nat} (r : Rel s a k) : alive a = s.hs.countP Option.isSome := by
  rw [alive, r.vals, List.countP_map]
  apply List.countP_congr
  intro o ho
  cases o with
  | none => simp
  | some p =>
    have hp : 0 < cnt s.hs p := List.count_pos_iff.2 ho
    obtain ⟨P, l, -, -, -, hc, -⟩ := r.inv.content_some hp
    simp [hc]

theorem cnt_le (hs : List (Option Nat)) (p : Nat) : cnt hs p ≤ hs.countP Option.isSome := by
  rw [cnt, List.count]
  apply List.countP_mono_left
  intro o _ h
  rw [beq_iff_eq] at h
  rw [h]; rfl

/-- A counter which the unbounded operation leaves behind is below 2^31. -/
theorem refs_lt {s : St α} {a : Spec.ASt α} {k : Nat} (r : Rel s a k) (h : alive a < 2 ^ 31) {p : Nat} {P : Ptr}
    (hP : s.ptrs p = some P) : P.refs < 2 ^ 31 := by
  have h1 := (r.inv.cnt p P hP).1
  have h2 := cnt_le s.hs p
  rw [← alive_eq r] at h2
  omega

theorem reference_ok {s s1 : St α} {p : Nat} (h : RefCount.reference s p = .ok s1) :
    ∃ P, s.ptrs p = some P ∧ s1.ptrs p = some { P with refs := P.refs + 1 } := by
  rw [RefCount.reference, getPtr] at h
  cases hP : s.ptrs p with
  | none => rw [hP] at h; cases h
  | some P =>
    rw [hP] at h
    simp only [Res.ofOption_some, Res.ok_bind, Res.pure_eq, Res.ok.injEq] at h
    exact ⟨P, rfl, by rw [← h]; simp [upd]⟩

theorem step_eq {s s' : St α} {a' : Spec.ASt α} {k : Nat} (op : Op α) {o : Out α}
    (e : RefCount.step s op = .ok (s', o)) (r' : Rel s' a' k) (h : alive a' < 2 ^ 31) : step s op = .ok (s', o) := by
  cases op with
  | copy g =>
    rw [step]
    rw [RefCount.step] at e
    cases hh : handle s g with
    | abort => rw [hh] at e; cases e
    | ub => rw [hh] at e; cases e
    | ok p =>
      rw [hh, Res.ok_bind] at e; rw [Res.ok_bind]
      cases hr : RefCount.reference s p with
      | abort => rw [hr] at e; cases e
      | ub => rw [hr] at e; cases e
      | ok s1 =>
        obtain ⟨P, hP, hP1⟩ := reference_ok hr
        rw [hr] at e
        have e' := e
        simp only [Res.ok_bind, Res.pure_eq, Res.ok.injEq, Prod.mk.injEq] at e'
        have hl : P.refs + 1 < 2 ^ 31 := refs_lt r' h (p := p) (P := { P with refs := P.refs + 1 }) (by rw [← e'.1]; exact hP1)
        rw [reference_eq hP hl, hr]
        exact e
  | assign g f =>
    rw [step]
    rw [RefCount.step] at e
    cases hh : handle s g with
    | abort => rw [hh] at e; cases e
    | ub => rw [hh] at e; cases e
    | ok p =>
      rw [hh, Res.ok_bind] at e; rw [Res.ok_bind]
      cases hh2 : handle s f with
      | abort => rw [hh2] at e; cases e
      | ub => rw [hh2] at e; cases e
      | ok q =>
        rw [hh2, Res.ok_bind] at e; rw [Res.ok_bind]
        by_cases hqp : q ≠ p
        · rw [if_pos hqp] at e ⊢
          cases hd : dereference s p with
          | abort => rw [hd] at e; cases e
          | ub => rw [hd] at e; cases e
          | ok s0 =>
            rw [hd, Res.ok_bind] at e; rw [Res.ok_bind]
            cases hr : RefCount.reference s0 q with
            | abort => rw [hr] at e; cases e
            | ub => rw [hr] at e; cases e
            | ok s1 =>
              obtain ⟨P, hP, hP1⟩ := reference_ok hr
              rw [hr] at e
              have e' := e
              simp only [Res.ok_bind, Res.pure_eq, Res.ok.injEq, Prod.mk.injEq] at e'
              have hl : P.refs + 1 < 2 ^ 31 :=
                refs_lt r' h (p := q) (P := { P with refs := P.refs + 1 }) (by rw [← e'.1]; exact hP1)
              rw [reference_eq hP hl, hr]
              exact e
        · rw [if_neg hqp] at e ⊢
          exact e
  | newEmpty => exact e
  | newSize n => exact e
  | wrap b n => exact e
  | destroy g => exact e
  | write g i v => exact e
  | read g i => exact e
  | size g => exact e
  | resize g n => exact e
  | touch g => exact e

theorem run_sim {s : St α} {a a' : Spec.ASt α} {k : Nat} (r : Rel s a k) (ops : List (Op α)) {os : List (Out α)}
    (hs : Spec.run a ops = some (a', os))
    (hm : ∀ pre, pre <+: ops → ∀ b bs, Spec.run a pre = some (b, bs) → alive b < 2 ^ 31) :
    ∃ s', run s ops = .ok (s', os) ∧ RefCount.run s ops = .ok (s', os) ∧ Rel s' a' k := by
  induction ops generalizing s a os with
  | nil =>
    simp only [Spec.run, Option.some.injEq, Prod.mk.injEq] at hs
    obtain ⟨rfl, rfl⟩ := hs
    exact ⟨s, rfl, rfl, r⟩
  | cons op ops ih =>
    simp only [Spec.run] at hs
    cases h1 : Spec.step a op with
    | none => simp [h1] at hs
    | some x =>
      obtain ⟨a1, o⟩ := x
      cases h2 : Spec.run a1 ops with
      | none => simp [h1, h2] at hs
      | some y =>
        obtain ⟨a2, os2⟩ := y
        simp only [h1, h2, Option.bind_eq_bind, Option.bind_some, Option.some.injEq, Prod.mk.injEq] at hs
        obtain ⟨rfl, rfl⟩ := hs
        obtain ⟨s1, e1, r1⟩ := step_sim r op h1
        have ha : alive a1 < 2 ^ 31 := hm [op] ⟨ops, rfl⟩ a1 [o] (by simp [Spec.run, h1])
        obtain ⟨s2, e2, e3, r2⟩ := ih r1 h2 fun pre hp b bs hb => by
          refine hm (op :: pre) ?_ b (o :: bs) (by simp [Spec.run, h1, hb])
          obtain ⟨t, rfl⟩ := hp
          exact ⟨t, rfl⟩
        exact ⟨s2, by simp [run, step_eq op e1 r1 ha, e2], by simp [RefCount.run, e1, e3], r2⟩

/-- C121: with counters of type `int` vectors are independent values, if there are never more than 2^31 - 1 of them;
and nothing else changes. Missing: more vectors. -/
theorem c121_counters_partial (ext : List (List (Option α))) (ops : List (Op α)) {a : Spec.ASt α} {os : List (Out α)}
    (h : Spec.run (Spec.init ext) ops = some (a, os))
    (hm : ∀ pre, pre <+: ops → ∀ b bs, Spec.run (Spec.init ext) pre = some (b, bs) → alive b < 2 ^ 31) :
    ∃ s, run (init ext) ops = .ok (s, os) ∧ RefCount.run (init ext) ops = .ok (s, os) := by
  obtain ⟨s, e1, e2, -⟩ := run_sim (rel_init ext) ops h hm
  exact ⟨s, e1, e2⟩

/-- C121: ref_count() is the number of vectors which share the data. -/
theorem c121_ref_count (ext : List (List (Option α))) (ops : List (Op α)) {a : Spec.ASt α} {os : List (Out α)}
    (h : Spec.run (Spec.init ext) ops = some (a, os))
    (hm : ∀ pre, pre <+: ops → ∀ b bs, Spec.run (Spec.init ext) pre = some (b, bs) → alive b < 2 ^ 31) :
    ∃ s, run (init ext) ops = .ok (s, os) ∧ ∀ (i p : Nat), s.hs[i]? = some (some p) →
      refCount s i = .ok (s.hs.count (some p) : Nat) ∧ 1 ≤ s.hs.count (some p) ∧ s.hs.count (some p) ≤ alive a := by
  obtain ⟨s, e1, -, r⟩ := run_sim (rel_init ext) ops h hm
  refine ⟨s, e1, fun i p hp => ?_⟩
  have hc := cnt_pos hp
  obtain ⟨P, -, hP, -, -, -, hr⟩ := r.inv.content_some hc
  refine ⟨?_, hc, ?_⟩
  · rw [refCount, handle, hp]
    simp only [Option.join_some, Res.ofOption_some, Res.ok_bind, getPtr, hP, Res.pure_eq, hr]
    rfl
  · rw [alive_eq r]; exact cnt_le _ _

/-- The program which makes `n` copies of an empty vector. -/
def copies (n : Nat) : List (Op α) := .newEmpty :: List.replicate n (.copy 0)

theorem spec_copies (n m : Nat) (e : List (Option (List (Option α)))) :
    Spec.run (⟨List.replicate (m + 1) (some []), e⟩ : Spec.ASt α) (List.replicate n (.copy 0))
      = some (⟨List.replicate (m + 1 + n) (some []), e⟩, List.replicate n .unit) := by
  induction n generalizing m with
  | zero => rfl
  | succ n ih =>
    have hstep : Spec.step (⟨List.replicate (m + 1) (some []), e⟩ : Spec.ASt α) (.copy 0)
        = some (⟨List.replicate (m + 1 + 1) (some []), e⟩, .unit) := by
      rw [Spec.step]
      simp [List.replicate_succ' (n := m + 1)]
    rw [List.replicate_succ (a := (Op.copy 0 : Op α))]
    simp only [Spec.run, hstep, Option.bind_eq_bind, Option.bind_some]
    rw [ih (m + 1)]
    simp only [Option.bind_some, Option.some.injEq, Prod.mk.injEq]
    refine ⟨?_, by rw [← List.replicate_succ]⟩
    congr 2
    omega

theorem spec_copies_init (n : Nat) :
    Spec.run (Spec.init []) (copies n : List (Op α))
      = some (⟨List.replicate (n + 1) (some []), []⟩, List.replicate (n + 1) .unit) := by
  have := spec_copies (α := α) n 0 []
  rw [copies, Spec.run]
  simp only [Spec.step, Spec.init, Option.bind_eq_bind, Option.bind_some, List.map_nil, List.nil_append]
  rw [show ([some []] : List (Option (List (Option α)))) = List.replicate (0 + 1) (some []) from rfl, this]
  simp only [Option.bind_some, Option.some.injEq, Prod.mk.injEq]
  refine ⟨?_, by rw [List.replicate_succ]⟩
  congr 2
  omega

theorem prefix_copies {n : Nat} {pre : List (Op α)} (h : pre <+: copies n) : pre = [] ∨ ∃ m ≤ n, pre = copies m := by
  cases pre with
  | nil => exact .inl rfl
  | cons op pre =>
    right
    rw [copies, List.cons_prefix_cons] at h
    obtain ⟨rfl, h⟩ := h
    obtain ⟨m, hm, rfl⟩ : ∃ m ≤ n, pre = List.replicate m (.copy 0) := by
      refine ⟨pre.length, ?_, ?_⟩
      · simpa using h.length_le
      · rw [List.eq_replicate_iff]
        exact ⟨rfl, fun b hb => (List.mem_replicate.1 (h.subset hb)).2⟩
    exact ⟨m, hm, rfl⟩

theorem run_append (s : St α) (l m : List (Op α)) :
    run s (l ++ m) = (run s l >>= fun x => run x.1 m >>= fun y => pure (y.1, x.2 ++ y.2)) := by
  induction l generalizing s with
  | nil =>
    rw [List.nil_append, run, Res.ok_bind]
    cases run s m <;> rfl
  | cons op l ih =>
    rw [List.cons_append, run, run]
    cases h : step s op with
    | abort => rfl
    | ub => rfl
    | ok x =>
      simp only [Res.ok_bind]
      rw [ih]
      cases h2 : run x.1 l with
      | abort => rfl
      | ub => rfl
      | ok y =>
        simp only [Res.ok_bind, Res.pure_eq]
        cases h3 : run y.1 m <;> rfl

theorem hs_copies {n m : Nat} {s s' : St α} {os : List (Out α)} (hs : s.hs = List.replicate (m + 1) (some 0))
    (h : run s (List.replicate n (.copy 0)) = .ok (s', os)) : s'.hs = List.replicate (m + 1 + n) (some 0) := by
  induction n generalizing m s os with
  | zero =>
    rw [List.replicate_zero, run, Res.ok.injEq, Prod.mk.injEq] at h
    rw [← h.1, hs, Nat.add_zero]
  | succ n ih =>
    rw [List.replicate_succ, run] at h
    have hh : handle s 0 = .ok 0 := by rw [handle, hs, List.replicate_succ]; rfl
    rw [step, hh, Res.ok_bind] at h
    cases hr : reference s 0 with
    | abort => rw [hr] at h; cases h
    | ub => rw [hr] at h; cases h
    | ok s1 =>
      rw [hr] at h
      simp only [Res.ok_bind, Res.pure_eq] at h
      have h1 : s1.hs = s.hs := by
        rw [reference, getPtr] at hr
        cases hP : s.ptrs 0 with
        | none => rw [hP] at hr; cases hr
        | some P =>
          rw [hP] at hr
          simp only [Res.ofOption_some, Res.ok_bind] at hr
          split at hr
          · simp only [Res.pure_eq, Res.ok.injEq] at hr
            rw [← hr]
          · cases hr
      cases h2 : run { s1 with hs := s1.hs ++ [some 0] } (List.replicate n (.copy 0)) with
      | abort => rw [h2] at h; cases h
      | ub => rw [h2] at h; cases h
      | ok x =>
        rw [h2] at h
        simp only [Res.ok_bind, Res.ok.injEq, Prod.mk.injEq] at h
        have := ih (m := m + 1) (s := { s1 with hs := s1.hs ++ [some 0] }) (os := x.2)
          (by simp only; rw [h1, hs, ← List.replicate_succ']) (by rw [h2, ← h.1])
        rw [this]
        congr 1
        omega

/-- C121 does not hold for 2^31 vectors with the same data: a program which makes 2^31 - 1 copies of a vector, which
is right if vectors are values, is undefined. -/
theorem c121_negation_copies :
    (∃ a os, Spec.run (Spec.init []) (copies (2 ^ 31 - 1) : List (Op α)) = some (a, os)) ∧
      run (init [] : St α) (copies (2 ^ 31 - 1)) = .ub := by
  refine ⟨⟨_, _, spec_copies_init _⟩, ?_⟩
  obtain ⟨n, hn⟩ : ∃ n, n + 2 = 2 ^ 31 := ⟨2 ^ 31 - 2, by decide⟩
  rw [show 2 ^ 31 - 1 = n + 1 by omega, copies, List.replicate_succ', ← List.cons_append]
  obtain ⟨s, e1, -, r⟩ := run_sim (rel_init []) (copies n) (spec_copies_init (α := α) n) fun pre hp b bs hb => by
    rcases prefix_copies hp with rfl | ⟨m, hm, rfl⟩
    · rw [Spec.run, Option.some.injEq, Prod.mk.injEq] at hb
      rw [← hb.1]
      simp [alive, Spec.init]
    · rw [spec_copies_init, Option.some.injEq, Prod.mk.injEq] at hb
      rw [← hb.1, alive, List.countP_replicate]
      simp only [Option.isSome_some, if_true]
      omega
  rw [run_append]
  rw [copies] at e1
  rw [e1, Res.ok_bind]
  have hs : s.hs = List.replicate (n + 1) (some 0) := by
    rw [run] at e1
    have hst : step (init [] : St α) .newEmpty = .ok ({ (newBoth (init []) []).1 with hs := [some 0] }, .unit) := rfl
    rw [hst, Res.ok_bind] at e1
    simp only at e1
    cases h2 : run { (newBoth (init [] : St α) []).1 with hs := [some 0] } (List.replicate n (.copy 0)) with
    | abort => rw [h2] at e1; cases e1
    | ub => rw [h2] at e1; cases e1
    | ok x =>
      rw [h2] at e1
      simp only [Res.ok_bind, Res.pure_eq, Res.ok.injEq, Prod.mk.injEq] at e1
      have := hs_copies (m := 0) (s := { (newBoth (init [] : St α) []).1 with hs := [some 0] }) rfl h2
      rw [← e1.1, this]
      congr 1
      omega
  have hc : cnt s.hs 0 = n + 1 := by rw [cnt, hs, List.count_replicate_self]
  obtain ⟨P, -, hP, -, -, -, hr⟩ := r.inv.content_some (p := 0) (by omega)
  have hh : handle s 0 = .ok 0 := by rw [handle, hs, List.replicate_succ]; rfl
  have hx : run s [.copy 0] = .ub := by
    rw [run, step, hh, Res.ok_bind, reference, getPtr, hP]
    simp only [Res.ofOption_some, Res.ok_bind]
    rw [if_neg (by rw [hr, hc]; push_cast; omega)]
    rfl
  simp only
  rw [hx]
  rfl

example : Spec.run (Spec.init []) ([.newSize 1, .copy 0, .write 1 0 5, .read 0 0] : List (Op Nat))
    = some (⟨[some [none], some [some 5]], []⟩, [.unit, .unit, .unit, .val none]) := rfl

/-- The condition on the number of vectors is met by any program with less than 2^31 operations. -/
theorem alive_le_length {a b : Spec.ASt α} {os : List (Out α)} (ops : List (Op α)) (h : Spec.run a ops = some (b, os)) :
    b.vals.length ≤ a.vals.length + ops.length := by
  induction ops generalizing a os with
  | nil =>
    simp only [Spec.run, Option.some.injEq, Prod.mk.injEq] at h
    rw [← h.1]; omega
  | cons op ops ih =>
    simp only [Spec.run] at h
    cases h1 : Spec.step a op with
    | none => simp [h1] at h
    | some x =>
      cases h2 : Spec.run x.1 ops with
      | none => simp [h1, h2] at h
      | some y =>
        simp only [h1, h2, Option.bind_eq_bind, Option.bind_some, Option.some.injEq, Prod.mk.injEq] at h
        have := ih (os := y.2) (by rw [h2, ← h.1])
        have hx : x.1.vals.length ≤ a.vals.length + 1 := by
          cases op <;> simp only [Spec.step, Option.bind_eq_bind, Option.bind_eq_some_iff] at h1
          case newEmpty => simp only [Option.some.injEq] at h1; rw [← h1]; simp
          case newSize => simp only [Option.some.injEq] at h1; rw [← h1]; simp
          case wrap =>
            obtain ⟨c, -, h1⟩ := h1
            split at h1
            · simp only [Option.some.injEq] at h1; rw [← h1]; simp
            · cases h1
          case copy => obtain ⟨c, -, h1⟩ := h1; simp only [Option.some.injEq] at h1; rw [← h1]; simp
          case destroy => obtain ⟨c, -, h1⟩ := h1; simp only [Option.some.injEq] at h1; rw [← h1]; simp
          case assign => obtain ⟨c, -, d, -, h1⟩ := h1; simp only [Option.some.injEq] at h1; rw [← h1]; simp
          case write =>
            obtain ⟨c, -, h1⟩ := h1
            split at h1
            · simp only [Option.some.injEq] at h1; rw [← h1]; simp
            · cases h1
          case read => obtain ⟨c, -, d, -, h1⟩ := h1; simp only [Option.some.injEq] at h1; rw [← h1]; simp
          case size => obtain ⟨c, -, h1⟩ := h1; simp only [Option.some.injEq] at h1; rw [← h1]; simp
          case resize => obtain ⟨c, -, h1⟩ := h1; simp only [Option.some.injEq] at h1; rw [← h1]; simp
          case touch => obtain ⟨c, -, h1⟩ := h1; simp only [Option.some.injEq] at h1; rw [← h1]; simp
        simp only [List.length_cons]
        omega

/-- C121: so any program with less than 2^31 operations on vectors is right. -/
theorem c121_short_partial (ext : List (List (Option α))) (ops : List (Op α)) (hl : ops.length < 2 ^ 31) {a : Spec.ASt α}
    {os : List (Out α)} (h : Spec.run (Spec.init ext) ops = some (a, os)) :
    ∃ s, run (init ext) ops = .ok (s, os) ∧ RefCount.run (init ext) ops = .ok (s, os) := by
  refine c121_counters_partial ext ops h fun pre hp b bs hb => ?_
  have h1 := alive_le_length pre hb
  have h2 := hp.length_le
  have h3 : alive b ≤ b.vals.length := List.countP_le_length
  have h4 : (Spec.init ext).vals.length = 0 := rfl
  omega

end Verif.Counter
