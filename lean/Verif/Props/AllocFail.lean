import Verif.Lemmas.AllocFail
/-
Property C103: buffers when memory is exhausted.
-/
namespace Verif.AllocFail

open RefCount

variable {α : Type}

/-- Not a failing resize. -/
def Safe : Op α × Fail → Prop
  | (.resize _ _, f) => f = .no
  | _ => True

/-- Operations which allocate data before the `pointer` which describes it. -/
def twoBlocks : Op α → Bool
  | .newSize _ => true
  | .write _ _ _ => true
  | .touch _ => true
  | _ => false

theorem step_no (s : St α) (op : Op α) :
    step s op .no = (RefCount.step s op >>= fun x => pure (x.1, some x.2)) := by
  cases op <;> simp only [step, RefCount.step, appropriate, bind_assoc, pure_bind, Option.map_some]
  · congr 1; funext x; congr 1; funext P; congr 1; funext c
    split <;> simp [*]

theorem appropriate_cases (s : St α) (h : Nat) {f : Fail} (hf : f ≠ .no) :
    (∃ p P c, handle s h = .ok p ∧ getPtr s p = .ok P ∧ getBlk s P.blk = .ok c ∧
      appropriate s h f = .ok (if f = .ptr then (newBlk s (c.take P.size)).1 else s, none)) ∨
    appropriate s h f = (RefCount.appropriate s h >>= fun x => pure (x.1, some x.2)) := by
  have e : appropriate s h f = (do
      let p ← handle s h
      let P ← getPtr s p
      if P.refs > 1 then
        let c ← getBlk s P.blk
        pure (if f = .ptr then (newBlk s (c.take P.size)).1 else s, none)
      else pure (s, some p)) := by
    cases f <;> first | exact absurd rfl hf | rfl
  rw [e]
  unfold RefCount.appropriate
  cases ep : handle s h with
  | abort => right; rfl
  | ub => right; rfl
  | ok p =>
    simp only [Res.ok_bind]
    cases eP : getPtr s p with
    | abort => right; rfl
    | ub => right; rfl
    | ok P =>
      simp only [Res.ok_bind]
      by_cases hr : P.refs > 1
      · simp only [hr, if_true]
        cases ec : getBlk s P.blk with
        | abort => right; rfl
        | ub => right; rfl
        | ok c => left; exact ⟨p, P, c, rfl, eP, ec, rfl⟩
      · right
        simp only [hr, if_false]
        rfl

/-- An operation which is not left by an exception works as if memory was never exhausted; one which is left by an exception
does nothing, apart from a block of data which may be lost. -/
theorem step_cases (s : St α) {op : Op α} {f : Fail} (h : Safe (op, f)) :
    (f ≠ .no ∧ Spec.allocates op = true ∧
      ((step s op f = .ok (s, none) ∧ ¬ (f = .ptr ∧ twoBlocks op = true)) ∨
        ∃ c, step s op f = .ok ((newBlk s c).1, none) ∧ f = .ptr ∧ twoBlocks op = true)) ∨
    step s op f = (RefCount.step s op >>= fun x => pure (x.1, some x.2)) := by
  by_cases hf : f = .no
  · right; subst hf; exact step_no s op
  cases op with
  | newEmpty => cases f <;> simp_all [step, Spec.allocates, twoBlocks]
  | newSize n =>
    cases f with
    | no => exact absurd rfl hf
    | data => simp [step, Spec.allocates, twoBlocks]
    | ptr => left; exact ⟨hf, rfl, Or.inr ⟨_, rfl, rfl, rfl⟩⟩
  | wrap b n => cases f <;> simp_all [step, Spec.allocates, twoBlocks]
  | copy j => right; cases f <;> rfl
  | destroy j => right; cases f <;> rfl
  | assign j k => right; cases f <;> rfl
  | read j i => right; cases f <;> rfl
  | size j => right; cases f <;> rfl
  | resize j n => exact absurd h hf
  | write j i v =>
    have e : ∀ f, step s (.write j i v) f = (appropriate s j f >>= fun x => match x.2 with
        | none => pure (x.1, none)
        | some p => do
          let P ← getPtr x.1 p
          let c ← getBlk x.1 P.blk
          if i < c.length then
            pure ({ x.1 with blks := upd x.1.blks P.blk (some (c.set i (some v))) }, some .unit)
          else .ub) := fun f => by cases f <;> rfl
    rcases appropriate_cases s j hf with ⟨p, P, c, -, -, -, ea⟩ | ea
    · left
      refine ⟨hf, rfl, ?_⟩
      rw [e, ea]
      by_cases hp : f = .ptr
      · right; exact ⟨c.take P.size, by simp only [hp, if_true, Res.ok_bind, Res.pure_eq], hp, rfl⟩
      · left; exact ⟨by simp only [hp, if_false, Res.ok_bind, Res.pure_eq], fun h => hp h.1⟩
    · right
      rw [← step_no, e, e, ea]
      rfl
  | touch j =>
    have e : ∀ f, step s (.touch j) f = (appropriate s j f >>= fun x => pure (x.1, x.2.map fun _ => .unit)) :=
      fun f => by cases f <;> rfl
    rcases appropriate_cases s j hf with ⟨p, P, c, -, -, -, ea⟩ | ea
    · left
      refine ⟨hf, rfl, ?_⟩
      rw [e, ea]
      by_cases hp : f = .ptr
      · right; exact ⟨c.take P.size, by simp only [hp, if_true, Res.ok_bind, Res.pure_eq, Option.map_none], hp, rfl⟩
      · left; exact ⟨by simp only [hp, if_false, Res.ok_bind, Res.pure_eq, Option.map_none], fun h => hp h.1⟩
    · right
      rw [← step_no, e, e, ea]
      rfl

/-- Number of operations which were left by an exception of the second `new`. -/
def losses (ps : List (Op α × Fail)) (os : List (Option (Out α))) : Nat :=
  ((ps.zip os).filter fun x => x.2.isNone && x.1.2 = .ptr && twoBlocks x.1.1).length

/-- The program with the exceptions which it has seen. -/
def seen (ps : List (Op α × Fail)) (os : List (Option (Out α))) : List (Op α × Bool) :=
  (ps.map (·.1)).zip (os.map Option.isNone)

/-- Whatever the program does makes sense for the values which its vectors then have (in use, indices within bounds, external
arrays handed over once), where operations which were left by an exception have had no effect. -/
def Proper (s : St α) (a : RefCount.Spec.ASt α) : List (Op α × Fail) → Prop
  | [] => True
  | (o, f) :: ps => ∃ y, RefCount.Spec.step a o = some y ∧
      ∀ s' x, step s o f = .ok (s', x) → Proper s' (if x.isNone then a else y.1) ps

theorem run_sim {g : Nat → Option (Cells α)} {t : St α} {a : RefCount.Spec.ASt α} {k : Nat} (r : Rel t a k)
    (l : Lost g t) {G : List Nat} (hG : ∀ b, (g b).isSome = true ↔ b ∈ G) (hN : G.Nodup) (ps : List (Op α × Fail))
    (hs : ∀ x ∈ ps, Safe x) (hp : Proper (over g t) a ps) :
    ∃ (os : List (Option (Out α))) (a' : RefCount.Spec.ASt α) (g' : Nat → Option (Cells α)) (t' : St α) (G' : List Nat),
      run (over g t) ps = .ok (over g' t', os) ∧ Spec.run a (seen ps os) = some (a', os) ∧ os.length = ps.length ∧
      (∀ x ∈ ps.zip os, x.2 = none → x.1.2 ≠ .no ∧ Spec.allocates x.1.1 = true) ∧ Rel t' a' k ∧ Lost g' t' ∧
      (∀ b, (g' b).isSome = true ↔ b ∈ G') ∧ G'.Nodup ∧ G'.length = G.length + losses ps os := by
  induction ps generalizing g t a G with
  | nil => exact ⟨[], a, g, t, G, rfl, rfl, rfl, by simp, r, l, hG, hN, rfl⟩
  | cons p ps ih =>
    obtain ⟨op, f⟩ := p
    obtain ⟨⟨a1, o⟩, hsp, hp⟩ := hp
    have hs' : ∀ x ∈ ps, Safe x := fun x hx => hs x (List.mem_cons_of_mem _ hx)
    rcases step_cases (over g t) (hs (op, f) List.mem_cons_self) with ⟨hf, ha, hc⟩ | hc
    · have key : ∃ (g' : Nat → Option (Cells α)) (t' : St α) (G' : List Nat),
          step (over g t) op f = .ok (over g' t', none) ∧ Rel t' a k ∧ Lost g' t' ∧
          (∀ b, (g' b).isSome = true ↔ b ∈ G') ∧ G'.Nodup ∧
          G'.length = G.length + if f = .ptr ∧ twoBlocks op = true then 1 else 0 := by
        rcases hc with ⟨e, hn⟩ | ⟨c, e, h1, h2⟩
        · exact ⟨g, t, G, e, r, l, hG, hN, by simp [hn]⟩
        · obtain ⟨e1, l1, hz⟩ := newBlk_lost_over r l c
          refine ⟨_, _, t.nblk :: G, by rw [e, e1], rel_skip r, l1, fun b => ?_, ?_, by simp [h1, h2]⟩
          · by_cases hb : b = t.nblk
            · simp [hb]
            · simp [upd, hb, hG]
          · refine List.nodup_cons.2 ⟨fun hm => ?_, hN⟩
            rw [← hG, hz] at hm
            cases hm
      obtain ⟨g1, t1, G1, e1, r1, l1, hG1, hN1, hlen⟩ := key
      have ea : ∀ bs, Spec.run a ((op, (none : Option (Out α)).isNone) :: bs) =
          ((Spec.run a bs).map fun y => (y.1, none :: y.2)) := fun bs => by
        simp only [Option.isNone_none, Spec.run]
        cases Spec.run a bs <;> rfl
      obtain ⟨os, a', g2, t2, G2, e2, e3, hl, ht, r2, l2, hG2, hN2, hlen2⟩ := ih r1 l1 hG1 hN1 hs' (hp _ _ e1)
      refine ⟨none :: os, a', g2, t2, G2, by simp only [run, e1, e2, Res.ok_bind, Res.pure_eq], ?_, by simp [hl], ?_, r2,
        l2, hG2, hN2, ?_⟩
      · have : seen ((op, f) :: ps) (none :: os) = (op, (none : Option (Out α)).isNone) :: seen ps os := rfl
        rw [this, ea, e3]
        rfl
      · intro x hx hx2
        simp only [List.zip_cons_cons, List.mem_cons] at hx
        rcases hx with rfl | hx
        · exact ⟨hf, ha⟩
        · exact ht x hx hx2
      · rw [hlen2, hlen]
        by_cases hh : f = .ptr ∧ twoBlocks op = true
        · simp [losses, hh]; omega
        · have : (f = Fail.ptr && twoBlocks op) = false := by
            simp only [Bool.and_eq_false_iff, decide_eq_false_iff_not]
            by_cases h1 : f = .ptr
            · right; simpa [h1] using hh
            · left; exact h1
          simp [losses, hh, this]
    · -- no exception
      obtain ⟨t1, e1, r1⟩ := step_sim r op hsp
      obtain ⟨e2, l2⟩ := step_over l e1
      have e4 : step (over g t) op f = .ok (over g t1, some o) := by rw [hc, e2]; rfl
      have ea : ∀ bs, Spec.run a ((op, (some o).isNone) :: bs) =
          ((Spec.run a1 bs).map fun y => (y.1, some o :: y.2)) := fun bs => by
        simp only [Option.isNone_some, Spec.run, hsp, Option.bind_eq_bind, Option.bind_some]
        cases Spec.run a1 bs <;> rfl
      obtain ⟨os, a', g2, t2, G2, e5, e3, hl, ht, r2, l3, hG2, hN2, hlen2⟩ := ih r1 l2 hG hN hs' (hp _ _ e4)
      refine ⟨some o :: os, a', g2, t2, G2, by simp only [run, e4, e5, Res.ok_bind, Res.pure_eq], ?_, by simp [hl], ?_,
        r2, l3, hG2, hN2, ?_⟩
      · have : seen ((op, f) :: ps) (some o :: os) = (op, (some o).isNone) :: seen ps os := rfl
        rw [this, ea, e3]
        rfl
      · intro x hx hx2
        simp only [List.zip_cons_cons, List.mem_cons] at hx
        rcases hx with rfl | hx
        · cases hx2
        · exact ht x hx hx2
      · rw [hlen2]
        simp [losses]

/-- **C103 (partial).** Memory may be exhausted at any moment, in any operation but resize; the program sees an exception and
goes on in any way. If it uses the vectors properly (`Proper`), its run has no undefined behaviour and what it observes are the
values of vectors of which the operations with exceptions had no effect. Exceptions come from operations which allocate,
when there is no memory. Of the buffers in memory each is referred to by a handle, except for one for each time that the
second `new` of an operation failed. Missing: resize, of which it is false. -/
theorem c103_values_partial (ext : List (List (Option α))) (ps : List (Op α × Fail)) (hs : ∀ x ∈ ps, Safe x)
    (hp : Proper (init ext) (RefCount.Spec.init ext) ps) :
    ∃ (s : St α) (os : List (Option (Out α))) (a : RefCount.Spec.ASt α) (lost : List Nat),
      run (init ext) ps = .ok (s, os) ∧ Spec.run (RefCount.Spec.init ext) (seen ps os) = some (a, os) ∧
      os.length = ps.length ∧ (∀ x ∈ ps.zip os, x.2 = none → x.1.2 ≠ .no ∧ Spec.allocates x.1.1 = true) ∧
      lost.Nodup ∧ lost.length = losses ps os ∧
      (∀ p P, s.ptrs p = some P → P.refs = s.hs.count (some p)) ∧
      (∀ p, (∃ P, s.ptrs p = some P) ↔ some p ∈ s.hs) ∧
      (∀ b, ext.length ≤ b → ((∃ l, s.blks b = some l) ↔
        (∃ p P, some p ∈ s.hs ∧ s.ptrs p = some P ∧ P.blk = b) ∨ b ∈ lost)) ∧
      (∀ b ∈ lost, ext.length ≤ b ∧ ∀ p P, s.ptrs p = some P → P.blk ≠ b) ∧
      (∀ b, b < ext.length → ∃ l, s.blks b = some l) := by
  have l0 : Lost (fun _ => none) (init ext) := fun b c e => by cases e
  have e0 : over (fun _ => none) (init ext) = init ext := by simp [over]
  obtain ⟨os, a, g, t, G, er, ea, hl, ht, r, l, hG, hN, hlen⟩ :=
    AllocFail.run_sim (rel_init ext) l0 (G := []) (by simp) List.nodup_nil ps hs (by rw [e0]; exact hp)
  have i := r.inv
  rw [e0] at er
  refine ⟨over g t, os, a, G, er, ea, hl, ht, hN, by simpa using hlen, fun p P hp => (i.cnt p P hp).1, fun p => ⟨?_, ?_⟩, fun b hb => ⟨?_, ?_⟩,
    fun b hb => ⟨?_, ?_⟩, fun b hb => ?_⟩
  · rintro ⟨P, hP⟩
    exact List.count_pos_iff.1 (i.cnt p P hP).2
  · intro hm
    exact i.live p (List.count_pos_iff.2 hm)
  · rintro ⟨c, hc⟩
    simp only [over, Option.or_eq_some_iff] at hc
    rcases hc with hc | ⟨-, hc⟩
    · obtain ⟨p, P, hP, e2⟩ := i.noleak b c hb hc
      exact Or.inl ⟨p, P, List.count_pos_iff.1 (i.cnt p P hP).2, hP, e2⟩
    · right; rw [← hG, hc]; rfl
  · rintro (⟨p, P, -, hP, rfl⟩ | hm)
    · obtain ⟨c, hc, -⟩ := i.data p P hP
      exact ⟨c, by simp [over, hc]⟩
    · rw [← hG, Option.isSome_iff_exists] at hm
      obtain ⟨c, hc⟩ := hm
      exact ⟨c, by simp [over, hc, (l b c hc).1]⟩
  · rw [← hG, Option.isSome_iff_exists] at hb
    obtain ⟨c, hc⟩ := hb
    refine (Nat.lt_or_ge b ext.length).elim (fun hlt => ?_) id
    obtain ⟨d, hd⟩ := i.ext b hlt
    rw [(l b c hc).1] at hd
    cases hd
  · rw [← hG, Option.isSome_iff_exists] at hb
    obtain ⟨c, hc⟩ := hb
    intro p P hP e2
    obtain ⟨d, hd, -⟩ := i.data p P hP
    rw [e2, (l b c hc).1] at hd
    cases hd
  · obtain ⟨c, hc⟩ := i.ext b hb
    exact ⟨c, by simp [over, hc]⟩

/-- A history of this kind: a copy is written while there is no memory, twice, and then with memory. One block is lost. -/
def sample : List (Op Nat × Fail) :=
  [(.newSize 1, .no), (.write 0 0 1, .data), (.copy 0, .no), (.write 1 0 2, .data), (.write 1 0 2, .ptr),
    (.read 1 0, .no), (.write 1 0 3, .no), (.read 0 0, .no), (.read 1 0, .no)]

example : ∃ s : St Nat, run (init []) sample =
    .ok (s, [some .unit, some .unit, some .unit, none, none, some (.val (some 1)), some .unit, some (.val (some 1)),
      some (.val (some 3))]) ∧ s.blks 1 = some [some 1] := ⟨_, rfl, rfl⟩

example : (∀ x ∈ sample, Safe x) ∧ Proper (init []) (RefCount.Spec.init []) sample := by
  refine ⟨fun x hx => ?_, ?_⟩
  · simp only [sample, List.mem_cons, List.not_mem_nil, or_false] at hx
    rcases hx with rfl | rfl | rfl | rfl | rfl | rfl | rfl | rfl | rfl <;> trivial
  · unfold sample
    iterate 9 (refine ⟨_, rfl, fun s' x e => ?_⟩; cases e)
    trivial

/-- **C103 (partial)**, no failure at all: the histories of C01. -/
theorem c103_no_failure (s : St α) (ops : List (Op α)) :
    run s (ops.map fun o => (o, .no)) = (RefCount.run s ops >>= fun x => pure (x.1, x.2.map some)) := by
  induction ops generalizing s with
  | nil => rfl
  | cons o ops ih => simp only [List.map_cons, run, RefCount.run, step_no, ih, bind_assoc, pure_bind]

/-- **C103, negation**: resize without memory. It gives up the old buffer before it asks for the new one, thus the vector is
left with a buffer which is released again when the vector is destroyed. -/
theorem c103_negation_resize (n m : Nat) :
    run (init ([] : List (Cells α))) [(.newSize n, .no), (.resize 0 m, .data), (.destroy 0, .no)] = .ub := rfl

/-- **C103, negation**: the same for a vector which has a copy. After the vector has been destroyed the copy has lost its
elements. -/
theorem c103_negation_resize_shared (n m i : Nat) :
    run (init ([] : List (Cells α)))
      [(.newSize n, .no), (.copy 0, .no), (.resize 0 m, .data), (.destroy 0, .no), (.read 1 i, .no)] = .ub := rfl

/-- **C103, negation**: resize with memory for the elements but not for their `pointer`: the new elements stay in memory
although no vector has them, and destroying the vector releases the old ones again. -/
theorem c103_negation_resize_lost (n m : Nat) :
    (∃ s : St α, run (init []) [(.newSize n, .no), (.resize 0 m, .ptr)] = .ok (s, [some .unit, none]) ∧
      s.blks 0 = none ∧ s.blks 1 = some (List.replicate m none) ∧ ∀ p, s.ptrs p = none) ∧
    run (init ([] : List (Cells α))) [(.newSize n, .no), (.resize 0 m, .ptr), (.destroy 0, .no)] = .ub := by
  refine ⟨⟨_, rfl, rfl, rfl, fun p => ?_⟩, rfl⟩
  rcases p with _ | p <;> rfl

/-- **C103, negation**: memory may be lost. Writing to a copy when there is memory for the elements but not for their
`pointer`: after all vectors have been destroyed there is a block in memory. -/
theorem c103_negation_lost (n : Nat) :
    ∃ s : St α, run (init []) [(.newSize n, .no), (.copy 0, .no), (.touch 0, .ptr), (.destroy 0, .no), (.destroy 1, .no)] =
        .ok (s, [some .unit, some .unit, none, some .unit, some .unit]) ∧
      (∀ h ∈ s.hs, h = none) ∧ ∃ l, s.blks 1 = some l := by
  refine ⟨_, rfl, fun h hh => ?_, _, rfl⟩
  have : h ∈ [none, none] := hh
  simpa using this

end Verif.AllocFail
