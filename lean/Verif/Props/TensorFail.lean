import Verif.Lemmas.TensorFailOps
/-
Property C122: tensors when memory is exhausted.
-/
namespace Verif.TensorFail

open RefCount AllocFail

variable {α : Type}

/-- Whatever the program does makes sense for the values which its variables then have, where operations which were left by
an exception have had no effect. -/
def Proper (s : TSt α) (w : Spec.VSt α) : List (TOp α × List Fail) → Prop
  | [] => True
  | (o, fs) :: ps => ∃ y, Spec.step w o = some y ∧
      ∀ s' x, step s o fs = .ok (s', x) → Proper s' (if x.isNone then w else y.1) ps

/-- State of the program and values of its variables, with lost blocks `G`. -/
structure Sim (s : TSt α) (w : Spec.VSt α) (G : List Nat) : Prop where
  ex : ∃ a : RefCount.Spec.ASt (Cell α), Heap s.heap a 0 G ∧ TRel s.vars a w

theorem vals_length {s : St β} {a : RefCount.Spec.ASt β} {k : Nat} {G : List Nat} (H : Heap s a k G) :
    s.hs.length = a.vals.length := by
  obtain ⟨g, t, rfl, r, -⟩ := H.ex
  rw [r.vals]
  simp [over]

theorem step_sim {s : TSt α} {w w' : Spec.VSt α} {G : List Nat} (H : Sim s w G) {o : TOp α} {x : Option (TOut α)}
    (hs : Spec.step w o = some (w', x)) (fs : List Fail) :
    (∃ s', step s o fs = .ok (s', x) ∧ ∃ G', Sim s' w' G' ∧ G'.length ≤ G.length) ∨
    ((¬ ∀ f ∈ fs, f = .no) ∧ Spec.allocates o = true ∧ ∃ s', step s o fs = .ok (s', none) ∧ ∃ G', Sim s' w G' ∧
      G'.length ≤ G.length + 1) := by
  obtain ⟨a, Hh, r⟩ := H.ex
  obtain ⟨s', a', y, n, G', e, H', hl, hq, hn⟩ := exec_sound _ Hh (op_wp r o hs) fs
  rw [← vals_length Hh] at e
  have es : step s o fs = .ok ({ heap := s', vars := y.1 }, y.2) := by
    simp only [step, e, Res.ok_bind, Res.pure_eq]
  rcases hq with ⟨h0, h1, h2⟩ | ⟨h0, h1, h2, h3⟩
  · left
    exact ⟨_, by rw [es, h1], G', ⟨a', H', h2⟩, by omega⟩
  · right
    refine ⟨fun h => ?_, h3, _, by rw [es, h1], G', ⟨a', H', h2⟩, by omega⟩
    have := hn h
    omega

/-- The program with the exceptions for which memory is responsible. -/
def marked (ps : List (TOp α × List Fail)) (bs : List Bool) : List (TOp α × Bool) := (ps.map (·.1)).zip bs

theorem run_sim {s : TSt α} {w : Spec.VSt α} {G : List Nat} (H : Sim s w G) (ps : List (TOp α × List Fail))
    (hp : Proper s w ps) :
    ∃ s' os bs w' G', run s ps = .ok (s', os) ∧ Spec.run w (marked ps bs) = some (w', os) ∧ bs.length = ps.length ∧
      (∀ y ∈ ps.zip bs, y.2 = true → Spec.allocates y.1.1 = true ∧ ¬ ∀ f ∈ y.1.2, f = .no) ∧ Sim s' w' G' ∧
      G'.length ≤ G.length + bs.count true := by
  induction ps generalizing s w G with
  | nil => exact ⟨s, [], [], w, G, rfl, rfl, rfl, by simp, H, by simp⟩
  | cons p ps ih =>
    obtain ⟨o, fs⟩ := p
    obtain ⟨⟨w1, x⟩, hs, hp⟩ := hp
    have main : ∀ (b : Bool) s1 x1 w1' G1, step s o fs = .ok (s1, x1) → x1 = (if b then none else x) →
        w1' = (if b then w else w1) → Sim s1 w1' G1 → G1.length ≤ G.length + (if b then 1 else 0) →
        (b = true → Spec.allocates o = true ∧ ¬ ∀ f ∈ fs, f = .no) → Proper s1 w1' ps →
        ∃ s' os bs w' G', run s ((o, fs) :: ps) = .ok (s', os) ∧ Spec.run w (marked ((o, fs) :: ps) bs) = some (w', os) ∧
          bs.length = ((o, fs) :: ps).length ∧
          (∀ y ∈ ((o, fs) :: ps).zip bs, y.2 = true → Spec.allocates y.1.1 = true ∧ ¬ ∀ f ∈ y.1.2, f = .no) ∧
          Sim s' w' G' ∧ G'.length ≤ G.length + bs.count true := by
      intro b s1 x1 w1' G1 e1 hx hw H1 hl hb hp1
      obtain ⟨s', os, bs, w', G', e2, e3, hlen, hm, H2, hl2⟩ := ih H1 hp1
      refine ⟨s', x1 :: os, b :: bs, w', G', ?_, ?_, by simp [hlen], ?_, H2, ?_⟩
      · simp only [run, e1, Res.ok_bind, e2, Res.pure_eq]
      · have : marked ((o, fs) :: ps) (b :: bs) = (o, b) :: marked ps bs := rfl
        rw [this]
        simp only [Spec.run, hs, Option.bind_eq_bind, Option.bind_some]
        rw [← hw, e3, hx]
        rfl
      · intro y hy hyt
        simp only [List.zip_cons_cons, List.mem_cons] at hy
        rcases hy with rfl | hy
        · exact hb hyt
        · exact hm y hy hyt
      · cases b <;> simp at hl ⊢ <;> omega
    rcases step_sim H hs fs with ⟨s1, e1, G1, H1, hl⟩ | ⟨hf, ha, s1, e1, G1, H1, hl⟩
    · have hp1 := hp s1 x e1
      by_cases hx : x = none
      · -- a size which no memory has: nothing has changed
        have hw : w1 = w := by
          subst hx
          cases o <;> simp only [Spec.step] at hs
          case sizes l =>
            split at hs
            · cases hs; rfl
            · split at hs <;> cases hs
          all_goals (repeat' split at hs) <;> simp [Option.map_eq_some_iff] at hs
        subst hw
        refine main false s1 x w1 G1 e1 rfl rfl H1 (by simpa using hl) (by simp) ?_
        simpa using hp1
      · have : x.isNone = false := by cases x <;> simp_all
        rw [this] at hp1
        exact main false s1 x w1 G1 e1 rfl rfl H1 (by simpa using hl) (by simp) (by simpa using hp1)
    · exact main true s1 none w G1 e1 rfl rfl H1 (by simpa using hl) (fun _ => ⟨ha, hf⟩) (hp s1 none e1)

/-- **C122 (partial).** Memory may be exhausted at any moment, in any operation on tensors, lists of indices and vectors, which share their
buffers in any way; the program sees an exception and goes on in any way. If it uses its variables properly (`Proper`), its
run has no undefined behaviour, and what it observes are the values of variables which share nothing and on which the
operations with exceptions had no effect. Exceptions come from operations which may allocate, when memory was not given (or from
sizes that are negative). Each tensor has as many elements as its dimensions say. In memory there are the buffers of
the variables and, for each exception, at most one block that is lost. Missing: that no block is lost, and tensors with elements and negative
dimensions; both are false (below). -/
theorem c122_values_partial (ps : List (TOp α × List Fail)) (hp : Proper init [] ps) :
    ∃ (s : TSt α) (os : List (Option (TOut α))) (bs : List Bool) (w : Spec.VSt α) (lost : List Nat),
      run init ps = .ok (s, os) ∧ Spec.run [] (marked ps bs) = some (w, os) ∧ bs.length = ps.length ∧
      (∀ y ∈ ps.zip bs, y.2 = true → Spec.allocates y.1.1 = true ∧ ¬ ∀ f ∈ y.1.2, f = .no) ∧
      (∀ (i : Nat) l c, w[i]? = some (some (.tensor l c)) → Spec.total l = c.length) ∧
      lost.Nodup ∧ lost.length ≤ bs.count true ∧
      (∀ b, (∃ c, s.heap.blks b = some c) ↔ b ∈ lost ∨ ∃ (i : Nat) (v : Var) (h p : Nat) (P : Ptr), s.vars[i]? = some v ∧
        h ∈ owned v ∧ s.heap.hs[h]? = some (some p) ∧ s.heap.ptrs p = some P ∧ P.blk = b) ∧
      (∀ p, (∃ P, s.heap.ptrs p = some P) ↔ ∃ (i : Nat) (v : Var) (h : Nat), s.vars[i]? = some v ∧ h ∈ owned v ∧
        s.heap.hs[h]? = some (some p)) := by
  have H0 : Sim (init : TSt α) [] [] := by
    refine ⟨RefCount.Spec.init [], ⟨fun _ => none, RefCount.init [], ?_, rel_init [], ?_, by simp, List.nodup_nil⟩, ?_⟩
    · simp [init, over]
    · intro b c e; cases e
    · exact ⟨rfl, by simp [init], by simp [init], by simp [RefCount.Spec.init]⟩
  obtain ⟨s, os, bs, w, G, e1, e2, hl, hm, H, hc⟩ := run_sim H0 ps hp
  obtain ⟨a, ⟨g, t, et, r, l, hG, hN⟩, hv⟩ := H.ex
  have i := r.inv
  have hown : ∀ (h p : Nat), t.hs[h]? = some (some p) → ∃ (i : Nat) (v : Var), s.vars[i]? = some v ∧ h ∈ owned v := by
    intro h p hh
    obtain ⟨P, m, hP, hb, -, hcont, -⟩ := i.content_some (cnt_pos hh)
    exact hv.live h m (by rw [r.vals, List.getElem?_map, hh]; simp [hcont])
  refine ⟨s, os, bs, w, G, e1, e2, hl, hm, fun j l c hj => ?_, hN, by simpa using hc, fun b => ⟨?_, ?_⟩, fun p => ⟨?_, ?_⟩⟩
  · obtain ⟨d, n, -, -, -, -, h⟩ := hv.tensor hj
    exact h
  · rintro ⟨c, hb⟩
    rw [et] at hb ⊢
    simp only [over, Option.or_eq_some_iff] at hb
    rcases hb with hb | ⟨-, hb⟩
    · right
      obtain ⟨p, P, hP, e3⟩ := i.noleak b c (Nat.zero_le _) hb
      obtain ⟨h, hh⟩ := List.mem_iff_getElem?.1 (List.count_pos_iff.1 (i.cnt p P hP).2)
      obtain ⟨j, v, hj, ho⟩ := hown h p hh
      exact ⟨j, v, h, p, P, hj, ho, hh, hP, e3⟩
    · left; rw [← hG, hb]; rfl
  · rintro (hb | ⟨j, v, h, p, P, hj, ho, hh, hP, rfl⟩)
    · rw [← hG, Option.isSome_iff_exists] at hb
      obtain ⟨c, hb⟩ := hb
      exact ⟨c, by rw [et]; simp [over, hb, (l b c hb).1]⟩
    · rw [et] at hP
      obtain ⟨c, hc, -⟩ := i.data p P hP
      exact ⟨c, by rw [et]; simp [over, hc]⟩
  · rintro ⟨P, hP⟩
    rw [et] at hP ⊢
    obtain ⟨h, hh⟩ := List.mem_iff_getElem?.1 (List.count_pos_iff.1 (i.cnt p P hP).2)
    obtain ⟨j, v, hj, ho⟩ := hown h p hh
    exact ⟨j, v, h, hj, ho, hh⟩
  · rintro ⟨j, v, h, hj, ho, hh⟩
    rw [et] at hh ⊢
    exact i.live p (cnt_pos hh)

/-- A program of this kind. A tensor and a list of indices from its dimensions; the copy cannot be written, then the list
of indices cannot, a sum cannot be computed; at last there is memory. -/
def sample : List (TOp Nat × List Fail) :=
  [(.list [1, 2], []), (.copy 0, []), (.put 1 0 7, [.data]), (.dimsOf 0, []), (.setIdx 2 0 9, [.ptr]), (.fill 1 5, [.ptr]),
    (.binary 0 1 (· + ·), [.data]), (.sizes [-1, 2], []), (.put 1 0 7, []), (.setIdx 2 0 1, []), (.binary 0 1 (· + ·), []),
    (.get 0 0, []), (.get 3 0, []), (.dimension 1 0, [])]

example : ∃ s : TSt Nat, run init sample =
    .ok (s, [some .unit, some .unit, none, some .unit, none, none, none, none, some .unit, some .unit, some .unit,
      some (.val (some 1)), some (.val (some 8)), some (.num 2)]) := ⟨_, rfl⟩

example : Proper init [] sample := by
  unfold sample
  iterate 14 (refine ⟨_, rfl, fun s' x e => ?_⟩; cases e)
  trivial

/-- **C122**, after any such program, operations with operands that do not fit are stopped by an assertion, whether there is memory
or not. -/
theorem c122_refused (ps : List (TOp α × List Fail)) (hp : Proper init [] ps) :
    ∃ (s : TSt α) (os : List (Option (TOut α))) (bs : List Bool) (w : Spec.VSt α),
      run init ps = .ok (s, os) ∧ Spec.run [] (marked ps bs) = some (w, os) ∧ bs.length = ps.length ∧
      ∀ o fs, Spec.refuses w o → step s o fs = .abort := by
  have H0 : Sim (init : TSt α) [] [] := by
    refine ⟨RefCount.Spec.init [], ⟨fun _ => none, RefCount.init [], ?_, rel_init [], ?_, by simp, List.nodup_nil⟩, ?_⟩
    · simp [init, over]
    · intro b c e; cases e
    · exact ⟨rfl, by simp [init], by simp [init], by simp [RefCount.Spec.init]⟩
  obtain ⟨s, os, bs, w, G, e1, e2, hl, -, H, -⟩ := run_sim H0 ps hp
  refine ⟨s, os, bs, w, e1, e2, hl, fun o fs ho => ?_⟩
  obtain ⟨a, Hh, r⟩ := H.ex
  suffices h : stops a (prog s.vars s.heap.hs.length o) by simp only [step, exec_stops _ Hh h fs, Res.abort_bind]
  cases o <;> try exact ho.elim
  case reshaped t d =>
    obtain ⟨l', c, l, h1, h2, h3⟩ := ho
    obtain ⟨e, n, v1, -, g1, g2, -⟩ := r.tensor h1
    obtain ⟨h, v2, g3⟩ := r.idx h2
    simp only [prog, v1, v2]
    refine ⟨trivial, rfl, { a with vals := a.vals ++ [some (elts c)] }, .unit, by simp [RefCount.Spec.step, g1], trivial, rfl,
      { a with vals := a.vals ++ [some (elts c)] ++ [some (ints l)] }, .unit, ?_, ints l, ?_, ?_⟩
    · simp [RefCount.Spec.step, append_get g3]
    · simp [append_get g3]
    · simp only [toInts_ints]
      refine ⟨elts c, by simp [append_get g1], ?_⟩
      simp only [total_eq, elts_length, if_neg h3]
      trivial
  case reshape t d =>
    obtain ⟨l', c, l, h1, h2, h3⟩ := ho
    obtain ⟨e, n, v1, -, g1, g2, -⟩ := r.tensor h1
    obtain ⟨h, v2, g3⟩ := r.idx h2
    simp only [prog, v1, v2]
    refine ⟨ints l, by simp [g3], ?_⟩
    simp only [toInts_ints]
    refine ⟨elts c, by simp [g1], ?_⟩
    simp only [total_eq, elts_length, if_neg h3]
    trivial
  case dimension t k =>
    obtain ⟨l, c, h1, h2⟩ := ho
    obtain ⟨e, n, v1, -, g1, g2, -⟩ := r.tensor h1
    simp only [prog, v1]
    refine ⟨trivial, rfl, a, .num (ints l : Cells (Cell α)).length, by simp [RefCount.Spec.step, g2], ?_⟩
    simp only [ints_length]
    rw [if_neg (by omega)]
    trivial
  case binary t u f =>
    obtain ⟨l, c, l', c', h1, h2, h3⟩ := ho
    obtain ⟨d, n, v1, -, g1, g2, -⟩ := r.tensor h1
    obtain ⟨d', n', v2, -, g3, g4, -⟩ := r.tensor h2
    simp only [prog, v1, v2]
    refine ⟨ints l, by simp [g2], ?_⟩
    simp only [toInts_ints]
    refine ⟨ints l', by simp [g4], ?_⟩
    simp only [toInts_ints]
    rw [if_neg h3]
    trivial

/-- A program after which a sum is refused. -/
example : ∃ (s : TSt Nat) (w : Spec.VSt Nat), run init [(.list [1, 2], []), (.list [1, 2, 3], [])] = .ok (s, [some .unit, some .unit]) ∧
    Spec.run [] [(.list [1, 2], false), (.list [1, 2, 3], false)] = some (w, [some .unit, some .unit]) ∧
    Spec.refuses w (.binary 0 1 (· + ·)) ∧ step s (.binary 0 1 (· + ·)) [.data] = .abort :=
  ⟨_, _, rfl, rfl, ⟨_, _, _, _, rfl, rfl, by decide⟩, rfl⟩

/-- **C122**, without failures no operation is left by an exception, except for negative sizes. -/
theorem c122_no_failure (ps : List (TOp α × List Fail)) (hp : Proper init [] ps) (hn : ∀ x ∈ ps, ∀ f ∈ x.2, f = Fail.no)
    (hz : ∀ l fs, (TOp.sizes l, fs) ∈ ps → ∀ n ∈ l, 0 ≤ n) :
    ∃ (s : TSt α) (os : List (TOut α)), run init ps = .ok (s, os.map some) := by
  obtain ⟨s, os, bs, w, lost, e1, e2, hl, hm, -⟩ := c122_values_partial ps hp
  have key : ∀ (w0 : Spec.VSt α) (ps : List (TOp α × List Fail)) (bs : List Bool) (w : Spec.VSt α) os, bs.length = ps.length →
      (∀ y ∈ ps.zip bs, y.2 = false) → (∀ l fs, (TOp.sizes l, fs) ∈ ps → ∀ n ∈ l, 0 ≤ n) →
      Spec.run w0 (marked ps bs) = some (w, os) → ∀ x ∈ os, x ≠ none := by
    intro w0 ps
    induction ps generalizing w0 with
    | nil =>
      intro bs w os hl _ _ e
      have : os = [] := by
        have : marked ([] : List (TOp α × List Fail)) bs = [] := rfl
        rw [this] at e
        cases e
        rfl
      simp [this]
    | cons p ps ih =>
      intro bs w os hl hb hz e
      obtain ⟨o, fs⟩ := p
      cases bs with
      | nil => simp at hl
      | cons b bs =>
        have hb0 : b = false := hb _ List.mem_cons_self
        subst hb0
        have : marked ((o, fs) :: ps) (false :: bs) = (o, false) :: marked ps bs := rfl
        rw [this] at e
        simp only [Spec.run, Option.bind_eq_bind] at e
        cases h1 : Spec.step w0 o with
        | none => rw [h1] at e; cases e
        | some y =>
          rw [h1] at e
          simp only [Option.bind_some, Bool.false_eq_true, if_false] at e
          cases h2 : Spec.run y.1 (marked ps bs) with
          | none => rw [h2] at e; cases e
          | some z =>
            rw [h2] at e
            simp only [Option.bind_some, Option.some.injEq, Prod.mk.injEq] at e
            obtain ⟨-, rfl⟩ := e
            intro x hx
            rcases List.mem_cons.1 hx with rfl | hx
            · intro hno
              obtain ⟨w1, x1⟩ := y
              dsimp only at hno
              subst hno
              cases o <;> simp only [Spec.step] at h1
              case sizes l =>
                have hnn := hz l fs List.mem_cons_self
                have : ¬ Spec.prod l < 0 := by
                  have : ∀ l : List Int, (∀ n ∈ l, 0 ≤ n) → 0 ≤ Spec.prod l := by
                    intro l
                    induction l with
                    | nil => intro _; decide
                    | cons n l ih =>
                      intro h
                      exact Int.mul_nonneg (h n List.mem_cons_self) (ih fun m hm => h m (List.mem_cons_of_mem _ hm))
                  have := this l hnn
                  omega
                rw [if_neg this] at h1
                split at h1 <;> cases h1
              all_goals (repeat' split at h1) <;> simp [Option.map_eq_some_iff] at h1
            · exact ih y.1 bs z.1 z.2 (by simpa using hl) (fun y hy => hb y (List.mem_cons_of_mem _ hy))
                (fun l fs h => hz l fs (List.mem_cons_of_mem _ h)) h2 x hx
  have hno := key [] ps bs w os hl (fun y hy => by
    cases hb : y.2 with
    | false => rfl
    | true => exact absurd (hn y.1 (List.of_mem_zip hy).1) (hm y hy hb).2) hz e2
  refine ⟨s, os.filterMap id, ?_⟩
  rw [e1]
  congr 2
  clear e1 e2
  induction os with
  | nil => rfl
  | cons x os ih =>
    cases x with
    | none => exact absurd rfl (hno none List.mem_cons_self)
    | some x =>
      simp only [List.filterMap_cons, id, List.map_cons]
      rw [← ih fun y hy => hno y (List.mem_cons_of_mem _ hy)]

/-- **C122, negation** (no memory is lost): writing to a copy when there is memory for the elements but not for their `pointer`:
after all variables have been destroyed there is a block in memory. -/
theorem c122_negation_lost (v u : α) :
    ∃ s : TSt α, run init [(.list [v], []), (.copy 0, []), (.put 1 0 u, [.ptr]), (.destroy 0, []), (.destroy 1, [])] =
        .ok (s, [some .unit, some .unit, none, some .unit, some .unit]) ∧
      (∀ x ∈ s.vars, x = .gone) ∧ ∃ b c, s.heap.blks b = some c := by
  refine ⟨_, rfl, fun x hx => ?_, 2, _, rfl⟩
  have : x ∈ [Var.gone, Var.gone] := hx
  simpa using this

/-- **C122, negation** (tensors with negative dimensions): `Tensor(-1, -2)` has two elements, but its sum with itself is computed
in a tensor without elements. -/
theorem c122_negation_negative (f : α → α → α) :
    run (init : TSt α) [(.sizes [-1, -2], []), (.binary 0 0 f, [])] = .ub := rfl

/-- The elements of a tensor and its dimensions are destroyed if the second of them cannot be allocated. -/
example : ∃ s : TSt Nat, run init [(.sizes [2, 3], [.no, .data])] = .ok (s, [none]) ∧ ∀ b, s.heap.blks b = none := by
  refine ⟨_, rfl, fun b => ?_⟩
  rcases b with _ | b <;> rfl

end Verif.TensorFail
