import Verif.Spec.ViewHeap
/-
Lemmas about ranges in memory: they behave like the ranges of Model/View.lean as long as no two pointers are the same.
-/
namespace Verif.ViewHeap

open Verif View
open Spec (Sim)

variable {α : Type}

@[simp] theorem upd_same {β : Type} (f : Nat → β) (k : Nat) (v : β) : upd f k v k = v := by simp [upd]
theorem upd_ne {β : Type} (f : Nat → β) {k x : Nat} (v : β) (h : x ≠ k) : upd f k v x = f x := by simp [upd, h]

theorem Sim.bind {β γ β' γ' : Type} {P : β → γ → Prop} {Q : β' → γ' → Prop} {x : Run β} {y : Run γ}
    {f : β → Run β'} {g : γ → Run γ'} (h : Sim P x y) (hf : ∀ b c, P b c → Sim Q (f b) (g c)) :
    Sim Q (x >>= f) (y >>= g) := by
  rcases x with _ | (b | _ | _) <;> rcases y with _ | (c | _ | _) <;> simp only [Sim] at h <;>
    first | exact hf b c h | trivial

theorem Sim.same {β : Type} (x : Run β) : Sim (fun b c => b = c) x x := by
  rcases x with _ | (b | _ | _) <;> simp [Sim]

theorem Sim.mono {β γ : Type} {P Q : β → γ → Prop} {x : Run β} {y : Run γ} (h : Sim P x y)
    (hpq : ∀ b c, P b c → Q b c) : Sim Q x y := by
  rcases x with _ | (b | _ | _) <;> rcases y with _ | (c | _ | _) <;> simp only [Sim] at h ⊢
  exact hpq b c h

theorem Sim.pure {β γ : Type} {P : β → γ → Prop} {b : β} {c : γ} (h : P b c) :
    Sim P (pure b : Run β) (pure c : Run γ) := h

/-- The pointers of a range. -/
def addrs : Ptr → List Addr
  | .leaf p => [p]
  | .product p r2 _ => p :: addrs r2

/-- The range in memory. -/
def tree (c : Addr → Option Leaf) : Ptr → Option Range
  | .leaf p => (c p).map .leaf
  | .product p r2 base => (c p).bind fun l => (tree c r2).map fun r => .product l r base

theorem tree_congr {c d : Addr → Option Leaf} : ∀ (r : Ptr), (∀ p ∈ addrs r, c p = d p) → tree c r = tree d r
  | .leaf p, h => by simp only [tree]; rw [h p (by simp [addrs])]
  | .product p r2 b, h => by
    simp only [tree]
    rw [h p (by simp [addrs]), tree_congr r2 fun q hq => h q (by simp [addrs, hq])]

theorem tree_leaf {c : Addr → Option Leaf} {p : Addr} {R : Range} (h : tree c (.leaf p) = some R) :
    ∃ l, c p = some l ∧ R = .leaf l := by
  simp only [tree, Option.map_eq_some_iff] at h
  obtain ⟨l, h1, h2⟩ := h
  exact ⟨l, h1, h2.symm⟩

theorem tree_product {c : Addr → Option Leaf} {p : Addr} {r2 : Ptr} {b : Option Int} {R : Range}
    (h : tree c (.product p r2 b) = some R) :
    ∃ l R2, c p = some l ∧ tree c r2 = some R2 ∧ R = .product l R2 b := by
  simp only [tree, Option.bind_eq_some_iff, Option.map_eq_some_iff] at h
  obtain ⟨l, h1, R2, h2, h3⟩ := h
  exact ⟨l, R2, h1, h2, h3.symm⟩

/-- A range without its counters. -/
def norm : Range → Range
  | .leaf l => .leaf l.reset
  | .product l r _ => .product l.reset (norm r) none

theorem leaf_reset_pop (l : Leaf) : l.pop.2.reset = l.reset := by
  cases l <;> simp only [Leaf.pop]
  · split <;> rfl
  · split <;> rfl
  · split <;> rfl
  · split <;> rfl

theorem leaf_reset_reset (l : Leaf) : l.reset.reset = l.reset := by cases l <;> rfl

/-- What operations which only change counters do to the memory. -/
structure Good (h : Heap) (r : Ptr) (R : Range) (h' : Heap) (r' : Ptr) (R' : Range) : Prop where
  tree : tree h'.cells r' = some R'
  addrs : addrs r' = addrs r
  next : h'.next = h.next
  frame : ∀ p, p ∉ ViewHeap.addrs r → h'.cells p = h.cells p
  norm : norm R' = norm R

theorem Good.trans {h h1 h2 : Heap} {r r1 r2 : Ptr} {R R1 R2 : Range} (a : Good h r R h1 r1 R1)
    (b : Good h1 r1 R1 h2 r2 R2) : Good h r R h2 r2 R2 :=
  ⟨b.tree, b.addrs.trans a.addrs, b.next.trans a.next,
    fun p hp => (b.frame p (by rw [a.addrs]; exact hp)).trans (a.frame p hp), b.norm.trans a.norm⟩

theorem Good.refl {h : Heap} {r : Ptr} {R : Range} (ht : ViewHeap.tree h.cells r = some R) : Good h r R h r R :=
  ⟨ht, rfl, rfl, fun _ _ => rfl, rfl⟩

theorem cells_set (h : Heap) (p : Addr) (x : Option Leaf) : (h.set p x).cells = upd h.cells p x := rfl

theorem sim_pop : ∀ (n : Nat) (h : Heap) (r : Ptr) (R : Range), (addrs r).Nodup → tree h.cells r = some R →
    Sim (fun x y => x.1 = y.1 ∧ Good h r R x.2.1 x.2.2 y.2) (pop n h r) (Range.pop n R) := by
  intro n
  induction n with
  | zero => intro h r R _ _; simp [pop, Range.pop, Sim]
  | succ n ih =>
    intro h r R hn ht
    cases r with
    | leaf p =>
      obtain ⟨l, h1, rfl⟩ := tree_leaf ht
      simp only [pop, Range.pop, Heap.get, h1, Res.ofOption_some, Run.ok_bind]
      refine Sim.pure ⟨rfl, ?_, rfl, rfl, ?_, ?_⟩
      · simp [tree, cells_set]
      · intro q hq
        simp only [addrs, List.mem_singleton] at hq
        exact upd_ne _ _ hq
      · simp only [norm, leaf_reset_pop]
    | product p r2 base =>
      obtain ⟨l, R2, h1, h2, rfl⟩ := tree_product ht
      simp only [addrs, List.nodup_cons] at hn
      cases base with
      | none => simp [pop, Range.pop, Sim]
      | some out =>
        simp only [pop, Range.pop]
        by_cases ho : out = nomore
        · rw [if_pos ho, if_pos ho]
          exact Sim.pure ⟨rfl, Good.refl ht⟩
        · rw [if_neg ho, if_neg ho]
          simp only [Heap.get, h1, Res.ofOption_some, Run.ok_bind]
          have hframe : ∀ q ∈ addrs r2, (h.set p (some l.pop.2)).cells q = h.cells q := fun q hq =>
            upd_ne _ _ fun e => hn.1 (e ▸ hq)
          have ht2 : tree (h.set p (some l.pop.2)).cells r2 = some R2 := by
            rw [tree_congr r2 hframe, h2]
          by_cases hp : l.pop.1 ≠ nomore
          · rw [if_pos hp, if_pos hp]
            refine Sim.pure ⟨rfl, ?_, rfl, rfl, ?_, ?_⟩
            · simp only [tree, ht2]
              simp [cells_set]
            · intro q hq
              simp only [addrs, List.mem_cons, not_or] at hq
              exact upd_ne _ _ hq.1
            · simp only [norm, leaf_reset_pop]
          · rw [if_neg hp, if_neg hp]
            refine Sim.bind (ih _ r2 R2 hn.2 ht2) ?_
            rintro ⟨x, h', r'⟩ ⟨y, R'⟩ ⟨hxy, hg⟩
            simp only at hxy hg
            subst hxy
            have hcell : h'.cells p = some l.pop.2 := by
              rw [hg.frame p hn.1, cells_set, upd_same]
            simp only [hcell, Res.ofOption_some, Run.ok_bind]
            have ht3 : tree (h'.set p (some l.pop.2.reset)).cells (.product p r' (some x)) =
                some (.product l.pop.2.reset R' (some x)) := by
              have : tree (h'.set p (some l.pop.2.reset)).cells r' = some R' := by
                rw [tree_congr r' (d := h'.cells), hg.tree]
                intro q hq
                rw [hg.addrs] at hq
                exact upd_ne _ _ fun e => hn.1 (e ▸ hq)
              simp only [tree, this]
              simp [cells_set]
            have hn3 : (addrs (.product p r' (some x))).Nodup := by
              simp only [addrs, List.nodup_cons, hg.addrs]
              exact hn
            refine Sim.mono (ih _ _ _ hn3 ht3) ?_
            rintro ⟨x2, h2', r2'⟩ ⟨y2, R2'⟩ ⟨e, hg2⟩
            refine ⟨e, hg2.tree, ?_, ?_, ?_, ?_⟩
            · rw [hg2.addrs]
              simp only [addrs, hg.addrs]
            · rw [hg2.next]
              exact hg.next
            · intro q hq
              have hq' := hq
              simp only [addrs, List.mem_cons, not_or] at hq
              rw [hg2.frame q (by simp only [addrs, hg.addrs]; exact hq'), cells_set, upd_ne _ _ hq.1, hg.frame q hq.2,
                cells_set, upd_ne _ _ hq.1]
            · rw [hg2.norm]
              simp only [norm, leaf_reset_pop, leaf_reset_reset, hg.norm]

theorem reset_norm (n : Nat) : ∀ {R R0 : Range}, norm R = norm R0 → Range.reset n R = Range.reset n R0
  | .leaf l, .leaf l0, h => by
    simp only [norm, Range.leaf.injEq] at h
    simp only [Range.reset, h]
  | .leaf _, .product _ _ _, h => by simp [norm] at h
  | .product _ _ _, .leaf _, h => by simp [norm] at h
  | .product l r b, .product l0 r0 b0, h => by
    simp only [norm, Range.product.injEq] at h
    simp only [Range.reset, reset_norm n h.2.1, h.1]

theorem sim_reset (n : Nat) : ∀ (h : Heap) (r : Ptr) (R : Range), (addrs r).Nodup → tree h.cells r = some R →
    Sim (fun x y => Good h r R x.1 x.2 y) (reset n h r) (Range.reset n R)
  | h, .leaf p, R, hn, ht => by
    obtain ⟨l, h1, rfl⟩ := tree_leaf ht
    simp only [reset, Range.reset, Heap.get, h1, Res.ofOption_some, Run.ok_bind]
    refine Sim.pure ⟨?_, rfl, rfl, ?_, ?_⟩
    · simp [tree, cells_set]
    · intro q hq
      simp only [addrs, List.mem_singleton] at hq
      exact upd_ne _ _ hq
    · simp only [norm, leaf_reset_reset]
  | h, .product p r2 b, R, hn, ht => by
    obtain ⟨l, R2, h1, h2, rfl⟩ := tree_product ht
    simp only [addrs, List.nodup_cons] at hn
    simp only [reset, Range.reset, Heap.get, h1, Res.ofOption_some, Run.ok_bind]
    have ht2 : tree (h.set p (some l.reset)).cells r2 = some R2 := by
      rw [tree_congr r2 (d := h.cells), h2]
      intro q hq
      exact upd_ne _ _ fun e => hn.1 (e ▸ hq)
    refine Sim.bind (sim_reset n _ r2 R2 hn.2 ht2) ?_
    rintro ⟨h', r'⟩ R' hg
    refine Sim.bind (sim_pop n h' r' R' (by rw [hg.addrs]; exact hn.2) hg.tree) ?_
    rintro ⟨x, h'', r''⟩ ⟨y, R''⟩ ⟨hxy, hg2⟩
    simp only at hxy hg2
    subst hxy
    have hg3 := hg.trans hg2
    refine Sim.pure ⟨?_, ?_, hg3.next, ?_, ?_⟩
    · have : h''.cells p = some l.reset := by rw [hg3.frame p hn.1, cells_set, upd_same]
      simp only [tree, this, hg3.tree]
      rfl
    · simp only [addrs, hg3.addrs]
    · intro q hq
      simp only [addrs, List.mem_cons, not_or] at hq
      rw [hg3.frame q hq.2, cells_set, upd_ne _ _ hq.1]
    · simp only [norm, leaf_reset_reset, hg3.norm]

section Loops
variable {h : Heap} {r : Ptr} {R : Range}

theorem sim_readLoop (data : List α) : ∀ (n : Nat) (h : Heap) (r : Ptr) (R : Range) (k : Nat) (buf : List (Option α)),
    (addrs r).Nodup → tree h.cells r = some R →
    Sim (fun x y => x.1 = y ∧ ∃ R', Good h r R x.2.1 x.2.2 R') (readLoop data n h r k buf)
      (View.readLoop data n R k buf) := by
  intro n
  induction n with
  | zero => intros; simp [readLoop, View.readLoop, Sim]
  | succ n ih =>
    intro h r R k buf hn ht
    simp only [readLoop, View.readLoop]
    refine Sim.bind (sim_pop n h r R hn ht) ?_
    rintro ⟨x, h', r'⟩ ⟨y, R'⟩ ⟨hxy, hg⟩
    simp only at hxy hg
    subst hxy
    simp only
    split
    · exact Sim.pure ⟨rfl, R', hg⟩
    · refine Sim.bind (Sim.same _) ?_
      rintro b _ rfl
      refine Sim.mono (ih h' r' R' (k + 1) b (by rw [hg.addrs]; exact hn) hg.tree) ?_
      rintro z w ⟨e, R'', hg2⟩
      exact ⟨e, R'', hg.trans hg2⟩

theorem sim_assignLoop (src : List α) : ∀ (n : Nat) (h : Heap) (r : Ptr) (R : Range) (k : Nat) (data : List α),
    (addrs r).Nodup → tree h.cells r = some R →
    Sim (fun x y => x.1 = y ∧ ∃ R', Good h r R x.2.1 x.2.2 R') (assignLoop src n h r k data)
      (View.assignLoop src n R k data) := by
  intro n
  induction n with
  | zero => intros; simp [assignLoop, View.assignLoop, Sim]
  | succ n ih =>
    intro h r R k buf hn ht
    simp only [assignLoop, View.assignLoop]
    refine Sim.bind (sim_pop n h r R hn ht) ?_
    rintro ⟨x, h', r'⟩ ⟨y, R'⟩ ⟨hxy, hg⟩
    simp only at hxy hg
    subst hxy
    simp only
    split
    · exact Sim.pure ⟨rfl, R', hg⟩
    · refine Sim.bind (Sim.same _) ?_
      rintro b _ rfl
      refine Sim.mono (ih h' r' R' (k + 1) b (by rw [hg.addrs]; exact hn) hg.tree) ?_
      rintro z w ⟨e, R'', hg2⟩
      exact ⟨e, R'', hg.trans hg2⟩

theorem sim_assignSelfLoop : ∀ (n : Nat) (h : Heap) (r : Ptr) (R : Range) (k : Nat) (data : List α),
    (addrs r).Nodup → tree h.cells r = some R →
    Sim (fun x y => x.1 = y ∧ ∃ R', Good h r R x.2.1 x.2.2 R') (assignSelfLoop n h r k data)
      (View.assignSelfLoop n R k data) := by
  intro n
  induction n with
  | zero => intros; simp [assignSelfLoop, View.assignSelfLoop, Sim]
  | succ n ih =>
    intro h r R k buf hn ht
    simp only [assignSelfLoop, View.assignSelfLoop]
    refine Sim.bind (sim_pop n h r R hn ht) ?_
    rintro ⟨x, h', r'⟩ ⟨y, R'⟩ ⟨hxy, hg⟩
    simp only at hxy hg
    subst hxy
    simp only
    split
    · exact Sim.pure ⟨rfl, R', hg⟩
    · refine Sim.bind (Sim.same _) ?_
      rintro b _ rfl
      refine Sim.mono (ih h' r' R' (k + 1) b (by rw [hg.addrs]; exact hn) hg.tree) ?_
      rintro z w ⟨e, R'', hg2⟩
      exact ⟨e, R'', hg.trans hg2⟩

theorem sim_fillLoop (v : α) : ∀ (n : Nat) (h : Heap) (r : Ptr) (R : Range) (data : List α),
    (addrs r).Nodup → tree h.cells r = some R →
    Sim (fun x y => x.1 = y ∧ ∃ R', Good h r R x.2.1 x.2.2 R') (fillLoop v n h r data)
      (View.fillLoop v n R data) := by
  intro n
  induction n with
  | zero => intros; simp [fillLoop, View.fillLoop, Sim]
  | succ n ih =>
    intro h r R buf hn ht
    simp only [fillLoop, View.fillLoop]
    refine Sim.bind (sim_pop n h r R hn ht) ?_
    rintro ⟨x, h', r'⟩ ⟨y, R'⟩ ⟨hxy, hg⟩
    simp only at hxy hg
    subst hxy
    simp only
    split
    · exact Sim.pure ⟨rfl, R', hg⟩
    · refine Sim.bind (Sim.same _) ?_
      rintro b _ rfl
      refine Sim.mono (ih h' r' R' b (by rw [hg.addrs]; exact hn) hg.tree) ?_
      rintro z w ⟨e, R'', hg2⟩
      exact ⟨e, R'', hg.trans hg2⟩

/-- The same for two ranges. -/
structure Good2 (h : Heap) (r : Ptr) (R : Range) (q : Ptr) (Q : Range) (h' : Heap) (r' : Ptr) (R' : Range)
    (q' : Ptr) (Q' : Range) : Prop where
  tree1 : tree h'.cells r' = some R'
  tree2 : tree h'.cells q' = some Q'
  addrs1 : addrs r' = addrs r
  addrs2 : addrs q' = addrs q
  next : h'.next = h.next
  frame : ∀ p, p ∉ ViewHeap.addrs r → p ∉ ViewHeap.addrs q → h'.cells p = h.cells p
  norm1 : norm R' = norm R
  norm2 : norm Q' = norm Q

theorem good_left {h h' : Heap} {r r' q : Ptr} {R R' Q : Range} (hd : ∀ p ∈ addrs r, p ∉ addrs q)
    (ht : tree h.cells q = some Q) (hg : Good h r R h' r' R') : Good2 h r R q Q h' r' R' q Q :=
  ⟨hg.tree, by rw [tree_congr q fun p hp => hg.frame p fun hp' => hd p hp' hp, ht], hg.addrs, rfl, hg.next,
    fun p hp _ => hg.frame p hp, hg.norm, rfl⟩

theorem good_right {h h' : Heap} {r q q' : Ptr} {R Q Q' : Range} (hd : ∀ p ∈ addrs r, p ∉ addrs q)
    (ht : tree h.cells r = some R) (hg : Good h q Q h' q' Q') : Good2 h r R q Q h' r R q' Q' :=
  ⟨by rw [tree_congr r fun p hp => hg.frame p (hd p hp), ht], hg.tree, rfl, hg.addrs, hg.next,
    fun p _ hp => hg.frame p hp, rfl, hg.norm⟩

theorem Good2.trans {h h1 h2 : Heap} {r r1 r2 q q1 q2 : Ptr} {R R1 R2 Q Q1 Q2 : Range}
    (a : Good2 h r R q Q h1 r1 R1 q1 Q1) (b : Good2 h1 r1 R1 q1 Q1 h2 r2 R2 q2 Q2) : Good2 h r R q Q h2 r2 R2 q2 Q2 :=
  ⟨b.tree1, b.tree2, b.addrs1.trans a.addrs1, b.addrs2.trans a.addrs2, b.next.trans a.next,
    fun p h1 h2 => (b.frame p (by rw [a.addrs1]; exact h1) (by rw [a.addrs2]; exact h2)).trans (a.frame p h1 h2),
    b.norm1.trans a.norm1, b.norm2.trans a.norm2⟩

theorem sim_viewLoop (src : List α) : ∀ (n : Nat) (h : Heap) (r q : Ptr) (R Q : Range) (data : List α),
    (addrs r).Nodup → (addrs q).Nodup → (∀ p ∈ addrs r, p ∉ addrs q) → tree h.cells r = some R →
    tree h.cells q = some Q →
    Sim (fun x y => x.1 = y ∧ ∃ R' Q', Good2 h r R q Q x.2.1 x.2.2.1 R' x.2.2.2 Q') (viewLoop src n h r q data)
      (View.viewLoop src n R Q data) := by
  intro n
  induction n with
  | zero => intros; simp [viewLoop, View.viewLoop, Sim]
  | succ n ih =>
    intro h r q R Q buf hn hn2 hd ht ht2
    simp only [viewLoop, View.viewLoop]
    refine Sim.bind (sim_pop n h r R hn ht) ?_
    rintro ⟨x, h', r'⟩ ⟨x', R'⟩ ⟨hxy, hg⟩
    simp only at hxy hg
    subst hxy
    have hg1 := good_left hd ht2 hg
    refine Sim.bind (sim_pop n h' q Q hn2 hg1.tree2) ?_
    rintro ⟨y, h'', q'⟩ ⟨y', Q'⟩ ⟨hxy, hg'⟩
    simp only at hxy hg'
    subst hxy
    have hg2 := hg1.trans (good_right (by rw [hg.addrs]; exact hd) hg.tree hg')
    simp only
    split
    · refine Sim.bind (Sim.same _) ?_
      rintro b _ rfl
      refine Sim.mono (ih h'' r' q' R' Q' b (by rw [hg2.addrs1]; exact hn) (by rw [hg2.addrs2]; exact hn2)
        (by rw [hg2.addrs1, hg2.addrs2]; exact hd) hg2.tree1 hg2.tree2) ?_
      rintro z w ⟨e, R'', Q'', hg3⟩
      exact ⟨e, R'', Q'', hg2.trans hg3⟩
    · exact Sim.pure ⟨rfl, R', Q', hg2⟩

end Loops

/-! ## Making and deleting views -/

/-- `Sim` for results without loops. -/
def SimR {β γ : Type} (P : β → γ → Prop) (x : Res β) (y : Res γ) : Prop := Sim P (Run.done x) (Run.done y)

theorem SimR.bind {β γ β' γ' : Type} {P : β → γ → Prop} {Q : β' → γ' → Prop} {x : Res β} {y : Res γ}
    {f : β → Res β'} {g : γ → Res γ'} (h : SimR P x y) (hf : ∀ b c, P b c → SimR Q (f b) (g c)) :
    SimR Q (x >>= f) (y >>= g) := by
  rcases x with b | _ | _ <;> rcases y with c | _ | _ <;> simp only [SimR, Sim] at h <;>
    first | exact hf b c h | trivial

theorem SimR.same {β : Type} (x : Res β) : SimR (fun b c => b = c) x x := Sim.same _

theorem SimR.mono {β γ : Type} {P Q : β → γ → Prop} {x : Res β} {y : Res γ} (h : SimR P x y)
    (hpq : ∀ b c, P b c → Q b c) : SimR Q x y := Sim.mono h hpq

theorem tree_live {c : Addr → Option Leaf} : ∀ {r : Ptr} {R : Range}, tree c r = some R → ∀ p ∈ addrs r, c p ≠ none
  | .leaf p, R, h => by
    obtain ⟨l, h1, -⟩ := tree_leaf h
    intro q hq
    simp only [addrs, List.mem_singleton] at hq
    simp [hq, h1]
  | .product p r2 b, R, h => by
    obtain ⟨l, R2, h1, h2, -⟩ := tree_product h
    intro q hq
    simp only [addrs, List.mem_cons] at hq
    rcases hq with rfl | hq
    · simp [h1]
    · exact tree_live h2 q hq

theorem sim_setFactor : ∀ (r : Ptr) (h : Heap) (R : Range) (f : Int), (addrs r).Nodup → tree h.cells r = some R →
    SimR (fun h' R' => tree h'.cells r = some R' ∧ h'.next = h.next ∧ ∀ p, p ∉ addrs r → h'.cells p = h.cells p)
      (setFactor h r f) (Range.setFactor R f)
  | .leaf p, h, R, f, hn, ht => by
    obtain ⟨l, h1, rfl⟩ := tree_leaf ht
    simp only [setFactor, Range.setFactor, Heap.get, h1, Res.ofOption_some, Res.ok_bind]
    refine SimR.bind (SimR.same _) ?_
    rintro l' _ rfl
    refine ⟨by simp [tree, cells_set], rfl, ?_⟩
    intro q hq
    simp only [addrs, List.mem_singleton] at hq
    exact upd_ne _ _ hq
  | .product p r2 b, h, R, f, hn, ht => by
    obtain ⟨l, R2, h1, h2, rfl⟩ := tree_product ht
    simp only [addrs, List.nodup_cons] at hn
    simp only [setFactor, Range.setFactor, Heap.get, h1, Res.ofOption_some, Res.ok_bind]
    refine SimR.bind (SimR.same _) ?_
    rintro l' _ rfl
    have ht2 : tree (h.set p (some l')).cells r2 = some R2 := by
      rw [tree_congr r2 (d := h.cells), h2]
      intro q hq
      exact upd_ne _ _ fun e => hn.1 (e ▸ hq)
    have hs := sim_setFactor r2 (h.set p (some l')) R2 (f * l'.limit) hn.2 ht2
    rw [show setFactor (h.set p (some l')) r2 (f * l'.limit) =
      (setFactor (h.set p (some l')) r2 (f * l'.limit) >>= fun x => pure x) from (bind_pure _).symm]
    refine SimR.bind hs ?_
    rintro h' R' ⟨h3, h4, h5⟩
    refine ⟨?_, h4, ?_⟩
    · have : h'.cells p = some l' := by rw [h5 p hn.1, cells_set, upd_same]
      simp only [tree, this, h3]
      rfl
    · intro q hq
      simp only [addrs, List.mem_cons, not_or] at hq
      rw [h5 q hq.2, cells_set, upd_ne _ _ hq.1]

theorem sim_build : ∀ (ps : List Addr) (p : Addr) (h : Heap) (l : Leaf) (ls : List Leaf), (p :: ps).Nodup →
    h.cells p = some l → ps.map h.cells = ls.map some →
    SimR (fun x R => tree x.2.cells x.1 = some R ∧ addrs x.1 = p :: ps ∧ x.2.next = h.next ∧
      ∀ q, q ∉ p :: ps → x.2.cells q = h.cells q) (build h p ps) (View.build l ls)
  | [], p, h, l, ls, hn, hp, hm => by
    cases ls with
    | cons _ _ => simp at hm
    | nil => exact ⟨by simp [tree, hp], rfl, rfl, fun _ _ => rfl⟩
  | p' :: ps, p, h, l, ls, hn, hp, hm => by
    cases ls with
    | nil => simp at hm
    | cons l' ls =>
      simp only [List.map_cons, List.cons.injEq] at hm
      simp only [build, View.build]
      rw [List.nodup_cons] at hn
      refine SimR.bind (sim_build ps p' h l' ls hn.2 hm.1 hm.2) ?_
      rintro ⟨r2, h2⟩ R2 ⟨h3, h4, h5, h6⟩
      simp only at h3 h4 h5 h6
      have hp2 : h2.cells p = some l := by rw [h6 p hn.1, hp]
      simp only [mkProduct, View.mkProduct, Heap.get, hp2, Res.ofOption_some, Res.ok_bind]
      refine SimR.bind (sim_setFactor r2 h2 R2 _ (by rw [h4]; exact hn.2) h3) ?_
      rintro h7 R7 ⟨h8, h9, h10⟩
      rw [h4] at h10
      refine ⟨?_, by simp only [addrs, h4], h9.trans h5, ?_⟩
      · have : h7.cells p = some l := by rw [h10 p hn.1, hp2]
        simp only [tree, this, h8]
        rfl
      · intro q hq
        rw [List.mem_cons, not_or] at hq
        exact (h10 q hq.2).trans (h6 q hq.2)

theorem sim_setLimits : ∀ (ps : List Addr) (h : Heap) (ls : List Leaf) (ds : List Nat), ps.Nodup →
    ps.map h.cells = ls.map some →
    SimR (fun h' ls' => ps.map h'.cells = ls'.map some ∧ h'.next = h.next ∧ ∀ q, q ∉ ps → h'.cells q = h.cells q)
      (setLimits h ps ds) (View.setLimits ls ds)
  | [], h, ls, ds, hn, hm => by
    cases ls with
    | cons _ _ => simp at hm
    | nil =>
      cases ds with
      | nil => exact ⟨rfl, rfl, fun _ _ => rfl⟩
      | cons _ _ => trivial
  | p :: ps, h, ls, ds, hn, hm => by
    cases ls with
    | nil => simp at hm
    | cons l ls =>
      cases ds with
      | nil => trivial
      | cons d ds =>
        simp only [List.map_cons, List.cons.injEq] at hm
        rw [List.nodup_cons] at hn
        simp only [setLimits, View.setLimits, Heap.get, hm.1, Res.ofOption_some, Res.ok_bind]
        refine SimR.bind (SimR.same _) ?_
        rintro l' _ rfl
        have hm2 : ps.map (h.set p (some l')).cells = ls.map some := by
          rw [← hm.2]
          refine List.map_congr_left fun q hq => upd_ne _ _ fun e => hn.1 (e ▸ hq)
        rw [show setLimits (h.set p (some l')) ps ds = (setLimits (h.set p (some l')) ps ds >>= fun x => pure x) from
          (bind_pure _).symm]
        refine SimR.bind (sim_setLimits ps _ ls ds hn.2 hm2) ?_
        rintro h' ls' ⟨h1, h2, h3⟩
        refine ⟨?_, h2, ?_⟩
        · simp only [List.map_cons, h1]
          rw [h3 p hn.1, cells_set, upd_same]
        · intro q hq
          rw [List.mem_cons, not_or] at hq
          rw [h3 q hq.2, cells_set, upd_ne _ _ hq.1]

theorem sizes_eq (h : Heap) : ∀ (ps : List Addr) (ls : List Leaf), ps.map h.cells = ls.map some →
    sizes h ps = View.sizes ls
  | [], ls, hm => by
    cases ls with
    | cons _ _ => simp at hm
    | nil => rfl
  | p :: ps, ls, hm => by
    cases ls with
    | nil => simp at hm
    | cons l ls =>
      simp only [List.map_cons, List.cons.injEq] at hm
      simp only [sizes, View.sizes, Heap.get, hm.1, Res.ofOption_some, Res.ok_bind, sizes_eq h ps ls hm.2]

theorem sim_mkView (h : Heap) (t : Tensor α) (ps : List Addr) (xs : List View.Spec) (hn : ps.Nodup)
    (hm : ps.map h.cells = xs.map fun x => some x.new) :
    SimR (fun x y => x.1 = y.1 ∧ tree x.2.2.cells x.2.1 = some y.2 ∧ addrs x.2.1 = ps ∧ x.2.2.next = h.next ∧
      ∀ q, q ∉ ps → x.2.2.cells q = h.cells q) (mkView h t ps) (View.mkView t xs) := by
  cases ps with
  | nil =>
    cases xs with
    | nil => trivial
    | cons _ _ => simp at hm
  | cons p ps =>
    cases xs with
    | nil => simp at hm
    | cons x xs =>
      have hm' : (p :: ps).map h.cells = ((x :: xs).map View.Spec.new).map some := by
        rw [hm, List.map_map]
        rfl
      have hlen : ps.length = xs.length := by
        have := congrArg List.length hm
        simpa using this
      have hnil : (ps = []) ↔ (xs.map View.Spec.new = []) := by
        rw [← List.length_eq_zero_iff, ← List.length_eq_zero_iff, List.length_map, hlen]
      have hlim : (if ps = [] then [t.size] else t.dims) = (if xs.map View.Spec.new = [] then [t.size] else t.dims) := by
        by_cases h0 : ps = []
        · rw [if_pos h0, if_pos (hnil.1 h0)]
        · rw [if_neg h0, if_neg fun e => h0 (hnil.2 e)]
      simp only [mkView, View.mkView, List.map_cons, hlim, hlen, List.length_cons]
      refine SimR.bind (SimR.same _) ?_
      rintro _ _ -
      refine SimR.bind (sim_setLimits (p :: ps) h _ _ hn hm') ?_
      rintro h1 ls ⟨h2, h3, h4⟩
      rw [sizes_eq h1 _ _ h2]
      refine SimR.bind (SimR.same _) ?_
      rintro dims _ rfl
      cases ls with
      | nil => simp at h2
      | cons l ls =>
        simp only [List.map_cons, List.cons.injEq] at h2
        refine SimR.bind (sim_build ps p h1 l ls hn h2.1 h2.2) ?_
        rintro ⟨r, h5⟩ R ⟨h6, h7, h8, h9⟩
        exact ⟨rfl, h6, h7, h8.trans h3, fun q hq => (h9 q hq).trans (h4 q hq)⟩

theorem destroy_ok : ∀ (r : Ptr) (h : Heap) (R : Range), (addrs r).Nodup → tree h.cells r = some R →
    ∃ h', destroy h r = .ok h' ∧ (∀ p ∈ addrs r, h'.cells p = none) ∧ h'.next = h.next ∧
      ∀ p, p ∉ addrs r → h'.cells p = h.cells p
  | .leaf p, h, R, hn, ht => by
    obtain ⟨l, h1, rfl⟩ := tree_leaf ht
    refine ⟨h.set p none, ?_, ?_, rfl, ?_⟩
    · simp only [destroy, Heap.get, h1, Res.ofOption_some, Res.ok_bind]
      rfl
    · intro q hq
      simp only [addrs, List.mem_singleton] at hq
      rw [hq, cells_set, upd_same]
    · intro q hq
      simp only [addrs, List.mem_singleton] at hq
      exact upd_ne _ _ hq
  | .product p r2 b, h, R, hn, ht => by
    obtain ⟨l, R2, h1, h2, rfl⟩ := tree_product ht
    simp only [addrs, List.nodup_cons] at hn
    have ht2 : tree (h.set p none).cells r2 = some R2 := by
      rw [tree_congr r2 (d := h.cells), h2]
      intro q hq
      exact upd_ne _ _ fun e => hn.1 (e ▸ hq)
    obtain ⟨h', h3, h4, h5, h6⟩ := destroy_ok r2 _ R2 hn.2 ht2
    refine ⟨h', ?_, ?_, h5, ?_⟩
    · simp only [destroy, Heap.get, h1, Res.ofOption_some, Res.ok_bind, h3]
    · intro q hq
      simp only [addrs, List.mem_cons] at hq
      rcases hq with rfl | hq
      · rw [h6 q hn.1, cells_set, upd_same]
      · exact h4 q hq
    · intro q hq
      simp only [addrs, List.mem_cons, not_or] at hq
      rw [h6 q hq.2, cells_set, upd_ne _ _ hq.1]

/-! ## States -/

/-- The ranges `r` in memory are those of the slice `xs` of the tensor `t`, up to the counters. -/
def IsView (h : Heap) (t : Tensor α) (xs : List View.Spec) (dims : List Int) (r : Ptr) : Prop :=
  (addrs r).Nodup ∧ ∃ R0 R, View.mkView t xs = .ok (dims, R0) ∧ tree h.cells r = some R ∧ norm R = norm R0

theorem IsView.frame {h h' : Heap} {t : Tensor α} {xs : List View.Spec} {dims : List Int} {r : Ptr}
    (hv : IsView h t xs dims r) (hf : ∀ p ∈ addrs r, h'.cells p = h.cells p) : IsView h' t xs dims r := by
  obtain ⟨h1, R0, R, h2, h3, h4⟩ := hv
  exact ⟨h1, R0, R, h2, by rw [tree_congr r hf, h3], h4⟩

def VRel (h : Heap) : Option (Tensor α × List View.Spec) → Option (ViewObj α) → Prop
  | none, none => True
  | some x, some o => o.data = x.1.data ∧ IsView h x.1 x.2 o.dims o.ranges
  | _, _ => False

def MRel (h : Heap) : Option (Nat × Tensor α × List View.Spec) → Option MView → Prop
  | none, none => True
  | some x, some o => o.tensor = x.1 ∧ IsView h x.2.1 x.2.2 o.dims o.ranges
  | _, _ => False

inductive Owner where
  | range (r : Nat)
  | view (v : Nat)
  | mview (w : Nat)

/-- The range objects of an unused range or a view. -/
def Owns (s : St α) (a : Spec.St α) : Owner → Addr → Prop
  | .range r, p => (a.ranges r).isSome ∧ s.ranges r = some p
  | .view v, p => ∃ o, s.views v = some o ∧ p ∈ addrs o.ranges
  | .mview w, p => ∃ o, s.mviews w = some o ∧ p ∈ addrs o.ranges

structure Rel (s : St α) (a : Spec.St α) : Prop where
  tensors : s.tensors = a.tensors
  out : s.out = a.out
  ranges : ∀ r x, a.ranges r = some x → ∃ p, s.ranges r = some p ∧ s.heap.cells p = some x.new
  views : ∀ v, VRel s.heap (a.views v) (s.views v)
  mviews : ∀ w, MRel s.heap (a.mviews w) (s.mviews w)
  disj : ∀ o o' p, Owns s a o p → Owns s a o' p → o = o'
  live : ∀ p, s.heap.cells p ≠ none ↔ ∃ o, Owns s a o p
  fresh : ∀ p, s.heap.next ≤ p → s.heap.cells p = none

theorem VRel.frame {h h' : Heap} {x : Option (Tensor α × List View.Spec)} {o : Option (ViewObj α)} (hv : VRel h x o)
    (hf : ∀ o', o = some o' → ∀ p ∈ addrs o'.ranges, h'.cells p = h.cells p) : VRel h' x o := by
  rcases x with _ | x <;> rcases o with _ | o <;> simp only [VRel] at hv ⊢
  exact ⟨hv.1, hv.2.frame (hf o rfl)⟩

theorem MRel.frame {h h' : Heap} {x : Option (Nat × Tensor α × List View.Spec)} {o : Option MView} (hv : MRel h x o)
    (hf : ∀ o', o = some o' → ∀ p ∈ addrs o'.ranges, h'.cells p = h.cells p) : MRel h' x o := by
  rcases x with _ | x <;> rcases o with _ | o <;> simp only [MRel] at hv ⊢
  exact ⟨hv.1, hv.2.frame (hf o rfl)⟩

theorem VRel.some {h : Heap} {x : Tensor α × List View.Spec} {o : Option (ViewObj α)} (hv : VRel h (some x) o) :
    ∃ o', o = some o' ∧ o'.data = x.1.data ∧ IsView h x.1 x.2 o'.dims o'.ranges := by
  rcases o with _ | o <;> simp only [VRel] at hv
  exact ⟨o, rfl, hv⟩

theorem MRel.some {h : Heap} {x : Nat × Tensor α × List View.Spec} {o : Option MView} (hv : MRel h (some x) o) :
    ∃ o', o = some o' ∧ o'.tensor = x.1 ∧ IsView h x.2.1 x.2.2 o'.dims o'.ranges := by
  rcases o with _ | o <;> simp only [MRel] at hv
  exact ⟨o, rfl, hv⟩

theorem VRel.none {h : Heap} {o : Option (ViewObj α)} (hv : VRel h none o) : o = none := by
  rcases o with _ | o <;> simp only [VRel] at hv
  rfl

theorem MRel.none {h : Heap} {o : Option MView} (hv : MRel (α := α) h none o) : o = none := by
  rcases o with _ | o <;> simp only [MRel] at hv
  rfl

theorem rel_start : Rel (start : St α) Spec.start := by
  refine ⟨rfl, rfl, ?_, fun _ => trivial, fun _ => trivial, ?_, ?_, fun _ _ => rfl⟩
  · intro r x h
    simp [Spec.start] at h
  · intro o o' p h
    cases o <;> simp [Owns, start, Spec.start] at h
  · intro p
    constructor
    · intro h
      simp [start] at h
    · rintro ⟨o, h⟩
      cases o <;> simp [Owns, start, Spec.start] at h

/-- Tensors and output do not matter for the memory. -/
theorem Rel.values {s : St α} {a : Spec.St α} (hr : Rel s a) {ts ts' : Nat → Option (Tensor α)}
    {out out' : List (List Int × List α)} (ht : ts = ts') (ho : out = out') :
    Rel { s with tensors := ts, out := out } { a with tensors := ts', out := out' } :=
  ⟨ht, ho, hr.ranges, hr.views, hr.mviews,
    fun o o' p h h' => hr.disj o o' p (by cases o <;> exact h) (by cases o' <;> exact h'),
    fun p => (hr.live p).trans ⟨fun ⟨o, h⟩ => ⟨o, by cases o <;> exact h⟩, fun ⟨o, h⟩ => ⟨o, by cases o <;> exact h⟩⟩,
    hr.fresh⟩

/-- Changes of the counters of some views. -/
theorem Rel.change {s s' : St α} {a : Spec.St α} (hr : Rel s a) (F : Addr → Prop)
    (htensors : s'.tensors = a.tensors) (hout : s'.out = a.out) (hranges : s'.ranges = s.ranges)
    (hnext : s'.heap.next = s.heap.next)
    (hlive : ∀ p, s'.heap.cells p ≠ none ↔ s.heap.cells p ≠ none)
    (hframe : ∀ p, ¬F p → s'.heap.cells p = s.heap.cells p)
    (hF : ∀ r p, Owns s a (.range r) p → ¬F p)
    (hv : ∀ v, (s'.views v).map (fun o => addrs o.ranges) = (s.views v).map fun o => addrs o.ranges)
    (hw : ∀ w, (s'.mviews w).map (fun o => addrs o.ranges) = (s.mviews w).map fun o => addrs o.ranges)
    (hviews : ∀ v, VRel s'.heap (a.views v) (s'.views v)) (hmviews : ∀ w, MRel s'.heap (a.mviews w) (s'.mviews w)) :
    Rel s' a := by
  have hown : ∀ o p, Owns s' a o p ↔ Owns s a o p := by
    intro o p
    cases o with
    | range r => simp only [Owns, hranges]
    | view v =>
      have := hv v
      simp only [Owns]
      rcases h1 : s'.views v with _ | x <;> rcases h2 : s.views v with _ | y <;> simp [h1, h2] at this ⊢
      rw [this]
    | mview w =>
      have := hw w
      simp only [Owns]
      rcases h1 : s'.mviews w with _ | x <;> rcases h2 : s.mviews w with _ | y <;> simp [h1, h2] at this ⊢
      rw [this]
  refine ⟨htensors, hout, ?_, hviews, hmviews, ?_, ?_, ?_⟩
  · intro r x h
    obtain ⟨p, h1, h2⟩ := hr.ranges r x h
    refine ⟨p, by rw [hranges, h1], ?_⟩
    rw [hframe p (hF r p ⟨by rw [h]; rfl, h1⟩), h2]
  · intro o o' p h h'
    exact hr.disj o o' p ((hown o p).1 h) ((hown o' p).1 h')
  · intro p
    rw [hlive, hr.live]
    simp only [hown]
  · intro p hp
    have h1 := hr.fresh p (by rw [← hnext]; exact hp)
    have h2 := hlive p
    rw [h1] at h2
    exact Classical.not_not.1 fun h3 => h2.1 h3 rfl

theorem Rel.ofView {s : St α} {a : Spec.St α} (hr : Rel s a) {v : Nat} {x : Tensor α × List View.Spec}
    (h : a.views v = some x) : ∃ o, s.views v = some o ∧ o.data = x.1.data ∧ IsView s.heap x.1 x.2 o.dims o.ranges := by
  have := hr.views v
  rw [h] at this
  exact this.some

theorem Rel.ofMView {s : St α} {a : Spec.St α} (hr : Rel s a) {w : Nat} {x : Nat × Tensor α × List View.Spec}
    (h : a.mviews w = some x) :
    ∃ o, s.mviews w = some o ∧ o.tensor = x.1 ∧ IsView s.heap x.2.1 x.2.2 o.dims o.ranges := by
  have := hr.mviews w
  rw [h] at this
  exact this.some

theorem good_live {h h' : Heap} {r r' : Ptr} {R R' : Range} (ht : tree h.cells r = some R) (hg : Good h r R h' r' R')
    (p : Addr) : h'.cells p ≠ none ↔ h.cells p ≠ none := by
  by_cases hp : p ∈ addrs r
  · exact iff_of_true (tree_live hg.tree p (by rw [hg.addrs]; exact hp)) (tree_live ht p hp)
  · rw [hg.frame p hp]

/-- The counters of one view. -/
theorem Rel.counters {s : St α} {a : Spec.St α} (hr : Rel s a) {v : Nat} {x : Tensor α × List View.Spec}
    {o : ViewObj α} (hx : a.views v = some x) (ho : s.views v = some o) {R R' : Range} {h' : Heap} {r' : Ptr}
    (ht : tree s.heap.cells o.ranges = some R) (hg : Good s.heap o.ranges R h' r' R') :
    Rel { s with heap := h', views := upd s.views v (some { o with ranges := r' }) } a := by
  refine hr.change (fun p => p ∈ addrs o.ranges) hr.tensors hr.out rfl hg.next (good_live ht hg) hg.frame ?_ ?_ ?_ ?_ ?_
  · intro r p h1 h2
    exact Owner.noConfusion (hr.disj _ _ p h1 (show Owns s a (.view v) p from ⟨o, ho, h2⟩))
  · intro u
    by_cases hu : u = v
    · subst hu
      simp [ho, hg.addrs]
    · simp only [upd_ne _ _ hu]
  · intro w
    rfl
  · intro u
    by_cases hu : u = v
    · subst hu
      simp only [upd_same]
      obtain ⟨o', h1, h2, h3⟩ := hr.ofView hx
      rw [ho] at h1
      cases h1
      rw [hx]
      obtain ⟨h4, R0, R1, h5, h6, h7⟩ := h3
      rw [ht] at h6
      cases h6
      exact ⟨h2, by rw [hg.addrs]; exact h4, R0, R', h5, hg.tree, hg.norm.trans h7⟩
    · simp only [upd_ne _ _ hu]
      refine (hr.views u).frame fun o' ho' p hp => hg.frame p fun hp' => hu ?_
      have := hr.disj (.view u) (.view v) p ⟨o', ho', hp⟩ ⟨o, ho, hp'⟩
      injection this
  · intro w
    refine (hr.mviews w).frame fun o' ho' p hp => hg.frame p fun hp' => ?_
    exact Owner.noConfusion (hr.disj (.mview w) (.view v) p ⟨o', ho', hp⟩ ⟨o, ho, hp'⟩)

/-- The counters of one mutable view. -/
theorem Rel.mcounters {s : St α} {a : Spec.St α} (hr : Rel s a) {w : Nat} {x : Nat × Tensor α × List View.Spec}
    {o : MView} (hx : a.mviews w = some x) (ho : s.mviews w = some o) {R R' : Range} {h' : Heap} {r' : Ptr}
    (ht : tree s.heap.cells o.ranges = some R) (hg : Good s.heap o.ranges R h' r' R') :
    Rel { s with heap := h', mviews := upd s.mviews w (some { o with ranges := r' }) } a := by
  refine hr.change (fun p => p ∈ addrs o.ranges) hr.tensors hr.out rfl hg.next (good_live ht hg) hg.frame ?_ ?_ ?_ ?_ ?_
  · intro r p h1 h2
    exact Owner.noConfusion (hr.disj _ _ p h1 (show Owns s a (.mview w) p from ⟨o, ho, h2⟩))
  · intro w
    rfl
  · intro u
    by_cases hu : u = w
    · subst hu
      simp [ho, hg.addrs]
    · simp only [upd_ne _ _ hu]
  · intro v
    refine (hr.views v).frame fun o' ho' p hp => hg.frame p fun hp' => ?_
    exact Owner.noConfusion (hr.disj (.view v) (.mview w) p ⟨o', ho', hp⟩ ⟨o, ho, hp'⟩)
  · intro u
    by_cases hu : u = w
    · subst hu
      simp only [upd_same]
      obtain ⟨o', h1, h2, h3⟩ := hr.ofMView hx
      rw [ho] at h1
      cases h1
      rw [hx]
      obtain ⟨h4, R0, R1, h5, h6, h7⟩ := h3
      rw [ht] at h6
      cases h6
      exact ⟨h2, by rw [hg.addrs]; exact h4, R0, R', h5, hg.tree, hg.norm.trans h7⟩
    · simp only [upd_ne _ _ hu]
      refine (hr.mviews u).frame fun o' ho' p hp => hg.frame p fun hp' => hu ?_
      have := hr.disj (.mview u) (.mview w) p ⟨o', ho', hp⟩ ⟨o, ho, hp'⟩
      injection this

/-- A new range. -/
theorem Rel.newRange {s : St α} {a : Spec.St α} (hr : Rel s a) {r : Nat} (x : View.Spec) (hx : a.ranges r = none) :
    Rel
      { s with
        heap := ⟨upd s.heap.cells s.heap.next (some x.new), s.heap.next + 1⟩,
        ranges := upd s.ranges r (some s.heap.next) }
      { a with ranges := upd a.ranges r (some x) } := by
  have hold : ∀ o p, Owns s a o p → p ≠ s.heap.next := by
    rintro o p h rfl
    exact ((hr.live _).2 ⟨o, h⟩) (hr.fresh _ (Nat.le_refl _))
  refine ⟨hr.tensors, hr.out, ?_, ?_, ?_, ?_, ?_, ?_⟩
  · intro r' y h
    by_cases he : r' = r
    · subst he
      simp only [upd_same, Option.some.injEq] at h
      subst h
      exact ⟨s.heap.next, by simp, by simp⟩
    · simp only [upd_ne _ _ he] at h
      obtain ⟨p, h1, h2⟩ := hr.ranges r' y h
      refine ⟨p, by simp only [upd_ne _ _ he, h1], ?_⟩
      simp only
      rw [upd_ne _ _ (hold (.range r') p ⟨by rw [h]; rfl, h1⟩), h2]
  · intro v
    exact (hr.views v).frame fun o ho p hp => upd_ne _ _ (hold (.view v) p ⟨o, ho, hp⟩)
  · intro w
    exact (hr.mviews w).frame fun o ho p hp => upd_ne _ _ (hold (.mview w) p ⟨o, ho, hp⟩)
  · have key : ∀ o p, Owns
        { s with
          heap := ⟨upd s.heap.cells s.heap.next (some x.new), s.heap.next + 1⟩,
          ranges := upd s.ranges r (some s.heap.next) }
        { a with ranges := upd a.ranges r (some x) } o p → (o = .range r ∧ p = s.heap.next) ∨ Owns s a o p := by
      intro o p h
      cases o with
      | view v => exact .inr h
      | mview w => exact .inr h
      | range r' =>
        by_cases he : r' = r
        · subst he
          simp only [Owns, upd_same, Option.some.injEq] at h
          exact .inl ⟨rfl, h.2.symm⟩
        · simp only [Owns, upd_ne _ _ he] at h
          exact .inr h
    intro o o' p h h'
    rcases key o p h with ⟨rfl, rfl⟩ | h1 <;> rcases key o' _ h' with ⟨rfl, h3⟩ | h2
    · rfl
    · exact absurd rfl (hold _ _ h2)
    · exact absurd h3 (hold _ _ h1)
    · exact hr.disj o o' p h1 h2
  · intro p
    by_cases hp : p = s.heap.next
    · subst hp
      exact iff_of_true (by simp) ⟨.range r, by simp [Owns]⟩
    · simp only
      rw [upd_ne _ _ hp, hr.live]
      constructor
      · rintro ⟨o, h⟩
        refine ⟨o, ?_⟩
        cases o with
        | view v => exact h
        | mview w => exact h
        | range r' =>
          have he : r' ≠ r := by
            rintro rfl
            rw [Owns, hx] at h
            simp at h
          simp only [Owns, upd_ne _ _ he]
          exact h
      · rintro ⟨o, h⟩
        refine ⟨o, ?_⟩
        cases o with
        | view v => exact h
        | mview w => exact h
        | range r' =>
          have he : r' ≠ r := by
            rintro rfl
            simp only [Owns, upd_same, Option.some.injEq] at h
            exact hp h.2.symm
          simp only [Owns, upd_ne _ _ he] at h
          exact h
  · intro p hp
    simp only at hp ⊢
    rw [upd_ne _ _ (Nat.ne_of_gt (Nat.lt_of_succ_le hp))]
    exact hr.fresh p (Nat.le_of_succ_le hp)

theorem Rel.vars {s : St α} {a : Spec.St α} (hr : Rel s a) : ∀ (rs : List Nat) (xs : List View.Spec),
    Spec.specs a rs = some xs → rs.Nodup →
    ∃ ps, vars s.ranges rs = .ok ps ∧ ps.Nodup ∧ (ps.map s.heap.cells = xs.map fun x => some x.new) ∧
      ∀ p, p ∈ ps ↔ ∃ r ∈ rs, Owns s a (.range r) p
  | [], xs, h, _ => by
    simp only [Spec.specs, Option.some.injEq] at h
    subst h
    exact ⟨[], rfl, List.nodup_nil, rfl, by simp⟩
  | r :: rs, xs, h, hn => by
    simp only [Spec.specs, Option.bind_eq_some_iff, Option.map_eq_some_iff] at h
    obtain ⟨x, h1, xs', h2, rfl⟩ := h
    rw [List.nodup_cons] at hn
    obtain ⟨ps, h3, h4, h5, h6⟩ := hr.vars rs xs' h2 hn.2
    obtain ⟨p, h7, h8⟩ := hr.ranges r x h1
    have hown : Owns s a (.range r) p := ⟨by rw [h1]; rfl, h7⟩
    refine ⟨p :: ps, ?_, ?_, ?_, ?_⟩
    · simp only [ViewHeap.vars, var, h7, Res.ofOption_some, Res.ok_bind, h3]
      rfl
    · rw [List.nodup_cons]
      refine ⟨fun hp => ?_, h4⟩
      obtain ⟨r', h9, h10⟩ := (h6 p).1 hp
      have := hr.disj _ _ p hown h10
      injection this with e
      exact hn.1 (e ▸ h9)
    · simp only [List.map_cons, h8, h5]
    · intro q
      simp only [List.mem_cons, h6]
      constructor
      · rintro (rfl | ⟨r', h9, h10⟩)
        · exact ⟨r, .inl rfl, hown⟩
        · exact ⟨r', .inr h9, h10⟩
      · rintro ⟨r', rfl | h9, h10⟩
        · left
          have := h10.2
          rw [h7] at this
          injection this with e
          exact e.symm
        · exact .inr ⟨r', h9, h10⟩

/-- The memory after making a view. -/
structure Made (s : St α) (ps : List Addr) (h' : Heap) (r : Ptr) (R : Range) : Prop where
  tree : tree h'.cells r = some R
  addrs : addrs r = ps
  next : h'.next = s.heap.next
  frame : ∀ q, q ∉ ps → h'.cells q = s.heap.cells q

theorem Rel.newView {s : St α} {a : Spec.St α} (hr : Rel s a) {v : Nat} (hv : a.views v = none) {rs : List Nat}
    {ps : List Addr} (hps : ∀ p, p ∈ ps ↔ ∃ r ∈ rs, Owns s a (.range r) p) (hn : ps.Nodup) {t : Tensor α}
    {xs : List View.Spec} {dims : List Int} {R : Range} (hR : View.mkView t xs = .ok (dims, R)) {h' : Heap} {r : Ptr}
    (hm : Made s ps h' r R) :
    Rel { s with heap := h', views := upd s.views v (some ⟨t.data, dims, r⟩) }
      { a with ranges := Spec.use a rs, views := upd a.views v (some (t, xs)) } := by
  have hsv : s.views v = none := by
    have := hr.views v
    rw [hv] at this
    exact this.none
  have key : ∀ o p, Owns { s with heap := h', views := upd s.views v (some ⟨t.data, dims, r⟩) }
      { a with ranges := Spec.use a rs, views := upd a.views v (some (t, xs)) } o p ↔
      (o = .view v ∧ p ∈ ps) ∨ (p ∉ ps ∧ Owns s a o p) := by
    intro o p
    cases o with
    | range r' =>
      simp only [Owns, Spec.use]
      by_cases hrs : r' ∈ rs
      · simp only [hrs, if_true, reduceCtorEq, false_and, false_or]
        constructor
        · rintro ⟨h, -⟩
          simp at h
        · rintro ⟨h1, h2⟩
          exact absurd ((hps p).2 ⟨r', hrs, h2⟩) h1
      · simp only [hrs, if_false, reduceCtorEq, false_and, false_or]
        constructor
        · intro h
          refine ⟨fun hp => ?_, h⟩
          obtain ⟨r1, h1, h2⟩ := (hps p).1 hp
          have := hr.disj _ (.range r') p h2 h
          injection this with e
          exact hrs (e ▸ h1)
        · exact fun h => h.2
    | view u =>
      by_cases hu : u = v
      · subst hu
        simp [Owns, hsv, hm.addrs]
      · simp only [Owns, upd_ne _ _ hu, Owner.view.injEq, hu, false_and, false_or]
        refine ⟨fun h => ⟨fun hp => ?_, h⟩, fun h => h.2⟩
        obtain ⟨r1, h1, h2⟩ := (hps p).1 hp
        exact Owner.noConfusion (hr.disj _ (.view u) p h2 h)
    | mview w =>
      simp only [Owns, reduceCtorEq, false_and, false_or]
      refine ⟨fun h => ⟨fun hp => ?_, h⟩, fun h => h.2⟩
      obtain ⟨r1, h1, h2⟩ := (hps p).1 hp
      exact Owner.noConfusion (hr.disj _ (.mview w) p h2 h)
  refine ⟨hr.tensors, hr.out, ?_, ?_, ?_, ?_, ?_, ?_⟩
  · intro r' y h
    simp only [Spec.use] at h
    by_cases hrs : r' ∈ rs
    · simp [hrs] at h
    · simp only [hrs, if_false] at h
      obtain ⟨p, h1, h2⟩ := hr.ranges r' y h
      have ho : Owns s a (.range r') p := ⟨by rw [h]; rfl, h1⟩
      refine ⟨p, h1, ?_⟩
      simp only
      rw [hm.frame p, h2]
      intro hp
      obtain ⟨r1, h3, h4⟩ := (hps p).1 hp
      have := hr.disj _ _ p h4 ho
      injection this with e
      exact hrs (e ▸ h3)
  · intro u
    by_cases hu : u = v
    · subst hu
      simp only [upd_same, VRel, true_and]
      exact ⟨by rw [hm.addrs]; exact hn, R, R, hR, hm.tree, rfl⟩
    · simp only [upd_ne _ _ hu]
      refine (hr.views u).frame fun o ho p hp => hm.frame p fun hp' => ?_
      obtain ⟨r1, h3, h4⟩ := (hps p).1 hp'
      exact Owner.noConfusion (hr.disj _ (.view u) p h4 ⟨o, ho, hp⟩)
  · intro w
    refine (hr.mviews w).frame fun o ho p hp => hm.frame p fun hp' => ?_
    obtain ⟨r1, h3, h4⟩ := (hps p).1 hp'
    exact Owner.noConfusion (hr.disj _ (.mview w) p h4 ⟨o, ho, hp⟩)
  · intro o o' p h h'
    rcases (key o p).1 h with ⟨rfl, h1⟩ | ⟨h1, h2⟩ <;> rcases (key o' p).1 h' with ⟨rfl, h3⟩ | ⟨h3, h4⟩
    · rfl
    · exact absurd h1 h3
    · exact absurd h3 h1
    · exact hr.disj o o' p h2 h4
  · intro p
    simp only [key]
    by_cases hp : p ∈ ps
    · exact iff_of_true (tree_live hm.tree p (by rw [hm.addrs]; exact hp)) ⟨.view v, .inl ⟨rfl, hp⟩⟩
    · rw [hm.frame p hp, hr.live]
      constructor
      · rintro ⟨o, h⟩
        exact ⟨o, .inr ⟨hp, h⟩⟩
      · rintro ⟨o, ⟨-, h⟩ | ⟨-, h⟩⟩
        · exact absurd h hp
        · exact ⟨o, h⟩
  · intro p hp
    simp only at hp ⊢
    rw [hm.next] at hp
    rw [hm.frame p, hr.fresh p hp]
    intro h
    obtain ⟨r1, -, h4⟩ := (hps p).1 h
    exact (hr.live p).2 ⟨_, h4⟩ (hr.fresh p hp)

theorem Rel.newMView {s : St α} {a : Spec.St α} (hr : Rel s a) {w : Nat} (hw : a.mviews w = none) {rs : List Nat}
    {ps : List Addr} (hps : ∀ p, p ∈ ps ↔ ∃ r ∈ rs, Owns s a (.range r) p) (hn : ps.Nodup) {t : Tensor α}
    {xs : List View.Spec} {dims : List Int} {R : Range} (hR : View.mkView t xs = .ok (dims, R)) {h' : Heap} {r : Ptr}
    (hm : Made s ps h' r R) (k : Nat) :
    Rel { s with heap := h', mviews := upd s.mviews w (some ⟨k, dims, r⟩) }
      { a with ranges := Spec.use a rs, mviews := upd a.mviews w (some (k, t, xs)) } := by
  have hsw : s.mviews w = none := by
    have := hr.mviews w
    rw [hw] at this
    exact this.none
  have key : ∀ o p, Owns { s with heap := h', mviews := upd s.mviews w (some ⟨k, dims, r⟩) }
      { a with ranges := Spec.use a rs, mviews := upd a.mviews w (some (k, t, xs)) } o p ↔
      (o = .mview w ∧ p ∈ ps) ∨ (p ∉ ps ∧ Owns s a o p) := by
    intro o p
    cases o with
    | range r' =>
      simp only [Owns, Spec.use]
      by_cases hrs : r' ∈ rs
      · simp only [hrs, if_true, reduceCtorEq, false_and, false_or]
        constructor
        · rintro ⟨h, -⟩
          simp at h
        · rintro ⟨h1, h2⟩
          exact absurd ((hps p).2 ⟨r', hrs, h2⟩) h1
      · simp only [hrs, if_false, reduceCtorEq, false_and, false_or]
        constructor
        · intro h
          refine ⟨fun hp => ?_, h⟩
          obtain ⟨r1, h1, h2⟩ := (hps p).1 hp
          have := hr.disj _ (.range r') p h2 h
          injection this with e
          exact hrs (e ▸ h1)
        · exact fun h => h.2
    | mview u =>
      by_cases hu : u = w
      · subst hu
        simp [Owns, hsw, hm.addrs]
      · simp only [Owns, upd_ne _ _ hu, Owner.mview.injEq, hu, false_and, false_or]
        refine ⟨fun h => ⟨fun hp => ?_, h⟩, fun h => h.2⟩
        obtain ⟨r1, h1, h2⟩ := (hps p).1 hp
        exact Owner.noConfusion (hr.disj _ (.mview u) p h2 h)
    | view v =>
      simp only [Owns, reduceCtorEq, false_and, false_or]
      refine ⟨fun h => ⟨fun hp => ?_, h⟩, fun h => h.2⟩
      obtain ⟨r1, h1, h2⟩ := (hps p).1 hp
      exact Owner.noConfusion (hr.disj _ (.view v) p h2 h)
  refine ⟨hr.tensors, hr.out, ?_, ?_, ?_, ?_, ?_, ?_⟩
  · intro r' y h
    simp only [Spec.use] at h
    by_cases hrs : r' ∈ rs
    · simp [hrs] at h
    · simp only [hrs, if_false] at h
      obtain ⟨p, h1, h2⟩ := hr.ranges r' y h
      have ho : Owns s a (.range r') p := ⟨by rw [h]; rfl, h1⟩
      refine ⟨p, h1, ?_⟩
      simp only
      rw [hm.frame p, h2]
      intro hp
      obtain ⟨r1, h3, h4⟩ := (hps p).1 hp
      have := hr.disj _ _ p h4 ho
      injection this with e
      exact hrs (e ▸ h3)
  · intro v
    refine (hr.views v).frame fun o ho p hp => hm.frame p fun hp' => ?_
    obtain ⟨r1, h3, h4⟩ := (hps p).1 hp'
    exact Owner.noConfusion (hr.disj _ (.view v) p h4 ⟨o, ho, hp⟩)
  · intro u
    by_cases hu : u = w
    · subst hu
      simp only [upd_same, MRel, true_and]
      exact ⟨by rw [hm.addrs]; exact hn, R, R, hR, hm.tree, rfl⟩
    · simp only [upd_ne _ _ hu]
      refine (hr.mviews u).frame fun o ho p hp => hm.frame p fun hp' => ?_
      obtain ⟨r1, h3, h4⟩ := (hps p).1 hp'
      exact Owner.noConfusion (hr.disj _ (.mview u) p h4 ⟨o, ho, hp⟩)
  · intro o o' p h h'
    rcases (key o p).1 h with ⟨rfl, h1⟩ | ⟨h1, h2⟩ <;> rcases (key o' p).1 h' with ⟨rfl, h3⟩ | ⟨h3, h4⟩
    · rfl
    · exact absurd h1 h3
    · exact absurd h3 h1
    · exact hr.disj o o' p h2 h4
  · intro p
    simp only [key]
    by_cases hp : p ∈ ps
    · exact iff_of_true (tree_live hm.tree p (by rw [hm.addrs]; exact hp)) ⟨.mview w, .inl ⟨rfl, hp⟩⟩
    · rw [hm.frame p hp, hr.live]
      constructor
      · rintro ⟨o, h⟩
        exact ⟨o, .inr ⟨hp, h⟩⟩
      · rintro ⟨o, ⟨-, h⟩ | ⟨-, h⟩⟩
        · exact absurd h hp
        · exact ⟨o, h⟩
  · intro p hp
    simp only at hp ⊢
    rw [hm.next] at hp
    rw [hm.frame p, hr.fresh p hp]
    intro h
    obtain ⟨r1, -, h4⟩ := (hps p).1 h
    exact (hr.live p).2 ⟨_, h4⟩ (hr.fresh p hp)

/-- The end of a view. -/
theorem Rel.endView {s : St α} {a : Spec.St α} (hr : Rel s a) {v : Nat} {o : ViewObj α} (ho : s.views v = some o)
    {h' : Heap} (hnone : ∀ p ∈ addrs o.ranges, h'.cells p = none) (hnext : h'.next = s.heap.next)
    (hframe : ∀ p, p ∉ addrs o.ranges → h'.cells p = s.heap.cells p) :
    Rel { s with heap := h', views := upd s.views v none } { a with views := upd a.views v none } := by
  have key : ∀ o' p, Owns { s with heap := h', views := upd s.views v none } { a with views := upd a.views v none } o' p ↔
      (p ∉ addrs o.ranges ∧ Owns s a o' p) := by
    intro o' p
    cases o' with
    | range r =>
      refine ⟨fun h => ⟨fun hp => ?_, h⟩, fun h => h.2⟩
      exact Owner.noConfusion (hr.disj (.range r) (.view v) p h ⟨o, ho, hp⟩)
    | mview w =>
      refine ⟨fun h => ⟨fun hp => ?_, h⟩, fun h => h.2⟩
      exact Owner.noConfusion (hr.disj (.mview w) (.view v) p h ⟨o, ho, hp⟩)
    | view u =>
      by_cases hu : u = v
      · subst hu
        simp [Owns, ho]
      · simp only [Owns, upd_ne _ _ hu]
        refine ⟨fun h => ⟨fun hp => ?_, h⟩, fun h => h.2⟩
        have := hr.disj (.view u) (.view v) p h ⟨o, ho, hp⟩
        injection this with e
        exact hu e
  refine ⟨hr.tensors, hr.out, ?_, ?_, ?_, ?_, ?_, ?_⟩
  · intro r y h
    obtain ⟨p, h1, h2⟩ := hr.ranges r y h
    refine ⟨p, h1, ?_⟩
    simp only
    rw [hframe p, h2]
    intro hp
    exact Owner.noConfusion (hr.disj (.range r) (.view v) p ⟨by rw [h]; rfl, h1⟩ ⟨o, ho, hp⟩)
  · intro u
    by_cases hu : u = v
    · subst hu
      simp [VRel]
    · simp only [upd_ne _ _ hu]
      refine (hr.views u).frame fun o' ho' p hp => hframe p fun hp' => ?_
      have := hr.disj (.view u) (.view v) p ⟨o', ho', hp⟩ ⟨o, ho, hp'⟩
      injection this with e
      exact hu e
  · intro w
    refine (hr.mviews w).frame fun o' ho' p hp => hframe p fun hp' => ?_
    exact Owner.noConfusion (hr.disj (.mview w) (.view v) p ⟨o', ho', hp⟩ ⟨o, ho, hp'⟩)
  · intro o1 o2 p h1 h2
    exact hr.disj o1 o2 p ((key o1 p).1 h1).2 ((key o2 p).1 h2).2
  · intro p
    simp only [key]
    by_cases hp : p ∈ addrs o.ranges
    · refine iff_of_false (fun h => h (hnone p hp)) ?_
      rintro ⟨_, h, -⟩
      exact h hp
    · rw [hframe p hp, hr.live]
      exact ⟨fun ⟨o', h⟩ => ⟨o', hp, h⟩, fun ⟨o', _, h⟩ => ⟨o', h⟩⟩
  · intro p hp
    simp only at hp ⊢
    rw [hnext] at hp
    by_cases h : p ∈ addrs o.ranges
    · exact hnone p h
    · rw [hframe p h]
      exact hr.fresh p hp

theorem Rel.endMView {s : St α} {a : Spec.St α} (hr : Rel s a) {w : Nat} {o : MView} (ho : s.mviews w = some o)
    {h' : Heap} (hnone : ∀ p ∈ addrs o.ranges, h'.cells p = none) (hnext : h'.next = s.heap.next)
    (hframe : ∀ p, p ∉ addrs o.ranges → h'.cells p = s.heap.cells p) :
    Rel { s with heap := h', mviews := upd s.mviews w none } { a with mviews := upd a.mviews w none } := by
  have key : ∀ o' p, Owns { s with heap := h', mviews := upd s.mviews w none }
      { a with mviews := upd a.mviews w none } o' p ↔ (p ∉ addrs o.ranges ∧ Owns s a o' p) := by
    intro o' p
    cases o' with
    | range r =>
      refine ⟨fun h => ⟨fun hp => ?_, h⟩, fun h => h.2⟩
      exact Owner.noConfusion (hr.disj (.range r) (.mview w) p h ⟨o, ho, hp⟩)
    | view v =>
      refine ⟨fun h => ⟨fun hp => ?_, h⟩, fun h => h.2⟩
      exact Owner.noConfusion (hr.disj (.view v) (.mview w) p h ⟨o, ho, hp⟩)
    | mview u =>
      by_cases hu : u = w
      · subst hu
        simp [Owns, ho]
      · simp only [Owns, upd_ne _ _ hu]
        refine ⟨fun h => ⟨fun hp => ?_, h⟩, fun h => h.2⟩
        have := hr.disj (.mview u) (.mview w) p h ⟨o, ho, hp⟩
        injection this with e
        exact hu e
  refine ⟨hr.tensors, hr.out, ?_, ?_, ?_, ?_, ?_, ?_⟩
  · intro r y h
    obtain ⟨p, h1, h2⟩ := hr.ranges r y h
    refine ⟨p, h1, ?_⟩
    simp only
    rw [hframe p, h2]
    intro hp
    exact Owner.noConfusion (hr.disj (.range r) (.mview w) p ⟨by rw [h]; rfl, h1⟩ ⟨o, ho, hp⟩)
  · intro v
    refine (hr.views v).frame fun o' ho' p hp => hframe p fun hp' => ?_
    exact Owner.noConfusion (hr.disj (.view v) (.mview w) p ⟨o', ho', hp⟩ ⟨o, ho, hp'⟩)
  · intro u
    by_cases hu : u = w
    · subst hu
      simp [MRel]
    · simp only [upd_ne _ _ hu]
      refine (hr.mviews u).frame fun o' ho' p hp => hframe p fun hp' => ?_
      have := hr.disj (.mview u) (.mview w) p ⟨o', ho', hp⟩ ⟨o, ho, hp'⟩
      injection this with e
      exact hu e
  · intro o1 o2 p h1 h2
    exact hr.disj o1 o2 p ((key o1 p).1 h1).2 ((key o2 p).1 h2).2
  · intro p
    simp only [key]
    by_cases hp : p ∈ addrs o.ranges
    · refine iff_of_false (fun h => h (hnone p hp)) ?_
      rintro ⟨_, h, -⟩
      exact h hp
    · rw [hframe p hp, hr.live]
      exact ⟨fun ⟨o', h⟩ => ⟨o', hp, h⟩, fun ⟨o', _, h⟩ => ⟨o', h⟩⟩
  · intro p hp
    simp only at hp ⊢
    rw [hnext] at hp
    by_cases h : p ∈ addrs o.ranges
    · exact hnone p h
    · rw [hframe p h]
      exact hr.fresh p hp

/-! ## Statements -/

theorem run_assoc {β γ δ : Type} (x : Run β) (f : β → Run γ) (g : γ → Run δ) :
    x >>= f >>= g = x >>= fun y => f y >>= g := by
  rcases x with _ | (y | _ | _) <;> rfl

theorem mkView_congr {t u : Tensor α} (h : t.dims = u.dims ∧ t.size = u.size) (xs : List View.Spec) :
    View.mkView t xs = View.mkView u xs := by
  simp only [View.mkView, h.1, h.2]

theorem target_some {a : Spec.St α} {k : Nat} {x t : Tensor α} (h : Spec.target a k x = some t) :
    a.tensors k = some t ∧ t.dims = x.dims ∧ t.size = x.size := by
  simp only [Spec.target, Option.bind_eq_some_iff] at h
  obtain ⟨y, h1, h2⟩ := h
  split at h2
  · next hc =>
    injection h2 with e
    exact ⟨e ▸ h1, e ▸ hc.1, e ▸ hc.2⟩
  · simp at h2

/-- What the assignments to a mutable view have in common. -/
theorem Rel.assigned {s : St α} {a : Spec.St α} (hr : Rel s a) {w : Nat} {x : Nat × Tensor α × List View.Spec}
    {o : MView} (hx : a.mviews w = some x) (ho : s.mviews w = some o) {R R' : Range} {h' : Heap} {r' : Ptr}
    (ht : tree s.heap.cells o.ranges = some R) (hg : Good s.heap o.ranges R h' r' R') (hk : o.tensor = x.1)
    (y : Option (Tensor α)) :
    Rel
      { s with
        heap := h', mviews := upd s.mviews w (some { o with ranges := r' }), tensors := upd s.tensors o.tensor y }
      { a with tensors := upd a.tensors x.1 y } :=
  (hr.mcounters hx ho ht hg).values (by rw [hr.tensors, hk]) hr.out

theorem sim_step (n : Nat) {s : St α} {a : Spec.St α} (hr : Rel s a) (c : Stmt α) {r : Run (Spec.St α)}
    (h : Spec.step n a c = some r) : Sim Rel (step n s c) r := by
  cases c with
  | tensor t x =>
    injection h with h
    subst h
    exact Sim.pure (hr.values (by rw [hr.tensors]) hr.out)
  | endTensor t =>
    injection h with h
    subst h
    exact Sim.pure (hr.values (by rw [hr.tensors]) hr.out)
  | range k x =>
    simp only [Spec.step] at h
    split at h
    · simp at h
    · next hc =>
      injection h with h
      subst h
      exact Sim.pure (hr.newRange x (by simpa using hc))
  | view v t rs =>
    simp only [Spec.step] at h
    split at h
    · simp at h
    · next hc =>
      simp only [not_or, Classical.not_not] at hc
      simp only [Option.bind_eq_some_iff, Option.map_eq_some_iff] at h
      obtain ⟨x, h1, xs, h2, rfl⟩ := h
      obtain ⟨ps, h3, h4, h5, h6⟩ := hr.vars rs xs h2 hc.2
      simp only [step, var, hr.tensors, h1, Res.ofOption_some, Run.ok_bind, h3]
      have hs := sim_mkView s.heap x ps xs h4 h5
      cases hR : View.mkView x xs with
      | ok y =>
        rw [hR] at hs
        cases hy : mkView s.heap x ps with
        | ok z =>
          rw [hy] at hs
          obtain ⟨e1, e2, e3, e4, e5⟩ := hs
          obtain ⟨d, R⟩ := y
          obtain ⟨d', q, h'⟩ := z
          simp only at e1 e2 e3 e4 e5
          subst e1
          have := hr.newView (by simpa using hc.1) h6 h4 hR ⟨e2, e3, e4, e5⟩
          rw [hr.tensors] at this
          exact Sim.pure this
        | abort => rw [hy] at hs; exact hs.elim
        | ub => rw [hy] at hs; exact hs.elim
      | abort =>
        rw [hR] at hs
        cases hy : mkView s.heap x ps <;> rw [hy] at hs <;> first | exact hs.elim | trivial
      | ub =>
        rw [hR] at hs
        cases hy : mkView s.heap x ps <;> rw [hy] at hs <;> first | exact hs.elim | trivial
  | convert v =>
    simp only [Spec.step, Option.map_eq_some_iff] at h
    obtain ⟨x, h1, rfl⟩ := h
    obtain ⟨o, h2, h3, h4, R0, R, h5, h6, h7⟩ := hr.ofView h1
    simp only [step, var, h2, Res.ofOption_some, Run.ok_bind, View.slice, h5, ← reset_norm n h7, h3, run_assoc]
    refine Sim.bind (sim_reset n s.heap o.ranges R h4 h6) ?_
    rintro ⟨h', r'⟩ R' hg
    refine Sim.bind (sim_readLoop x.1.data n h' r' R' 0 _ (by rw [hg.addrs]; exact h4) hg.tree) ?_
    rintro ⟨b, h'', r''⟩ b' ⟨e, R'', hg2⟩
    simp only at e hg2
    subst e
    refine Sim.bind (Sim.same _) ?_
    rintro data _ rfl
    refine Sim.pure ?_
    have := (hr.counters h1 h2 h6 (hg.trans hg2)).values (out := s.out ++ [(o.dims, data)])
      (out' := a.out ++ [(o.dims, data)]) hr.tensors (by rw [hr.out])
    simp only [h3] at this
    exact this
  | endView v =>
    simp only [Spec.step, Option.map_eq_some_iff] at h
    obtain ⟨x, h1, rfl⟩ := h
    obtain ⟨o, h2, h3, h4, R0, R, h5, h6, h7⟩ := hr.ofView h1
    obtain ⟨h', h8, h9, h10, h11⟩ := destroy_ok o.ranges s.heap R h4 h6
    simp only [step, var, h2, Res.ofOption_some, Run.ok_bind, h8]
    exact Sim.pure (hr.endView h2 h9 h10 h11)
  | mview w t rs =>
    simp only [Spec.step] at h
    split at h
    · simp at h
    · next hc =>
      simp only [not_or, Classical.not_not] at hc
      simp only [Option.bind_eq_some_iff, Option.map_eq_some_iff] at h
      obtain ⟨x, h1, xs, h2, rfl⟩ := h
      obtain ⟨ps, h3, h4, h5, h6⟩ := hr.vars rs xs h2 hc.2
      simp only [step, var, hr.tensors, h1, Res.ofOption_some, Run.ok_bind, h3]
      have hs := sim_mkView s.heap x ps xs h4 h5
      cases hR : View.mkView x xs with
      | ok y =>
        rw [hR] at hs
        cases hy : mkView s.heap x ps with
        | ok z =>
          rw [hy] at hs
          obtain ⟨e1, e2, e3, e4, e5⟩ := hs
          obtain ⟨d, R⟩ := y
          obtain ⟨d', q, h'⟩ := z
          simp only at e1 e2 e3 e4 e5
          subst e1
          have := hr.newMView (by simpa using hc.1) h6 h4 hR ⟨e2, e3, e4, e5⟩ t
          rw [hr.tensors] at this
          exact Sim.pure this
        | abort => rw [hy] at hs; exact hs.elim
        | ub => rw [hy] at hs; exact hs.elim
      | abort =>
        rw [hR] at hs
        cases hy : mkView s.heap x ps <;> rw [hy] at hs <;> first | exact hs.elim | trivial
      | ub =>
        rw [hR] at hs
        cases hy : mkView s.heap x ps <;> rw [hy] at hs <;> first | exact hs.elim | trivial
  | assign w q =>
    simp only [Spec.step, Option.bind_eq_some_iff, Option.map_eq_some_iff] at h
    obtain ⟨x, h1, t, ht, q', hq, rfl⟩ := h
    obtain ⟨ht, hd⟩ := target_some ht
    obtain ⟨o, h2, h3, h4, R0, R, h5, h6, h7⟩ := hr.ofMView h1
    rw [← mkView_congr hd] at h5
    simp only [step, var, h2, Res.ofOption_some, Run.ok_bind, hr.tensors, h3, ht, hq]
    by_cases hc : q = x.1
    · subst hc
      rw [ht] at hq
      cases hq
      simp only [if_true, View.assignSelf, h5, Run.ok_bind, ← reset_norm n h7, run_assoc]
      refine Sim.bind (Sim.same _) ?_
      rintro _ _ -
      refine Sim.bind (sim_reset n s.heap o.ranges R h4 h6) ?_
      rintro ⟨h', r'⟩ R' hg
      refine Sim.bind (sim_assignSelfLoop n h' r' R' 0 _ (by rw [hg.addrs]; exact h4) hg.tree) ?_
      rintro ⟨b, h'', r''⟩ b' ⟨e, R'', hg2⟩
      simp only at e hg2
      subst e
      refine Sim.pure ?_
      have := hr.assigned h1 h2 h6 (hg.trans hg2) h3 (some ⟨t.dims, b⟩)
      rw [h3, hr.tensors] at this
      exact this
    · simp only [hc, if_false, View.assign, h5, Run.ok_bind, ← reset_norm n h7, run_assoc]
      refine Sim.bind (Sim.same _) ?_
      rintro _ _ -
      refine Sim.bind (sim_reset n s.heap o.ranges R h4 h6) ?_
      rintro ⟨h', r'⟩ R' hg
      refine Sim.bind (sim_assignLoop q'.data n h' r' R' 0 _ (by rw [hg.addrs]; exact h4) hg.tree) ?_
      rintro ⟨b, h'', r''⟩ b' ⟨e, R'', hg2⟩
      simp only at e hg2
      subst e
      refine Sim.pure ?_
      have := hr.assigned h1 h2 h6 (hg.trans hg2) h3 (some ⟨t.dims, b⟩)
      rw [h3, hr.tensors] at this
      exact this
  | number w v =>
    simp only [Spec.step, Option.bind_eq_some_iff, Option.map_eq_some_iff] at h
    obtain ⟨x, h1, t, ht, rfl⟩ := h
    obtain ⟨ht, hd⟩ := target_some ht
    obtain ⟨o, h2, h3, h4, R0, R, h5, h6, h7⟩ := hr.ofMView h1
    rw [← mkView_congr hd] at h5
    simp only [step, var, h2, Res.ofOption_some, Run.ok_bind, hr.tensors, h3, ht]
    simp only [View.assignNumber, h5, Run.ok_bind, ← reset_norm n h7, run_assoc]
    refine Sim.bind (sim_reset n s.heap o.ranges R h4 h6) ?_
    rintro ⟨h', r'⟩ R' hg
    refine Sim.bind (sim_fillLoop v n h' r' R' _ (by rw [hg.addrs]; exact h4) hg.tree) ?_
    rintro ⟨b, h'', r''⟩ b' ⟨e, R'', hg2⟩
    simp only at e hg2
    subst e
    refine Sim.pure ?_
    have := hr.assigned h1 h2 h6 (hg.trans hg2) h3 (some ⟨t.dims, b⟩)
    rw [h3, hr.tensors] at this
    exact this
  | assignView w v =>
    simp only [Spec.step, Option.bind_eq_some_iff, Option.map_eq_some_iff] at h
    obtain ⟨x, h1, t, ht, q, hq, rfl⟩ := h
    obtain ⟨ht, hd⟩ := target_some ht
    obtain ⟨o, h2, h3, h4, R0, R, h5, h6, h7⟩ := hr.ofMView h1
    obtain ⟨o', g2, g3, g4, Q0, Q, g5, g6, g7⟩ := hr.ofView hq
    rw [← mkView_congr hd] at h5
    simp only [step, var, h2, g2, Res.ofOption_some, Run.ok_bind, hr.tensors, h3, ht]
    simp only [View.assignView, h5, g5, Run.ok_bind, ← reset_norm n h7, ← reset_norm n g7, run_assoc]
    have hdis : ∀ p ∈ addrs o.ranges, p ∉ addrs o'.ranges := fun p hp hp' =>
      Owner.noConfusion (hr.disj (.mview w) (.view v) p ⟨o, h2, hp⟩ ⟨o', g2, hp'⟩)
    refine Sim.bind (Sim.same _) ?_
    rintro _ _ -
    refine Sim.bind (sim_reset n s.heap o.ranges R h4 h6) ?_
    rintro ⟨h', r'⟩ R' hg
    have hg1 := good_left hdis g6 hg
    refine Sim.bind (sim_reset n h' o'.ranges Q g4 hg1.tree2) ?_
    rintro ⟨h'', q'⟩ Q' hg'
    have hg2 := hg1.trans (good_right (by rw [hg.addrs]; exact hdis) hg.tree hg')
    rw [g3]
    refine Sim.bind (sim_viewLoop q.1.data n h'' r' q' R' Q' _ (by rw [hg2.addrs1]; exact h4)
      (by rw [hg2.addrs2]; exact g4) (by rw [hg2.addrs1, hg2.addrs2]; exact hdis) hg2.tree1 hg2.tree2) ?_
    rintro ⟨b, h3', r3, q3⟩ b' ⟨e, R3, Q3, hg3⟩
    simp only at e hg3
    subst e
    have hg4 := hg2.trans hg3
    refine Sim.pure ?_
    have hrel : Rel
        { s with
          heap := h3', mviews := upd s.mviews w (some { o with ranges := r3 }),
          views := upd s.views v (some { o' with ranges := q3 }) } a := by
      refine hr.change (fun p => p ∈ addrs o.ranges ∨ p ∈ addrs o'.ranges) hr.tensors hr.out rfl hg4.next ?_ ?_ ?_ ?_ ?_
        ?_ ?_
      · intro p
        by_cases hp : p ∈ addrs o.ranges
        · exact iff_of_true (tree_live hg4.tree1 p (by rw [hg4.addrs1]; exact hp)) (tree_live h6 p hp)
        · by_cases hp' : p ∈ addrs o'.ranges
          · exact iff_of_true (tree_live hg4.tree2 p (by rw [hg4.addrs2]; exact hp')) (tree_live g6 p hp')
          · simp only
            rw [hg4.frame p hp hp']
      · intro p hp
        rw [not_or] at hp
        exact hg4.frame p hp.1 hp.2
      · rintro r p hp (hp' | hp')
        · exact Owner.noConfusion (hr.disj (.range r) (.mview w) p hp ⟨o, h2, hp'⟩)
        · exact Owner.noConfusion (hr.disj (.range r) (.view v) p hp ⟨o', g2, hp'⟩)
      · intro u
        by_cases hu : u = v
        · subst hu
          simp [g2, hg4.addrs2]
        · simp only [upd_ne _ _ hu]
      · intro u
        by_cases hu : u = w
        · subst hu
          simp [h2, hg4.addrs1]
        · simp only [upd_ne _ _ hu]
      · intro u
        by_cases hu : u = v
        · subst hu
          simp only [upd_same]
          rw [hq]
          exact ⟨g3, by rw [hg4.addrs2]; exact g4, Q0, Q3, g5, hg4.tree2, hg4.norm2.trans g7⟩
        · simp only [upd_ne _ _ hu]
          refine (hr.views u).frame fun o1 ho1 p hp => hg4.frame p (fun hp' => ?_) fun hp' => hu ?_
          · exact Owner.noConfusion (hr.disj (.view u) (.mview w) p ⟨o1, ho1, hp⟩ ⟨o, h2, hp'⟩)
          · have := hr.disj (.view u) (.view v) p ⟨o1, ho1, hp⟩ ⟨o', g2, hp'⟩
            injection this
      · intro u
        by_cases hu : u = w
        · subst hu
          simp only [upd_same]
          rw [h1]
          exact ⟨h3, by rw [hg4.addrs1]; exact h4, R0, R3, by rw [mkView_congr hd] at h5; exact h5, hg4.tree1,
            hg4.norm1.trans h7⟩
        · simp only [upd_ne _ _ hu]
          refine (hr.mviews u).frame fun o1 ho1 p hp => hg4.frame p (fun hp' => hu ?_) fun hp' => ?_
          · have := hr.disj (.mview u) (.mview w) p ⟨o1, ho1, hp⟩ ⟨o, h2, hp'⟩
            injection this
          · exact Owner.noConfusion (hr.disj (.mview u) (.view v) p ⟨o1, ho1, hp⟩ ⟨o', g2, hp'⟩)
    have := hrel.values (ts := upd a.tensors x.1 (some ⟨t.dims, b⟩)) (ts' := upd a.tensors x.1 (some ⟨t.dims, b⟩)) rfl
      hr.out
    simp only [h3, g3] at this
    exact this
  | endMView w =>
    simp only [Spec.step, Option.map_eq_some_iff] at h
    obtain ⟨x, h1, rfl⟩ := h
    obtain ⟨o, h2, h3, h4, R0, R, h5, h6, h7⟩ := hr.ofMView h1
    obtain ⟨h', h8, h9, h10, h11⟩ := destroy_ok o.ranges s.heap R h4 h6
    simp only [step, var, h2, Res.ofOption_some, Run.ok_bind, h8]
    exact Sim.pure (hr.endMView h2 h9 h10 h11)

theorem sim_run (n : Nat) : ∀ (prog : List (Stmt α)) {s : St α} {a : Spec.St α}, Rel s a → ∀ {r : Run (Spec.St α)},
    Spec.run n a prog = some r → Sim Rel (run n s prog) r
  | [], s, a, hr, r, h => by
    injection h with h
    subst h
    exact Sim.pure hr
  | c :: cs, s, a, hr, r, h => by
    simp only [Spec.run, Option.bind_eq_some_iff] at h
    obtain ⟨x, h1, h2⟩ := h
    have hs := sim_step n hr c h1
    simp only [run]
    rcases x with _ | (a' | _ | _)
    · injection h2 with h2
      subst h2
      rcases hy : step n s c with _ | (s' | _ | _) <;> rw [hy] at hs <;> simp only [Sim] at hs
      trivial
    · rcases hy : step n s c with _ | (s' | _ | _) <;> rw [hy] at hs <;> simp only [Sim] at hs
      exact sim_run n cs hs h2
    · injection h2 with h2
      subst h2
      rcases hy : step n s c with _ | (s' | _ | _) <;> rw [hy] at hs <;> simp only [Sim] at hs
      trivial
    · injection h2 with h2
      subst h2
      rcases hy : step n s c with _ | (s' | _ | _) <;> rw [hy] at hs <;> simp only [Sim] at hs
      trivial

end Verif.ViewHeap
