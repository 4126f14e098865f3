import Verif.Lemmas.TensorFail
/-
Each operation on tensors, on the values of the vectors.
-/
namespace Verif.TensorFail

open RefCount AllocFail

variable {α : Type}

/-- What holds after an operation: what the specification says, or it was left by an exception and nothing has changed. -/
def Post (o : TOp α) (w w' : Spec.VSt α) (x : Option (TOut α)) (a : RefCount.Spec.ASt (Cell α))
    (r : List Var × Option (TOut α)) (n : Nat) : Prop :=
  (n = 0 ∧ r.2 = x ∧ TRel r.1 a w') ∨ (n = 1 ∧ r.2 = none ∧ TRel r.1 a w ∧ Spec.allocates o = true)

section

variable {vs : List Var} {a : RefCount.Spec.ASt (Cell α)} {w w' : Spec.VSt α} {x : Option (TOut α)}

/-- A new tensor, of which both vectors are new. -/
theorem push_tensor (r : TRel vs a w) {c : Cells α} {l : List Int} (h : Spec.total l = c.length) :
    TRel (vs ++ [.tensor a.vals.length (a.vals.length + 1)]) { a with vals := a.vals ++ [some (elts c)] ++ [some (ints l)] }
      (w ++ [some (.tensor l c)]) := by
  refine r.push [some (elts c), some (ints l)] (by simp) ⟨by omega, by simp, ?_, h⟩ fun k => ?_
  · simp
  · simp only [owned, List.mem_cons, List.not_mem_nil, or_false, List.length_cons, List.length_nil]
    omega

theorem push_idx (r : TRel vs a w) (l : List Int) :
    TRel (vs ++ [.idx a.vals.length]) { a with vals := a.vals ++ [some (ints l)] } (w ++ [some (.idx l)]) := by
  refine r.push [some (ints l)] rfl (by simp [Holds]) fun k => ?_
  simp only [owned, List.mem_cons, List.not_mem_nil, or_false, List.length_cons, List.length_nil]
  omega

theorem push_vec (r : TRel vs a w) (c : Cells α) :
    TRel (vs ++ [.vec a.vals.length]) { a with vals := a.vals ++ [some (elts c)] } (w ++ [some (.vec c)]) := by
  refine r.push [some (elts c)] rfl (by simp [Holds]) fun k => ?_
  simp only [owned, List.mem_cons, List.not_mem_nil, or_false, List.length_cons, List.length_nil]
  omega

theorem skip1 (r : TRel vs a w) : TRel vs { a with vals := a.vals ++ [none] } w := r.skip [none] (by simp) rfl

theorem elts_replicate (n : Nat) : (elts (List.replicate n none) : Cells (Cell α)) = List.replicate n none := by
  simp [elts]

theorem elts_length (c : Cells α) : (elts c).length = c.length := by simp [elts]

theorem ints_length (l : List Int) : (ints l : Cells (Cell α)).length = l.length := by simp [ints]

theorem total_nonneg (l : List Int) : 0 ≤ Spec.total l := by
  unfold Spec.total
  split
  · next h =>
    have : ∀ l : List Int, (∀ n ∈ l, 0 ≤ n) → 0 ≤ Spec.prod l := by
      intro l
      induction l with
      | nil => intro _; decide
      | cons n l ih =>
        intro h
        exact Int.mul_nonneg (h n List.mem_cons_self) (ih fun m hm => h m (List.mem_cons_of_mem _ hm))
    exact this l h.2
  · omega

theorem set_get {β : Type} {l : List β} {i j : Nat} {x y : β} (h : l[i]? = some x) (hj : j ≠ i) :
    (l.set j y)[i]? = some x := by rw [List.getElem?_set_ne hj]; exact h

theorem set_self {β : Type} {l : List β} {i : Nat} {x y : β} (h : l[i]? = some x) : (l.set i y)[i]? = some y :=
  List.getElem?_set_self (List.getElem?_eq_some_iff.1 h).1

theorem set_other {β : Type} {l : List β} {i j : Nat} {y : β} (hj : j ≠ i) : (l.set j y)[i]? = l[i]? :=
  List.getElem?_set_ne hj

theorem append_get {β : Type} {l l' : List β} {i : Nat} {x : β} (h : l[i]? = some x) : (l ++ l')[i]? = some x := by
  rw [List.getElem?_append_left (List.getElem?_eq_some_iff.1 h).1]; exact h

/-- The elements of a tensor change. -/
theorem update_data (r : TRel vs a w) {t : Nat} {d n : Nat} {l : List Int} {c c' : Cells α}
    (hv : vs[t]? = some (.tensor d n)) (hdn : d ≠ n) (hd : a.vals[d]? = some (some (elts c)))
    (hn : a.vals[n]? = some (some (ints l))) (ht : Spec.total l = c.length) (hc : c'.length = c.length) :
    TRel vs { a with vals := a.vals.set d (some (elts c')) } (w.set t (some (.tensor l c'))) := by
  refine r.update hv ⟨hdn, set_self hd, set_get hn hdn, by rw [ht, hc]⟩ fun h hh => set_other fun e => hh ?_
  subst e
  exact List.mem_cons_self

theorem update_vec (r : TRel vs a w) {t h : Nat} {c c' : Cells α} (hv : vs[t]? = some (.vec h))
    (hd : a.vals[h]? = some (some (elts c))) :
    TRel vs { a with vals := a.vals.set h (some (elts c')) } (w.set t (some (.vec c'))) := by
  refine r.update hv (set_self hd) fun k hk => set_other fun e => hk ?_
  subst e
  exact List.mem_cons_self

theorem update_idx (r : TRel vs a w) {t h : Nat} {l l' : List Int} (hv : vs[t]? = some (.idx h))
    (hd : a.vals[h]? = some (some (ints l))) :
    TRel vs { a with vals := a.vals.set h (some (ints l')) } (w.set t (some (.idx l'))) := by
  refine r.update hv (set_self hd) fun k hk => set_other fun e => hk ?_
  subst e
  exact List.mem_cons_self

theorem both_eq (f : α → α → α) : both f = Spec.lift f := by
  funext x y
  cases x <;> cases y <;> rfl

theorem zip_length (f : α → α → α) {c c' : Cells α} (h : c.length = c'.length) :
    (List.zipWith (both f) c c').length = c.length := by simp [h]

end

theorem op_wp {vs : List Var} {a : RefCount.Spec.ASt (Cell α)} {w w' : Spec.VSt α} {x : Option (TOut α)} (r : TRel vs a w)
    (o : TOp α) (hs : Spec.step w o = some (w', x)) : wp a (prog vs a.vals.length o) (Post o w w' x) := by
  cases o with
  | indices l =>
    simp only [Spec.step, Option.some.injEq, Prod.mk.injEq] at hs
    obtain ⟨rfl, rfl⟩ := hs
    exact wp_make rfl (.inl ⟨rfl, rfl, push_idx r l⟩) (.inr ⟨rfl, rfl, r, rfl⟩) (.inr ⟨rfl, rfl, skip1 r, rfl⟩)
  | dimsOf t =>
    simp only [Spec.step] at hs
    split at hs <;> try (cases hs)
    next l c e =>
    obtain ⟨d, n, hv, -, hd, hn, -⟩ := r.tensor e
    simp only [prog, hv]
    exact wp_copy hn (.inl ⟨rfl, rfl, push_idx r l⟩)
  | elements t =>
    simp only [Spec.step] at hs
    split at hs <;> try (cases hs)
    next l c e =>
    obtain ⟨d, n, hv, -, hd, hn, -⟩ := r.tensor e
    simp only [prog, hv]
    exact wp_copy hd (.inl ⟨rfl, rfl, push_vec r c⟩)
  | setIdx d i m =>
    simp only [Spec.step] at hs
    split at hs <;> try (cases hs)
    next l e =>
    split at hs <;> cases hs
    next hi =>
    obtain ⟨k, hv, hd⟩ := r.idx e
    simp only [prog, hv]
    refine wp_write hd (by rw [ints_length]; exact hi) (.inl ⟨rfl, rfl, ?_⟩) (.inr ⟨rfl, rfl, r, rfl⟩)
    have := update_idx (l' := l.set i m) r hv hd
    simpa [ints, List.map_set] using this
  | empty =>
    simp only [Spec.step, Option.some.injEq, Prod.mk.injEq] at hs
    obtain ⟨rfl, rfl⟩ := hs
    refine ⟨trivial, _, _, rfl, ⟨trivial, _, _, rfl, .inl ⟨rfl, rfl, push_tensor r (c := []) (l := []) rfl⟩, fun _ => ?_⟩,
      fun _ => .inr ⟨rfl, rfl, r, rfl⟩⟩
    refine wp_destroy (c := []) (by simp) (.inr ⟨rfl, rfl, ?_, rfl⟩)
    simpa using skip1 r
  | ofDims d =>
    simp only [Spec.step] at hs
    split at hs <;> try (cases hs)
    next l e =>
    obtain ⟨k, hv, hd⟩ := r.idx e
    simp only [prog, hv]
    refine wp_loadInts hd (wp_new (wp_copy (append_get hd) (.inl ⟨rfl, rfl, ?_⟩)) (.inr ⟨rfl, rfl, r, rfl⟩))
    rw [total_eq, ← elts_replicate]
    refine push_tensor r ?_
    have := total_nonneg l
    simp
    omega
  | sizes l =>
    simp only [Spec.step] at hs
    simp only [prog]
    have ep : l.foldl (· * ·) 1 = Spec.prod l := by rw [foldl_prod]; omega
    rw [ep]
    split at hs
    · next h =>
      rw [if_pos h]
      cases hs
      exact .inl ⟨rfl, rfl, r⟩
    · next h =>
      rw [if_neg h]
      split at hs <;> cases hs
      next h2 =>
      have hnn := total_nonneg l
      refine wp_new (wp_make (by simp) (.inl ⟨rfl, rfl, ?_⟩) ?_ ?_) (.inr ⟨rfl, rfl, r, rfl⟩)
      · rw [h2, ← elts_replicate]
        refine push_tensor r ?_
        simp
        omega
      · refine wp_destroy (c := List.replicate (Spec.prod l).toNat none) (by simp) (.inr ⟨rfl, rfl, ?_, rfl⟩)
        simpa using skip1 r
      · refine wp_destroy (c := List.replicate (Spec.prod l).toNat none) (by simp) (.inr ⟨rfl, rfl, ?_, rfl⟩)
        exact r.skip [none, none] (by simp) (by simp)
  | list l =>
    simp only [Spec.step, Option.some.injEq, Prod.mk.injEq] at hs
    obtain ⟨rfl, rfl⟩ := hs
    refine wp_make rfl (wp_make (by simp) (.inl ⟨rfl, rfl, ?_⟩) ?_ ?_) (.inr ⟨rfl, rfl, r, rfl⟩)
      (.inr ⟨rfl, rfl, skip1 r, rfl⟩)
    · refine push_tensor r ?_
      simp [Spec.total, Spec.prod]
    · refine wp_destroy (c := elts (l.map some)) (by simp) (.inr ⟨rfl, rfl, ?_, rfl⟩)
      simpa using skip1 r
    · refine wp_destroy (c := elts (l.map some)) (by simp) (.inr ⟨rfl, rfl, ?_, rfl⟩)
      exact r.skip [none, none] (by simp) (by simp)
  | ofVector v =>
    simp only [Spec.step] at hs
    split at hs <;> try (cases hs)
    next c e =>
    obtain ⟨k, hv, hd⟩ := r.vec e
    simp only [prog, hv]
    refine wp_load hd (wp_copy hd (wp_make (by simp) (.inl ⟨rfl, rfl, ?_⟩) ?_ ?_))
    · rw [elts_length]
      refine push_tensor r ?_
      simp [Spec.total, Spec.prod]
    · refine wp_destroy (c := elts c) (by simp) (.inr ⟨rfl, rfl, ?_, rfl⟩)
      simpa using skip1 r
    · refine wp_destroy (c := elts c) (by simp) (.inr ⟨rfl, rfl, ?_, rfl⟩)
      exact r.skip [none, none] (by simp) (by simp)
  | reshaped t d =>
    simp only [Spec.step] at hs
    split at hs <;> try (cases hs)
    next l c l' e e' =>
    split at hs <;> cases hs
    next ht =>
    obtain ⟨d, n, hv, -, hd, hn, -⟩ := r.tensor e
    obtain ⟨k, hv', hk⟩ := r.idx e'
    simp only [prog, hv, hv']
    refine wp_copy hd (wp_copy (append_get hk) (wp_loadInts (append_get (append_get hk)) (wp_load (append_get (append_get hd)) ?_)))
    rw [if_pos (by rw [total_eq, elts_length]; exact ht)]
    exact .inl ⟨rfl, rfl, push_tensor r ht⟩
  | reshape t d =>
    simp only [Spec.step] at hs
    split at hs <;> try (cases hs)
    next l c l' e e' =>
    split at hs <;> cases hs
    next ht =>
    obtain ⟨d, n, hv, hdn, hd, hn, -⟩ := r.tensor e
    obtain ⟨k, hv', hk⟩ := r.idx e'
    simp only [prog, hv, hv']
    refine wp_loadInts hk (wp_load hd ?_)
    rw [if_pos (by rw [total_eq, elts_length]; exact ht)]
    refine wp_assign hn hk (.inl ⟨rfl, rfl, ?_⟩)
    refine r.update hv ⟨hdn, set_get hd (Ne.symm hdn), set_self hn, ht⟩ fun h hh => set_other fun e => hh ?_
    subst e
    simp [owned]
  | copy y =>
    simp only [Spec.step] at hs
    split at hs <;> try (cases hs)
    next v e =>
    cases v with
    | tensor l c =>
      obtain ⟨d, n, hv, hdn, hd, hn, ht⟩ := r.tensor e
      simp only [prog, hv]
      exact wp_copy hd (wp_copy (append_get hn) (.inl ⟨rfl, rfl, push_tensor r ht⟩))
    | idx l =>
      obtain ⟨k, hv, hd⟩ := r.idx e
      simp only [prog, hv]
      exact wp_copy hd (.inl ⟨rfl, rfl, push_idx r l⟩)
    | vec c =>
      obtain ⟨k, hv, hd⟩ := r.vec e
      simp only [prog, hv]
      exact wp_copy hd (.inl ⟨rfl, rfl, push_vec r c⟩)
  | assign y z =>
    simp only [Spec.step] at hs
    split at hs <;> try (cases hs)
    · next l c l' c' e e' =>
      obtain ⟨d, n, hv, hdn, hd, hn, ht⟩ := r.tensor e
      obtain ⟨d', n', hv', hdn', hd', hn', ht'⟩ := r.tensor e'
      simp only [prog, hv, hv']
      refine wp_assign hd hd' ?_
      have key : d ≠ n' := by
        rintro rfl
        have := r.disj y z _ _ d hv hv' (by simp [owned]) (by simp [owned])
        subst this
        rw [hv] at hv'
        cases hv'
        exact hdn' rfl
      refine wp_assign (set_get hn hdn) (set_get hn' key) (.inl ⟨rfl, rfl, ?_⟩)
      refine r.update hv ⟨hdn, ?_, set_self (set_get hn hdn), ht'⟩ fun h hh => ?_
      · exact set_get (set_self hd) (Ne.symm hdn)
      · simp only [owned, List.mem_cons, List.not_mem_nil, or_false, not_or] at hh
        dsimp only
        rw [set_other (Ne.symm hh.2), set_other (Ne.symm hh.1)]
    · next l l' e e' =>
      obtain ⟨k, hv, hd⟩ := r.idx e
      obtain ⟨k', hv', hd'⟩ := r.idx e'
      simp only [prog, hv, hv']
      exact wp_assign hd hd' (.inl ⟨rfl, rfl, update_idx r hv hd⟩)
    · next l l' e e' =>
      obtain ⟨k, hv, hd⟩ := r.vec e
      obtain ⟨k', hv', hd'⟩ := r.vec e'
      simp only [prog, hv, hv']
      exact wp_assign hd hd' (.inl ⟨rfl, rfl, update_vec r hv hd⟩)
  | destroy y =>
    simp only [Spec.step] at hs
    split at hs <;> try (cases hs)
    next v e =>
    cases v with
    | tensor l c =>
      obtain ⟨d, n, hv, hdn, hd, hn, ht⟩ := r.tensor e
      simp only [prog, hv]
      refine wp_destroy hn (wp_destroy (set_get hd (Ne.symm hdn)) (.inl ⟨rfl, rfl, r.remove hv (fun h hh => ?_)
        fun h hh => ?_⟩))
      · simp only [owned, List.mem_cons, List.not_mem_nil, or_false] at hh
        rcases hh with rfl | rfl
        · exact set_self (set_get hd (Ne.symm hdn))
        · exact set_get (set_self hn) hdn
      · simp only [owned, List.mem_cons, List.not_mem_nil, or_false, not_or] at hh
        dsimp only
        rw [set_other (Ne.symm hh.1), set_other (Ne.symm hh.2)]
    | idx l =>
      obtain ⟨k, hv, hd⟩ := r.idx e
      simp only [prog, hv]
      refine wp_destroy hd (.inl ⟨rfl, rfl, r.remove hv (fun h hh => ?_) fun h hh => ?_⟩)
      · simp only [owned, List.mem_cons, List.not_mem_nil, or_false] at hh
        subst hh
        exact set_self hd
      · simp only [owned, List.mem_cons, List.not_mem_nil, or_false] at hh
        exact set_other (Ne.symm hh)
    | vec c =>
      obtain ⟨k, hv, hd⟩ := r.vec e
      simp only [prog, hv]
      refine wp_destroy hd (.inl ⟨rfl, rfl, r.remove hv (fun h hh => ?_) fun h hh => ?_⟩)
      · simp only [owned, List.mem_cons, List.not_mem_nil, or_false] at hh
        subst hh
        exact set_self hd
      · simp only [owned, List.mem_cons, List.not_mem_nil, or_false] at hh
        exact set_other (Ne.symm hh)
  | get t i =>
    have ge : ∀ (c : Cells α) (v : Option α), c[i]? = some v → (elts c)[i]? = some (v.map .elt) := by
      intro c v h
      simp [elts, h]
    simp only [Spec.step] at hs
    split at hs <;> try (cases hs)
    · next l c e =>
      obtain ⟨d, n, hv, hdn, hd, hn, ht⟩ := r.tensor e
      rw [Option.map_eq_some_iff] at hs
      obtain ⟨v, hi, hs⟩ := hs
      cases hs
      simp only [prog, hv]
      refine wp_read hd (ge c v hi) ?_
      cases v <;> exact .inl ⟨rfl, rfl, r⟩
    · next c e =>
      obtain ⟨k, hv, hd⟩ := r.vec e
      rw [Option.map_eq_some_iff] at hs
      obtain ⟨v, hi, hs⟩ := hs
      cases hs
      simp only [prog, hv]
      refine wp_read hd (ge c v hi) ?_
      cases v <;> exact .inl ⟨rfl, rfl, r⟩
  | put t i v =>
    have ge : ∀ (c : Cells α), (elts c).set i (some (.elt v)) = elts (c.set i (some v)) := by
      intro c
      simp [elts, List.map_set]
    simp only [Spec.step] at hs
    split at hs <;> try (cases hs)
    · next l c e =>
      split at hs <;> cases hs
      next hi =>
      obtain ⟨d, n, hv, hdn, hd, hn, ht⟩ := r.tensor e
      simp only [prog, hv]
      refine wp_write hd (by rw [elts_length]; exact hi) (.inl ⟨rfl, rfl, ?_⟩) (.inr ⟨rfl, rfl, r, rfl⟩)
      rw [ge]
      exact update_data r hv hdn hd hn ht (by simp)
    · next c e =>
      split at hs <;> cases hs
      next hi =>
      obtain ⟨k, hv, hd⟩ := r.vec e
      simp only [prog, hv]
      refine wp_write hd (by rw [elts_length]; exact hi) (.inl ⟨rfl, rfl, ?_⟩) (.inr ⟨rfl, rfl, r, rfl⟩)
      rw [ge]
      exact update_vec r hv hd
  | size t =>
    simp only [Spec.step] at hs
    split at hs <;> try (cases hs)
    next l c e =>
    obtain ⟨d, n, hv, hdn, hd, hn, ht⟩ := r.tensor e
    simp only [prog, hv]
    refine wp_size hd (.inl ⟨rfl, ?_, r⟩)
    rw [elts_length]
  | rank t =>
    simp only [Spec.step] at hs
    split at hs <;> try (cases hs)
    next l c e =>
    obtain ⟨d, n, hv, hdn, hd, hn, ht⟩ := r.tensor e
    simp only [prog, hv]
    refine wp_size hn (.inl ⟨rfl, ?_, r⟩)
    rw [ints_length]
  | dimension t k =>
    simp only [Spec.step] at hs
    split at hs <;> try (cases hs)
    next l c e =>
    obtain ⟨d, n, hv, hdn, hd, hn, ht⟩ := r.tensor e
    rw [Option.map_eq_some_iff] at hs
    obtain ⟨v, hi, hs⟩ := hs
    cases hs
    simp only [prog, hv]
    refine wp_size hn ?_
    have hk : k < (ints l : Cells (Cell α)).length := by
      rw [ints_length]; exact (List.getElem?_eq_some_iff.1 hi).1
    simp only [hk, if_true]
    refine wp_read (v := some (.num v)) hn (by simp [ints, hi]) ?_
    exact .inl ⟨rfl, rfl, r⟩
  | fill t v =>
    simp only [Spec.step] at hs
    split at hs <;> try (cases hs)
    next l c e =>
    obtain ⟨d, n, hv, hdn, hd, hn, ht⟩ := r.tensor e
    simp only [prog, hv]
    refine wp_load hd (wp_fill hd (by simp) (.inl ⟨rfl, rfl, ?_⟩) (.inr ⟨rfl, rfl, r, rfl⟩))
    have e2 : List.replicate (elts c).length (some (Cell.elt v)) = elts (c.map fun _ => some v) := by
      rw [elts_length]
      symm
      exact List.eq_replicate_iff.2 ⟨by simp [elts], by simp [elts]⟩
    rw [e2]
    exact update_data r hv hdn hd hn ht (by simp)
  | apply t f =>
    simp only [Spec.step] at hs
    split at hs <;> try (cases hs)
    next l c e =>
    obtain ⟨d, n, hv, hdn, hd, hn, ht⟩ := r.tensor e
    simp only [prog, hv]
    refine wp_loadElts hd (wp_fill hd (by simp [elts]) (.inl ⟨rfl, rfl, ?_⟩) (.inr ⟨rfl, rfl, r, rfl⟩))
    exact update_data r hv hdn hd hn ht (by simp)
  | binary t u f =>
    simp only [Spec.step] at hs
    split at hs <;> try (cases hs)
    next l c l' c' e e' =>
    split at hs <;> cases hs
    next hl =>
    subst hl
    obtain ⟨d, n, hv, hdn, hd, hn, ht⟩ := r.tensor e
    obtain ⟨d', n', hv', hdn', hd', hn', ht'⟩ := r.tensor e'
    have hcc : c.length = c'.length := by omega
    have hz := zip_length f hcc
    have hlen : (elts (List.zipWith (both f) c c')).length = (List.replicate (Tensor.totalSizeI l).toNat
        (none : Option (Cell α))).length := by
      rw [elts_length, hz, List.length_replicate, total_eq, ht]
      simp
    simp only [prog, hv, hv']
    refine wp_loadInts hn (wp_loadInts hn' ?_)
    rw [if_pos rfl]
    refine wp_loadElts hd (wp_loadElts hd' (wp_new (wp_copy (append_get hn) (wp_fill ?_ hlen (.inl ⟨rfl, rfl, ?_⟩) ?_))
      (.inr ⟨rfl, rfl, r, rfl⟩)))
    · exact append_get (by simp)
    · have e3 : (a.vals ++ [some (List.replicate (Tensor.totalSizeI l).toNat none)] ++ [some (ints l)]).set a.vals.length
          (some (elts (List.zipWith (both f) c c'))) = a.vals ++ [some (elts (List.zipWith (both f) c c'))] ++
          [some (ints l)] := by
        simp
      dsimp only
      rw [e3, both_eq]
      rw [both_eq] at hz
      exact push_tensor r (by rw [ht, hz])
    · refine wp_destroy (c := ints l) (by simp) (wp_destroy (c := List.replicate (Tensor.totalSizeI l).toNat none) ?_
        (.inr ⟨rfl, rfl, ?_, rfl⟩))
      · rw [set_other (by omega)]
        exact append_get (by simp)
      · refine r.skip [none, none] (by simp) ?_
        simp

end Verif.TensorFail
