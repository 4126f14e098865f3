import Verif.Spec.Threads
/-
Lemmas about vectors in several threads.
-/
namespace Verif.Threads

variable {α : Type}

@[simp] theorem upd_same {β : Type} (f : Nat → β) (k : Nat) (v : β) : upd f k v k = v := by simp [upd]
theorem upd_ne {β : Type} (f : Nat → β) {k x : Nat} (v : β) (h : x ≠ k) : upd f k v x = f x := by simp [upd, h]
@[simp] theorem upd_upd {β : Type} (f : Nat → β) (k : Nat) (v w : β) : upd (upd f k v) k w = upd f k w := by
  funext x; by_cases h : x = k <;> simp [upd, h]
@[simp] theorem upd_self {β : Type} (f : Nat → β) (k : Nat) : upd f k (f k) = f := by
  funext x; by_cases h : x = k <;> simp [upd, h]

/-! ### Memory and handles -/

abbrev Mem (α : Type) := Nat → Nat → Option (Obj α)
abbrev Handles := Nat → Nat → Option Addr

def put (m : Mem α) (p : Addr) (o : Option (Obj α)) : Mem α := upd m p.1 (upd (m p.1) p.2 o)
def hset (h : Handles) (t v : Nat) (p : Option Addr) : Handles := upd h t (upd (h t) v p)

@[simp] theorem put_same (m : Mem α) (p : Addr) (o : Option (Obj α)) : put m p o p.1 p.2 = o := by simp [put]

theorem put_ne (m : Mem α) {p q : Addr} (o : Option (Obj α)) (h : q ≠ p) : put m p o q.1 q.2 = m q.1 q.2 := by
  obtain ⟨a, b⟩ := p
  obtain ⟨c, d⟩ := q
  by_cases h1 : c = a
  · subst h1
    have h2 : d ≠ b := fun e => h (by rw [e])
    simp [put, upd, h2]
  · simp [put, upd, h1]

theorem put_ne' (m : Mem α) {p : Addr} {a b : Nat} (o : Option (Obj α)) (h : (a, b) ≠ p) : put m p o a b = m a b :=
  put_ne m o h

theorem put_comm (m : Mem α) {p q : Addr} (o r : Option (Obj α)) (h : q ≠ p) :
    put (put m p o) q r = put (put m q r) p o := by
  funext a b
  by_cases h1 : (a, b) = q
  · rw [← h1] at h ⊢
    rw [put_ne' _ _ h]
    exact (put_same (put m p o) (a, b) r).trans (put_same m (a, b) r).symm
  · by_cases h2 : (a, b) = p
    · rw [put_ne' _ _ h1, ← h2]
      exact (put_same m (a, b) o).trans (put_same (put m q r) (a, b) o).symm
    · rw [put_ne' _ _ h1, put_ne' _ _ h2, put_ne' _ _ h2, put_ne' _ _ h1]

@[simp] theorem put_put (m : Mem α) (p : Addr) (o r : Option (Obj α)) : put (put m p o) p r = put m p r := by
  simp [put]

@[simp] theorem hset_same (h : Handles) (t v : Nat) (p : Option Addr) : hset h t v p t v = p := by simp [hset]

theorem hset_ne (h : Handles) {t v u w : Nat} (p : Option Addr) (hn : (u, w) ≠ (t, v)) : hset h t v p u w = h u w := by
  by_cases h1 : u = t
  · subst h1
    have h2 : w ≠ v := fun e => hn (by rw [e])
    simp [hset, upd, h2]
  · simp [hset, upd, h1]

/-- Counters agree with the handles. -/
structure Inv (m : Mem α) (h : Handles) : Prop where
  live : ∀ t v p, h t v = some p → m p.1 p.2 ≠ none
  counts : ∀ (p : Addr) o, m p.1 p.2 = some o → ∃ H : Finset (Nat × Nat), H.Nonempty ∧ o.refs = H.card ∧
    ∀ t v, (t, v) ∈ H ↔ h t v = some p

def val (m : Mem α) (h : Handles) (t v : Nat) : Option (List α) := (h t v).bind fun p => (m p.1 p.2).map (·.data)

/-- The counter of an object after dereference(). -/
def drop (o : Obj α) : Option (Obj α) := if o.refs + -1 ≤ 0 then none else some { o with refs := o.refs + -1 }

theorem inv_drop {m : Mem α} {h : Handles} (hi : Inv m h) {t v : Nat} {p : Addr} {o : Obj α} (hv : h t v = some p)
    (ho : m p.1 p.2 = some o) : Inv (put m p (drop o)) (hset h t v none) := by
  obtain ⟨H, _, hr, hH⟩ := hi.counts p o ho
  have hm : (t, v) ∈ H := (hH t v).2 hv
  have hc : (H.erase (t, v)).card + 1 = H.card := Finset.card_erase_add_one hm
  constructor
  · intro u w q hq
    by_cases hn : (u, w) = (t, v)
    · simp only [Prod.mk.injEq] at hn
      rw [hn.1, hn.2, hset_same] at hq
      simp at hq
    rw [hset_ne _ _ hn] at hq
    by_cases hp : q = p
    · subst hp
      have : (u, w) ∈ H.erase (t, v) := Finset.mem_erase.2 ⟨hn, (hH u w).2 hq⟩
      have : 0 < (H.erase (t, v)).card := Finset.card_pos.2 ⟨_, this⟩
      have : ¬(o.refs + -1 ≤ 0) := by omega
      simp [drop, this]
    · rw [put_ne _ _ hp]
      exact hi.live u w q hq
  · intro q o' hq
    by_cases hp : q = p
    · subst hp
      simp only [put_same, drop] at hq
      split at hq
      · simp at hq
      · rename_i hpos
        simp only [Option.some.injEq] at hq
        refine ⟨H.erase (t, v), Finset.card_pos.1 (by omega), ?_, ?_⟩
        · rw [← hq]
          show o.refs + -1 = _
          omega
        · intro u w
          rw [Finset.mem_erase]
          by_cases hn : (u, w) = (t, v)
          · simp only [Prod.mk.injEq] at hn
            rw [hn.1, hn.2, hset_same]
            simp
          · rw [hset_ne _ _ hn, hH]
            exact ⟨fun a => a.2, fun a => ⟨hn, a⟩⟩
    · rw [put_ne _ _ hp] at hq
      obtain ⟨K, h1, h2, h3⟩ := hi.counts q o' hq
      refine ⟨K, h1, h2, fun u w => ?_⟩
      by_cases hn : (u, w) = (t, v)
      · simp only [Prod.mk.injEq] at hn
        rw [h3, hn.1, hn.2, hset_same, hv]
        simp [Ne.symm hp]
      · rw [hset_ne _ _ hn, h3]

theorem val_drop {m : Mem α} {h : Handles} (hi : Inv m h) {t v : Nat} {p : Addr} {o : Obj α} (hv : h t v = some p)
    (ho : m p.1 p.2 = some o) (u w : Nat) :
    val (put m p (drop o)) (hset h t v none) u w = if (u, w) = (t, v) then none else val m h u w := by
  by_cases hn : (u, w) = (t, v)
  · rw [if_pos hn]
    simp only [Prod.mk.injEq] at hn
    simp [val, hn.1, hn.2]
  · rw [if_neg hn]
    simp only [val, hset_ne _ _ hn]
    cases hq : h u w with
    | none => rfl
    | some q =>
      simp only [Option.bind_some]
      by_cases hp : q = p
      · subst hp
        have := (inv_drop hi hv ho).live u w q (by rw [hset_ne _ _ hn, hq])
        rw [put_same] at this ⊢
        rw [ho]
        revert this
        simp only [drop]
        split <;> simp
      · rw [put_ne _ _ hp]

theorem inv_add {m : Mem α} {h : Handles} (hi : Inv m h) {t v : Nat} {p : Addr} {o : Obj α} (hv : h t v = none)
    (ho : m p.1 p.2 = some o) : Inv (put m p (some { o with refs := o.refs + 1 })) (hset h t v (some p)) := by
  constructor
  · intro u w q hq
    by_cases hp : q = p
    · subst hp
      simp
    · rw [put_ne _ _ hp]
      by_cases hn : (u, w) = (t, v)
      · simp only [Prod.mk.injEq] at hn
        rw [hn.1, hn.2, hset_same] at hq
        exact absurd (Option.some.inj hq).symm hp
      · rw [hset_ne _ _ hn] at hq
        exact hi.live u w q hq
  · intro q o' hq
    by_cases hp : q = p
    · subst hp
      obtain ⟨H, _, hr, hH⟩ := hi.counts q o ho
      simp only [put_same, Option.some.injEq] at hq
      have hm : (t, v) ∉ H := fun hm => by have := (hH t v).1 hm; rw [hv] at this; simp at this
      refine ⟨insert (t, v) H, Finset.insert_nonempty _ _, ?_, fun u w => ?_⟩
      · rw [← hq, Finset.card_insert_of_notMem hm]
        show o.refs + 1 = _
        omega
      · rw [Finset.mem_insert]
        by_cases hn : (u, w) = (t, v)
        · simp only [Prod.mk.injEq] at hn
          rw [hn.1, hn.2, hset_same]
          simp
        · rw [hset_ne _ _ hn, hH]
          simp [hn]
    · rw [put_ne _ _ hp] at hq
      obtain ⟨K, h1, h2, h3⟩ := hi.counts q o' hq
      refine ⟨K, h1, h2, fun u w => ?_⟩
      by_cases hn : (u, w) = (t, v)
      · simp only [Prod.mk.injEq] at hn
        rw [h3, hn.1, hn.2, hset_same, hv]
        simp [Ne.symm hp]
      · rw [hset_ne _ _ hn, h3]

theorem val_add {m : Mem α} {h : Handles} {t v : Nat} {p : Addr} {o : Obj α} (ho : m p.1 p.2 = some o) (u w : Nat) :
    val (put m p (some { o with refs := o.refs + 1 })) (hset h t v (some p)) u w =
      if (u, w) = (t, v) then some o.data else val m h u w := by
  by_cases hn : (u, w) = (t, v)
  · rw [if_pos hn]
    simp only [Prod.mk.injEq] at hn
    simp [val, hn.1, hn.2]
  · rw [if_neg hn]
    simp only [val, hset_ne _ _ hn]
    cases hq : h u w with
    | none => rfl
    | some q =>
      simp only [Option.bind_some]
      by_cases hp : q = p
      · subst hp
        simp [ho]
      · rw [put_ne _ _ hp]

theorem inv_new {m : Mem α} {h : Handles} (hi : Inv m h) {t v : Nat} {p : Addr} (d : List α) (hv : h t v = none)
    (ho : m p.1 p.2 = none) : Inv (put m p (some ⟨1, d⟩)) (hset h t v (some p)) := by
  constructor
  · intro u w q hq
    by_cases hp : q = p
    · subst hp
      simp
    · rw [put_ne _ _ hp]
      by_cases hn : (u, w) = (t, v)
      · simp only [Prod.mk.injEq] at hn
        rw [hn.1, hn.2, hset_same] at hq
        exact absurd (Option.some.inj hq).symm hp
      · rw [hset_ne _ _ hn] at hq
        exact hi.live u w q hq
  · intro q o' hq
    by_cases hp : q = p
    · subst hp
      simp only [put_same, Option.some.injEq] at hq
      refine ⟨{(t, v)}, Finset.singleton_nonempty _, by rw [← hq]; rfl, fun u w => ?_⟩
      rw [Finset.mem_singleton]
      by_cases hn : (u, w) = (t, v)
      · simp only [Prod.mk.injEq] at hn
        rw [hn.1, hn.2, hset_same]
        simp
      · rw [hset_ne _ _ hn]
        refine ⟨fun a => absurd a hn, fun a => absurd ho (hi.live u w q a)⟩
    · rw [put_ne _ _ hp] at hq
      obtain ⟨K, h1, h2, h3⟩ := hi.counts q o' hq
      refine ⟨K, h1, h2, fun u w => ?_⟩
      by_cases hn : (u, w) = (t, v)
      · simp only [Prod.mk.injEq] at hn
        rw [h3, hn.1, hn.2, hset_same, hv]
        simp [Ne.symm hp]
      · rw [hset_ne _ _ hn, h3]

theorem val_new {m : Mem α} {h : Handles} (hi : Inv m h) {t v : Nat} {p : Addr} (d : List α)
    (ho : m p.1 p.2 = none) (u w : Nat) :
    val (put m p (some ⟨1, d⟩)) (hset h t v (some p)) u w = if (u, w) = (t, v) then some d else val m h u w := by
  by_cases hn : (u, w) = (t, v)
  · rw [if_pos hn]
    simp only [Prod.mk.injEq] at hn
    simp [val, hn.1, hn.2]
  · rw [if_neg hn]
    simp only [val, hset_ne _ _ hn]
    cases hq : h u w with
    | none => rfl
    | some q =>
      simp only [Option.bind_some]
      by_cases hp : q = p
      · subst hp
        exact absurd ho (hi.live u w q hq)
      · rw [put_ne _ _ hp]

theorem inv_set {m : Mem α} {h : Handles} (hi : Inv m h) {p : Addr} {o : Obj α} (d : List α)
    (ho : m p.1 p.2 = some o) : Inv (put m p (some { o with data := d })) h := by
  constructor
  · intro u w q hq
    by_cases hp : q = p
    · subst hp
      simp
    · rw [put_ne _ _ hp]
      exact hi.live u w q hq
  · intro q o' hq
    by_cases hp : q = p
    · subst hp
      simp only [put_same, Option.some.injEq] at hq
      rw [← hq]
      exact hi.counts q o ho
    · rw [put_ne _ _ hp] at hq
      exact hi.counts q o' hq

theorem val_set {m : Mem α} {h : Handles} (hi : Inv m h) {t v : Nat} {p : Addr} {o : Obj α} (d : List α)
    (hv : h t v = some p) (ho : m p.1 p.2 = some o) (hr : ¬o.refs > 1) (u w : Nat) :
    val (put m p (some { o with data := d })) h u w = if (u, w) = (t, v) then some d else val m h u w := by
  by_cases hn : (u, w) = (t, v)
  · rw [if_pos hn]
    simp only [Prod.mk.injEq] at hn
    simp [val, hn.1, hn.2, hv]
  · rw [if_neg hn]
    simp only [val]
    cases hq : h u w with
    | none => rfl
    | some q =>
      simp only [Option.bind_some]
      by_cases hp : q = p
      · subst hp
        obtain ⟨H, _, h2, h3⟩ := hi.counts q o ho
        exfalso
        have : 1 < H.card := Finset.one_lt_card.2 ⟨_, (h3 u w).2 hq, _, (h3 t v).2 hv, hn⟩
        omega
      · rw [put_ne _ _ hp]

/-! ### Statements -/

/-- The state with another memory and another thread. -/
def st (m : Mem α) (f : Nat → Thread α) (t : Nat) (th : Thread α) : St α := ⟨m, upd f t th⟩

theorem step_micro (m : Mem α) (f : Nat → Thread α) (t : Nat) (th : Thread α) (x : Micro α) (xs : List (Micro α))
    (h : th.todo = x :: xs) : step (st m f t th) t = micro (st m f t th) t { th with todo := xs } x := by
  have e : (st m f t th).threads t = th := by simp [st]
  simp only [step, e, h]

/-- The thread `t` runs until it is between two statements. -/
inductive Exec (t : Nat) : St α → St α → Prop
  | last {s s1 : St α} : step s t = .ok s1 → (s1.threads t).todo = [] → Exec t s s1
  | more {s s' s1 : St α} : step s t = .ok s' → (s'.threads t).todo ≠ [] → Exec t s' s1 → Exec t s s1

theorem step_other {s s' : St α} {t : Nat} (h : step s t = .ok s') {u : Nat} (hu : u ≠ t) :
    s'.threads u = s.threads u := by
  have key : ∀ (m : Micro α) (th : Thread α), micro s t th m = .ok s' → s'.threads u = s.threads u := by
    intro m th hm
    cases m <;> simp only [micro, getObj] at hm
    case make => simp only [Res.pure_eq, Res.ok.injEq] at hm; subst hm; simp [setThread, setObj, upd, hu]
    case load p =>
      cases h1 : s.mem p.1 p.2 <;> rw [h1] at hm <;> simp at hm
      subst hm; simp [setThread, upd, hu]
    case store p d =>
      cases h1 : s.mem p.1 p.2 <;> rw [h1] at hm <;> simp at hm
      subst hm; simp [setThread, setObj, upd, hu]
    case deleteIf p d =>
      split at hm
      · cases h1 : s.mem p.1 p.2 <;> rw [h1] at hm <;> simp at hm
        subst hm; simp [setThread, setObj, upd, hu]
      · simp only [Res.pure_eq, Res.ok.injEq] at hm; subst hm; simp [setThread, upd, hu]
    case cloneIf v p =>
      split at hm
      · cases h1 : s.mem p.1 p.2 <;> rw [h1] at hm <;> simp at hm
        subst hm; simp [setThread, setObj, upd, hu]
      · simp only [Res.pure_eq, Res.ok.injEq] at hm; subst hm; simp [setThread, upd, hu]
    case bind => simp only [Res.pure_eq, Res.ok.injEq] at hm; subst hm; simp [setThread, upd, hu]
    case unbind => simp only [Res.pure_eq, Res.ok.injEq] at hm; subst hm; simp [setThread, upd, hu]
    case set v i x =>
      cases h0 : th.vars v with
      | none => rw [h0] at hm; simp at hm
      | some p =>
        rw [h0] at hm
        simp only [Res.ofOption_some, Res.ok_bind] at hm
        cases h1 : s.mem p.1 p.2 with
        | none => rw [h1] at hm; simp at hm
        | some o =>
          rw [h1] at hm
          simp only [Res.ofOption_some, Res.ok_bind] at hm
          split at hm
          · simp only [Res.pure_eq, Res.ok.injEq] at hm; subst hm; simp [setThread, setObj, upd, hu]
          · simp at hm
    case get p i =>
      cases h1 : s.mem p.1 p.2 with
      | none => rw [h1] at hm; simp at hm
      | some o =>
        rw [h1] at hm
        simp only [Res.ofOption_some, Res.ok_bind] at hm
        cases h2 : o.data[i]? <;> rw [h2] at hm <;> simp at hm
        subst hm; simp [setThread, upd, hu]
  unfold step at h
  split at h
  · exact key _ _ h
  · split at h
    · simp only [Res.ok.injEq] at h; rw [h]
    · rename_i c cs _
      cases h1 : micros (s.threads t) c <;> rw [h1] at h <;> simp at h
      subst h; simp [setThread, upd, hu]

theorem exec_atomic {t : Nat} {s s1 : St α} (h : Exec t s s1) : ∀ ts, Spec.Atomic s (t :: ts) →
    (∃ s', run s (t :: ts) = .ok s' ∧ (s'.threads t).todo ≠ [] ∧ ∀ u, u ≠ t → s'.threads u = s.threads u) ∨
    ∃ rest, rest.length ≤ ts.length ∧ (∀ u ∈ rest, u ∈ ts) ∧ Spec.Atomic s1 rest ∧ run s (t :: ts) = run s1 rest := by
  induction h with
  | last h1 h2 =>
    intro ts ha
    refine .inr ⟨ts, le_refl _, fun _ h => h, ha.2 _ h1, ?_⟩
    simp [run, h1]
  | @more s s' s1 h1 h2 h3 ih =>
    intro ts ha
    have hb := ha.2 _ h1
    cases ts with
    | nil =>
      refine .inl ⟨s', by simp [run, h1], h2, fun u hu => step_other h1 hu⟩
    | cons u us =>
      have hu : u = t := by
        by_contra hne
        exact h2 (hb.1 t (Ne.symm hne))
      subst hu
      have e : run s (u :: u :: us) = run s' (u :: us) := by
        show (step s u >>= fun s => run s (u :: us)) = _
        rw [h1]; rfl
      rw [e]
      rcases ih us hb with ⟨x, hx1, hx2, hx3⟩ | ⟨rest, hr1, hr0, hr2, hr3⟩
      · exact .inl ⟨x, hx1, hx2, fun w hw => (hx3 w hw).trans (step_other h1 hw)⟩
      · exact .inr ⟨rest, by simp; omega, fun w hw => List.mem_cons_of_mem _ (hr0 w hw), hr2, hr3⟩

section Steps
variable (m : Mem α) (f : Nat → Thread α) (t : Nat) (th : Thread α) {xs : List (Micro α)}

theorem st_todo : ((st m f t th).threads t).todo = th.todo := by simp [st]

theorem step_make {v : Nat} {d : List α} (h : th.todo = .make v d :: xs) : step (st m f t th) t =
    .ok (st (put m (t + 1, th.made) (some ⟨1, d⟩)) f t
      { th with todo := xs, made := th.made + 1, vars := upd th.vars v (some (t + 1, th.made)) }) := by
  rw [step_micro _ _ _ _ _ _ h]
  simp [micro, st, setThread, setObj, put]

theorem step_load {p : Addr} {o : Obj α} (h : th.todo = .load p :: xs) (ho : m p.1 p.2 = some o) :
    step (st m f t th) t = .ok (st m f t { th with todo := xs, reg := o.refs }) := by
  rw [step_micro _ _ _ _ _ _ h]
  simp [micro, st, setThread, getObj, ho]

theorem step_store {p : Addr} {d : Int} {o : Obj α} (h : th.todo = .store p d :: xs) (ho : m p.1 p.2 = some o) :
    step (st m f t th) t = .ok (st (put m p (some { o with refs := th.reg + d })) f t { th with todo := xs }) := by
  rw [step_micro _ _ _ _ _ _ h]
  simp [micro, st, setThread, setObj, put, getObj, ho]

theorem step_delete {p : Addr} {d : Int} {o : Obj α} (h : th.todo = .deleteIf p d :: xs) (ho : m p.1 p.2 = some o) :
    step (st m f t th) t = .ok (st (if th.reg + d ≤ 0 then put m p none else m) f t { th with todo := xs }) := by
  rw [step_micro _ _ _ _ _ _ h]
  by_cases hd : th.reg + d ≤ 0 <;> simp [micro, st, setThread, setObj, put, getObj, ho, hd]

theorem step_clone {v : Nat} {p : Addr} {o : Obj α} (h : th.todo = .cloneIf v p :: xs) (ho : m p.1 p.2 = some o)
    (hr : th.reg > 1) : step (st m f t th) t = .ok (st (put m (t + 1, th.made) (some ⟨1, o.data⟩)) f t
      { th with todo := dereference p ++ .bind v (t + 1, th.made) :: xs, made := th.made + 1 }) := by
  rw [step_micro _ _ _ _ _ _ h]
  have : 1 < th.reg := hr
  simp [micro, st, setThread, setObj, put, getObj, ho, this]

theorem step_noclone {v : Nat} {p : Addr} (h : th.todo = .cloneIf v p :: xs) (hr : ¬th.reg > 1) :
    step (st m f t th) t = .ok (st m f t { th with todo := xs }) := by
  rw [step_micro _ _ _ _ _ _ h]
  have : ¬1 < th.reg := hr
  simp [micro, st, setThread, this]

theorem step_bind {v : Nat} {p : Addr} (h : th.todo = .bind v p :: xs) :
    step (st m f t th) t = .ok (st m f t { th with todo := xs, vars := upd th.vars v (some p) }) := by
  rw [step_micro _ _ _ _ _ _ h]
  simp [micro, st, setThread]

theorem step_unbind {v : Nat} (h : th.todo = .unbind v :: xs) :
    step (st m f t th) t = .ok (st m f t { th with todo := xs, vars := upd th.vars v none }) := by
  rw [step_micro _ _ _ _ _ _ h]
  simp [micro, st, setThread]

theorem step_set {v i : Nat} {x : α} {p : Addr} {o : Obj α} (h : th.todo = .set v i x :: xs)
    (hv : th.vars v = some p) (ho : m p.1 p.2 = some o) (hi : i < o.data.length) : step (st m f t th) t =
    .ok (st (put m p (some { o with data := o.data.set i x })) f t { th with todo := xs }) := by
  rw [step_micro _ _ _ _ _ _ h]
  simp [micro, st, setThread, setObj, put, getObj, ho, hv, hi]

theorem step_get {p : Addr} {i : Nat} {o : Obj α} {x : α} (h : th.todo = .get p i :: xs) (ho : m p.1 p.2 = some o)
    (hi : o.data[i]? = some x) : step (st m f t th) t =
    .ok (st m f t { th with todo := xs, out := th.out ++ [x] }) := by
  rw [step_micro _ _ _ _ _ _ h]
  simp [micro, st, setThread, getObj, ho, hi]

theorem exec_deref {p : Addr} {o : Obj α} (h : th.todo = dereference p ++ xs) (hx : xs ≠ [])
    (ho : m p.1 p.2 = some o) {s1 : St α}
    (he : Exec t (st (put m p (drop o)) f t { th with todo := xs, reg := o.refs }) s1) : Exec t (st m f t th) s1 := by
  refine .more (step_load m f t th (p := p) (by rw [h]; rfl) ho) (by simp [st]) ?_
  refine .more (step_store (p := p) (d := -1) (o := o) (xs := .deleteIf p (-1) :: xs) _ _ _ _ rfl ho) (by simp [st]) ?_
  refine .more (step_delete (p := p) (d := -1) (xs := xs) _ _ _ _ rfl (put_same _ _ _)) (by simp [st, hx]) ?_
  convert he using 2
  simp only [drop]
  split <;> simp

theorem exec_ref {v : Nat} {q : Addr} {o : Obj α} (h : th.todo = [.load q, .store q 1, .bind v q])
    (ho : m q.1 q.2 = some o) : Exec t (st m f t th) (st (put m q (some { o with refs := o.refs + 1 })) f t
      { th with todo := [], reg := o.refs, vars := upd th.vars v (some q) }) := by
  refine .more (step_load m f t th (p := q) h ho) (by simp [st]) ?_
  refine .more (step_store (p := q) (d := 1) (o := o) (xs := [.bind v q]) _ _ _ _ rfl ho) (by simp [st]) ?_
  exact .last (step_bind (xs := []) _ _ _ _ rfl) (by simp [st])

end Steps

/-- Addresses which are not in use. -/
def Fresh (m : Mem α) (g : Nat → Nat) : Prop := ∀ t n, g t ≤ n → m (t + 1) n = none

theorem Fresh.put {m : Mem α} {g : Nat → Nat} (hf : Fresh m g) {p : Addr} (hp : m p.1 p.2 ≠ none) (o) :
    Fresh (put m p o) g := by
  intro t n hn
  rw [put_ne']
  · exact hf t n hn
  · intro e
    subst e
    exact hp (hf t n hn)

theorem Fresh.new {m : Mem α} {g : Nat → Nat} (hf : Fresh m g) (t : Nat) (o) :
    Fresh (Threads.put m (t + 1, g t) o) (upd g t (g t + 1)) := by
  intro u n hn
  have hne : (u + 1, n) ≠ ((t + 1, g t) : Addr) := by
    intro e
    simp only [Prod.mk.injEq] at e
    have : u = t := by omega
    subst this
    rw [upd_same] at hn
    omega
  rw [put_ne' _ _ hne]
  refine hf u n ?_
  by_cases hu : u = t
  · subst hu; rw [upd_same] at hn; omega
  · rwa [upd_ne _ _ hu] at hn

def handles (f : Nat → Thread α) : Handles := fun t v => (f t).vars v

theorem handles_upd (f : Nat → Thread α) (t : Nat) (th : Thread α) :
    handles (upd f t th) = upd (handles f) t th.vars := by
  funext u v; by_cases h : u = t <;> simp [handles, upd, h]

theorem settled_iff (s : St α) : Spec.Settled s ↔ (∀ t, (s.threads t).todo = []) ∧ Inv s.mem (handles s.threads) ∧
    Fresh s.mem fun t => (s.threads t).made :=
  ⟨fun h => ⟨h.idle, ⟨h.live, h.counts⟩, h.fresh⟩, fun h => ⟨h.1, h.2.1.live, h.2.1.counts, h.2.2⟩⟩

theorem value_eq (s : St α) (t v : Nat) : Spec.value s t v = val s.mem (handles s.threads) t v := rfl

/-- What a statement does. -/
def Does (t : Nat) (s : St α) (cs : List (Stmt α)) (a : Spec.View α) (s1 : St α) : Prop :=
  Exec t s s1 ∧ Spec.Settled s1 ∧ Spec.view s1 t = a ∧ (s1.threads t).code = cs ∧
    ∀ u, u ≠ t → s1.threads u = s.threads u ∧ Spec.view s1 u = Spec.view s u

theorem does {s : St α} {t : Nat} (hs : Spec.Settled s) {m : Mem α} {th : Thread α} (h0 : th.todo = [])
    (he : Exec t s (st m s.threads t th)) (hi : Inv m (upd (handles s.threads) t th.vars))
    (hf : Fresh m (upd (fun t => (s.threads t).made) t th.made)) {v : Nat} {x : Option (List α)}
    (hv : ∀ u w, val m (upd (handles s.threads) t th.vars) u w =
      if (u, w) = (t, v) then x else Spec.value s u w) :
    Does t s th.code ⟨upd (Spec.value s t) v x, th.out⟩ (st m s.threads t th) := by
  refine ⟨he, (settled_iff _).2 ⟨?_, ?_, ?_⟩, ?_, by simp [st], ?_⟩
  · intro u
    by_cases hu : u = t
    · subst hu; simpa [st] using h0
    · simpa [st, upd, hu] using hs.idle u
  · show Inv m (handles (upd s.threads t th))
    rw [handles_upd]; exact hi
  · intro u n hn
    refine hf u n ?_
    by_cases hu : u = t
    · subst hu; simpa [st] using hn
    · simpa [st, upd, hu] using hn
  · have : Spec.value (st m s.threads t th) t = upd (Spec.value s t) v x := by
      funext w
      rw [value_eq]
      show val m (handles (upd s.threads t th)) t w = _
      rw [handles_upd, hv]
      by_cases hw : w = v <;> simp [hw, upd]
    rw [Spec.view, this]
    simp [st]
  · intro u hu
    have h1 : (st m s.threads t th).threads u = s.threads u := by simp [st, upd, hu]
    refine ⟨h1, ?_⟩
    have : Spec.value (st m s.threads t th) u = Spec.value s u := by
      funext w
      rw [value_eq]
      show val m (handles (upd s.threads t th)) u w = _
      rw [handles_upd, hv]
      simp [hu]
    rw [Spec.view, Spec.view, this, h1]

theorem step_start {s : St α} {t : Nat} {c : Stmt α} {cs : List (Stmt α)} {ms : List (Micro α)}
    (h0 : (s.threads t).todo = []) (h1 : (s.threads t).code = c :: cs) (h2 : micros (s.threads t) c = .ok ms) :
    step s t = .ok (st s.mem s.threads t { s.threads t with code := cs, todo := ms }) := by
  simp only [step, h0, h1, h2, Res.ok_bind, Res.pure_eq]
  rfl

theorem value_some {s : St α} {t v : Nat} {l : List α} (h : Spec.value s t v = some l) :
    ∃ p o, (s.threads t).vars v = some p ∧ s.mem p.1 p.2 = some o ∧ o.data = l := by
  unfold Spec.value at h
  cases h1 : (s.threads t).vars v with
  | none => rw [h1] at h; simp at h
  | some p =>
    rw [h1] at h
    cases h2 : s.mem p.1 p.2 with
    | none => simp [h2] at h
    | some o => exact ⟨p, o, rfl, h2, by simpa [h2] using h⟩

theorem value_none {s : St α} (hs : Spec.Settled s) {t v : Nat} (h : Spec.value s t v = none) :
    (s.threads t).vars v = none := by
  unfold Spec.value at h
  cases h1 : (s.threads t).vars v with
  | none => rfl
  | some p =>
    rw [h1] at h
    have := hs.live t v p h1
    simp at h
    exact absurd h this

theorem exec_stmt {s : St α} {t : Nat} (hs : Spec.Settled s) {c : Stmt α} {cs : List (Stmt α)}
    (hc : (s.threads t).code = c :: cs) {a : Spec.View α} (ha : Spec.exec (Spec.view s t) c = some a) :
    ∃ s1, Does t s cs a s1 := by
  obtain ⟨hidle, hi, hf⟩ := (settled_iff s).1 hs
  have h0 := hidle t
  have hmade : upd (fun t => (s.threads t).made) t (s.threads t).made = fun t => (s.threads t).made := by
    funext u; by_cases hu : u = t <;> simp [upd, hu]
  cases c with
  | new v d =>
    simp only [Spec.exec] at ha
    by_cases hn : (Spec.value s t v).isNone = true
    · rw [if_pos (show ((Spec.view s t).vals v).isNone = true from hn)] at ha
      simp only [Spec.view] at ha
      simp only [Option.some.injEq] at ha
      subst ha
      have hn' := value_none hs (Option.isNone_iff_eq_none.1 hn)
      have hq : s.mem (t + 1) (s.threads t).made = none := hs.fresh t _ (le_refl _)
      refine ⟨_, does hs (m := put s.mem (t + 1, (s.threads t).made) (some ⟨1, d⟩))
        (th := { s.threads t with
          code := cs, todo := [], made := (s.threads t).made + 1,
          vars := upd (s.threads t).vars v (some (t + 1, (s.threads t).made)) }) rfl ?_ ?_ ?_ ?_⟩
      · refine .more (step_start h0 hc (ms := [.make v d]) rfl) (by simp [st]) ?_
        exact .last (step_make _ _ _ _ rfl) (by simp [st])
      · exact inv_new hi d (t := t) (v := v) hn' hq
      · exact hf.new t _
      · exact val_new hi d (t := t) (v := v) hq
    · rw [if_neg (show ¬((Spec.view s t).vals v).isNone = true from hn)] at ha
      simp at ha
  | copy v w =>
    simp only [Spec.exec] at ha
    by_cases hn : (Spec.value s t v).isNone = true
    · rw [if_pos (show ((Spec.view s t).vals v).isNone = true from hn)] at ha
      simp only [Spec.view] at ha
      have hn' := value_none hs (Option.isNone_iff_eq_none.1 hn)
      cases hw : Spec.value s t w with
      | none => rw [hw] at ha; simp at ha
      | some l =>
        obtain ⟨p, o, h1, h2, h3⟩ := value_some hw
        rw [hw] at ha
        simp only [Option.map_some, Option.some.injEq] at ha
        subst ha
        subst h3
        refine ⟨_, does hs (m := put s.mem p (some { o with refs := o.refs + 1 }))
          (th := { s.threads t with
            code := cs, todo := [], reg := o.refs, vars := upd (s.threads t).vars v (some p) }) rfl ?_ ?_ ?_ ?_⟩
        · refine .more (step_start h0 hc (ms := [.load p, .store p 1, .bind v p]) ?_) (by simp [st]) ?_
          · simp [micros, h1]
          · exact exec_ref _ _ _ _ rfl h2
        · exact inv_add hi (t := t) (v := v) hn' h2
        · rw [hmade]; exact hf.put (by rw [h2]; simp) _
        · exact val_add h2 (t := t) (v := v)
    · rw [if_neg (show ¬((Spec.view s t).vals v).isNone = true from hn)] at ha
      simp at ha
  | assign v w =>
    simp only [Spec.exec] at ha
    by_cases hn : (Spec.value s t v).isNone = true
    · rw [if_pos (show ((Spec.view s t).vals v).isNone = true from hn)] at ha
      simp at ha
    · rw [if_neg (show ¬((Spec.view s t).vals v).isNone = true from hn)] at ha
      simp only [Spec.view] at ha
      obtain ⟨l', hl'⟩ := Option.ne_none_iff_exists'.1 fun e => hn (Option.isNone_iff_eq_none.2 e)
      obtain ⟨p, o, h1, h2, h3⟩ := value_some hl'
      cases hw : Spec.value s t w with
      | none => rw [hw] at ha; simp at ha
      | some l =>
        obtain ⟨q, o', h1', h2', h3'⟩ := value_some hw
        rw [hw] at ha
        simp only [Option.map_some, Option.some.injEq] at ha
        subst ha
        subst h3'
        by_cases hpq : q = p
        · subst hpq
          have hoo : o = o' := by rw [h2] at h2'; exact Option.some.inj h2'
          subst hoo
          refine ⟨_, does hs (m := s.mem) (th := { s.threads t with code := cs, todo := [] }) rfl ?_ ?_ ?_ ?_⟩
          · exact .last (step_start h0 hc (ms := []) (by simp [micros, h1, h1'])) (by simp [st])
          · have : upd (handles s.threads) t (s.threads t).vars = handles s.threads := upd_self _ _
            rw [this]; exact hi
          · rw [hmade]; exact hf
          · intro u x
            have : upd (handles s.threads) t (s.threads t).vars = handles s.threads := upd_self _ _
            rw [this, ← value_eq]
            split
            · rename_i he
              simp only [Prod.mk.injEq] at he
              rw [he.1, he.2, hl', h3]
            · rfl
        · have hq2 : put s.mem p (drop o) q.1 q.2 = some o' := by rw [put_ne _ _ hpq, h2']
          have hd := inv_drop hi (t := t) (v := v) h1 h2
          refine ⟨_, does hs (m := put (put s.mem p (drop o)) q (some { o' with refs := o'.refs + 1 }))
            (th := { s.threads t with
              code := cs, todo := [], reg := o'.refs, vars := upd (s.threads t).vars v (some q) }) rfl ?_ ?_ ?_ ?_⟩
          · refine .more (step_start h0 hc (ms := dereference p ++ [.load q, .store q 1, .bind v q]) ?_)
              (by simp [st, dereference]) ?_
            · simp [micros, h1, h1', hpq]
            · exact exec_deref (xs := [.load q, .store q 1, .bind v q]) _ _ _ _ rfl (by simp) h2
                (exec_ref _ _ _ _ rfl hq2)
          · have := inv_add hd (t := t) (v := v) (by simp) hq2
            simp only [hset, upd_same, upd_upd] at this
            exact this
          · rw [hmade]; exact (hf.put (by rw [h2]; simp) _).put (by rw [hq2]; simp) _
          · intro u x
            have e1 := val_add (h := hset (handles s.threads) t v none) (t := t) (v := v) hq2 u x
            have e2 := val_drop hi (t := t) (v := v) h1 h2 u x
            rw [e2] at e1
            simp only [hset, upd_same, upd_upd] at e1
            refine e1.trans ?_
            split <;> rfl
  | destroy v =>
    simp only [Spec.exec, Spec.view] at ha
    cases hw : Spec.value s t v with
    | none => rw [hw] at ha; simp at ha
    | some l =>
      obtain ⟨p, o, h1, h2, h3⟩ := value_some hw
      rw [hw] at ha
      simp only [Option.map_some, Option.some.injEq] at ha
      subst ha
      refine ⟨_, does hs (m := put s.mem p (drop o))
        (th := { s.threads t with
          code := cs, todo := [], reg := o.refs, vars := upd (s.threads t).vars v none }) rfl ?_ ?_ ?_ ?_⟩
      · refine .more (step_start h0 hc (ms := dereference p ++ [.unbind v]) ?_) (by simp [st, dereference]) ?_
        · simp [micros, h1]
        · exact exec_deref (xs := [.unbind v]) _ _ _ _ rfl (by simp) h2
            (.last (step_unbind _ _ _ _ rfl) (by simp [st]))
      · exact inv_drop hi (t := t) (v := v) h1 h2
      · rw [hmade]; exact hf.put (by rw [h2]; simp) _
      · exact val_drop hi (t := t) (v := v) h1 h2
  | write v i x =>
    simp only [Spec.exec, Spec.view] at ha
    cases hw : Spec.value s t v with
    | none => rw [hw] at ha; simp at ha
    | some l =>
      obtain ⟨p, o, h1, h2, h3⟩ := value_some hw
      rw [hw] at ha
      simp only [Option.bind_some] at ha
      split at ha
      swap
      · simp at ha
      rename_i hlt
      simp only [Option.some.injEq] at ha
      subst ha
      subst h3
      have e0 : micros (s.threads t) (.write v i x) = .ok [.load p, .cloneIf v p, .set v i x] := by simp [micros, h1]
      by_cases hr : o.refs > 1
      · have hq : s.mem (t + 1) (s.threads t).made = none := hs.fresh t _ (le_refl _)
        have hqp : p ≠ (t + 1, (s.threads t).made) := by
          intro e
          rw [e] at h2
          rw [h2] at hq
          simp at hq
        have hd := inv_drop hi (t := t) (v := v) h1 h2
        have hq2 : put s.mem p (drop o) (t + 1) (s.threads t).made = none := by
          rw [put_ne' _ _ (Ne.symm hqp), hq]
        have hn := inv_new hd (t := t) (v := v) (p := (t + 1, (s.threads t).made)) o.data (by simp) hq2
        have hmem : put (put s.mem (t + 1, (s.threads t).made) (some ⟨1, o.data⟩)) p (drop o) =
            put (put s.mem p (drop o)) (t + 1, (s.threads t).made) (some ⟨1, o.data⟩) := put_comm _ _ _ hqp
        refine ⟨_, does hs (m := put (put s.mem p (drop o)) (t + 1, (s.threads t).made) (some ⟨1, o.data.set i x⟩))
          (th := { s.threads t with
            code := cs, todo := [], reg := o.refs, made := (s.threads t).made + 1,
            vars := upd (s.threads t).vars v (some (t + 1, (s.threads t).made)) }) rfl ?_ ?_ ?_ ?_⟩
        · refine .more (step_start h0 hc e0) (by simp [st]) ?_
          refine .more (step_load (o := o) _ _ _ _ rfl h2) (by simp [st]) ?_
          refine .more (step_clone (o := o) _ _ _ _ rfl h2 hr) (by simp [st, dereference]) ?_
          refine exec_deref (p := p) (o := o) _ _ _ _ rfl (by simp) (by rw [put_ne _ _ hqp, h2]) ?_
          refine .more (step_bind _ _ _ _ rfl) (by simp [st]) ?_
          refine .last (step_set (p := (t + 1, (s.threads t).made)) (o := ⟨1, o.data⟩) (xs := []) _ _ _ _ rfl (by simp)
            ?_ hlt |>.trans ?_) (by simp [st])
          · rw [hmem]; exact put_same _ (t + 1, (s.threads t).made) _
          · rw [hmem, put_put]
        · have := inv_set hn (p := (t + 1, (s.threads t).made)) (o.data.set i x) (put_same _ _ _)
          simp only [hset, upd_same, upd_upd, put_put] at this
          exact this
        · exact (hf.put (p := p) (by rw [h2]; simp) _).new t _
        · intro u y
          have e1 := val_new hd (t := t) (v := v) (p := (t + 1, (s.threads t).made)) o.data hq2 u y
          have e2 := val_set hn (t := t) (v := v) (p := (t + 1, (s.threads t).made)) (o.data.set i x) (by simp)
            (put_same _ _ _) (by simp) u y
          have e3 := val_drop hi (t := t) (v := v) h1 h2 u y
          rw [e1, e3] at e2
          simp only [hset, upd_same, upd_upd, put_put] at e2
          refine e2.trans ?_
          split <;> rfl
      · refine ⟨_, does hs (m := put s.mem p (some { o with data := o.data.set i x }))
          (th := { s.threads t with code := cs, todo := [], reg := o.refs }) rfl ?_ ?_ ?_ ?_⟩
        · refine .more (step_start h0 hc e0) (by simp [st]) ?_
          refine .more (step_load (o := o) _ _ _ _ rfl h2) (by simp [st]) ?_
          refine .more (step_noclone _ _ _ _ rfl hr) (by simp [st]) ?_
          exact .last (step_set (p := p) (o := o) (xs := []) _ _ _ _ rfl h1 h2 hlt) (by simp [st])
        · have : upd (handles s.threads) t (s.threads t).vars = handles s.threads := upd_self _ _
          rw [this]; exact inv_set hi _ h2
        · rw [hmade]; exact hf.put (by rw [h2]; simp) _
        · have : upd (handles s.threads) t (s.threads t).vars = handles s.threads := upd_self _ _
          rw [this]
          exact val_set hi (t := t) (v := v) _ h1 h2 hr
  | read v i =>
    simp only [Spec.exec, Spec.view] at ha
    cases hw : Spec.value s t v with
    | none => rw [hw] at ha; simp at ha
    | some l =>
      obtain ⟨p, o, h1, h2, h3⟩ := value_some hw
      rw [hw] at ha
      simp only [Option.bind_some] at ha
      cases hx : l[i]? with
      | none => rw [hx] at ha; simp at ha
      | some x =>
        rw [hx] at ha
        simp only [Option.map_some, Option.some.injEq] at ha
        subst ha
        subst h3
        have e : (⟨Spec.value s t, (s.threads t).out ++ [x]⟩ : Spec.View α) =
            ⟨upd (Spec.value s t) v (some o.data), (s.threads t).out ++ [x]⟩ := by
          rw [← hw, upd_self]
        rw [e]
        refine ⟨_, does hs (m := s.mem)
          (th := { s.threads t with code := cs, todo := [], out := (s.threads t).out ++ [x] }) rfl ?_ ?_ ?_ ?_⟩
        · refine .more (step_start h0 hc (ms := [.get p i]) (by simp [micros, h1])) (by simp [st]) ?_
          exact .last (step_get (o := o) _ _ _ _ rfl h2 hx) (by simp [st])
        · have : upd (handles s.threads) t (s.threads t).vars = handles s.threads := upd_self _ _
          rw [this]; exact hi
        · rw [hmade]; exact hf
        · intro u y
          have : upd (handles s.threads) t (s.threads t).vars = handles s.threads := upd_self _ _
          rw [this, ← value_eq]
          split
          · rename_i he
            simp only [Prod.mk.injEq] at he
            rw [he.1, he.2, hw]
          · rfl

/-! ### Statements which are not interrupted -/

/-- The end of an execution, seen from its beginning. -/
structure Ends (s s' : St α) : Prop where
  out : ∀ t, Spec.Finished s' t → (Spec.execAll (Spec.view s t) (s.threads t).code).map (·.out) = some (s'.threads t).out
  settled : (∀ t, (s'.threads t).todo = []) → Spec.Settled s'
  rest : (∀ t, (s'.threads t).todo = []) → ∀ t,
    Spec.execAll (Spec.view s' t) (s'.threads t).code = Spec.execAll (Spec.view s t) (s.threads t).code

theorem ends_refl {s : St α} (hs : Spec.Settled s) : Ends s s :=
  ⟨fun t h => by rw [h.1]; rfl, fun _ => hs, fun _ _ => rfl⟩

theorem atomic_run : ∀ (n : Nat) (sched : List Nat), sched.length ≤ n → ∀ s : St α, Spec.Settled s →
    (∀ t ∈ sched, (Spec.execAll (Spec.view s t) (s.threads t).code).isSome) → Spec.Atomic s sched →
    ∃ s', run s sched = .ok s' ∧ Ends s s' := by
  intro n
  induction n with
  | zero =>
    intro sched hl s hs _ _
    have : sched = [] := List.length_eq_zero_iff.1 (by omega)
    subst this
    exact ⟨s, rfl, ends_refl hs⟩
  | succ n ih =>
    intro sched hl s hs hp ha
    cases sched with
    | nil => exact ⟨s, rfl, ends_refl hs⟩
    | cons t ts =>
      simp only [List.length_cons] at hl
      cases hc : (s.threads t).code with
      | nil =>
        have h1 : step s t = .ok s := by simp [step, hs.idle t, hc]
        obtain ⟨s', h2, h3⟩ := ih ts (by omega) s hs (fun u hu => hp u (List.mem_cons_of_mem _ hu)) (ha.2 _ h1)
        exact ⟨s', by simp [run, h1, h2], h3⟩
      | cons c cs =>
        have hsome := hp t List.mem_cons_self
        rw [hc] at hsome
        simp only [Spec.execAll] at hsome
        cases hx : Spec.exec (Spec.view s t) c with
        | none => rw [hx] at hsome; simp at hsome
        | some a =>
          obtain ⟨s1, he, hs1, hv, hcs, ho⟩ := exec_stmt hs hc hx
          have hagree : ∀ u, Spec.execAll (Spec.view s1 u) (s1.threads u).code =
              Spec.execAll (Spec.view s u) (s.threads u).code := by
            intro u
            by_cases hu : u = t
            · subst hu
              rw [hv, hcs, hc, Spec.execAll, hx]
              rfl
            · rw [(ho u hu).1, (ho u hu).2]
          rcases exec_atomic he ts ha with ⟨s', h1, h2, h3⟩ | ⟨rest, hr1, hr0, hr2, hr3⟩
          · refine ⟨s', h1, ?_, fun h => absurd (h t) h2, fun h => absurd (h t) h2⟩
            intro u hf
            have hu : u ≠ t := fun e => h2 (by rw [← e]; exact hf.2)
            have := hf.1
            rw [h3 u hu] at this
            rw [this, h3 u hu]
            rfl
          · have hsub : ∀ u ∈ rest, u ∈ t :: ts := fun u hu => List.mem_cons_of_mem _ (hr0 u hu)
            obtain ⟨s', h4, h5⟩ := ih rest (by omega) s1 hs1 (fun u hu => by rw [hagree]; exact hp u (hsub u hu)) hr2
            refine ⟨s', hr3.trans h4, ?_, h5.settled, ?_⟩
            · intro u hf
              rw [← hagree]
              exact h5.out u hf
            · intro h u
              rw [← hagree]
              exact h5.rest h u

/-! ### Threads which share objects only to read them -/

/-- Two states look the same to the thread `t`. -/
structure Same (t : Nat) (s r : St α) : Prop where
  thread : s.threads t = r.threads t
  shared : s.mem 0 = r.mem 0
  own : s.mem (t + 1) = r.mem (t + 1)

/-- The accesses which are left leave the objects of other threads, and shared ones, alone. -/
def OkMicro (t : Nat) (sh : Nat → Prop) : Micro α → Prop
  | .make v _ => ¬sh v
  | .load p => p.1 = t + 1
  | .store p _ => p.1 = t + 1
  | .deleteIf p _ => p.1 = t + 1
  | .cloneIf v p => ¬sh v ∧ p.1 = t + 1
  | .bind v p => ¬sh v ∧ p.1 = t + 1
  | .unbind v => ¬sh v
  | .set v _ _ => ¬sh v
  | .get p _ => p.1 = 0 ∨ p.1 = t + 1

structure Guard (t : Nat) (sh : Nat → Prop) (th : Thread α) : Prop where
  vars : ∀ v p, th.vars v = some p → (sh v → p.1 = 0) ∧ (¬sh v → p.1 = t + 1)
  code : ∀ c ∈ th.code, Spec.OnlyReads sh c
  todo : ∀ x ∈ th.todo, OkMicro t sh x

theorem Same.mem {t : Nat} {s r : St α} (h : Same t s r) {p : Addr} (hp : p.1 = 0 ∨ p.1 = t + 1) :
    s.mem p.1 p.2 = r.mem p.1 p.2 := by
  rcases hp with e | e <;> rw [e]
  · rw [h.shared]
  · rw [h.own]

/-- The result of a step: the thread, and the objects of its part of the memory. -/
structure Local (t : Nat) (sh : Nat → Prop) (s s' r r' : St α) : Prop where
  same : Same t s' r'
  guard : Guard t sh (s'.threads t)
  keep : ∀ v, sh v → (s'.threads t).vars v = (s.threads t).vars v
  mem : ∀ a, a ≠ t + 1 → r'.mem a = r.mem a
  threads : ∀ u, u ≠ t → r'.threads u = r.threads u

theorem local_thread {t : Nat} {sh : Nat → Prop} {s r : St α} (hs : Same t s r) {th : Thread α}
    (hg : Guard t sh th) (hk : ∀ v, sh v → th.vars v = (s.threads t).vars v) :
    Local t sh s (setThread s t th) r (setThread r t th) := by
  refine ⟨⟨?_, hs.shared, hs.own⟩, ?_, ?_, fun _ _ => rfl, ?_⟩
  · simp [setThread]
  · simpa [setThread] using hg
  · simpa [setThread] using hk
  · intro u hu; simp [setThread, upd, hu]

theorem local_obj {t : Nat} {sh : Nat → Prop} {s r : St α} (hs : Same t s r) {th : Thread α} {p : Addr}
    (hp : p.1 = t + 1) (o : Option (Obj α)) (hg : Guard t sh th)
    (hk : ∀ v, sh v → th.vars v = (s.threads t).vars v) :
    Local t sh s (setThread (setObj s p o) t th) r (setThread (setObj r p o) t th) := by
  refine ⟨⟨?_, ?_, ?_⟩, ?_, ?_, ?_, ?_⟩
  · simp [setThread]
  · have : (0 : Nat) ≠ p.1 := by omega
    simp [setThread, setObj, upd, this, hs.shared]
  · simp [setThread, setObj, hp, hs.own]
  · simpa [setThread] using hg
  · simpa [setThread, setObj] using hk
  · intro a ha
    have : a ≠ p.1 := by omega
    simp [setThread, setObj, upd, this]
  · intro u hu; simp [setThread, setObj, upd, hu]

theorem guard_upd {t : Nat} {sh : Nat → Prop} {vars : Nat → Option Addr} {v : Nat} {q : Option Addr}
    (h : ∀ v p, vars v = some p → (sh v → p.1 = 0) ∧ (¬sh v → p.1 = t + 1)) (hv : ¬sh v)
    (hq : ∀ p, q = some p → p.1 = t + 1) (w : Nat) (p : Addr) (hw : upd vars v q w = some p) :
    (sh w → p.1 = 0) ∧ (¬sh w → p.1 = t + 1) := by
  by_cases e : w = v
  · subst e
    rw [upd_same] at hw
    exact ⟨fun h => absurd h hv, fun _ => hq p hw⟩
  · rw [upd_ne _ _ e] at hw
    exact h w p hw

theorem step_local {t : Nat} {sh : Nat → Prop} {s r s' : St α} (hs : Same t s r) (hg : Guard t sh (s.threads t))
    (h : step s t = .ok s') : ∃ r', step r t = .ok r' ∧ Local t sh s s' r r' := by
  unfold step at h ⊢
  rw [← hs.thread]
  have hkeep : ∀ {v : Nat} (q : Option Addr), ¬sh v → ∀ w, sh w →
      upd (s.threads t).vars v q w = (s.threads t).vars w :=
    fun q hv w hw => upd_ne _ _ fun e => hv (e ▸ hw)
  cases htodo : (s.threads t).todo with
  | nil =>
    rw [htodo] at h
    simp only at h ⊢
    cases hcode : (s.threads t).code with
    | nil =>
      rw [hcode] at h
      simp only [Res.ok.injEq] at h
      subst h
      exact ⟨r, rfl, hs, hg, fun _ _ => rfl, fun _ _ => rfl, fun _ _ => rfl⟩
    | cons c cs =>
      rw [hcode] at h
      simp only at h ⊢
      cases hm : micros (s.threads t) c with
      | abort => rw [hm] at h; simp at h
      | ub => rw [hm] at h; simp at h
      | ok ms =>
        rw [hm] at h
        simp only [Res.ok_bind, Res.pure_eq, Res.ok.injEq] at h ⊢
        subst h
        refine ⟨_, rfl, local_thread hs ⟨hg.vars, ?_, ?_⟩ fun _ _ => rfl⟩
        · intro c' hc'
          exact hg.code c' (by rw [hcode]; exact List.mem_cons_of_mem _ hc')
        · have hc : Spec.OnlyReads sh c := hg.code c (by rw [hcode]; exact List.mem_cons_self)
          intro x hx
          simp only at hx
          cases c with
          | new v d =>
            simp only [micros, Res.pure_eq, Res.ok.injEq] at hm
            subst hm
            simp only [List.mem_singleton] at hx
            subst hx
            exact hc
          | copy v w =>
            simp only [micros] at hm
            cases h1 : (s.threads t).vars w with
            | none => rw [h1] at hm; simp at hm
            | some p =>
              rw [h1] at hm
              simp only [Res.ofOption_some, Res.ok_bind, Res.pure_eq, Res.ok.injEq] at hm
              subst hm
              have hp := (hg.vars w p h1).2 hc.2
              simp only [List.mem_cons, List.not_mem_nil, or_false] at hx
              rcases hx with e | e | e <;> subst e
              · exact hp
              · exact hp
              · exact ⟨hc.1, hp⟩
          | assign v w =>
            simp only [micros] at hm
            cases h1 : (s.threads t).vars w with
            | none => rw [h1] at hm; simp at hm
            | some q =>
              cases h2 : (s.threads t).vars v with
              | none => rw [h1, h2] at hm; simp at hm
              | some p =>
                rw [h1, h2] at hm
                simp only [Res.ofOption_some, Res.ok_bind, Res.pure_eq] at hm
                have hq := (hg.vars w q h1).2 hc.2
                have hp := (hg.vars v p h2).2 hc.1
                split at hm
                · simp only [Res.ok.injEq] at hm
                  subst hm
                  simp at hx
                · simp only [Res.ok.injEq] at hm
                  subst hm
                  simp only [dereference, List.cons_append, List.nil_append, List.mem_cons, List.not_mem_nil,
                    or_false] at hx
                  rcases hx with e | e | e | e | e | e <;> subst e
                  · exact hp
                  · exact hp
                  · exact hp
                  · exact hq
                  · exact hq
                  · exact ⟨hc.1, hq⟩
          | destroy v =>
            simp only [micros] at hm
            cases h1 : (s.threads t).vars v with
            | none => rw [h1] at hm; simp at hm
            | some p =>
              rw [h1] at hm
              simp only [Res.ofOption_some, Res.ok_bind, Res.pure_eq, Res.ok.injEq] at hm
              subst hm
              have hp := (hg.vars v p h1).2 hc
              simp only [dereference, List.cons_append, List.nil_append, List.mem_cons, List.not_mem_nil,
                or_false] at hx
              rcases hx with e | e | e | e <;> subst e
              · exact hp
              · exact hp
              · exact hp
              · exact hc
          | write v i y =>
            simp only [micros] at hm
            cases h1 : (s.threads t).vars v with
            | none => rw [h1] at hm; simp at hm
            | some p =>
              rw [h1] at hm
              simp only [Res.ofOption_some, Res.ok_bind, Res.pure_eq, Res.ok.injEq] at hm
              subst hm
              have hp := (hg.vars v p h1).2 hc
              simp only [List.mem_cons, List.not_mem_nil, or_false] at hx
              rcases hx with e | e | e <;> subst e
              · exact hp
              · exact ⟨hc, hp⟩
              · exact hc
          | read v i =>
            simp only [micros] at hm
            cases h1 : (s.threads t).vars v with
            | none => rw [h1] at hm; simp at hm
            | some p =>
              rw [h1] at hm
              simp only [Res.ofOption_some, Res.ok_bind, Res.pure_eq, Res.ok.injEq] at hm
              subst hm
              have hp := hg.vars v p h1
              simp only [List.mem_singleton] at hx
              subst hx
              by_cases hv : sh v
              · exact .inl (hp.1 hv)
              · exact .inr (hp.2 hv)
  | cons x xs =>
    rw [htodo] at h
    simp only at h ⊢
    have hx : OkMicro t sh x := hg.todo x (by rw [htodo]; exact List.mem_cons_self)
    have hxs : ∀ y ∈ xs, OkMicro t sh y := fun y hy => hg.todo y (by rw [htodo]; exact List.mem_cons_of_mem _ hy)
    cases x with
    | make v d =>
      simp only [micro, Res.pure_eq, Res.ok.injEq] at h ⊢
      subst h
      refine ⟨_, rfl, local_obj hs rfl _ ⟨guard_upd hg.vars hx ?_, hg.code, hxs⟩ (hkeep _ hx)⟩
      rintro p ⟨⟩
      rfl
    | load p =>
      simp only [micro, getObj, ← hs.mem (.inr hx)] at h ⊢
      cases h1 : s.mem p.1 p.2 with
      | none => rw [h1] at h; simp at h
      | some o =>
        rw [h1] at h
        simp only [Res.ofOption_some, Res.ok_bind, Res.pure_eq, Res.ok.injEq] at h ⊢
        subst h
        exact ⟨_, rfl, local_thread hs ⟨hg.vars, hg.code, hxs⟩ fun _ _ => rfl⟩
    | store p d =>
      simp only [micro, getObj, ← hs.mem (.inr hx)] at h ⊢
      cases h1 : s.mem p.1 p.2 with
      | none => rw [h1] at h; simp at h
      | some o =>
        rw [h1] at h
        simp only [Res.ofOption_some, Res.ok_bind, Res.pure_eq, Res.ok.injEq] at h ⊢
        subst h
        exact ⟨_, rfl, local_obj hs hx _ ⟨hg.vars, hg.code, hxs⟩ fun _ _ => rfl⟩
    | deleteIf p d =>
      simp only [micro, getObj, ← hs.mem (.inr hx)] at h ⊢
      split at h
      · rename_i hd
        rw [if_pos hd]
        cases h1 : s.mem p.1 p.2 with
        | none => rw [h1] at h; simp at h
        | some o =>
          rw [h1] at h
          simp only [Res.ofOption_some, Res.ok_bind, Res.pure_eq, Res.ok.injEq] at h ⊢
          subst h
          exact ⟨_, rfl, local_obj hs hx _ ⟨hg.vars, hg.code, hxs⟩ fun _ _ => rfl⟩
      · rename_i hd
        rw [if_neg hd]
        simp only [Res.pure_eq, Res.ok.injEq] at h ⊢
        subst h
        exact ⟨_, rfl, local_thread hs ⟨hg.vars, hg.code, hxs⟩ fun _ _ => rfl⟩
    | cloneIf v p =>
      simp only [micro, getObj, ← hs.mem (.inr hx.2)] at h ⊢
      split at h
      · rename_i hd
        rw [if_pos hd]
        cases h1 : s.mem p.1 p.2 with
        | none => rw [h1] at h; simp at h
        | some o =>
          rw [h1] at h
          simp only [Res.ofOption_some, Res.ok_bind, Res.pure_eq, Res.ok.injEq] at h ⊢
          subst h
          refine ⟨_, rfl, local_obj hs rfl _ ⟨hg.vars, hg.code, ?_⟩ fun _ _ => rfl⟩
          intro y hy
          simp only [dereference, List.cons_append, List.nil_append, List.mem_cons] at hy
          rcases hy with e | e | e | e | hy
          · subst e; exact hx.2
          · subst e; exact hx.2
          · subst e; exact hx.2
          · subst e; exact ⟨hx.1, rfl⟩
          · exact hxs y hy
      · rename_i hd
        rw [if_neg hd]
        simp only [Res.pure_eq, Res.ok.injEq] at h ⊢
        subst h
        exact ⟨_, rfl, local_thread hs ⟨hg.vars, hg.code, hxs⟩ fun _ _ => rfl⟩
    | bind v p =>
      simp only [micro, Res.pure_eq, Res.ok.injEq] at h ⊢
      subst h
      refine ⟨_, rfl, local_thread hs ⟨guard_upd hg.vars hx.1 ?_, hg.code, hxs⟩ (hkeep _ hx.1)⟩
      rintro q ⟨⟩
      exact hx.2
    | unbind v =>
      simp only [micro, Res.pure_eq, Res.ok.injEq] at h ⊢
      subst h
      refine ⟨_, rfl, local_thread hs ⟨guard_upd hg.vars hx ?_, hg.code, hxs⟩ (hkeep _ hx)⟩
      rintro q ⟨⟩
    | set v i y =>
      simp only [micro] at h ⊢
      cases h0 : (s.threads t).vars v with
      | none => rw [h0] at h; simp at h
      | some p =>
        have hp := (hg.vars v p h0).2 hx
        rw [h0] at h
        simp only [Res.ofOption_some, Res.ok_bind, getObj, ← hs.mem (.inr hp)] at h ⊢
        cases h1 : s.mem p.1 p.2 with
        | none => rw [h1] at h; simp at h
        | some o =>
          rw [h1] at h
          simp only [Res.ofOption_some, Res.ok_bind, Res.pure_eq] at h ⊢
          split at h
          · rename_i hi
            rw [if_pos hi]
            simp only [Res.ok.injEq] at h
            subst h
            exact ⟨_, rfl, local_obj hs hp _ ⟨hg.vars, hg.code, hxs⟩ fun _ _ => rfl⟩
          · simp at h
    | get p i =>
      simp only [micro, getObj, ← hs.mem hx] at h ⊢
      cases h1 : s.mem p.1 p.2 with
      | none => rw [h1] at h; simp at h
      | some o =>
        rw [h1] at h
        simp only [Res.ofOption_some, Res.ok_bind] at h ⊢
        cases h2 : o.data[i]? with
        | none => rw [h2] at h; simp at h
        | some y =>
          rw [h2] at h
          simp only [Res.ofOption_some, Res.ok_bind, Res.pure_eq, Res.ok.injEq] at h ⊢
          subst h
          exact ⟨_, rfl, local_thread hs ⟨hg.vars, hg.code, hxs⟩ fun _ _ => rfl⟩

theorem run_cons (s : St α) (t : Nat) (ts : List Nat) : run s (t :: ts) = step s t >>= fun s => run s ts := rfl

/-- Every thread does the same as if it ran alone. -/
theorem run_local (sh : Nat → Nat → Prop) : ∀ (sched : List Nat) (x : St α) (a : Nat → St α),
    (∀ t, Same t (a t) x) → (∀ t, Guard t (sh t) ((a t).threads t)) →
    (∀ t ∈ sched, ∀ n, ∃ r, run (a t) (List.replicate n t) = .ok r) →
    ∃ x', run x sched = .ok x' ∧ ∀ t, ∃ r, run (a t) (List.replicate (sched.count t) t) = .ok r ∧ Same t r x' ∧
      Guard t (sh t) (r.threads t) ∧ ∀ v, sh t v → (r.threads t).vars v = ((a t).threads t).vars v := by
  intro sched
  induction sched with
  | nil => exact fun x a h1 h2 _ => ⟨x, rfl, fun t => ⟨a t, rfl, h1 t, h2 t, fun _ _ => rfl⟩⟩
  | cons t ts ih =>
    intro x a h1 h2 h3
    obtain ⟨b, hb⟩ := h3 t List.mem_cons_self 1
    have hb' : step (a t) t = .ok b := by
      cases hst : step (a t) t with
      | ok c => simp [run, hst] at hb; rw [hb]
      | abort => simp [run, hst] at hb
      | ub => simp [run, hst] at hb
    obtain ⟨x1, hx1, hl⟩ := step_local (h1 t) (h2 t) hb'
    have g1 : ∀ u, Same u (upd a t b u) x1 := by
      intro u
      by_cases hu : u = t
      · subst hu; rw [upd_same]; exact hl.same
      · rw [upd_ne _ _ hu]
        exact ⟨by rw [hl.threads u hu, (h1 u).thread], by rw [hl.mem 0 (by omega), (h1 u).shared],
          by rw [hl.mem (u + 1) (by omega), (h1 u).own]⟩
    have g2 : ∀ u, Guard u (sh u) ((upd a t b u).threads u) := by
      intro u
      by_cases hu : u = t
      · subst hu; rw [upd_same]; exact hl.guard
      · rw [upd_ne _ _ hu]; exact h2 u
    have g3 : ∀ u ∈ ts, ∀ n, ∃ r, run (upd a t b u) (List.replicate n u) = .ok r := by
      intro u hu n
      by_cases hut : u = t
      · subst hut
        rw [upd_same]
        obtain ⟨r, hr⟩ := h3 u List.mem_cons_self (n + 1)
        rw [List.replicate_succ, run_cons, hb', Res.ok_bind] at hr
        exact ⟨r, hr⟩
      · rw [upd_ne _ _ hut]
        exact h3 u (List.mem_cons_of_mem _ hu) n
    obtain ⟨x', hx', hall⟩ := ih x1 (upd a t b) g1 g2 g3
    refine ⟨x', by rw [run_cons, hx1, Res.ok_bind, hx'], fun u => ?_⟩
    obtain ⟨r, hr1, hr2, hr3, hr4⟩ := hall u
    by_cases hu : u = t
    · subst hu
      rw [upd_same] at hr1 hr4
      refine ⟨r, ?_, hr2, hr3, fun v hv => (hr4 v hv).trans (hl.keep v hv)⟩
      rw [List.count_cons_self, List.replicate_succ, run_cons, hb', Res.ok_bind, hr1]
    · rw [upd_ne _ _ hu] at hr1 hr4
      refine ⟨r, ?_, hr2, hr3, hr4⟩
      rw [List.count_cons_of_ne (Ne.symm hu), hr1]

theorem atomic_replicate (t : Nat) : ∀ (n : Nat) (s : St α), (∀ u, u ≠ t → (s.threads u).todo = []) →
    Spec.Atomic s (List.replicate n t) := by
  intro n
  induction n with
  | zero => exact fun _ _ => trivial
  | succ n ih =>
    intro s hs
    rw [List.replicate_succ]
    refine ⟨hs, fun s' h => ih s' fun u hu => ?_⟩
    rw [step_other h hu]
    exact hs u hu

theorem run_replicate_other (t : Nat) : ∀ (n : Nat) (s r : St α), run s (List.replicate n t) = .ok r →
    ∀ u, u ≠ t → r.threads u = s.threads u := by
  intro n
  induction n with
  | zero =>
    intro s r h u _
    simp only [List.replicate_zero, run, Res.ok.injEq] at h
    rw [h]
  | succ n ih =>
    intro s r h u hu
    rw [List.replicate_succ, run_cons] at h
    cases hst : step s t with
    | ok s' =>
      rw [hst] at h
      exact (ih s' r h u hu).trans (step_other hst hu)
    | abort => rw [hst] at h; simp at h
    | ub => rw [hst] at h; simp at h

end Verif.Threads
