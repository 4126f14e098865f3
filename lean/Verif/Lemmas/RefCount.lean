import Verif.Model.RefCount
import Verif.Spec.RefCount
/-
Invariant of the copy-on-write heap and its preservation by the primitives of the model.
-/
namespace Verif.RefCount

variable {α : Type}

@[simp] theorem upd_same {β : Type} (f : Nat → β) (k : Nat) (v : β) : upd f k v k = v := by
  simp [upd]

theorem upd_ne {β : Type} (f : Nat → β) {k x : Nat} (v : β) (h : x ≠ k) : upd f k v x = f x := by
  simp [upd, h]

/-- `c p` is the number of handles on the `pointer` at address `p`, `k` the number of external
blocks. -/
structure Inv (s : St α) (c : Nat → Nat) (k : Nat) : Prop where
  cnt : ∀ p P, s.ptrs p = some P → P.refs = c p ∧ 0 < c p
  live : ∀ p, 0 < c p → ∃ P, s.ptrs p = some P
  freshP : ∀ p, s.nptr ≤ p → s.ptrs p = none
  freshB : ∀ b, s.nblk ≤ b → s.blks b = none
  kle : k ≤ s.nblk
  data : ∀ p P, s.ptrs p = some P → ∃ l, s.blks P.blk = some l ∧ l.length = P.size
  own : ∀ p P, s.ptrs p = some P → (P.owned = true ↔ k ≤ P.blk)
  inj : ∀ p q P Q, s.ptrs p = some P → s.ptrs q = some Q → P.blk = Q.blk → p = q
  noleak : ∀ b l, k ≤ b → s.blks b = some l → ∃ p P, s.ptrs p = some P ∧ P.blk = b
  ext : ∀ b, b < k → ∃ l, s.blks b = some l

/-- The data seen through a `pointer`. -/
def content (s : St α) (p : Nat) : Option (Cells α) := (s.ptrs p).bind fun P => s.blks P.blk

/-- External block `b` has contents `l` and no `pointer` describes it. -/
def Avail (s : St α) (b : Nat) (l : Cells α) : Prop :=
  s.blks b = some l ∧ ∀ p P, s.ptrs p = some P → P.blk ≠ b

theorem Inv.blk_lt {s : St α} {c k} (h : Inv s c k) {p P} (hp : s.ptrs p = some P) :
    P.blk < s.nblk := by
  obtain ⟨l, hl, -⟩ := h.data p P hp
  rcases Nat.lt_or_ge P.blk s.nblk with h1 | h1
  · exact h1
  · rw [h.freshB _ h1] at hl; cases hl

theorem Inv.ptr_lt {s : St α} {c k} (h : Inv s c k) {p P} (hp : s.ptrs p = some P) :
    p < s.nptr := by
  rcases Nat.lt_or_ge p s.nptr with h1 | h1
  · exact h1
  · rw [h.freshP _ h1] at hp; cases hp

theorem Inv.fresh_zero {s : St α} {c k} (h : Inv s c k) : c s.nptr = 0 := by
  rcases Nat.eq_zero_or_pos (c s.nptr) with h1 | h1
  · exact h1
  · obtain ⟨P, hP⟩ := h.live _ h1
    have := h.ptr_lt hP
    omega

theorem Inv.content_some {s : St α} {c k} (h : Inv s c k) {p : Nat} (hp : 0 < c p) :
    ∃ P l, s.ptrs p = some P ∧ s.blks P.blk = some l ∧ l.length = P.size ∧
      content s p = some l ∧ P.refs = c p := by
  obtain ⟨P, hP⟩ := h.live p hp
  obtain ⟨l, hl, e⟩ := h.data p P hP
  exact ⟨P, l, hP, hl, e, by simp [content, hP, hl], (h.cnt p P hP).1⟩

theorem newBoth_spec {s : St α} {c k} (h : Inv s c k) (l : Cells α) :
    (newBoth s l).2 = s.nptr ∧ (newBoth s l).1.hs = s.hs ∧
    Inv (newBoth s l).1 (upd c s.nptr 1) k ∧
    content (newBoth s l).1 s.nptr = some l ∧
    (∀ p, p ≠ s.nptr → content (newBoth s l).1 p = content s p) ∧
    (∀ b m, b < k → Avail s b m → Avail (newBoth s l).1 b m) := by
  have hs : newBoth s l =
      ({ s with blks := upd s.blks s.nblk (some l), nblk := s.nblk + 1,
                ptrs := upd s.ptrs s.nptr (some ⟨s.nblk, l.length, 1, true⟩),
                nptr := s.nptr + 1 }, s.nptr) := rfl
  rw [hs]
  have key : ∀ p P, upd s.ptrs s.nptr (some ⟨s.nblk, l.length, 1, true⟩) p = some P →
      (p = s.nptr ∧ P = ⟨s.nblk, l.length, 1, true⟩) ∨ (p ≠ s.nptr ∧ s.ptrs p = some P) := by
    intro p P hp
    by_cases e : p = s.nptr
    · subst e; simp at hp; exact .inl ⟨rfl, hp.symm⟩
    · rw [upd_ne _ _ e] at hp; exact .inr ⟨e, hp⟩
  refine ⟨rfl, rfl, ?_, ?_, ?_, ?_⟩
  · constructor
    · intro p P hp
      rcases key p P hp with ⟨rfl, rfl⟩ | ⟨e, hp⟩
      · simp
      · rw [upd_ne _ _ e]; exact h.cnt p P hp
    · intro p hp
      by_cases e : p = s.nptr
      · subst e; exact ⟨_, upd_same _ _ _⟩
      · rw [upd_ne _ _ e] at hp
        simp only [upd_ne _ _ e]; exact h.live p hp
    · intro p hp
      simp only at hp ⊢
      rw [upd_ne _ _ (by omega)]; exact h.freshP p (by omega)
    · intro b hb
      simp only at hb ⊢
      rw [upd_ne _ _ (by omega)]; exact h.freshB b (by omega)
    · have := h.kle; simp only; omega
    · intro p P hp
      rcases key p P hp with ⟨rfl, rfl⟩ | ⟨e, hp⟩
      · exact ⟨l, by simp, rfl⟩
      · obtain ⟨m, hm, e2⟩ := h.data p P hp
        refine ⟨m, ?_, e2⟩
        have := h.blk_lt hp
        simp only; rw [upd_ne _ _ (by omega)]; exact hm
    · intro p P hp
      rcases key p P hp with ⟨rfl, rfl⟩ | ⟨e, hp⟩
      · simpa using h.kle
      · exact h.own p P hp
    · intro p q P Q hp hq e
      rcases key p P hp with ⟨rfl, rfl⟩ | ⟨e1, hp⟩ <;> rcases key q Q hq with ⟨rfl, rfl⟩ | ⟨e2, hq⟩
      · rfl
      · have := h.blk_lt hq; simp at e; omega
      · have := h.blk_lt hp; simp at e; omega
      · exact h.inj p q P Q hp hq e
    · intro b m hb hm
      by_cases e : b = s.nblk
      · subst e; exact ⟨s.nptr, _, upd_same _ _ _, rfl⟩
      · simp only at hm; rw [upd_ne _ _ e] at hm
        obtain ⟨p, P, hp, e2⟩ := h.noleak b m hb hm
        refine ⟨p, P, ?_, e2⟩
        have := h.ptr_lt hp
        simp only; rw [upd_ne _ _ (by omega)]; exact hp
    · intro b hb
      have := h.kle
      simp only; rw [upd_ne _ _ (by omega)]; exact h.ext b hb
  · simp [content]
  · intro p e
    simp only [content, upd_ne _ _ e]
    cases hp : s.ptrs p with
    | none => rfl
    | some P =>
      have := h.blk_lt hp
      simp only [Option.bind_some]
      rw [upd_ne _ _ (by omega)]
  · intro b m hb ⟨h1, h2⟩
    have := h.kle
    refine ⟨by simp only; rw [upd_ne _ _ (by omega)]; exact h1, ?_⟩
    intro p P hp
    rcases key p P hp with ⟨rfl, rfl⟩ | ⟨e, hp⟩
    · simp only; omega
    · exact h2 p P hp

theorem wrap_spec {s : St α} {c k} (h : Inv s c k) {b : Nat} {l : Cells α} (hb : b < k)
    (ha : Avail s b l) :
    Inv (newPtr s b l.length false).1 (upd c s.nptr 1) k ∧
    content (newPtr s b l.length false).1 s.nptr = some l ∧
    (∀ p, p ≠ s.nptr → content (newPtr s b l.length false).1 p = content s p) ∧
    (∀ b' m, b' ≠ b → Avail s b' m → Avail (newPtr s b l.length false).1 b' m) := by
  simp only [newPtr]
  have key : ∀ p P, upd s.ptrs s.nptr (some ⟨b, l.length, 1, false⟩) p = some P →
      (p = s.nptr ∧ P = ⟨b, l.length, 1, false⟩) ∨ (p ≠ s.nptr ∧ s.ptrs p = some P) := by
    intro p P hp
    by_cases e : p = s.nptr
    · subst e; simp at hp; exact .inl ⟨rfl, hp.symm⟩
    · rw [upd_ne _ _ e] at hp; exact .inr ⟨e, hp⟩
  refine ⟨?_, ?_, ?_, ?_⟩
  · constructor
    · intro p P hp
      rcases key p P hp with ⟨rfl, rfl⟩ | ⟨e, hp⟩
      · simp
      · rw [upd_ne _ _ e]; exact h.cnt p P hp
    · intro p hp
      by_cases e : p = s.nptr
      · subst e; exact ⟨_, upd_same _ _ _⟩
      · rw [upd_ne _ _ e] at hp
        simp only [upd_ne _ _ e]; exact h.live p hp
    · intro p hp
      simp only at hp ⊢
      rw [upd_ne _ _ (by omega)]; exact h.freshP p (by omega)
    · exact h.freshB
    · exact h.kle
    · intro p P hp
      rcases key p P hp with ⟨rfl, rfl⟩ | ⟨e, hp⟩
      · exact ⟨l, ha.1, rfl⟩
      · exact h.data p P hp
    · intro p P hp
      rcases key p P hp with ⟨rfl, rfl⟩ | ⟨e, hp⟩
      · simpa using hb
      · exact h.own p P hp
    · intro p q P Q hp hq e
      rcases key p P hp with ⟨rfl, rfl⟩ | ⟨e1, hp⟩ <;> rcases key q Q hq with ⟨rfl, rfl⟩ | ⟨e2, hq⟩
      · rfl
      · exact absurd e.symm (ha.2 q Q hq)
      · exact absurd e (ha.2 p P hp)
      · exact h.inj p q P Q hp hq e
    · intro b' m hb' hm
      obtain ⟨p, P, hp, e2⟩ := h.noleak b' m hb' hm
      refine ⟨p, P, ?_, e2⟩
      have := h.ptr_lt hp
      simp only; rw [upd_ne _ _ (by omega)]; exact hp
    · exact h.ext
  · simp [content, ha.1]
  · intro p e
    simp only [content, upd_ne _ _ e]
  · intro b' m hb' ⟨h1, h2⟩
    refine ⟨h1, ?_⟩
    intro p P hp
    rcases key p P hp with ⟨rfl, rfl⟩ | ⟨e, hp⟩
    · exact fun e => hb' e.symm
    · exact h2 p P hp

theorem reference_spec {s : St α} {c k} (h : Inv s c k) {p : Nat} (hp : 0 < c p) :
    ∃ s', reference s p = .ok s' ∧ s'.hs = s.hs ∧ Inv s' (upd c p (c p + 1)) k ∧
      (∀ q, content s' q = content s q) ∧
      (∀ b m, Avail s b m → Avail s' b m) := by
  obtain ⟨P, hP⟩ := h.live p hp
  refine ⟨{ s with ptrs := upd s.ptrs p (some { P with refs := P.refs + 1 }) },
    by simp [reference, getPtr, hP], rfl, ?_, ?_, ?_⟩
  have key : ∀ q Q, upd s.ptrs p (some { P with refs := P.refs + 1 }) q = some Q →
      (q = p ∧ Q = { P with refs := P.refs + 1 }) ∨ (q ≠ p ∧ s.ptrs q = some Q) := by
    intro q Q hq
    by_cases e : q = p
    · subst e; simp at hq; exact .inl ⟨rfl, hq.symm⟩
    · rw [upd_ne _ _ e] at hq; exact .inr ⟨e, hq⟩
  · constructor
    · intro q Q hq
      rcases key q Q hq with ⟨rfl, rfl⟩ | ⟨e, hq⟩
      · have := h.cnt _ _ hP; simp [this.1]
      · rw [upd_ne _ _ e]; exact h.cnt q Q hq
    · intro q hq
      by_cases e : q = p
      · subst e; exact ⟨_, upd_same _ _ _⟩
      · rw [upd_ne _ _ e] at hq
        simp only [upd_ne _ _ e]; exact h.live q hq
    · intro q hq
      have := h.ptr_lt hP
      simp only at hq ⊢
      rw [upd_ne _ _ (by omega)]; exact h.freshP q (by omega)
    · exact h.freshB
    · exact h.kle
    · intro q Q hq
      rcases key q Q hq with ⟨rfl, rfl⟩ | ⟨e, hq⟩
      · exact h.data _ P hP
      · exact h.data q Q hq
    · intro q Q hq
      rcases key q Q hq with ⟨rfl, rfl⟩ | ⟨e, hq⟩
      · exact h.own _ P hP
      · exact h.own q Q hq
    · intro q r Q R hq hr e
      rcases key q Q hq with ⟨rfl, rfl⟩ | ⟨e1, hq2⟩ <;>
        rcases key r R hr with ⟨rfl, rfl⟩ | ⟨e2, hr2⟩
      · rfl
      · exact h.inj _ _ _ _ hP hr2 e
      · exact h.inj _ _ _ _ hq2 hP e
      · exact h.inj _ _ _ _ hq2 hr2 e
    · intro b m hb hm
      obtain ⟨q, Q, hq, e2⟩ := h.noleak b m hb hm
      by_cases e : q = p
      · subst e
        rw [hP] at hq; cases hq
        exact ⟨q, { P with refs := P.refs + 1 }, upd_same _ _ _, e2⟩
      · exact ⟨q, Q, by simp only [upd_ne _ _ e]; exact hq, e2⟩
    · exact h.ext
  · intro q
    by_cases e : q = p
    · subst e; simp [content, hP]
    · simp [content, upd_ne _ _ e]
  · intro b m ⟨h1, h2⟩
    refine ⟨h1, ?_⟩
    intro q Q hq
    by_cases e : q = p
    · subst e; simp at hq; subst hq; exact h2 _ P hP
    · simp only [upd_ne _ _ e] at hq; exact h2 q Q hq

theorem dereference_spec {s : St α} {c k} (h : Inv s c k) {p : Nat} (hp : 0 < c p) :
    ∃ s', dereference s p = .ok s' ∧ s'.hs = s.hs ∧ s'.nptr = s.nptr ∧
      Inv s' (upd c p (c p - 1)) k ∧
      (∀ q, (q ≠ p ∨ 1 < c p) → content s' q = content s q) ∧
      (∀ b m, b < k → Avail s b m → Avail s' b m) := by
  obtain ⟨P, hP⟩ := h.live p hp
  obtain ⟨l, hl, hlen⟩ := h.data p P hP
  have hc := h.cnt p P hP
  by_cases h1 : 1 < c p
  · -- still referenced
    refine ⟨{ s with ptrs := upd s.ptrs p (some { P with refs := P.refs - 1 }) }, ?_, rfl, rfl,
      ?_, ?_, ?_⟩
    · have : ¬ P.refs - 1 ≤ 0 := by omega
      simp [dereference, getPtr, hP, this]
    · have key : ∀ q Q, upd s.ptrs p (some { P with refs := P.refs - 1 }) q = some Q →
          (q = p ∧ Q = { P with refs := P.refs - 1 }) ∨ (q ≠ p ∧ s.ptrs q = some Q) := by
        intro q Q hq
        by_cases e : q = p
        · subst e; simp at hq; exact .inl ⟨rfl, hq.symm⟩
        · rw [upd_ne _ _ e] at hq; exact .inr ⟨e, hq⟩
      constructor
      · intro q Q hq
        rcases key q Q hq with ⟨rfl, rfl⟩ | ⟨e, hq⟩
        · simp; omega
        · rw [upd_ne _ _ e]; exact h.cnt q Q hq
      · intro q hq
        by_cases e : q = p
        · subst e; exact ⟨_, upd_same _ _ _⟩
        · rw [upd_ne _ _ e] at hq
          simp only [upd_ne _ _ e]; exact h.live q hq
      · intro q hq
        have := h.ptr_lt hP
        simp only at hq ⊢
        rw [upd_ne _ _ (by omega)]; exact h.freshP q (by omega)
      · exact h.freshB
      · exact h.kle
      · intro q Q hq
        rcases key q Q hq with ⟨rfl, rfl⟩ | ⟨e, hq⟩
        · exact h.data _ P hP
        · exact h.data q Q hq
      · intro q Q hq
        rcases key q Q hq with ⟨rfl, rfl⟩ | ⟨e, hq⟩
        · exact h.own _ P hP
        · exact h.own q Q hq
      · intro q r Q R hq hr e
        rcases key q Q hq with ⟨rfl, rfl⟩ | ⟨e1, hq2⟩ <;>
          rcases key r R hr with ⟨rfl, rfl⟩ | ⟨e2, hr2⟩
        · rfl
        · exact h.inj _ _ _ _ hP hr2 e
        · exact h.inj _ _ _ _ hq2 hP e
        · exact h.inj _ _ _ _ hq2 hr2 e
      · intro b m hb hm
        obtain ⟨q, Q, hq, e2⟩ := h.noleak b m hb hm
        by_cases e : q = p
        · subst e
          rw [hP] at hq; cases hq
          exact ⟨q, { P with refs := P.refs - 1 }, upd_same _ _ _, e2⟩
        · exact ⟨q, Q, by simp only [upd_ne _ _ e]; exact hq, e2⟩
      · exact h.ext
    · intro q _
      by_cases e : q = p
      · subst e; simp [content, hP]
      · simp [content, upd_ne _ _ e]
    · intro b m _ ⟨a1, a2⟩
      refine ⟨a1, ?_⟩
      intro q Q hq
      by_cases e : q = p
      · subst e; simp at hq; subst hq; exact a2 _ P hP
      · simp only [upd_ne _ _ e] at hq; exact a2 q Q hq
  · -- last reference
    have hc1 : c p = 1 := by omega
    have hr : P.refs - 1 ≤ 0 := by omega
    let ptrs' := upd (upd s.ptrs p (some { P with refs := P.refs - 1 })) p none
    let s' : St α := if P.owned then { s with blks := upd s.blks P.blk none, ptrs := ptrs' }
      else { s with ptrs := ptrs' }
    have hptr : ∀ q, s'.ptrs q = if q = p then none else s.ptrs q := by
      intro q
      have : s'.ptrs = ptrs' := by simp only [s']; split <;> rfl
      rw [this]
      by_cases e : q = p
      · subst e; simp [ptrs']
      · simp [ptrs', upd_ne _ _ e, e]
    have hblk : ∀ b, s'.blks b = if b = P.blk ∧ P.owned = true then none else s.blks b := by
      intro b
      simp only [s']
      by_cases ho : P.owned = true
      · simp only [ho, if_true, and_true]
        by_cases e : b = P.blk
        · subst e; simp
        · simp [upd_ne _ _ e, e]
      · simp [ho]
    have hnp : s'.nptr = s.nptr := by simp only [s']; split <;> rfl
    have hnb : s'.nblk = s.nblk := by simp only [s']; split <;> rfl
    have hhs : s'.hs = s.hs := by simp only [s']; split <;> rfl
    have key : ∀ q Q, s'.ptrs q = some Q → q ≠ p ∧ s.ptrs q = some Q := by
      intro q Q hq
      rw [hptr] at hq
      by_cases e : q = p
      · simp [e] at hq
      · simp [e] at hq; exact ⟨e, hq⟩
    have blkne : ∀ q Q, q ≠ p → s.ptrs q = some Q → Q.blk ≠ P.blk :=
      fun q Q e hq eb => e (h.inj _ _ _ _ hq hP eb)
    refine ⟨s', ?_, hhs, hnp, ?_, ?_, ?_⟩
    · by_cases ho : P.owned = true
      · simp [dereference, getPtr, getBlk, hP, hr, deletePtr, ho, hl, s', ptrs']
      · simp [dereference, getPtr, hP, hr, deletePtr, ho, s', ptrs']
    · constructor
      · intro q Q hq
        obtain ⟨e, hq⟩ := key q Q hq
        rw [upd_ne _ _ e]; exact h.cnt q Q hq
      · intro q hq
        by_cases e : q = p
        · subst e; simp [hc1] at hq
        · rw [upd_ne _ _ e] at hq
          rw [hptr]; simp only [e, if_false]; exact h.live q hq
      · intro q hq
        rw [hptr]
        split
        · rfl
        · exact h.freshP q (by omega)
      · intro b hb
        rw [hblk]
        split
        · rfl
        · exact h.freshB b (by omega)
      · rw [hnb]; exact h.kle
      · intro q Q hq
        obtain ⟨e, hq⟩ := key q Q hq
        obtain ⟨m, hm, e2⟩ := h.data q Q hq
        refine ⟨m, ?_, e2⟩
        rw [hblk, if_neg (fun x => blkne q Q e hq x.1)]; exact hm
      · intro q Q hq
        obtain ⟨e, hq⟩ := key q Q hq
        exact h.own q Q hq
      · intro q r Q R hq hr' e
        exact h.inj _ _ _ _ (key q Q hq).2 (key r R hr').2 e
      · intro b m hb hm
        rw [hblk] at hm
        by_cases e : b = P.blk
        · have : P.owned = true := (h.own p P hP).2 (e ▸ hb)
          simp [e, this] at hm
        · simp [e] at hm
          obtain ⟨q, Q, hq, e2⟩ := h.noleak b m hb hm
          have : q ≠ p := by
            rintro rfl
            rw [hP] at hq; cases hq; exact e e2.symm
          exact ⟨q, Q, by rw [hptr]; simp [this, hq], e2⟩
      · intro b hb
        obtain ⟨m, hm⟩ := h.ext b hb
        refine ⟨m, ?_⟩
        rw [hblk, if_neg]
        · exact hm
        · rintro ⟨rfl, ho⟩
          have := (h.own p P hP).1 ho
          omega
    · intro q hq
      have e : q ≠ p := by
        rcases hq with hq | hq
        · exact hq
        · omega
      simp only [content, hptr, e, if_false]
      cases hQ : s.ptrs q with
      | none => rfl
      | some Q =>
        simp only [Option.bind_some]
        rw [hblk, if_neg (fun x => blkne q Q e hQ x.1)]
    · intro b m hb ⟨a1, a2⟩
      refine ⟨?_, fun q Q hq => a2 q Q (key q Q hq).2⟩
      rw [hblk, if_neg]
      · exact a1
      · rintro ⟨rfl, -⟩
        exact a2 p P hP rfl

end Verif.RefCount
