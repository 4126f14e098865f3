import Verif.Model.AllocFail
import Verif.Spec.AllocFail
import Verif.Lemmas.RefCountSim
/-
Buffers which were lost do not change what the operations on the other buffers do.
-/
namespace Verif.AllocFail

open RefCount

variable {α : Type}

theorem bind_ok {β γ : Type} {x : Res β} {f : β → Res γ} {c : γ} (h : (x >>= f) = .ok c) :
    ∃ b, x = .ok b ∧ f b = .ok c := by
  cases x with
  | ok b => exact ⟨b, rfl, h⟩
  | abort => cases h
  | ub => cases h

/-- The heap `t` with additional blocks. -/
def over (g : Nat → Option (Cells α)) (t : St α) : St α := { t with blks := fun b => (t.blks b).or (g b) }

/-- The additional blocks have addresses of their own. -/
def Lost (g : Nat → Option (Cells α)) (t : St α) : Prop := ∀ b c, g b = some c → t.blks b = none ∧ b < t.nblk

theorem getBlk_over {g : Nat → Option (Cells α)} {t : St α} {b : Nat} {c : Cells α} (h : getBlk t b = .ok c) :
    getBlk (over g t) b = .ok c := by
  unfold getBlk at h ⊢
  cases e : t.blks b with
  | none => rw [e] at h; cases h
  | some d => rw [e] at h; cases h; simp [over, e]

theorem getPtr_over (g : Nat → Option (Cells α)) (t : St α) (p : Nat) : getPtr (over g t) p = getPtr t p := rfl

theorem handle_over (g : Nat → Option (Cells α)) (t : St α) (h : Nat) : handle (over g t) h = handle t h := rfl

theorem newBlk_over (g : Nat → Option (Cells α)) (t : St α) (c : Cells α) :
    newBlk (over g t) c = (over g (newBlk t c).1, (newBlk t c).2) := by
  simp only [newBlk, over, Prod.mk.injEq, and_true]
  congr 1
  funext b
  by_cases e : b = t.nblk <;> simp [upd, e]

theorem newBoth_over (g : Nat → Option (Cells α)) (t : St α) (c : Cells α) :
    newBoth (over g t) c = (over g (newBoth t c).1, (newBoth t c).2) := by
  simp only [newBoth, newBlk_over]
  rfl

theorem newBlk_lost {g : Nat → Option (Cells α)} {t : St α} (l : Lost g t) (c : Cells α) : Lost g (newBlk t c).1 := by
  intro b d e
  obtain ⟨e1, e2⟩ := l b d e
  have : b ≠ t.nblk := by omega
  exact ⟨by simp [newBlk, upd, this, e1], by simp [newBlk]; omega⟩

theorem newBoth_lost {g : Nat → Option (Cells α)} {t : St α} (l : Lost g t) (c : Cells α) : Lost g (newBoth t c).1 :=
  newBlk_lost l c

theorem deletePtr_over {g : Nat → Option (Cells α)} {t t' : St α} {p : Nat} (l : Lost g t)
    (h : deletePtr t p = .ok t') : deletePtr (over g t) p = .ok (over g t') ∧ Lost g t' := by
  unfold deletePtr at h ⊢
  obtain ⟨P, eP, h⟩ := bind_ok h
  rw [getPtr_over, eP, Res.ok_bind]
  by_cases ho : P.owned
  · simp only [ho, if_true] at h ⊢
    obtain ⟨c, ec, h⟩ := bind_ok h
    rw [getBlk_over ec, Res.ok_bind]
    simp only [Res.pure_eq, Res.ok.injEq] at h
    subst h
    have hg : g P.blk = none := by
      cases e : g P.blk with
      | none => rfl
      | some d =>
        have := (l _ _ e).1
        simp [getBlk, this] at ec
    refine ⟨?_, ?_⟩
    · simp only [Res.pure_eq, over, Res.ok.injEq]
      congr 1
      funext b
      by_cases e : b = P.blk <;> simp [upd, e, hg]
    · intro b d e
      obtain ⟨e1, e2⟩ := l b d e
      refine ⟨?_, e2⟩
      simp only [upd]
      split <;> simp_all
  · simp only [ho, Bool.false_eq_true, if_false, Res.pure_eq, Res.ok.injEq] at h ⊢
    subst h
    exact ⟨rfl, l⟩

theorem dereference_over {g : Nat → Option (Cells α)} {t t' : St α} {p : Nat} (l : Lost g t)
    (h : dereference t p = .ok t') : dereference (over g t) p = .ok (over g t') ∧ Lost g t' := by
  unfold dereference at h ⊢
  obtain ⟨P, eP, h⟩ := bind_ok h
  rw [getPtr_over, eP, Res.ok_bind]
  by_cases hz : P.refs - 1 ≤ 0
  · simp only [hz, if_true] at h ⊢
    exact deletePtr_over (t := { t with ptrs := upd t.ptrs p (some { P with refs := P.refs - 1 }) }) l h
  · simp only [hz, if_false, Res.pure_eq, Res.ok.injEq] at h ⊢
    subst h
    exact ⟨rfl, l⟩

theorem reference_over {g : Nat → Option (Cells α)} {t t' : St α} {p : Nat} (l : Lost g t)
    (h : reference t p = .ok t') : reference (over g t) p = .ok (over g t') ∧ Lost g t' := by
  unfold reference at h ⊢
  obtain ⟨P, eP, h⟩ := bind_ok h
  rw [getPtr_over, eP, Res.ok_bind]
  simp only [Res.pure_eq, Res.ok.injEq] at h ⊢
  subst h
  exact ⟨rfl, l⟩

theorem appropriate_over {g : Nat → Option (Cells α)} {t : St α} {h : Nat} {x : St α × Nat} (l : Lost g t)
    (e : RefCount.appropriate t h = .ok x) :
    RefCount.appropriate (over g t) h = .ok (over g x.1, x.2) ∧ Lost g x.1 := by
  unfold RefCount.appropriate at e ⊢
  obtain ⟨p, ep, e⟩ := bind_ok e
  obtain ⟨P, eP, e⟩ := bind_ok e
  rw [handle_over, ep, Res.ok_bind, getPtr_over, eP, Res.ok_bind]
  by_cases hr : P.refs > 1
  · simp only [hr, if_true] at e ⊢
    obtain ⟨c, ec, e⟩ := bind_ok e
    obtain ⟨s2, e2, e⟩ := bind_ok e
    obtain ⟨e3, l3⟩ := dereference_over (newBoth_lost l _) e2
    rw [getBlk_over ec, Res.ok_bind, newBoth_over]
    simp only [e3, Res.ok_bind, Res.pure_eq, Res.ok.injEq] at e ⊢
    subst e
    exact ⟨rfl, l3⟩
  · simp only [hr, if_false, Res.pure_eq, Res.ok.injEq] at e ⊢
    subst e
    exact ⟨rfl, l⟩

theorem step_over {g : Nat → Option (Cells α)} {t t' : St α} {op : Op α} {o : Out α} (l : Lost g t)
    (h : RefCount.step t op = .ok (t', o)) :
    RefCount.step (over g t) op = .ok (over g t', o) ∧ Lost g t' := by
  cases op with
  | newEmpty =>
    simp only [RefCount.step, newBoth_over, Res.pure_eq, Res.ok.injEq, Prod.mk.injEq] at h ⊢
    obtain ⟨rfl, rfl⟩ := h
    exact ⟨⟨rfl, rfl⟩, newBoth_lost l _⟩
  | newSize n =>
    simp only [RefCount.step, newBoth_over, Res.pure_eq, Res.ok.injEq, Prod.mk.injEq] at h ⊢
    obtain ⟨rfl, rfl⟩ := h
    exact ⟨⟨rfl, rfl⟩, newBoth_lost l _⟩
  | wrap b n =>
    simp only [RefCount.step, Res.pure_eq, Res.ok.injEq, Prod.mk.injEq] at h ⊢
    obtain ⟨rfl, rfl⟩ := h
    exact ⟨⟨rfl, rfl⟩, l⟩
  | copy j =>
    simp only [RefCount.step] at h ⊢
    obtain ⟨p, ep, h⟩ := bind_ok h
    obtain ⟨s1, e1, h⟩ := bind_ok h
    obtain ⟨e2, l2⟩ := reference_over l e1
    rw [handle_over, ep, Res.ok_bind, e2, Res.ok_bind]
    simp only [Res.pure_eq, Res.ok.injEq, Prod.mk.injEq] at h ⊢
    obtain ⟨rfl, rfl⟩ := h
    exact ⟨⟨rfl, rfl⟩, l2⟩
  | destroy j =>
    simp only [RefCount.step] at h ⊢
    obtain ⟨p, ep, h⟩ := bind_ok h
    obtain ⟨s1, e1, h⟩ := bind_ok h
    obtain ⟨e2, l2⟩ := dereference_over l e1
    rw [handle_over, ep, Res.ok_bind, e2, Res.ok_bind]
    simp only [Res.pure_eq, Res.ok.injEq, Prod.mk.injEq] at h ⊢
    obtain ⟨rfl, rfl⟩ := h
    exact ⟨⟨rfl, rfl⟩, l2⟩
  | assign j k =>
    simp only [RefCount.step] at h ⊢
    obtain ⟨p, ep, h⟩ := bind_ok h
    obtain ⟨q, eq, h⟩ := bind_ok h
    rw [handle_over, ep, Res.ok_bind, handle_over, eq, Res.ok_bind]
    by_cases hne : q ≠ p
    · rw [if_pos hne] at h ⊢
      obtain ⟨s1, e1, h⟩ := bind_ok h
      obtain ⟨s2, e2, h⟩ := bind_ok h
      obtain ⟨e3, l3⟩ := dereference_over l e1
      obtain ⟨e4, l4⟩ := reference_over l3 e2
      rw [e3, Res.ok_bind, e4, Res.ok_bind]
      simp only [Res.pure_eq, Res.ok.injEq, Prod.mk.injEq] at h ⊢
      obtain ⟨rfl, rfl⟩ := h
      exact ⟨⟨rfl, rfl⟩, l4⟩
    · rw [if_neg hne] at h ⊢
      simp only [Res.pure_eq, Res.ok.injEq, Prod.mk.injEq] at h ⊢
      obtain ⟨rfl, rfl⟩ := h
      exact ⟨⟨rfl, rfl⟩, l⟩
  | write j i v =>
    simp only [RefCount.step] at h ⊢
    obtain ⟨⟨s1, p⟩, e1, h⟩ := bind_ok h
    obtain ⟨P, eP, h⟩ := bind_ok h
    obtain ⟨c, ec, h⟩ := bind_ok h
    obtain ⟨e2, l2⟩ := appropriate_over l e1
    dsimp only at e2 l2
    rw [e2, Res.ok_bind]
    dsimp only
    rw [getPtr_over, eP, Res.ok_bind, getBlk_over ec, Res.ok_bind]
    by_cases hi : i < c.length
    · rw [if_pos hi] at h ⊢
      simp only [Res.pure_eq, Res.ok.injEq, Prod.mk.injEq] at h ⊢
      obtain ⟨rfl, rfl⟩ := h
      refine ⟨⟨?_, rfl⟩, ?_⟩
      · simp only [over]
        congr 1
        funext b
        by_cases e : b = P.blk <;> simp [upd, e]
      · intro b d e
        obtain ⟨f1, f2⟩ := l2 b d e
        refine ⟨?_, f2⟩
        have : b ≠ P.blk := by
          rintro rfl
          simp [getBlk, f1] at ec
        simp [upd, this, f1]
    · rw [if_neg hi] at h; cases h
  | read j i =>
    simp only [RefCount.step] at h ⊢
    obtain ⟨p, ep, h⟩ := bind_ok h
    obtain ⟨P, eP, h⟩ := bind_ok h
    obtain ⟨c, ec, h⟩ := bind_ok h
    obtain ⟨v, ev, h⟩ := bind_ok h
    rw [handle_over, ep, Res.ok_bind, getPtr_over, eP, Res.ok_bind, getBlk_over ec, Res.ok_bind, ev, Res.ok_bind]
    simp only [Res.pure_eq, Res.ok.injEq, Prod.mk.injEq] at h ⊢
    obtain ⟨rfl, rfl⟩ := h
    exact ⟨⟨rfl, rfl⟩, l⟩
  | size j =>
    simp only [RefCount.step] at h ⊢
    obtain ⟨p, ep, h⟩ := bind_ok h
    obtain ⟨P, eP, h⟩ := bind_ok h
    rw [handle_over, ep, Res.ok_bind, getPtr_over, eP, Res.ok_bind]
    simp only [Res.pure_eq, Res.ok.injEq, Prod.mk.injEq] at h ⊢
    obtain ⟨rfl, rfl⟩ := h
    exact ⟨⟨rfl, rfl⟩, l⟩
  | resize j n =>
    simp only [RefCount.step] at h ⊢
    obtain ⟨p, ep, h⟩ := bind_ok h
    obtain ⟨s1, e1, h⟩ := bind_ok h
    obtain ⟨e2, l2⟩ := dereference_over l e1
    rw [handle_over, ep, Res.ok_bind, e2, Res.ok_bind, newBoth_over]
    simp only [Res.pure_eq, Res.ok.injEq, Prod.mk.injEq] at h ⊢
    obtain ⟨rfl, rfl⟩ := h
    exact ⟨⟨rfl, rfl⟩, newBoth_lost l2 _⟩
  | touch j =>
    simp only [RefCount.step] at h ⊢
    obtain ⟨⟨s1, p⟩, e1, h⟩ := bind_ok h
    obtain ⟨e2, l2⟩ := appropriate_over l e1
    dsimp only at e2 l2
    rw [e2, Res.ok_bind]
    simp only [Res.pure_eq, Res.ok.injEq, Prod.mk.injEq] at h ⊢
    obtain ⟨rfl, rfl⟩ := h
    exact ⟨⟨rfl, rfl⟩, l2⟩

/-- Addresses may be skipped. -/
theorem rel_skip {t : St α} {a : RefCount.Spec.ASt α} {k : Nat} (r : Rel t a k) :
    Rel { t with nblk := t.nblk + 1 } a k := by
  refine ⟨?_, r.vals, r.elen, r.avail⟩
  have i := r.inv
  exact ⟨i.cnt, i.live, i.freshP, fun b hb => i.freshB b (by dsimp only at hb; omega), Nat.le_succ_of_le i.kle, i.data, i.own,
    i.inj, i.noleak, i.ext⟩

/-- A new block which nobody knows is an additional block. -/
theorem newBlk_lost_over {g : Nat → Option (Cells α)} {t : St α} {a : RefCount.Spec.ASt α} {k : Nat} (r : Rel t a k)
    (l : Lost g t) (c : Cells α) :
    (newBlk (over g t) c).1 = over (upd g t.nblk (some c)) { t with nblk := t.nblk + 1 } ∧
      Lost (upd g t.nblk (some c)) { t with nblk := t.nblk + 1 } ∧ g t.nblk = none := by
  have hf := r.inv.freshB t.nblk (Nat.le_refl _)
  refine ⟨?_, ?_, ?_⟩
  · simp only [newBlk, over]
    congr 1
    funext b
    by_cases e : b = t.nblk <;> simp [upd, e, hf]
  · intro b d e
    by_cases hb : b = t.nblk
    · subst hb; exact ⟨hf, by simp⟩
    · simp only [upd, hb, if_false] at e
      exact ⟨(l b d e).1, Nat.lt_succ_of_lt (l b d e).2⟩
  · cases e : g t.nblk with
    | none => rfl
    | some d => have := (l _ _ e).2; omega

end Verif.AllocFail
