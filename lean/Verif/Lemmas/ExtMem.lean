import Verif.Lemmas.ElemRef
import Verif.Spec.ExtMem
/-
Lemmas for vectors over arrays of the caller.
-/
namespace Verif.ExtMem

open RefCount
open Verif.ExtMem.Spec (Val setVal isView elems alone)

variable {α : Type}

/-- The `pointer` at `p` implements a vector. -/
def VRel (s : St α) (gp : List Nat) (grps : List (Nat × Nat)) (k p : Nat) : Val α → Prop
  | .own l => ∃ P, s.ptrs p = some P ∧ P.owned = true ∧ s.blks P.blk = some l ∧ l.length = P.size
  | .view g => gp[g]? = some p ∧ ∃ P, s.ptrs p = some P ∧ P.owned = false ∧ grps[g]? = some (P.blk, P.size) ∧ P.blk < k

/-- The relation between memory and meaning, for variables `hs`; `gp` has the `pointer` of each group. -/
structure R (s : St α) (hs : List (Option Nat)) (a : ExtMem.Spec.ASt α) (k : Nat) (gp : List Nat) : Prop where
  kle : k ≤ s.nblk
  freshP : ∀ p, s.nptr ≤ p → s.ptrs p = none
  freshB : ∀ b, s.nblk ≤ b → s.blks b = none
  ext : ∀ b, b < k → s.blks b = a.ext[b]?.join
  elen : a.ext.length = k
  cnt : ∀ p P, s.ptrs p = some P → P.refs = cnt hs p ∧ 0 < cnt hs p
  inj : ∀ p q P Q, s.ptrs p = some P → s.ptrs q = some Q → P.owned = true → Q.owned = true → P.blk = Q.blk → p = q
  own : ∀ p P, s.ptrs p = some P → P.owned = true → k ≤ P.blk
  gpi : ∀ (g g' p : Nat), gp[g]? = some p → gp[g']? = some p → g = g'
  gpl : gp.length = a.grps.length
  gpt : ∀ (g p : Nat), gp[g]? = some p → p < s.nptr
  len : a.vals.length = hs.length
  dead : ∀ h : Nat, hs[h]? = some none → a.vals[h]? = some none
  vals : ∀ h p : Nat, hs[h]? = some (some p) → ∃ v, a.vals[h]? = some (some v) ∧ VRel s gp a.grps k p v

theorem upd_upd {β : Type} (f : Nat → β) (k : Nat) (v w : β) : upd (upd f k v) k w = upd f k w := by
  funext q
  simp only [upd]
  split <;> rfl

theorem upd_comm {β : Type} (f : Nat → β) {k j : Nat} (h : k ≠ j) (v w : β) :
    upd (upd f k v) j w = upd (upd f j w) k v := by
  funext q
  simp only [upd]
  split <;> split <;> first | rfl | omega

theorem R.lt {s : St α} {hs : List (Option Nat)} {a : ExtMem.Spec.ASt α} {k : Nat} {gp : List Nat} (r : R s hs a k gp) {p P} (h : s.ptrs p = some P) : p < s.nptr := by
  rcases Nat.lt_or_ge p s.nptr with h1 | h1
  · exact h1
  · rw [r.freshP _ h1] at h
    cases h

theorem VRel.ptr {s : St α} {gp grps k p v} (h : VRel s gp grps k p v) : ∃ P, s.ptrs p = some P := by
  cases v with
  | own l =>
    obtain ⟨P, hP, -⟩ := h
    exact ⟨P, hP⟩
  | view g =>
    obtain ⟨-, P, hP, -⟩ := h
    exact ⟨P, hP⟩

theorem R.ptr {s : St α} {hs : List (Option Nat)} {a : ExtMem.Spec.ASt α} {k : Nat} {gp : List Nat} (r : R s hs a k gp) {h p : Nat} (e : hs[h]? = some (some p)) :
    ∃ P, s.ptrs p = some P ∧ P.refs = RefCount.cnt hs p := by
  obtain ⟨v, -, hv⟩ := r.vals h p e
  obtain ⟨P, hP⟩ := hv.ptr
  exact ⟨P, hP, (r.cnt p P hP).1⟩

theorem VRel.congr {s s' : St α} {gp gp' : List Nat} {grps grps' : List (Nat × Nat)} {k p : Nat} {v : Val α}
    (h : VRel s gp grps k p v)
    (hp : ∀ P, s.ptrs p = some P → ∃ P', s'.ptrs p = some P' ∧ P'.blk = P.blk ∧ P'.size = P.size ∧
      P'.owned = P.owned ∧ (P.owned = true → s'.blks P.blk = s.blks P.blk))
    (hg : ∀ g : Nat, gp[g]? = some p → gp'[g]? = some p) (hgr : ∀ (g : Nat) x, grps[g]? = some x → grps'[g]? = some x) :
    VRel s' gp' grps' k p v := by
  cases v with
  | own l =>
    obtain ⟨P, hP, h1, h2, h3⟩ := h
    obtain ⟨P', e1, e2, e3, e4, e5⟩ := hp P hP
    exact ⟨P', e1, by rw [e4, h1], by rw [e2, e5 h1, h2], by rw [h3, e3]⟩
  | view g =>
    obtain ⟨h0, P, hP, h1, h2, h3⟩ := h
    obtain ⟨P', e1, e2, e3, e4, e5⟩ := hp P hP
    exact ⟨hg g h0, P', e1, by rw [e4, h1], by rw [e2, e3]; exact hgr g _ h2, by rw [e2]; exact h3⟩

theorem getElem?_set_none {hs : List (Option Nat)} {h h' q : Nat} (e : (hs.set h none)[h']? = some (some q)) :
    h' ≠ h ∧ hs[h']? = some (some q) := by
  by_cases hh : h' = h
  · subst hh
    rw [List.getElem?_set] at e
    simp at e
  · rw [List.getElem?_set_ne (Ne.symm hh)] at e
    exact ⟨hh, e⟩

theorem dead_set {β : Type} {hs : List (Option Nat)} {vs : List (Option β)} (hl : vs.length = hs.length) {h : Nat}
    {o : Option Nat} {v : Option β} (ho : o = none → v = none)
    (hd : ∀ h : Nat, hs[h]? = some none → vs[h]? = some none) :
    ∀ h' : Nat, (hs.set h o)[h']? = some none → (vs.set h v)[h']? = some none := by
  intro h' e
  by_cases hh : h' = h
  · subst hh
    have hlt : h' < hs.length := by
      have := (List.getElem?_eq_some_iff.1 e).1
      simpa using this
    rw [List.getElem?_set_self hlt] at e
    rw [List.getElem?_set_self (by omega), ho (by simpa using e)]
  · rw [List.getElem?_set_ne (Ne.symm hh)] at e ⊢
    exact hd h' e

/-- One variable less. -/
theorem R.drop {s : St α} {hs : List (Option Nat)} {a : ExtMem.Spec.ASt α} {k : Nat} {gp : List Nat} (r : R s hs a k gp) {h p : Nat} (e : hs[h]? = some (some p)) :
    ∃ s', dereference s p = .ok s' ∧ s'.hs = s.hs ∧ R s' (hs.set h none) (setVal a h none) k gp ∧
      (1 < RefCount.cnt hs p → ∃ P, s.ptrs p = some P ∧
        s' = { s with ptrs := upd s.ptrs p (some { P with refs := P.refs - 1 }) }) := by
  obtain ⟨P, hP, hrefs⟩ := r.ptr e
  have hpos := cnt_pos e
  have hc := cnt_set_none e
  have dead := dead_set (h := h) (o := none) (v := none) r.len (fun _ => rfl) r.dead
  have len : (setVal a h none).vals.length = (hs.set h none).length := by simp [setVal, r.len]
  by_cases h1 : RefCount.cnt hs p = 1
  · -- the last variable
    have hle : P.refs - 1 ≤ 0 := by omega
    have hne : ∀ h' q : Nat, (hs.set h none)[h']? = some (some q) → q ≠ p := by
      rintro h' q e' rfl
      obtain ⟨hh, e'⟩ := getElem?_set_none e'
      have := ElemRef.other_handle e' e hh
      omega
    -- what is common to owned and foreign memory
    have main : ∀ blks' : Nat → Option (Cells α), (∀ b, s.nblk ≤ b → blks' b = none) →
        (∀ b, b < k → blks' b = s.blks b) →
        (∀ q Q, q ≠ p → s.ptrs q = some Q → Q.owned = true → blks' Q.blk = s.blks Q.blk) →
        R { s with blks := blks', ptrs := upd s.ptrs p none } (hs.set h none) (setVal a h none) k gp := by
      intro blks' f1 f2 f3
      have hq : ∀ q Q, upd s.ptrs p none q = some Q → q ≠ p ∧ s.ptrs q = some Q := by
        intro q Q hQ
        by_cases hqp : q = p
        · subst hqp
          simp at hQ
        · rw [upd_ne _ _ hqp] at hQ
          exact ⟨hqp, hQ⟩
      refine ⟨r.kle, ?_, f1, ?_, r.elen, ?_, ?_, ?_, r.gpi, r.gpl, r.gpt, len, dead, ?_⟩
      · intro q hq'
        have : q ≠ p := by
          have := r.lt hP
          rintro rfl
          exact absurd hq' (by simpa using this)
        simp only
        rw [upd_ne _ _ this]
        exact r.freshP q hq'
      · intro b hb
        exact (f2 b hb).trans (r.ext b hb)
      · intro q Q hQ
        obtain ⟨h2, h3⟩ := hq q Q hQ
        rw [hc, upd_ne _ _ h2]
        exact r.cnt q Q h3
      · intro q q' Q Q' hQ hQ'
        exact r.inj q q' Q Q' (hq q Q hQ).2 (hq q' Q' hQ').2
      · intro q Q hQ
        exact r.own q Q (hq q Q hQ).2
      · intro h' q e'
        have hqp := hne h' q e'
        obtain ⟨hh, e''⟩ := getElem?_set_none e'
        obtain ⟨v, hv, hr⟩ := r.vals h' q e''
        refine ⟨v, by simp [setVal, List.getElem?_set_ne (Ne.symm hh), hv], hr.congr ?_ (fun g => id) (fun g x => id)⟩
        intro Q hQ
        exact ⟨Q, by simp [upd_ne _ _ hqp, hQ], rfl, rfl, rfl, fun ho => f3 q Q hqp hQ ho⟩
    by_cases ho : P.owned = true
    · obtain ⟨v, -, hv⟩ := r.vals h p e
      have hb : ∃ l, s.blks P.blk = some l := by
        cases v with
        | own l =>
          obtain ⟨P', hP', -, h2, -⟩ := hv
          rw [hP] at hP'
          cases hP'
          exact ⟨l, h2⟩
        | view g =>
          obtain ⟨-, P', hP', h2, -⟩ := hv
          rw [hP] at hP'
          cases hP'
          rw [ho] at h2
          cases h2
      obtain ⟨l, hl⟩ := hb
      refine ⟨{ s with blks := upd s.blks P.blk none, ptrs := upd s.ptrs p none }, ?_, rfl, main _ ?_ ?_ ?_, by omega⟩
      · simp only [dereference, deletePtr, getPtr, getBlk, hP, hl, ho, Res.ofOption_some, Res.ok_bind, upd_same, if_pos hle,
          if_true, upd_upd, Res.pure_eq]
      · intro b hb
        by_cases hbb : b = P.blk
        · subst hbb
          simp
        · rw [upd_ne _ _ hbb]
          exact r.freshB b hb
      · intro b hb
        have := r.own p P hP ho
        rw [upd_ne _ _ (by omega)]
      · intro q Q hq hQ hQo
        rw [upd_ne]
        intro hbb
        exact hq (r.inj q p Q P hQ hP hQo ho hbb)
    · have ho' : P.owned = false := by simpa using ho
      refine ⟨{ s with ptrs := upd s.ptrs p none }, ?_, rfl, main s.blks r.freshB (fun _ _ => rfl) (fun _ _ _ _ _ => rfl),
        by omega⟩
      simp [dereference, deletePtr, getPtr, hP, if_pos hle, ho', upd_upd]
  · -- others remain
    have hgt : ¬ P.refs - 1 ≤ 0 := by omega
    refine ⟨{ s with ptrs := upd s.ptrs p (some { P with refs := P.refs - 1 }) },
      by simp [dereference, getPtr, hP, hgt], rfl, ?_, fun _ => ⟨P, hP, rfl⟩⟩
    have hq : ∀ q Q, upd s.ptrs p (some { P with refs := P.refs - 1 }) q = some Q →
        ∃ Q', s.ptrs q = some Q' ∧ Q'.blk = Q.blk ∧ Q'.size = Q.size ∧ Q'.owned = Q.owned := by
      intro q Q hQ
      by_cases hqp : q = p
      · subst hqp
        simp only [upd_same, Option.some.injEq] at hQ
        subst hQ
        exact ⟨P, hP, rfl, rfl, rfl⟩
      · rw [upd_ne _ _ hqp] at hQ
        exact ⟨Q, hQ, rfl, rfl, rfl⟩
    refine ⟨r.kle, ?_, r.freshB, r.ext, r.elen, ?_, ?_, ?_, r.gpi, r.gpl, r.gpt, len, dead, ?_⟩
    · intro q hq'
      have : q ≠ p := by
        have := r.lt hP
        rintro rfl
        exact absurd hq' (by simpa using this)
      simp only
      rw [upd_ne _ _ this]
      exact r.freshP q hq'
    · intro q Q hQ
      simp only at hQ
      rw [hc]
      by_cases hqp : q = p
      · subst hqp
        simp only [upd_same, Option.some.injEq] at hQ ⊢
        subst hQ
        simp only
        omega
      · rw [upd_ne _ _ hqp] at hQ ⊢
        exact r.cnt q Q hQ
    · intro q q' Q Q' hQ hQ' ho ho' hb
      obtain ⟨A, a1, a2, a3, a4⟩ := hq q Q hQ
      obtain ⟨B, b1, b2, b3, b4⟩ := hq q' Q' hQ'
      exact r.inj q q' A B a1 b1 (by rw [a4, ho]) (by rw [b4, ho']) (by rw [a2, b2, hb])
    · intro q Q hQ ho
      obtain ⟨A, a1, a2, a3, a4⟩ := hq q Q hQ
      rw [← a2]
      exact r.own q A a1 (by rw [a4, ho])
    · intro h' q e'
      obtain ⟨hh, e''⟩ := getElem?_set_none e'
      obtain ⟨v, hv, hr⟩ := r.vals h' q e''
      refine ⟨v, by simp [setVal, List.getElem?_set_ne (Ne.symm hh), hv], hr.congr ?_ (fun g => id) (fun g x => id)⟩
      intro Q hQ
      by_cases hqp : q = p
      · subst hqp
        rw [hP] at hQ
        cases hQ
        exact ⟨_, upd_same _ _ _, rfl, rfl, rfl, fun _ => rfl⟩
      · exact ⟨Q, by simp [upd_ne _ _ hqp, hQ], rfl, rfl, rfl, fun _ => rfl⟩

/-- A variable which does not refer to anything yet. -/
theorem R.grow {s : St α} {hs : List (Option Nat)} {a : ExtMem.Spec.ASt α} {k : Nat} {gp : List Nat} (r : R s hs a k gp) :
    R s (hs ++ [none]) { a with vals := a.vals ++ [none] } k gp := by
  have hc : ∀ p, RefCount.cnt (hs ++ [none]) p = RefCount.cnt hs p := by
    intro p
    simp [RefCount.cnt, List.count_append]
  refine ⟨r.kle, r.freshP, r.freshB, r.ext, r.elen, ?_, r.inj, r.own, r.gpi, r.gpl, r.gpt, by simp [r.len], ?_, ?_⟩
  · intro p P hP
    rw [hc]
    exact r.cnt p P hP
  · intro h e
    rw [List.getElem?_append] at e ⊢
    have := r.len
    split at e
    · rw [if_pos (by omega)]
      exact r.dead h e
    · rw [if_neg (by omega), this]
      rw [List.getElem?_singleton] at e ⊢
      split at e
      · rw [if_pos (by assumption)]
      · cases e
  · intro h p e
    rw [List.getElem?_append] at e
    split at e
    · obtain ⟨v, hv, hr⟩ := r.vals h p e
      refine ⟨v, ?_, hr⟩
      simp only
      rw [List.getElem?_append_left (List.getElem?_eq_some_iff.1 hv).1, hv]
    · rename_i hlt
      rw [List.getElem?_singleton] at e
      split at e <;> simp at e

theorem cnt_bind {hs : List (Option Nat)} {h p : Nat} (e : hs[h]? = some none) :
    RefCount.cnt (hs.set h (some p)) = upd (RefCount.cnt hs) p (RefCount.cnt hs p + 1) := by
  obtain ⟨hl, e'⟩ := List.getElem?_eq_some_iff.1 e
  funext q
  by_cases eq : q = p
  · subst eq
    simp [RefCount.cnt, List.count_set hl, e']
  · have : ¬ p = q := fun h => eq h.symm
    simp [RefCount.cnt, List.count_set hl, e', upd_ne _ _ eq, this]

theorem getElem?_set_some {hs : List (Option Nat)} {h h' p q : Nat} (e : (hs.set h (some p))[h']? = some (some q)) :
    (h' = h ∧ q = p ∧ h < hs.length) ∨ (h' ≠ h ∧ hs[h']? = some (some q)) := by
  by_cases hh : h' = h
  · subst hh
    rw [List.getElem?_set] at e
    simp only [if_true] at e
    split at e
    · simp only [Option.some.injEq] at e
      exact .inl ⟨rfl, e.symm, by assumption⟩
    · cases e
  · rw [List.getElem?_set_ne (Ne.symm hh)] at e
    exact .inr ⟨hh, e⟩

theorem R.fresh_cnt {s : St α} {hs : List (Option Nat)} {a : ExtMem.Spec.ASt α} {k : Nat} {gp : List Nat} (r : R s hs a k gp) : RefCount.cnt hs s.nptr = 0 := by
  rcases Nat.eq_zero_or_pos (RefCount.cnt hs s.nptr) with h | h
  · exact h
  · have := List.count_pos_iff.1 h
    obtain ⟨i, hi⟩ := List.mem_iff_getElem?.1 this
    obtain ⟨P, hP, -⟩ := r.ptr hi
    have := r.lt hP
    omega

/-- A variable refers to new memory. -/
theorem R.bindNew {s : St α} {hs : List (Option Nat)} {a : ExtMem.Spec.ASt α} {k : Nat} {gp : List Nat} (r : R s hs a k gp) {h : Nat} (e : hs[h]? = some none) (l : Cells α) :
    R (newBoth s l).1 (hs.set h (some s.nptr)) (setVal a h (some (.own l))) k gp := by
  have hs' : newBoth s l =
      ({ s with blks := upd s.blks s.nblk (some l), nblk := s.nblk + 1,
                ptrs := upd s.ptrs s.nptr (some ⟨s.nblk, l.length, 1, true⟩), nptr := s.nptr + 1 }, s.nptr) := rfl
  rw [hs']
  have key : ∀ p P, upd s.ptrs s.nptr (some ⟨s.nblk, l.length, 1, true⟩) p = some P →
      (p = s.nptr ∧ P = ⟨s.nblk, l.length, 1, true⟩) ∨ (p ≠ s.nptr ∧ s.ptrs p = some P) := by
    intro p P hp
    by_cases e : p = s.nptr
    · subst e
      simp at hp
      exact .inl ⟨rfl, hp.symm⟩
    · rw [upd_ne _ _ e] at hp
      exact .inr ⟨e, hp⟩
  have hblt : ∀ q Q, s.ptrs q = some Q → Q.owned = true → Q.blk < s.nblk := by
    intro q Q hQ ho
    have hpos := (r.cnt q Q hQ).2
    obtain ⟨i, hi⟩ := List.mem_iff_getElem?.1 (List.count_pos_iff.1 hpos)
    obtain ⟨v, -, hv⟩ := r.vals i q hi
    rcases Nat.lt_or_ge Q.blk s.nblk with h1 | h1
    · exact h1
    · exfalso
      cases v with
      | own l =>
        obtain ⟨P', hP', -, h2, -⟩ := hv
        rw [hQ] at hP'
        cases hP'
        rw [r.freshB _ h1] at h2
        cases h2
      | view g =>
        obtain ⟨-, P', hP', h2, -⟩ := hv
        rw [hQ] at hP'
        cases hP'
        rw [ho] at h2
        cases h2
  have hc := cnt_bind (p := s.nptr) e
  have hf := r.fresh_cnt
  have hlt := (List.getElem?_eq_some_iff.1 e).1
  refine ⟨Nat.le_succ_of_le r.kle, ?_, ?_, ?_, r.elen, ?_, ?_, ?_, r.gpi, r.gpl, ?_, by simp [setVal, r.len],
    dead_set r.len (by simp) r.dead, ?_⟩
  · intro p hp
    simp only at hp ⊢
    rw [upd_ne _ _ (by omega)]
    exact r.freshP p (by omega)
  · intro b hb
    simp only at hb ⊢
    rw [upd_ne _ _ (by omega)]
    exact r.freshB b (by omega)
  · intro b hb
    have := r.kle
    simp only
    rw [upd_ne _ _ (by omega)]
    exact r.ext b hb
  · intro p P hP
    rw [hc]
    rcases key p P hP with ⟨rfl, rfl⟩ | ⟨hne, hP⟩
    · simp [hf]
    · rw [upd_ne _ _ hne]
      exact r.cnt p P hP
  · intro p q P Q hP hQ ho ho' hb
    rcases key p P hP with ⟨rfl, rfl⟩ | ⟨hne, hP⟩ <;> rcases key q Q hQ with ⟨rfl, rfl⟩ | ⟨hne', hQ⟩
    · rfl
    · have := hblt q Q hQ ho'
      simp only at hb
      omega
    · have := hblt p P hP ho
      simp only at hb
      omega
    · exact r.inj p q P Q hP hQ ho ho' hb
  · intro p P hP ho
    rcases key p P hP with ⟨rfl, rfl⟩ | ⟨hne, hP⟩
    · exact r.kle
    · exact r.own p P hP ho
  · intro g p hg
    have := r.gpt g p hg
    simp only
    omega
  · intro h' q e'
    rcases getElem?_set_some e' with ⟨rfl, rfl, -⟩ | ⟨hh, e''⟩
    · refine ⟨.own l, ?_, ⟨s.nblk, l.length, 1, true⟩, by simp, rfl, by simp, rfl⟩
      have := r.len
      simp only [setVal]
      rw [List.getElem?_set_self (by omega)]
    · obtain ⟨v, hv, hr⟩ := r.vals h' q e''
      refine ⟨v, by simp [setVal, List.getElem?_set_ne (Ne.symm hh), hv], hr.congr ?_ (fun g => id) (fun g x => id)⟩
      intro Q hQ
      have h1 : q ≠ s.nptr := by
        have := r.lt hQ
        omega
      refine ⟨Q, by simp [upd_ne _ _ h1, hQ], rfl, rfl, rfl, fun ho => ?_⟩
      have := hblt q Q hQ ho
      simp only
      rw [upd_ne _ _ (by omega)]

/-- A variable refers to an array of the caller. -/
theorem R.bindWrap {s : St α} {hs : List (Option Nat)} {a : ExtMem.Spec.ASt α} {k : Nat} {gp : List Nat} (r : R s hs a k gp) {h : Nat} (e : hs[h]? = some none) {b n : Nat}
    (hb : b < k) :
    R (newPtr s b n false).1 (hs.set h (some s.nptr))
      { setVal a h (some (.view a.grps.length)) with grps := a.grps ++ [(b, n)] } k (gp ++ [s.nptr]) := by
  have hs' : newPtr s b n false =
      ({ s with ptrs := upd s.ptrs s.nptr (some ⟨b, n, 1, false⟩), nptr := s.nptr + 1 }, s.nptr) := rfl
  rw [hs']
  have key : ∀ p P, upd s.ptrs s.nptr (some ⟨b, n, 1, false⟩) p = some P →
      (p = s.nptr ∧ P = ⟨b, n, 1, false⟩) ∨ (p ≠ s.nptr ∧ s.ptrs p = some P) := by
    intro p P hp
    by_cases e : p = s.nptr
    · subst e
      simp at hp
      exact .inl ⟨rfl, hp.symm⟩
    · rw [upd_ne _ _ e] at hp
      exact .inr ⟨e, hp⟩
  have hc := cnt_bind (p := s.nptr) e
  have hf := r.fresh_cnt
  have hlt := (List.getElem?_eq_some_iff.1 e).1
  have gk : ∀ g p : Nat, (gp ++ [s.nptr])[g]? = some p → (gp[g]? = some p ∧ p < s.nptr) ∨ (g = gp.length ∧ p = s.nptr) := by
    intro g p hg
    rw [List.getElem?_append] at hg
    split at hg
    · exact .inl ⟨hg, r.gpt g p hg⟩
    · rw [List.getElem?_singleton] at hg
      split at hg
      · simp only [Option.some.injEq] at hg
        exact .inr ⟨by omega, hg.symm⟩
      · cases hg
  refine ⟨r.kle, ?_, r.freshB, r.ext, r.elen, ?_, ?_, ?_, ?_, by simp [r.gpl], ?_, by simp [setVal, r.len],
    dead_set r.len (by simp) r.dead, ?_⟩
  · intro p hp
    simp only at hp ⊢
    rw [upd_ne _ _ (by omega)]
    exact r.freshP p (by omega)
  · intro p P hP
    rw [hc]
    rcases key p P hP with ⟨rfl, rfl⟩ | ⟨hne, hP⟩
    · simp [hf]
    · rw [upd_ne _ _ hne]
      exact r.cnt p P hP
  · intro p q P Q hP hQ ho ho' hb
    rcases key p P hP with ⟨rfl, rfl⟩ | ⟨hne, hP⟩ <;> rcases key q Q hQ with ⟨rfl, rfl⟩ | ⟨hne', hQ⟩
    · rfl
    · cases ho
    · cases ho'
    · exact r.inj p q P Q hP hQ ho ho' hb
  · intro p P hP ho
    rcases key p P hP with ⟨rfl, rfl⟩ | ⟨hne, hP⟩
    · cases ho
    · exact r.own p P hP ho
  · intro g g' p h1 h2
    rcases gk g p h1 with ⟨a1, a2⟩ | ⟨a1, a2⟩ <;> rcases gk g' p h2 with ⟨b1, b2⟩ | ⟨b1, b2⟩
    · exact r.gpi g g' p a1 b1
    · omega
    · omega
    · omega
  · intro g p hg
    rcases gk g p hg with ⟨a1, a2⟩ | ⟨a1, a2⟩
    · simp only
      omega
    · simp only
      omega
  · intro h' q e'
    rcases getElem?_set_some e' with ⟨rfl, rfl, -⟩ | ⟨hh, e''⟩
    · refine ⟨.view a.grps.length, ?_, ?_, ⟨b, n, 1, false⟩, by simp, rfl, by simp, hb⟩
      · have := r.len
        simp only [setVal]
        rw [List.getElem?_set_self (by omega)]
      · rw [← r.gpl]
        simp
    · obtain ⟨v, hv, hr⟩ := r.vals h' q e''
      refine ⟨v, by simp [setVal, List.getElem?_set_ne (Ne.symm hh), hv], hr.congr ?_ ?_ ?_⟩
      · intro Q hQ
        have h1 : q ≠ s.nptr := by
          have := r.lt hQ
          omega
        exact ⟨Q, by simp [upd_ne _ _ h1, hQ], rfl, rfl, rfl, fun ho => rfl⟩
      · intro g hg
        rw [List.getElem?_append_left (List.getElem?_eq_some_iff.1 hg).1, hg]
      · intro g x hg
        simp only
        rw [List.getElem?_append_left (List.getElem?_eq_some_iff.1 hg).1, hg]

/-- A variable refers to the memory of another. -/
theorem R.bindShare {s : St α} {hs : List (Option Nat)} {a : ExtMem.Spec.ASt α} {k : Nat} {gp : List Nat} (r : R s hs a k gp) {h g q : Nat} {v : Val α} (e : hs[h]? = some none)
    (eg : hs[g]? = some (some q)) (ev : a.vals[g]? = some (some v)) :
    ∃ s', reference s q = .ok s' ∧ s'.hs = s.hs ∧ R s' (hs.set h (some q)) (setVal a h (some v)) k gp := by
  obtain ⟨Q, hQ, hrefs⟩ := r.ptr eg
  refine ⟨{ s with ptrs := upd s.ptrs q (some { Q with refs := Q.refs + 1 }) }, by simp [reference, getPtr, hQ], rfl, ?_⟩
  have hc := cnt_bind (p := q) e
  have hlt := (List.getElem?_eq_some_iff.1 e).1
  have hq : ∀ p P, upd s.ptrs q (some { Q with refs := Q.refs + 1 }) p = some P →
      ∃ P', s.ptrs p = some P' ∧ P'.blk = P.blk ∧ P'.size = P.size ∧ P'.owned = P.owned := by
    intro p P hP
    by_cases hqp : p = q
    · subst hqp
      simp only [upd_same, Option.some.injEq] at hP
      subst hP
      exact ⟨Q, hQ, rfl, rfl, rfl⟩
    · rw [upd_ne _ _ hqp] at hP
      exact ⟨P, hP, rfl, rfl, rfl⟩
  have up : ∀ p P, s.ptrs p = some P → ∃ P', upd s.ptrs q (some { Q with refs := Q.refs + 1 }) p = some P' ∧
      P'.blk = P.blk ∧ P'.size = P.size ∧ P'.owned = P.owned ∧ (P.owned = true → s.blks P.blk = s.blks P.blk) := by
    intro p P hP
    by_cases hqp : p = q
    · subst hqp
      rw [hQ] at hP
      cases hP
      exact ⟨_, upd_same _ _ _, rfl, rfl, rfl, fun _ => rfl⟩
    · exact ⟨P, by simp [upd_ne _ _ hqp, hP], rfl, rfl, rfl, fun _ => rfl⟩
  refine ⟨r.kle, ?_, r.freshB, r.ext, r.elen, ?_, ?_, ?_, r.gpi, r.gpl, r.gpt, by simp [setVal, r.len],
    dead_set r.len (by simp) r.dead, ?_⟩
  · intro p hp
    have : p ≠ q := by
      have := r.lt hQ
      rintro rfl
      exact absurd hp (by simpa using this)
    simp only
    rw [upd_ne _ _ this]
    exact r.freshP p hp
  · intro p P hP
    simp only at hP
    rw [hc]
    by_cases hqp : p = q
    · subst hqp
      simp only [upd_same, Option.some.injEq] at hP ⊢
      subst hP
      simp only
      omega
    · rw [upd_ne _ _ hqp] at hP ⊢
      exact r.cnt p P hP
  · intro p p' P P' hP hP' ho ho' hb
    obtain ⟨A, a1, a2, a3, a4⟩ := hq p P hP
    obtain ⟨B, b1, b2, b3, b4⟩ := hq p' P' hP'
    exact r.inj p p' A B a1 b1 (by rw [a4, ho]) (by rw [b4, ho']) (by rw [a2, b2, hb])
  · intro p P hP ho
    obtain ⟨A, a1, a2, a3, a4⟩ := hq p P hP
    rw [← a2]
    exact r.own p A a1 (by rw [a4, ho])
  · intro h' p e'
    rcases getElem?_set_some e' with ⟨rfl, rfl, -⟩ | ⟨hh, e''⟩
    · obtain ⟨v', hv', hr⟩ := r.vals g p eg
      rw [ev] at hv'
      cases hv'
      refine ⟨v, ?_, hr.congr (up p) (fun g => id) (fun g x => id)⟩
      have := r.len
      simp only [setVal]
      rw [List.getElem?_set_self (by omega)]
    · obtain ⟨v, hv, hr⟩ := r.vals h' p e''
      exact ⟨v, by simp [setVal, List.getElem?_set_ne (Ne.symm hh), hv],
        hr.congr (up p) (fun g => id) (fun g x => id)⟩

/-- The number of views of a group is the number of variables with its `pointer`. -/
theorem count_congr {β γ : Type} (f : β → Bool) (g : γ → Bool) : ∀ (l : List β) (l' : List γ), l.length = l'.length →
    (∀ (i : Nat) x y, l[i]? = some x → l'[i]? = some y → f x = g y) → l.countP f = l'.countP g
  | [], [], _, _ => rfl
  | x :: l, y :: l', hl, h => by
    have h0 := h 0 x y (by simp) (by simp)
    have ih := count_congr f g l l' (by simpa using hl) (fun i x y hx hy => h (i + 1) x y (by simpa using hx)
      (by simpa using hy))
    simp [List.countP_cons, h0, ih]
  | [], _ :: _, hl, _ => by simp at hl
  | _ :: _, [], hl, _ => by simp at hl

theorem R.count {s : St α} {hs : List (Option Nat)} {a : ExtMem.Spec.ASt α} {k : Nat} {gp : List Nat} (r : R s hs a k gp) {g p : Nat} (hg : gp[g]? = some p)
    {P : Ptr} (hP : s.ptrs p = some P) (ho : P.owned = false) :
    a.vals.countP (isView g) = RefCount.cnt hs p := by
  rw [RefCount.cnt, List.count]
  refine count_congr _ _ _ _ r.len ?_
  intro i x y hx hy
  cases y with
  | none =>
    have := r.dead i hy
    rw [hx] at this
    cases this
    rfl
  | some q =>
    obtain ⟨v, hv, hr⟩ := r.vals i q hy
    rw [hx] at hv
    cases hv
    cases v with
    | own l =>
      obtain ⟨Q, hQ, h1, -⟩ := hr
      have : q ≠ p := by
        rintro rfl
        rw [hP] at hQ
        cases hQ
        rw [ho] at h1
        cases h1
      simp [isView, this]
    | view g' =>
      obtain ⟨h1, -⟩ := hr
      by_cases hqp : q = p
      · subst hqp
        have := r.gpi g g' q hg h1
        subst this
        simp [isView]
      · have : g' ≠ g := by
          rintro rfl
          rw [hg] at h1
          cases h1
          exact hqp rfl
        simp [isView, this, hqp]

/-- Memory of the library which belongs to one variable is changed. -/
theorem R.writeOwn {s : St α} {hs : List (Option Nat)} {a : ExtMem.Spec.ASt α} {k : Nat} {gp : List Nat} (r : R s hs a k gp) {h p : Nat} (e : hs[h]? = some (some p))
    (h1 : RefCount.cnt hs p = 1) {P : Ptr} (hP : s.ptrs p = some P) (ho : P.owned = true) {l : Cells α}
    (hl : l.length = P.size) :
    R { s with blks := upd s.blks P.blk (some l) } hs (setVal a h (some (.own l))) k gp := by
  have hk := r.own p P hP ho
  have hlt := (List.getElem?_eq_some_iff.1 e).1
  refine ⟨r.kle, r.freshP, ?_, ?_, r.elen, r.cnt, r.inj, r.own, r.gpi, r.gpl, r.gpt, by simp [setVal, r.len], ?_, ?_⟩
  · intro b hb
    have : b ≠ P.blk := by
      rintro rfl
      obtain ⟨v, -, hv⟩ := r.vals h p e
      cases v with
      | own l =>
        obtain ⟨P', hP', -, h2, -⟩ := hv
        rw [hP] at hP'
        cases hP'
        rw [r.freshB _ hb] at h2
        cases h2
      | view g =>
        obtain ⟨-, P', hP', h2, -⟩ := hv
        rw [hP] at hP'
        cases hP'
        rw [ho] at h2
        cases h2
    simp only
    rw [upd_ne _ _ this]
    exact r.freshB b hb
  · intro b hb
    simp only
    rw [upd_ne _ _ (by omega)]
    exact r.ext b hb
  · intro h' e'
    by_cases hh : h' = h
    · subst hh
      rw [e] at e'
      cases e'
    · simp only [setVal]
      rw [List.getElem?_set_ne (Ne.symm hh)]
      exact r.dead h' e'
  · intro h' q e'
    by_cases hh : h' = h
    · subst hh
      rw [e] at e'
      cases e'
      refine ⟨.own l, ?_, P, hP, ho, by simp, hl⟩
      have := r.len
      simp only [setVal]
      rw [List.getElem?_set_self (by omega)]
    · obtain ⟨v, hv, hr⟩ := r.vals h' q e'
      refine ⟨v, by simp [setVal, List.getElem?_set_ne (Ne.symm hh), hv], hr.congr ?_ (fun g => id) (fun g x => id)⟩
      intro Q hQ
      refine ⟨Q, hQ, rfl, rfl, rfl, fun hQo => ?_⟩
      simp only
      rw [upd_ne]
      intro hb
      have := r.inj q p Q P hQ hP hQo ho hb
      subst this
      have := ElemRef.other_handle e' e hh
      omega

/-- An array of the caller is changed or released. -/
theorem R.setExt {s : St α} {hs : List (Option Nat)} {a : ExtMem.Spec.ASt α} {k : Nat} {gp : List Nat} (r : R s hs a k gp) {b : Nat} (hb : b < k) (o : Option (Cells α)) :
    R { s with blks := upd s.blks b o } hs { a with ext := a.ext.set b o } k gp := by
  refine ⟨r.kle, r.freshP, ?_, ?_, by simp [r.elen], r.cnt, r.inj, r.own, r.gpi, r.gpl, r.gpt, r.len, r.dead, ?_⟩
  · intro b' hb'
    have := r.kle
    simp only at hb' ⊢
    rw [upd_ne _ _ (by omega)]
    exact r.freshB b' hb'
  · intro b' hb'
    have hel := r.elen
    simp only
    by_cases hbb : b' = b
    · subst hbb
      rw [upd_same, List.getElem?_set_self (by omega)]
      cases o <;> rfl
    · rw [upd_ne _ _ hbb, List.getElem?_set_ne (Ne.symm hbb)]
      exact r.ext b' hb'
  · intro h p e
    obtain ⟨v, hv, hr⟩ := r.vals h p e
    refine ⟨v, hv, hr.congr ?_ (fun g => id) (fun g x => id)⟩
    intro P hP
    refine ⟨P, hP, rfl, rfl, rfl, fun ho => ?_⟩
    have := r.own p P hP ho
    simp only
    rw [upd_ne _ _ (by omega)]

theorem R.value {s : St α} {hs : List (Option Nat)} {a : ExtMem.Spec.ASt α} {k : Nat} {gp : List Nat}
    (r : R s hs a k gp) {h : Nat} {v : Val α} (e : a.vals[h]?.join = some v) :
    ∃ p, hs[h]? = some (some p) ∧ VRel s gp a.grps k p v ∧ a.vals[h]? = some (some v) := by
  have e' : a.vals[h]? = some (some v) := by
    cases hv : a.vals[h]? with
    | none => simp [hv] at e
    | some o =>
      cases o with
      | none => simp [hv] at e
      | some w =>
        simp [hv] at e
        rw [e]
  have hlt : h < hs.length := by
    have := (List.getElem?_eq_some_iff.1 e').1
    have := r.len
    omega
  cases ho : hs[h]? with
  | none => exact absurd ho (by simp [hlt])
  | some o =>
    cases o with
    | none =>
      have := r.dead h ho
      rw [e'] at this
      cases this
    | some p =>
      obtain ⟨w, hw, hr⟩ := r.vals h p ho
      rw [e'] at hw
      cases hw
      exact ⟨p, rfl, hr, e'⟩

/-- The memory behind a vector whose array exists. -/
theorem R.elems {s : St α} {hs : List (Option Nat)} {a : ExtMem.Spec.ASt α} {k : Nat} {gp : List Nat}
    (r : R s hs a k gp) {p : Nat} {v : Val α} (hv : VRel s gp a.grps k p v) {l : List (Option α)}
    (hl : elems a v = some l) :
    ∃ P c, s.ptrs p = some P ∧ s.blks P.blk = some c ∧ c.take P.size = l := by
  cases v with
  | own l' =>
    obtain ⟨P, hP, -, hb, hlen⟩ := hv
    simp only [Spec.elems, Option.some.injEq] at hl
    subst hl
    exact ⟨P, l', hP, hb, by rw [← hlen, List.take_length]⟩
  | view g =>
    obtain ⟨-, P, hP, -, hg, hk⟩ := hv
    simp only [Spec.elems, hg, Option.bind_eq_bind, Option.bind_some] at hl
    cases hc : a.ext[P.blk]?.join with
    | none => simp [hc] at hl
    | some c =>
      simp only [hc, Option.bind_some, Option.some.injEq] at hl
      exact ⟨P, c, hP, by rw [r.ext _ hk, hc], hl⟩

/-- The first part of `appropriate` for shared memory. -/
theorem dereference_newBoth {s s1 : St α} {p : Nat} {P : Ptr} (hP : s.ptrs p = some P) (hlt : p ≠ s.nptr)
    (hr : 1 < P.refs) (hs1 : s1 = { s with ptrs := upd s.ptrs p (some { P with refs := P.refs - 1 }) }) (l : Cells α) :
    dereference (newBoth s l).1 p = .ok (newBoth s1 l).1 := by
  subst hs1
  have h1 : ¬ P.refs - 1 ≤ 0 := by omega
  have hg : getPtr (newBoth s l).1 p = .ok P := by
    simp [getPtr, newBoth, newBlk, newPtr, upd_ne _ _ hlt, hP]
  simp only [dereference, hg, Res.ok_bind, if_neg h1, Res.pure_eq, Res.ok.injEq]
  simp only [newBoth, newBlk, newPtr]
  rw [upd_comm _ (Ne.symm hlt)]

/-- `appropriate` for shared memory makes the vector a value of its own. -/
theorem R.appropriateShared {s : St α} {a : ExtMem.Spec.ASt α} {k : Nat} {gp : List Nat}
    (r : R s s.hs a k gp) {h p : Nat} {v : Val α} (e : s.hs[h]? = some (some p)) (hv : VRel s gp a.grps k p v)
    {l : List (Option α)} (hl : Spec.elems a v = some l) (hc : 1 < RefCount.cnt s.hs p) :
    ∃ s' q, appropriate s h = .ok (s', q) ∧ s'.hs[h]? = some (some q) ∧ R s' s'.hs (setVal a h (some (.own l))) k gp ∧
      RefCount.cnt s'.hs q = 1 := by
  obtain ⟨P, c, hP, hb, rfl⟩ := r.elems hv hl
  have hrefs := (r.cnt p P hP).1
  have hp : p ≠ s.nptr := by
    have := r.lt hP
    omega
  obtain ⟨s1, hd, hhs, r1, hs1⟩ := r.drop e
  obtain ⟨P', hP', hs1⟩ := hs1 hc
  rw [hP] at hP'
  cases hP'
  have hlt := (List.getElem?_eq_some_iff.1 e).1
  have e1 : (s.hs.set h none)[h]? = some none := List.getElem?_set_self hlt
  have r2 := r1.bindNew e1 (c.take P.size)
  have hn : s1.nptr = s.nptr := by rw [hs1]
  rw [List.set_set] at r2
  have ha : setVal (setVal a h none) h (some (.own (c.take P.size))) = setVal a h (some (.own (c.take P.size))) := by
    simp [setVal, List.set_set]
  rw [ha] at r2
  have h2 := dereference_newBoth hP hp (by omega) hs1 (c.take P.size)
  have hg : P.refs > 1 := by omega
  have hfr : RefCount.cnt (s.hs.set h (some s1.nptr)) s1.nptr = 1 := by
    have := cnt_bind (p := s1.nptr) e1
    rw [List.set_set] at this
    rw [this, upd_same]
    have := r1.fresh_cnt
    omega
  have hsn : (newBoth s1 (c.take P.size)).1.hs = s.hs := hhs
  refine ⟨{ (newBoth s1 (c.take P.size)).1 with hs := s.hs.set h (some s1.nptr) }, s1.nptr, ?_, ?_, ?_, hfr⟩
  · simp only [appropriate, handle, e, Option.join_some, Res.ofOption_some, Res.ok_bind, getPtr, hP, if_pos hg, getBlk,
      hb, h2, Res.pure_eq, Res.ok.injEq, Prod.mk.injEq, hsn]
    rw [hn]
    exact ⟨rfl, rfl⟩
  · simp [hlt]
  · exact ⟨r2.kle, r2.freshP, r2.freshB, r2.ext, r2.elen, r2.cnt, r2.inj, r2.own, r2.gpi, r2.gpl, r2.gpt, r2.len,
      r2.dead, r2.vals⟩

theorem appropriate_alone {s : St α} {h p : Nat} (e : s.hs[h]? = some (some p)) {P : Ptr} (hP : s.ptrs p = some P)
    (hr : P.refs ≤ 1) : appropriate s h = .ok (s, p) := by
  have : ¬ P.refs > 1 := by omega
  simp only [appropriate, handle, e, Option.join_some, Res.ofOption_some, Res.ok_bind, getPtr, hP, if_neg this,
    Res.pure_eq]

theorem R.hs_congr {s : St α} {hs hs' : List (Option Nat)} {a : ExtMem.Spec.ASt α} {k : Nat} {gp : List Nat}
    (r : R s hs a k gp) : R { s with hs := hs' } hs a k gp :=
  ⟨r.kle, r.freshP, r.freshB, r.ext, r.elen, r.cnt, r.inj, r.own, r.gpi, r.gpl, r.gpt, r.len, r.dead, r.vals⟩

theorem set_length_append {β : Type} (l : List β) (x y : β) : (l ++ [x]).set l.length y = l ++ [y] := by
  simp

theorem setVal_append (a : ExtMem.Spec.ASt α) (v : Option (Val α)) (n : Nat) (hn : n = a.vals.length) :
    setVal { a with vals := a.vals ++ [none] } n v = { a with vals := a.vals ++ [v] } := by
  subst hn
  simp [setVal]

theorem getElem?_grow {β : Type} (l : List (Option β)) : (l ++ [none])[l.length]? = some none := by simp

/-- The relation between states. -/
def Sim (s : St α) (a : ExtMem.Spec.ASt α) (k : Nat) : Prop := ∃ gp, R s s.hs a k gp

theorem ext_lt {s : St α} {hs : List (Option Nat)} {a : ExtMem.Spec.ASt α} {k : Nat} {gp : List Nat}
    (r : R s hs a k gp) {b : Nat} {c : List (Option α)} (h : a.ext[b]?.join = some c) :
    b < k ∧ s.blks b = some c := by
  have hb : b < k := by
    rw [← r.elen]
    cases hx : a.ext[b]? with
    | none => simp [hx] at h
    | some o => exact (List.getElem?_eq_some_iff.1 hx).1
  exact ⟨hb, by rw [r.ext b hb, h]⟩

theorem setVal_self (a : ExtMem.Spec.ASt α) {h : Nat} {v : Option (Val α)} (e : a.vals[h]? = some v) :
    setVal a h v = a := by
  have : a.vals.set h v = a.vals := by
    apply List.ext_getElem?
    intro i
    by_cases hi : i = h
    · subst hi
      rw [List.getElem?_set_self (List.getElem?_eq_some_iff.1 e).1, e]
    · rw [List.getElem?_set_ne (Ne.symm hi)]
  simp only [setVal, this]

/-- One statement. -/
theorem step_sim {s : St α} {a a' : ExtMem.Spec.ASt α} {k : Nat} (r : Sim s a k) (c : Stmt α) {o : Out α}
    (hs : ExtMem.Spec.step a c = some (a', o)) : ∃ s', step s c = .ok (s', o) ∧ Sim s' a' k := by
  obtain ⟨gp, r⟩ := r
  cases c with
  | op op =>
    cases op with
    | newEmpty =>
      simp only [Spec.step, Option.some.injEq, Prod.mk.injEq] at hs
      obtain ⟨rfl, rfl⟩ := hs
      have r1 := r.grow.bindNew (getElem?_grow s.hs) []
      rw [set_length_append, setVal_append _ _ _ r.len.symm] at r1
      exact ⟨_, rfl, gp, r1.hs_congr⟩
    | newSize n =>
      simp only [Spec.step, Option.some.injEq, Prod.mk.injEq] at hs
      obtain ⟨rfl, rfl⟩ := hs
      have r1 := r.grow.bindNew (getElem?_grow s.hs) (List.replicate n none)
      rw [set_length_append, setVal_append _ _ _ r.len.symm] at r1
      exact ⟨_, rfl, gp, r1.hs_congr⟩
    | wrap b n =>
      simp only [Spec.step] at hs
      cases hc : a.ext[b]?.join with
      | none => simp [hc] at hs
      | some c =>
        simp only [hc, Option.bind_eq_bind, Option.bind_some] at hs
        split at hs
        case isFalse => cases hs
        case isTrue hn =>
          simp only [Option.some.injEq, Prod.mk.injEq] at hs
          obtain ⟨rfl, rfl⟩ := hs
          have r1 := r.grow.bindWrap (getElem?_grow s.hs) (n := n) (ext_lt r hc).1
          rw [set_length_append, setVal_append _ _ _ r.len.symm] at r1
          exact ⟨_, rfl, _, r1.hs_congr⟩
    | copy h =>
      simp only [Spec.step] at hs
      cases hv : a.vals[h]?.join with
      | none => simp [hv] at hs
      | some v =>
        simp only [hv, Option.bind_eq_bind, Option.bind_some, Option.some.injEq, Prod.mk.injEq] at hs
        obtain ⟨rfl, rfl⟩ := hs
        obtain ⟨p, e, hr, ev⟩ := r.value hv
        have e1 : (s.hs ++ [none])[h]? = some (some p) := by
          rw [List.getElem?_append_left (List.getElem?_eq_some_iff.1 e).1, e]
        have e2 : (a.vals ++ [none])[h]? = some (some v) := by
          rw [List.getElem?_append_left (List.getElem?_eq_some_iff.1 ev).1, ev]
        obtain ⟨s1, h1, h2, r1⟩ := r.grow.bindShare (getElem?_grow s.hs) e1 e2
        rw [set_length_append, setVal_append _ _ _ r.len.symm] at r1
        refine ⟨{ s1 with hs := s1.hs ++ [some p] }, ?_, gp, ?_⟩
        · simp [step, RefCount.step, handle, e, h1]
        · rw [h2]
          exact r1.hs_congr
    | destroy h =>
      simp only [Spec.step] at hs
      cases hv : a.vals[h]?.join with
      | none => simp [hv] at hs
      | some v =>
        simp only [hv, Option.bind_eq_bind, Option.bind_some, Option.some.injEq, Prod.mk.injEq] at hs
        obtain ⟨rfl, rfl⟩ := hs
        obtain ⟨p, e, hr, ev⟩ := r.value hv
        obtain ⟨s1, h1, h2, r1, -⟩ := r.drop e
        refine ⟨{ s1 with hs := s1.hs.set h none }, ?_, gp, ?_⟩
        · simp [step, RefCount.step, handle, e, h1]
        · rw [h2]
          exact r1.hs_congr
    | assign h g =>
      simp only [Spec.step] at hs
      cases hv : a.vals[h]?.join with
      | none => simp [hv] at hs
      | some v =>
        cases hw : a.vals[g]?.join with
        | none => simp [hv, hw] at hs
        | some w =>
          simp only [hv, hw, Option.bind_eq_bind, Option.bind_some, Option.some.injEq, Prod.mk.injEq] at hs
          obtain ⟨rfl, rfl⟩ := hs
          obtain ⟨p, e, hr, ev⟩ := r.value hv
          obtain ⟨q, eg, hrg, evg⟩ := r.value hw
          by_cases hpq : q = p
          · subst hpq
            refine ⟨s, by simp [step, RefCount.step, handle, e, eg], gp, ?_⟩
            -- the two have the same meaning
            have hvw : v = w := by
              cases v with
              | own l =>
                obtain ⟨P, hP, ho, hb, -⟩ := hr
                cases w with
                | own l' =>
                  obtain ⟨P', hP', -, hb', -⟩ := hrg
                  rw [hP] at hP'
                  cases hP'
                  rw [hb] at hb'
                  cases hb'
                  rfl
                | view g =>
                  obtain ⟨-, P', hP', ho', -⟩ := hrg
                  rw [hP] at hP'
                  cases hP'
                  rw [ho] at ho'
                  cases ho'
              | view g =>
                obtain ⟨hg, P, hP, ho, -⟩ := hr
                cases w with
                | own l' =>
                  obtain ⟨P', hP', ho', -, -⟩ := hrg
                  rw [hP] at hP'
                  cases hP'
                  rw [ho] at ho'
                  cases ho'
                | view g' =>
                  obtain ⟨hg', -⟩ := hrg
                  rw [r.gpi g g' q hg hg']
            subst hvw
            rw [setVal_self a ev]
            exact r
          · have hne : g ≠ h := by
              rintro rfl
              rw [e] at eg
              cases eg
              exact hpq rfl
            obtain ⟨s1, h1, h2, r1, -⟩ := r.drop e
            have hlt := (List.getElem?_eq_some_iff.1 e).1
            have e1 : (s.hs.set h none)[h]? = some none := List.getElem?_set_self hlt
            have e2 : (s.hs.set h none)[g]? = some (some q) := by rw [List.getElem?_set_ne (Ne.symm hne), eg]
            have e3 : (setVal a h none).vals[g]? = some (some w) := by
              simp only [setVal]
              rw [List.getElem?_set_ne (Ne.symm hne), evg]
            obtain ⟨s2, h3, h4, r2⟩ := r1.bindShare e1 e2 e3
            rw [List.set_set] at r2
            have ha : setVal (setVal a h none) h (some w) = setVal a h (some w) := by simp [setVal, List.set_set]
            rw [ha] at r2
            refine ⟨{ s2 with hs := s2.hs.set h (some q) }, ?_, gp, ?_⟩
            · simp [step, RefCount.step, handle, e, eg, hpq, h1, h3]
            · rw [h4, h2]
              exact r2.hs_congr
    | write h i x =>
      simp only [Spec.step] at hs
      cases hv : a.vals[h]?.join with
      | none => simp [hv] at hs
      | some v =>
        simp only [hv, Option.bind_eq_bind, Option.bind_some] at hs
        cases hl : Spec.elems a v with
        | none => simp [hl] at hs
        | some l =>
          simp only [hl, Option.bind_some] at hs
          split at hs
          case isFalse => cases hs
          case isTrue hi =>
            obtain ⟨p, e, hr, ev⟩ := r.value hv
            obtain ⟨P, c, hP, hb, hcl⟩ := r.elems hr hl
            have hrefs := (r.cnt p P hP).1
            -- a vector which becomes, or is, a value of its own
            have own : ∀ (s1 : St α) (q : Nat) (a1 : ExtMem.Spec.ASt α), appropriate s h = .ok (s1, q) →
                s1.hs[h]? = some (some q) → R s1 s1.hs a1 k gp → a1.vals[h]? = some (some (.own l)) →
                RefCount.cnt s1.hs q = 1 →
                ∃ s', step s (.op (.write h i x)) = .ok (s', .unit) ∧
                  Sim s' (setVal a1 h (some (.own (l.set i (some x))))) k := by
              intro s1 q a1 h1 h2 r1 h3 h4
              obtain ⟨w, hw, hrw⟩ := r1.vals h q h2
              rw [h3] at hw
              cases hw
              obtain ⟨Q, hQ, ho, hbq, hlq⟩ := hrw
              refine ⟨{ s1 with blks := upd s1.blks Q.blk (some (l.set i (some x))) }, ?_, gp, ?_⟩
              · simp [step, RefCount.step, h1, getPtr, hQ, getBlk, hbq, hi]
              · exact r1.writeOwn h2 h4 hQ ho (by simp [hlq])
            by_cases h1 : 1 < RefCount.cnt s.hs p
            · -- shared memory
              obtain ⟨s1, q, f1, f2, f3, f4⟩ := r.appropriateShared e hr hl h1
              have hlt := (List.getElem?_eq_some_iff.1 ev).1
              obtain ⟨s', g1, g2⟩ := own s1 q _ f1 f2 f3 (by simp [setVal, hlt]) f4
              have ha : setVal (setVal a h (some (.own l))) h (some (.own (l.set i (some x)))) =
                  setVal a h (some (.own (l.set i (some x)))) := by simp [setVal, List.set_set]
              rw [ha] at g2
              have hs2 : a' = setVal a h (some (.own (l.set i (some x)))) ∧ o = .unit := by
                cases v with
                | own l' =>
                  simp only [Option.some.injEq, Prod.mk.injEq] at hs
                  exact ⟨hs.1.symm, hs.2.symm⟩
                | view g =>
                  obtain ⟨hg, P', hP', ho, -⟩ := hr
                  have := r.count hg hP' ho
                  simp only at hs
                  rw [if_neg (by simp only [alone, decide_eq_true_eq]; omega)] at hs
                  simp only [Option.some.injEq, Prod.mk.injEq] at hs
                  exact ⟨hs.1.symm, hs.2.symm⟩
              obtain ⟨rfl, rfl⟩ := hs2
              exact ⟨s', g1, g2⟩
            · have h1' : RefCount.cnt s.hs p = 1 := by
                have := cnt_pos e
                omega
              have happ := appropriate_alone e hP (by omega)
              cases v with
              | own l' =>
                simp only [Spec.elems, Option.some.injEq] at hl
                subst hl
                simp only [Option.some.injEq, Prod.mk.injEq] at hs
                obtain ⟨rfl, rfl⟩ := hs
                exact own s p a happ e r ev h1'
              | view g =>
                obtain ⟨hg, P', hP', ho, hgr, hk⟩ := hr
                rw [hP] at hP'
                cases hP'
                have hcount := r.count hg hP ho
                have hal : alone a (.view g) = true := by
                  simp only [alone, decide_eq_true_eq]
                  omega
                simp only [hal, if_true, hgr, Option.bind_some] at hs
                have hc : a.ext[P.blk]?.join = some c := by rw [← r.ext _ hk, hb]
                simp only [hc, Option.bind_some, Option.some.injEq, Prod.mk.injEq] at hs
                obtain ⟨rfl, rfl⟩ := hs
                have hic : i < c.length := by
                  rw [← hcl] at hi
                  simp at hi
                  omega
                refine ⟨{ s with blks := upd s.blks P.blk (some (c.set i (some x))) }, ?_, gp, ?_⟩
                · simp [step, RefCount.step, happ, getPtr, hP, getBlk, hb, hic]
                · exact r.setExt hk _
    | read h i =>
      simp only [Spec.step] at hs
      cases hv : a.vals[h]?.join with
      | none => simp [hv] at hs
      | some v =>
        simp only [hv, Option.bind_eq_bind, Option.bind_some] at hs
        cases hl : Spec.elems a v with
        | none => simp [hl] at hs
        | some l =>
          simp only [hl, Option.bind_some] at hs
          cases hx : l[i]? with
          | none => simp [hx] at hs
          | some x =>
            simp only [hx, Option.bind_some, Option.some.injEq, Prod.mk.injEq] at hs
            obtain ⟨rfl, rfl⟩ := hs
            obtain ⟨p, e, hr, ev⟩ := r.value hv
            obtain ⟨P, c, hP, hb, rfl⟩ := r.elems hr hl
            have hx' : c[i]? = some x := by
              rw [List.getElem?_take] at hx
              split at hx
              · exact hx
              · cases hx
            exact ⟨s, by simp [step, RefCount.step, handle, e, getPtr, hP, getBlk, hb, hx'], gp, r⟩
    | size h =>
      simp only [Spec.step] at hs
      cases hv : a.vals[h]?.join with
      | none => simp [hv] at hs
      | some v =>
        simp only [hv, Option.bind_eq_bind, Option.bind_some] at hs
        obtain ⟨p, e, hr, ev⟩ := r.value hv
        cases v with
        | own l =>
          obtain ⟨P, hP, -, -, hlen⟩ := hr
          simp only [Spec.length, Option.bind_some, Option.some.injEq, Prod.mk.injEq] at hs
          obtain ⟨rfl, rfl⟩ := hs
          exact ⟨s, by simp [step, RefCount.step, handle, e, getPtr, hP, hlen], gp, r⟩
        | view g =>
          obtain ⟨-, P, hP, -, hg, -⟩ := hr
          simp only [Spec.length, hg, Option.bind_eq_bind, Option.bind_some, Option.some.injEq, Prod.mk.injEq] at hs
          obtain ⟨rfl, rfl⟩ := hs
          exact ⟨s, by simp [step, RefCount.step, handle, e, getPtr, hP], gp, r⟩
    | resize h n =>
      simp only [Spec.step] at hs
      cases hv : a.vals[h]?.join with
      | none => simp [hv] at hs
      | some v =>
        simp only [hv, Option.bind_eq_bind, Option.bind_some, Option.some.injEq, Prod.mk.injEq] at hs
        obtain ⟨rfl, rfl⟩ := hs
        obtain ⟨p, e, hr, ev⟩ := r.value hv
        obtain ⟨s1, h1, h2, r1, -⟩ := r.drop e
        have hlt := (List.getElem?_eq_some_iff.1 e).1
        have e1 : (s.hs.set h none)[h]? = some none := List.getElem?_set_self hlt
        have r2 := r1.bindNew e1 (List.replicate n none)
        rw [List.set_set] at r2
        have ha : setVal (setVal a h none) h (some (.own (List.replicate n none))) =
            setVal a h (some (.own (List.replicate n none))) := by simp [setVal, List.set_set]
        rw [ha] at r2
        refine ⟨{ (newBoth s1 (List.replicate n none)).1 with hs := s.hs.set h (some s1.nptr) }, ?_, gp, r2.hs_congr⟩
        have hsn : (newBoth s1 (List.replicate n none)).1.hs = s.hs := h2
        simp only [step, RefCount.step, handle, e, Option.join_some, Res.ofOption_some, Res.ok_bind, h1, Res.pure_eq,
          Res.ok.injEq, Prod.mk.injEq, and_true, hsn]
        rfl
    | touch h =>
      simp only [Spec.step] at hs
      cases hv : a.vals[h]?.join with
      | none => simp [hv] at hs
      | some v =>
        simp only [hv, Option.bind_eq_bind, Option.bind_some] at hs
        obtain ⟨p, e, hr, ev⟩ := r.value hv
        obtain ⟨P, hP, hrefs⟩ := r.ptr e
        by_cases h1 : 1 < RefCount.cnt s.hs p
        · have hl : ∃ l, Spec.elems a v = some l ∧ a' = setVal a h (some (.own l)) ∧ o = .unit := by
            cases v with
            | own l =>
              simp only [alone, if_true, Option.some.injEq, Prod.mk.injEq] at hs
              obtain ⟨rfl, rfl⟩ := hs
              exact ⟨l, rfl, (setVal_self a ev).symm, rfl⟩
            | view g =>
              obtain ⟨hg, P', hP', ho, -⟩ := hr
              have := r.count hg hP' ho
              rw [if_neg (by simp only [alone, decide_eq_true_eq]; omega)] at hs
              cases hl : Spec.elems a (.view g) with
              | none => simp [hl] at hs
              | some l =>
                simp only [hl, Option.bind_some, Option.some.injEq, Prod.mk.injEq] at hs
                exact ⟨l, rfl, hs.1.symm, hs.2.symm⟩
          obtain ⟨l, hl, rfl, rfl⟩ := hl
          obtain ⟨s1, q, f1, f2, f3, f4⟩ := r.appropriateShared e hr hl h1
          exact ⟨s1, by simp [step, RefCount.step, f1], gp, f3⟩
        · have happ := appropriate_alone e hP (by omega)
          have hal : alone a v = true := by
            cases v with
            | own l => rfl
            | view g =>
              obtain ⟨hg, P', hP', ho, -⟩ := hr
              have := r.count hg hP' ho
              have := cnt_pos e
              simp only [alone, decide_eq_true_eq]
              omega
          rw [if_pos hal] at hs
          simp only [Option.some.injEq, Prod.mk.injEq] at hs
          obtain ⟨rfl, rfl⟩ := hs
          exact ⟨s, by simp [step, RefCount.step, happ], gp, r⟩
  | poke b i x =>
    simp only [Spec.step] at hs
    cases hc : a.ext[b]?.join with
    | none => simp [hc] at hs
    | some c =>
      simp only [hc, Option.bind_eq_bind, Option.bind_some] at hs
      split at hs
      case isFalse => cases hs
      case isTrue hi =>
        simp only [Option.some.injEq, Prod.mk.injEq] at hs
        obtain ⟨rfl, rfl⟩ := hs
        obtain ⟨hb, hb'⟩ := ext_lt r hc
        exact ⟨{ s with blks := upd s.blks b (some (c.set i (some x))) }, by simp [step, getBlk, hb', hi], gp, r.setExt hb _⟩
  | peek b i =>
    simp only [Spec.step] at hs
    cases hc : a.ext[b]?.join with
    | none => simp [hc] at hs
    | some c =>
      simp only [hc, Option.bind_eq_bind, Option.bind_some] at hs
      cases hx : c[i]? with
      | none => simp [hx] at hs
      | some x =>
        simp only [hx, Option.bind_some, Option.some.injEq, Prod.mk.injEq] at hs
        obtain ⟨rfl, rfl⟩ := hs
        obtain ⟨hb, hb'⟩ := ext_lt r hc
        exact ⟨s, by simp [step, getBlk, hb', hx], gp, r⟩
  | free b =>
    simp only [Spec.step] at hs
    cases hc : a.ext[b]?.join with
    | none => simp [hc] at hs
    | some c =>
      simp only [hc, Option.bind_eq_bind, Option.bind_some, Option.some.injEq, Prod.mk.injEq] at hs
      obtain ⟨rfl, rfl⟩ := hs
      obtain ⟨hb, hb'⟩ := ext_lt r hc
      exact ⟨{ s with blks := upd s.blks b none }, by simp [step, getBlk, hb'], gp, r.setExt hb _⟩

theorem run_sim {s : St α} {a a' : ExtMem.Spec.ASt α} {k : Nat} (r : Sim s a k) (cs : List (Stmt α))
    {os : List (Out α)} (hs : ExtMem.Spec.run a cs = some (a', os)) : ∃ s', run s cs = .ok (s', os) ∧ Sim s' a' k := by
  induction cs generalizing s a os with
  | nil =>
    simp only [Spec.run, Option.some.injEq, Prod.mk.injEq] at hs
    obtain ⟨rfl, rfl⟩ := hs
    exact ⟨s, rfl, r⟩
  | cons c cs ih =>
    simp only [Spec.run] at hs
    cases h1 : Spec.step a c with
    | none => simp [h1] at hs
    | some x =>
      obtain ⟨a1, o⟩ := x
      simp only [h1, Option.bind_eq_bind, Option.bind_some] at hs
      cases h2 : Spec.run a1 cs with
      | none => simp [h2] at hs
      | some y =>
        obtain ⟨a2, os'⟩ := y
        simp only [h2, Option.bind_some, Option.some.injEq, Prod.mk.injEq] at hs
        obtain ⟨rfl, rfl⟩ := hs
        obtain ⟨s1, e1, r1⟩ := step_sim r c h1
        obtain ⟨s2, e2, r2⟩ := ih r1 h2
        exact ⟨s2, by simp [run, e1, e2], r2⟩

theorem sim_init (ext : List (Cells α)) : Sim (RefCount.init ext) (ExtMem.Spec.init ext) ext.length := by
  refine ⟨[], ⟨by simp [RefCount.init], by simp [RefCount.init], ?_, ?_, by simp [Spec.init], by simp [RefCount.init],
    by simp [RefCount.init], by simp [RefCount.init], by simp, by simp [Spec.init], by simp, by simp [Spec.init,
    RefCount.init], by simp [RefCount.init], by simp [RefCount.init]⟩⟩
  · intro b hb
    simpa [RefCount.init] using hb
  · intro b hb
    simp [RefCount.init, Spec.init, hb]

theorem spec_run_append (a : ExtMem.Spec.ASt α) (cs ds : List (Stmt α)) :
    Spec.run a (cs ++ ds) =
      (Spec.run a cs).bind fun x => (Spec.run x.1 ds).bind fun y => some (y.1, x.2 ++ y.2) := by
  induction cs generalizing a with
  | nil =>
    simp only [List.nil_append, Spec.run, Option.bind_some]
    cases Spec.run a ds <;> rfl
  | cons c cs ih =>
    simp only [List.cons_append, Spec.run, ih, Option.bind_eq_bind]
    cases Spec.step a c with
    | none => rfl
    | some x =>
      simp only [Option.bind_some]
      cases Spec.run x.1 cs with
      | none => rfl
      | some y =>
        simp only [Option.bind_some]
        cases Spec.run y.1 ds <;> rfl

/-- Sizes of the arrays of the caller. -/
def sizes (a : ExtMem.Spec.ASt α) : List (Option Nat) := a.ext.map (Option.map List.length)

theorem sizes_set {l : List (Option (List (Option α)))} {b : Nat} {c d : List (Option α)} (h : l[b]?.join = some c)
    (hd : d.length = c.length) :
    (l.set b (some d)).map (Option.map List.length) = l.map (Option.map List.length) := by
  apply List.ext_getElem?
  intro i
  simp only [List.getElem?_map]
  by_cases hi : b = i
  · subst hi
    cases hx : l[b]? with
    | none => simp [hx] at h
    | some o =>
      simp only [hx, Option.join_some] at h
      subst h
      have := (List.getElem?_eq_some_iff.1 hx).1
      rw [List.getElem?_set_self this]
      simp [hd]
  · rw [List.getElem?_set_ne hi]

theorem sizes_step {a a' : ExtMem.Spec.ASt α} {c : Stmt α} {o : Out α} (h : Spec.step a c = some (a', o))
    (hf : ∀ b, c ≠ .free b) : sizes a' = sizes a := by
  cases c with
  | op op =>
    cases op <;> simp only [Spec.step, Option.bind_eq_bind, Option.bind_eq_some_iff, Option.some.injEq,
      Prod.mk.injEq] at h
    case newEmpty => rw [← h.1]; rfl
    case newSize n => rw [← h.1]; rfl
    case wrap b n =>
      obtain ⟨c, -, h⟩ := h
      split at h
      · simp only [Option.some.injEq, Prod.mk.injEq] at h
        rw [← h.1]; rfl
      · cases h
    case copy => obtain ⟨v, -, rfl, -⟩ := h; rfl
    case destroy => obtain ⟨v, -, rfl, -⟩ := h; rfl
    case assign => obtain ⟨v, -, w, -, rfl, -⟩ := h; rfl
    case write g i x =>
      obtain ⟨v, -, l, -, h⟩ := h
      split at h
      · split at h
        · simp only [Option.some.injEq, Prod.mk.injEq] at h
          rw [← h.1]; rfl
        · split at h
          · simp only [Option.bind_eq_some_iff, Option.some.injEq, Prod.mk.injEq] at h
            obtain ⟨y, -, c, hc, rfl, -⟩ := h
            exact sizes_set hc (by simp)
          · simp only [Option.some.injEq, Prod.mk.injEq] at h
            rw [← h.1]; rfl
      · cases h
    case read => obtain ⟨v, -, l, -, x, -, rfl, -⟩ := h; rfl
    case size => obtain ⟨v, -, l, -, rfl, -⟩ := h; rfl
    case resize => obtain ⟨v, -, rfl, -⟩ := h; rfl
    case touch =>
      obtain ⟨v, -, h⟩ := h
      split at h
      · simp only [Option.some.injEq, Prod.mk.injEq] at h
        rw [← h.1]
      · simp only [Option.bind_eq_some_iff, Option.some.injEq, Prod.mk.injEq] at h
        obtain ⟨l, -, rfl, -⟩ := h
        rfl
  | poke b i x =>
    simp only [Spec.step, Option.bind_eq_bind, Option.bind_eq_some_iff] at h
    obtain ⟨c, hc, h⟩ := h
    split at h
    · simp only [Option.some.injEq, Prod.mk.injEq] at h
      rw [← h.1]
      exact sizes_set hc (by simp)
    · cases h
  | peek b i =>
    simp only [Spec.step, Option.bind_eq_bind, Option.bind_eq_some_iff, Option.some.injEq, Prod.mk.injEq] at h
    obtain ⟨c, -, x, -, rfl, -⟩ := h
    rfl
  | free b => exact absurd rfl (hf b)

theorem sizes_run {a a' : ExtMem.Spec.ASt α} {cs : List (Stmt α)} {os : List (Out α)}
    (h : Spec.run a cs = some (a', os)) (hf : ∀ b, .free b ∉ cs) : sizes a' = sizes a := by
  induction cs generalizing a os with
  | nil =>
    simp only [Spec.run, Option.some.injEq, Prod.mk.injEq] at h
    rw [h.1]
  | cons c cs ih =>
    simp only [Spec.run, Option.bind_eq_bind, Option.bind_eq_some_iff, Option.some.injEq, Prod.mk.injEq] at h
    obtain ⟨x, hx, y, hy, rfl, -⟩ := h
    rw [ih hy (fun b hb => hf b (List.mem_cons_of_mem _ hb)),
      sizes_step hx (fun b hb => hf b (by rw [← hb]; exact List.mem_cons_self))]

end Verif.ExtMem
