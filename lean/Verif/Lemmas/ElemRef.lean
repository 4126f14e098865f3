import Verif.Lemmas.RefCountSim
import Verif.Spec.ElemRef
/-
Lemmas for pointers to elements.
-/
namespace Verif.ElemRef

open Verif RefCount

variable {α : Type}

/-- The `pointer` at `q` describes the same memory. -/
def Keeps (s s' : RefCount.St α) (q : Nat) : Prop :=
  ∀ Q, s.ptrs q = some Q → ∃ Q', s'.ptrs q = some Q' ∧ Q'.blk = Q.blk ∧ Q'.size = Q.size

theorem Keeps.refl (s : RefCount.St α) (q : Nat) : Keeps s s q := fun Q h => ⟨Q, h, rfl, rfl⟩

theorem Keeps.trans {s s1 s2 : RefCount.St α} {q : Nat} (h : Keeps s s1 q) (h' : Keeps s1 s2 q) : Keeps s s2 q := by
  intro Q hQ
  obtain ⟨Q1, e1, b1, z1⟩ := h Q hQ
  obtain ⟨Q2, e2, b2, z2⟩ := h' Q1 e1
  exact ⟨Q2, e2, b2.trans b1, z2.trans z1⟩

theorem keeps_reference {s s' : RefCount.St α} {p : Nat} (h : reference s p = .ok s') (q : Nat) :
    Keeps s s' q ∧ s'.hs = s.hs ∧ s'.nptr = s.nptr := by
  simp only [reference, getPtr] at h
  cases hP : s.ptrs p with
  | none => simp [hP, Res.ofOption] at h
  | some P =>
    simp only [hP, Res.ofOption_some, Res.ok_bind, Res.pure_eq, Res.ok.injEq] at h
    subst h
    refine ⟨fun Q hQ => ?_, rfl, rfl⟩
    by_cases e : q = p
    · subst e
      rw [hP] at hQ
      cases hQ
      exact ⟨_, upd_same _ _ _, rfl, rfl⟩
    · exact ⟨Q, by simp [upd_ne _ _ e, hQ], rfl, rfl⟩

theorem keeps_dereference {s s' : RefCount.St α} {p : Nat} (h : dereference s p = .ok s') :
    s'.hs = s.hs ∧ s'.nptr = s.nptr ∧
    ∀ q, (q ≠ p ∨ ∃ P, s.ptrs p = some P ∧ 1 < P.refs) → Keeps s s' q := by
  simp only [dereference, getPtr] at h
  cases hP : s.ptrs p with
  | none => simp [hP, Res.ofOption] at h
  | some P =>
    simp only [hP, Res.ofOption_some, Res.ok_bind] at h
    by_cases hr : P.refs - 1 ≤ 0
    · rw [if_pos hr] at h
      simp only [deletePtr, getPtr, upd_same, Res.ofOption_some, Res.ok_bind] at h
      have key : ∀ q, (q ≠ p ∨ ∃ P', some P = some P' ∧ 1 < P'.refs) → q ≠ p := by
        rintro q (hq | ⟨P', e, h1⟩)
        · exact hq
        · cases e
          omega
      split at h
      · cases hb : getBlk { s with ptrs := upd s.ptrs p (some { P with refs := P.refs - 1 }) } P.blk with
        | ub => simp [hb] at h
        | abort => simp [hb] at h
        | ok c =>
          simp only [hb, Res.ok_bind, Res.pure_eq, Res.ok.injEq] at h
          subst h
          refine ⟨rfl, rfl, fun q hq Q hQ => ⟨Q, ?_, rfl, rfl⟩⟩
          have := key q hq
          simp [upd_ne _ _ this, hQ]
      · simp only [Res.pure_eq, Res.ok.injEq] at h
        subst h
        refine ⟨rfl, rfl, fun q hq Q hQ => ⟨Q, ?_, rfl, rfl⟩⟩
        have := key q hq
        simp [upd_ne _ _ this, hQ]
    · rw [if_neg hr] at h
      simp only [Res.pure_eq, Res.ok.injEq] at h
      subst h
      refine ⟨rfl, rfl, fun q _ Q hQ => ?_⟩
      by_cases e : q = p
      · subst e
        rw [hP] at hQ
        cases hQ
        exact ⟨_, upd_same _ _ _, rfl, rfl⟩
      · exact ⟨Q, by simp [upd_ne _ _ e, hQ], rfl, rfl⟩

theorem keeps_newBoth (s : RefCount.St α) (c : Cells α) {q : Nat} (h : q ≠ s.nptr) :
    Keeps s (newBoth s c).1 q := by
  intro Q hQ
  refine ⟨Q, ?_, rfl, rfl⟩
  simp [newBoth, newBlk, newPtr, upd_ne _ _ h, hQ]

/-- Address `(b, i)` is that of element `i` of vector `h`; if `w`, it is its only owner. -/
def Points (s : RefCount.St α) (b i h : Nat) (w : Bool) : Prop :=
  ∃ p P, s.hs[h]? = some (some p) ∧ s.ptrs p = some P ∧ P.blk = b ∧ i < P.size ∧ (w = true → cnt s.hs p = 1)

theorem points_of_keeps {s s' : RefCount.St α} {b i h : Nat} {w w' : Bool} (hp : Points s b i h w)
    (hs : ∀ p, s.hs[h]? = some (some p) → s'.hs[h]? = some (some p))
    (hk : ∀ p, s.hs[h]? = some (some p) → Keeps s s' p)
    (hw : w' = true → w = true ∧ ∀ p, s.hs[h]? = some (some p) → cnt s.hs p = 1 → cnt s'.hs p = 1) :
    Points s' b i h w' := by
  obtain ⟨p, P, e, hP, hb, hi, hc⟩ := hp
  obtain ⟨P', hP', hb', hz'⟩ := hk p e P hP
  exact ⟨p, P', hs p e, hP', hb'.trans hb, by rw [hz']; exact hi,
    fun h => (hw h).2 p e (hc (hw h).1)⟩

/-- The relation between the memory and the values. -/
structure Sim (s : St α) (a : Spec.ASt α) (k : Nat) : Prop where
  rel : Rel s.mem a.vecs k
  refs : ∀ r h i w, a.refs r = some (h, i, w) → ∃ b c, s.refs r = some (b, i, c) ∧ Points s.mem b i h w ∧
    (w = true → c = false)

theorem other_handle {hs : List (Option Nat)} {h h' p : Nat} (e : hs[h]? = some (some p)) (e' : hs[h']? = some (some p))
    (hne : h ≠ h') : 1 < cnt hs p := by
  have hl := (List.getElem?_eq_some_iff.1 e).1
  have h1 := cnt_set_none e
  have h2 : (hs.set h none)[h']? = some (some p) := by rw [List.getElem?_set_ne hne, e']
  have h3 := cnt_pos h2
  rw [h1, upd_same] at h3
  omega

theorem ptr_ne_fresh {s : RefCount.St α} {a : RefCount.Spec.ASt α} {k : Nat} (r : Rel s a k) {h p : Nat}
    (e : s.hs[h]? = some (some p)) : p ≠ s.nptr := by
  rintro rfl
  have := cnt_pos e
  rw [r.inv.fresh_zero] at this
  omega

/-- What `appropriate` does to the other vectors, and to vectors which are not shared. -/
theorem appropriate_points {s s' : RefCount.St α} {a : RefCount.Spec.ASt α} {k : Nat} (r : Rel s a k) {h q : Nat}
    (ha : appropriate s h = .ok (s', q)) {b i h' : Nat} {w : Bool} (hp : Points s b i h' w)
    (hne : h' = h → w = true) : Points s' b i h' w := by
  simp only [appropriate] at ha
  cases hh : handle s h with
  | ub => simp [hh] at ha
  | abort => simp [hh] at ha
  | ok p =>
    have hh' : s.hs[h]? = some (some p) := by
      simp only [handle] at hh
      cases e : s.hs[h]? with
      | none => simp [e, Res.ofOption] at hh
      | some o => cases o with
        | none => simp [e, Res.ofOption] at hh
        | some p' =>
          simp [e, Res.ofOption] at hh
          rw [hh]
    simp only [hh, Res.ok_bind, getPtr] at ha
    cases hP : s.ptrs p with
    | none => simp [hP, Res.ofOption] at ha
    | some P =>
      simp only [hP, Res.ofOption_some, Res.ok_bind] at ha
      have hcnt := (r.inv.cnt p P hP).1
      split at ha
      · rename_i hr
        cases hb : getBlk s P.blk with
        | ub => simp [hb] at ha
        | abort => simp [hb] at ha
        | ok c =>
          simp only [hb, Res.ok_bind] at ha
          cases hd : dereference (newBoth s (List.take P.size c)).1 p with
          | ub => simp [hd] at ha
          | abort => simp [hd] at ha
          | ok s2 =>
            simp only [hd, Res.ok_bind, Res.pure_eq, Res.ok.injEq, Prod.mk.injEq] at ha
            obtain ⟨rfl, rfl⟩ := ha
            obtain ⟨e1, e2, hk⟩ := keeps_dereference hd
            have hpn := ptr_ne_fresh r hh'
            have ehs : s2.hs = s.hs := by rw [e1]; rfl
            have hne' : h' ≠ h := by
              rintro rfl
              obtain ⟨p', P', f1, f2, -, -, f3⟩ := hp
              rw [hh'] at f1
              cases f1
              have := f3 (hne rfl)
              omega
            have hnq : ∀ p', s.hs[h']? = some (some p') → p' ≠ s.nptr := fun p' e => ptr_ne_fresh r e
            refine points_of_keeps hp ?_ ?_ ?_
            · intro p' e
              simp only [ehs]
              rw [List.getElem?_set_ne (Ne.symm hne')]
              exact e
            · intro p' e
              refine (keeps_newBoth s (List.take P.size c) (hnq p' e)).trans ?_
              refine hk p' (.inr ⟨P, ?_, hr⟩)
              simp [newBoth, newBlk, newPtr, upd_ne _ _ hpn, hP]
            · intro hw
              refine ⟨hw, fun p' e hc => ?_⟩
              simp only [ehs]
              show cnt (s.hs.set h (some s.nptr)) p' = 1
              rw [cnt_set_some hh' (Ne.symm hpn), upd_ne _ _ (hnq p' e)]
              have : p' ≠ p := by
                rintro rfl
                omega
              rw [upd_ne _ _ this, hc]
      · simp only [Res.pure_eq, Res.ok.injEq, Prod.mk.injEq] at ha
        obtain ⟨rfl, rfl⟩ := ha
        exact hp

theorem points_blks {s : RefCount.St α} {f : Nat → Option (Cells α)} {b i h : Nat} {w : Bool} (hp : Points s b i h w) :
    Points { s with blks := f } b i h w := hp

theorem handle_of {s : RefCount.St α} {h p : Nat} (e : handle s h = .ok p) : s.hs[h]? = some (some p) := by
  simp only [handle] at e
  cases e' : s.hs[h]? with
  | none => simp [e', Res.ofOption] at e
  | some o => cases o with
    | none => simp [e', Res.ofOption] at e
    | some p' =>
      simp [e', Res.ofOption] at e
      rw [e]

/-- The pointers after an operation on vectors. -/
theorem op_points {s s' : RefCount.St α} {a : RefCount.Spec.ASt α} {k : Nat} (r : Rel s a k) {o : Op α} {out : Out α}
    (hs : RefCount.step s o = .ok (s', out)) {f : Spec.Names} {n h i : Nat} {w : Bool}
    (hf : Spec.effect f o n = some (h, i, w)) :
    ∃ w0, f n = some (h, i, w0) ∧ (w = true → w0 = true) ∧ ∀ b, Points s b i h w0 → Points s' b i h w := by
  have fresh : ∀ (s1 : RefCount.St α) (b i h : Nat) (w : Bool), s1.hs = s.hs ++ [some s.nptr] →
      (∀ q, q ≠ s.nptr → Keeps s s1 q) → Points s b i h w → Points s1 b i h w := by
    intro s1 b i h w e1 e2 hp
    refine points_of_keeps hp ?_ ?_ ?_
    · intro p e
      rw [e1, List.getElem?_append_left (List.getElem?_eq_some_iff.1 e).1, e]
    · intro p e
      exact e2 p (ptr_ne_fresh r e)
    · intro hw
      refine ⟨hw, fun p e hc => ?_⟩
      rw [e1, cnt_append, upd_ne _ _ (ptr_ne_fresh r e), hc]
  have gone : ∀ (s1 : RefCount.St α) (g p b i h : Nat) (w : Bool), handle s g = .ok p → dereference s p = .ok s1 →
      h ≠ g → Points s b i h w →
      (∀ q, s.hs[h]? = some (some q) → Keeps s s1 q) := by
    intro s1 g p b i h w hg hd hne hp q e
    obtain ⟨-, -, hk⟩ := keeps_dereference hd
    refine hk q ?_
    by_cases hq : q = p
    · right
      subst hq
      have h2 := other_handle e (handle_of hg) hne
      obtain ⟨Q, hQ⟩ := r.inv.live q (by omega)
      exact ⟨Q, hQ, by have := (r.inv.cnt q Q hQ).1; omega⟩
    · exact .inl hq
  cases o with
  | newEmpty =>
    simp only [RefCount.step, Res.pure_eq, Res.ok.injEq, Prod.mk.injEq] at hs
    obtain ⟨rfl, -⟩ := hs
    exact ⟨w, hf, id, fun b hp => fresh _ b i h w rfl (fun q hq => keeps_newBoth s [] hq) hp⟩
  | newSize m =>
    simp only [RefCount.step, Res.pure_eq, Res.ok.injEq, Prod.mk.injEq] at hs
    obtain ⟨rfl, -⟩ := hs
    exact ⟨w, hf, id, fun b hp => fresh _ b i h w rfl (fun q hq => keeps_newBoth s _ hq) hp⟩
  | wrap c m =>
    simp only [RefCount.step, Res.pure_eq, Res.ok.injEq, Prod.mk.injEq] at hs
    obtain ⟨rfl, -⟩ := hs
    refine ⟨w, hf, id, fun b hp => fresh _ b i h w rfl (fun q hq Q hQ => ⟨Q, ?_, rfl, rfl⟩) hp⟩
    simp [newPtr, upd_ne _ _ hq, hQ]
  | copy g =>
    simp only [Spec.effect, Spec.demote, Option.map_eq_some_iff] at hf
    obtain ⟨⟨h0, i0, w0⟩, hf, e⟩ := hf
    simp only [RefCount.step] at hs
    cases hh : handle s g with
    | ub => simp [hh] at hs
    | abort => simp [hh] at hs
    | ok p =>
      simp only [hh, Res.ok_bind] at hs
      cases hr : reference s p with
      | ub => simp [hr] at hs
      | abort => simp [hr] at hs
      | ok s1 =>
        simp only [hr, Res.ok_bind, Res.pure_eq, Res.ok.injEq, Prod.mk.injEq] at hs
        obtain ⟨rfl, -⟩ := hs
        have e1 : s1.hs = s.hs := (keeps_reference hr 0).2.1
        have main : ∀ b, (w = true → h0 ≠ g ∧ w0 = true) → Points s b i0 h0 w0 →
            Points { s1 with hs := s1.hs ++ [some p] } b i0 h0 w := by
          intro b hw hp
          refine points_of_keeps hp ?_ (fun q _ => (keeps_reference hr q).1) ?_
          · intro q e
            simp only [e1]
            rw [List.getElem?_append_left (List.getElem?_eq_some_iff.1 e).1, e]
          · intro hw'
            refine ⟨(hw hw').2, fun q e hc => ?_⟩
            have hqp : q ≠ p := by
              rintro rfl
              have := other_handle e (handle_of hh) (hw hw').1
              omega
            simp only [e1]
            rw [cnt_append, upd_ne _ _ hqp, hc]
        split at e
        · rename_i hg
          simp only [Prod.mk.injEq] at e
          obtain ⟨rfl, rfl, rfl⟩ := e
          exact ⟨w0, hf, by simp, fun b => main b (by simp)⟩
        · rename_i hg
          simp only [Prod.mk.injEq] at e
          obtain ⟨rfl, rfl, rfl⟩ := e
          exact ⟨w0, hf, id, fun b => main b (fun hw => ⟨hg, hw⟩)⟩
  | destroy g =>
    simp only [Spec.effect, Spec.kill, Option.bind_eq_some_iff] at hf
    obtain ⟨⟨h0, i0, w0⟩, hf, e⟩ := hf
    split at e
    · cases e
    · rename_i hne
      simp only [Option.some.injEq, Prod.mk.injEq] at e
      obtain ⟨rfl, rfl, rfl⟩ := e
      simp only [RefCount.step] at hs
      cases hh : handle s g with
      | ub => simp [hh] at hs
      | abort => simp [hh] at hs
      | ok p =>
        simp only [hh, Res.ok_bind] at hs
        cases hr : dereference s p with
        | ub => simp [hr] at hs
        | abort => simp [hr] at hs
        | ok s1 =>
          simp only [hr, Res.ok_bind, Res.pure_eq, Res.ok.injEq, Prod.mk.injEq] at hs
          obtain ⟨rfl, -⟩ := hs
          have e1 := (keeps_dereference hr).1
          refine ⟨w0, hf, id, fun b hp => points_of_keeps hp ?_ (gone s1 g p b _ _ _ hh hr hne hp) ?_⟩
          · intro q e
            simp only [e1]
            rw [List.getElem?_set_ne (Ne.symm hne), e]
          · intro hw
            refine ⟨hw, fun q e hc => ?_⟩
            have hqp : q ≠ p := by
              rintro rfl
              have := other_handle e (handle_of hh) hne
              omega
            simp only [e1]
            rw [cnt_set_none (handle_of hh), upd_ne _ _ hqp, hc]
  | assign g g' =>
    simp only [RefCount.step] at hs
    cases hh : handle s g with
    | ub => simp [hh] at hs
    | abort => simp [hh] at hs
    | ok p =>
      simp only [hh, Res.ok_bind] at hs
      cases hh' : handle s g' with
      | ub => simp [hh'] at hs
      | abort => simp [hh'] at hs
      | ok p' =>
        simp only [hh', Res.ok_bind] at hs
        by_cases hgg : g = g'
        · subst hgg
          rw [hh] at hh'
          cases hh'
          rw [if_neg (by simp)] at hs
          simp only [Res.pure_eq, Res.ok.injEq, Prod.mk.injEq] at hs
          obtain ⟨rfl, -⟩ := hs
          simp only [Spec.effect, if_true] at hf
          exact ⟨w, hf, id, fun b => id⟩
        · simp only [Spec.effect, if_neg hgg, Spec.demote, Spec.kill, Option.map_eq_some_iff,
            Option.bind_eq_some_iff] at hf
          obtain ⟨⟨h0, i0, w0⟩, ⟨⟨h1, i1, w1⟩, hf, e⟩, e'⟩ := hf
          split at e
          · cases e
          rename_i hne
          simp only [Option.some.injEq, Prod.mk.injEq] at e
          obtain ⟨rfl, rfl, rfl⟩ := e
          have hw : h = h1 ∧ i = i1 ∧ (w = true → h1 ≠ g' ∧ w1 = true) := by
            split at e'
            · simp only [Prod.mk.injEq] at e'
              obtain ⟨rfl, rfl, rfl⟩ := e'
              simp
            · rename_i hg
              simp only [Prod.mk.injEq] at e'
              obtain ⟨rfl, rfl, rfl⟩ := e'
              exact ⟨rfl, rfl, fun hw => ⟨hg, hw⟩⟩
          obtain ⟨rfl, rfl, hw⟩ := hw
          refine ⟨w1, hf, fun h => (hw h).2, fun b hp => ?_⟩
          by_cases hpp : p' = p
          · rw [if_neg (by simp [hpp])] at hs
            simp only [Res.pure_eq, Res.ok.injEq, Prod.mk.injEq] at hs
            obtain ⟨rfl, -⟩ := hs
            refine points_of_keeps hp (fun q e => e) (fun q _ => Keeps.refl _ _) fun h => ⟨(hw h).2, fun q _ => id⟩
          · rw [if_pos hpp] at hs
            cases hr : dereference s p with
            | ub => simp [hr] at hs
            | abort => simp [hr] at hs
            | ok s1 =>
              simp only [hr, Res.ok_bind] at hs
              cases hr' : reference s1 p' with
              | ub => simp [hr'] at hs
              | abort => simp [hr'] at hs
              | ok s2 =>
                simp only [hr', Res.ok_bind, Res.pure_eq, Res.ok.injEq, Prod.mk.injEq] at hs
                obtain ⟨rfl, -⟩ := hs
                have e1 : s2.hs = s.hs := (keeps_reference hr' 0).2.1.trans (keeps_dereference hr).1
                refine points_of_keeps hp ?_ (fun q e => (gone s1 g p b _ _ _ hh hr hne hp q e).trans
                  (keeps_reference hr' q).1) ?_
                · intro q e
                  simp only [e1]
                  rw [List.getElem?_set_ne (Ne.symm hne), e]
                · intro h
                  refine ⟨(hw h).2, fun q e hc => ?_⟩
                  have h1 : q ≠ p := by
                    rintro rfl
                    have := other_handle e (handle_of hh) hne
                    omega
                  have h2 : q ≠ p' := by
                    rintro rfl
                    have := other_handle e (handle_of hh') (hw h).1
                    omega
                  simp only [e1]
                  rw [cnt_set_some (handle_of hh) hpp, upd_ne _ _ h2, upd_ne _ _ h1, hc]
  | write g j v =>
    simp only [Spec.effect, Spec.killRead, Option.bind_eq_some_iff] at hf
    obtain ⟨⟨h0, i0, w0⟩, hf, e⟩ := hf
    split at e
    · cases e
    rename_i hne
    simp only [Option.some.injEq, Prod.mk.injEq] at e
    obtain ⟨rfl, rfl, rfl⟩ := e
    simp only [RefCount.step] at hs
    cases ha : appropriate s g with
    | ub => simp [ha] at hs
    | abort => simp [ha] at hs
    | ok x =>
      obtain ⟨s1, p⟩ := x
      simp only [ha, Res.ok_bind] at hs
      refine ⟨w0, hf, id, fun b hp => ?_⟩
      have hp1 := appropriate_points r ha hp (fun e => by simpa [e] using hne)
      cases h1 : getPtr s1 p with
      | ub => simp [h1] at hs
      | abort => simp [h1] at hs
      | ok P =>
        simp only [h1, Res.ok_bind] at hs
        cases h2 : getBlk s1 P.blk with
        | ub => simp [h2] at hs
        | abort => simp [h2] at hs
        | ok c =>
          simp only [h2, Res.ok_bind] at hs
          split at hs
          · simp only [Res.pure_eq, Res.ok.injEq, Prod.mk.injEq] at hs
            obtain ⟨rfl, -⟩ := hs
            exact points_blks hp1
          · cases hs
  | read g j =>
    simp only [RefCount.step] at hs
    cases hh : handle s g with
    | ub => simp [hh] at hs
    | abort => simp [hh] at hs
    | ok p =>
      simp only [hh, Res.ok_bind] at hs
      cases h1 : getPtr s p with
      | ub => simp [h1] at hs
      | abort => simp [h1] at hs
      | ok P =>
        simp only [h1, Res.ok_bind] at hs
        cases h2 : getBlk s P.blk with
        | ub => simp [h2] at hs
        | abort => simp [h2] at hs
        | ok c =>
          simp only [h2, Res.ok_bind] at hs
          cases h3 : c[j]? with
          | none => simp [h3, Res.ofOption] at hs
          | some v =>
            simp only [h3, Res.ofOption_some, Res.ok_bind, Res.pure_eq, Res.ok.injEq, Prod.mk.injEq] at hs
            obtain ⟨rfl, -⟩ := hs
            exact ⟨w, hf, id, fun b => id⟩
  | size g =>
    simp only [RefCount.step] at hs
    cases hh : handle s g with
    | ub => simp [hh] at hs
    | abort => simp [hh] at hs
    | ok p =>
      simp only [hh, Res.ok_bind] at hs
      cases h1 : getPtr s p with
      | ub => simp [h1] at hs
      | abort => simp [h1] at hs
      | ok P =>
        simp only [h1, Res.ok_bind, Res.pure_eq, Res.ok.injEq, Prod.mk.injEq] at hs
        obtain ⟨rfl, -⟩ := hs
        exact ⟨w, hf, id, fun b => id⟩
  | resize g m =>
    simp only [Spec.effect, Spec.kill, Option.bind_eq_some_iff] at hf
    obtain ⟨⟨h0, i0, w0⟩, hf, e⟩ := hf
    split at e
    · cases e
    rename_i hne
    simp only [Option.some.injEq, Prod.mk.injEq] at e
    obtain ⟨rfl, rfl, rfl⟩ := e
    simp only [RefCount.step] at hs
    cases hh : handle s g with
    | ub => simp [hh] at hs
    | abort => simp [hh] at hs
    | ok p =>
      simp only [hh, Res.ok_bind] at hs
      cases hr : dereference s p with
      | ub => simp [hr] at hs
      | abort => simp [hr] at hs
      | ok s1 =>
        simp only [hr, Res.ok_bind, Res.pure_eq, Res.ok.injEq, Prod.mk.injEq] at hs
        obtain ⟨rfl, -⟩ := hs
        obtain ⟨e1, e2, -⟩ := keeps_dereference hr
        refine ⟨w0, hf, id, fun b hp => points_of_keeps hp ?_ (fun q e => ?_) ?_⟩
        · intro q e
          show (s1.hs.set g _)[h0]? = _
          rw [e1, List.getElem?_set_ne (Ne.symm hne), e]
        · refine (gone s1 g p b _ _ _ hh hr hne hp q e).trans ?_
          exact keeps_newBoth s1 _ (by rw [e2]; exact ptr_ne_fresh r e)
        · intro hw
          refine ⟨hw, fun q e hc => ?_⟩
          have hqp : q ≠ p := by
            rintro rfl
            have := other_handle e (handle_of hh) hne
            omega
          show cnt (s1.hs.set g (some s1.nptr)) q = 1
          rw [e1, e2, cnt_set_some (handle_of hh) (Ne.symm (ptr_ne_fresh r (handle_of hh))),
            upd_ne _ _ (ptr_ne_fresh r e), upd_ne _ _ hqp, hc]
  | touch g =>
    simp only [Spec.effect, Spec.killRead, Option.bind_eq_some_iff] at hf
    obtain ⟨⟨h0, i0, w0⟩, hf, e⟩ := hf
    split at e
    · cases e
    rename_i hne
    simp only [Option.some.injEq, Prod.mk.injEq] at e
    obtain ⟨rfl, rfl, rfl⟩ := e
    simp only [RefCount.step] at hs
    cases ha : appropriate s g with
    | ub => simp [ha] at hs
    | abort => simp [ha] at hs
    | ok x =>
      obtain ⟨s1, p⟩ := x
      simp only [ha, Res.ok_bind, Res.pure_eq, Res.ok.injEq, Prod.mk.injEq] at hs
      obtain ⟨rfl, -⟩ := hs
      exact ⟨w0, hf, id, fun b hp => appropriate_points r ha hp (fun e => by simpa [e] using hne)⟩

theorem addr_ok {s : RefCount.St α} {p i : Nat} {P : Ptr} {l : Cells α} (hP : s.ptrs p = some P)
    (hb : s.blks P.blk = some l) (hi : i < l.length) : addr s p i = .ok (P.blk, i) := by
  simp [addr, getPtr, getBlk, hP, hb, hi]

/-- One statement. -/
theorem step_sim {s : St α} {a a' : Spec.ASt α} {k : Nat} (r : Sim s a k) (c : Stmt α) {o : Out α}
    (hs : Spec.step a c = some (a', o)) : ∃ s', step s c = .ok (s', o) ∧ Sim s' a' k := by
  cases c with
  | op op =>
    simp only [Spec.step] at hs
    cases h1 : RefCount.Spec.step a.vecs op with
    | none => simp [h1] at hs
    | some x =>
      obtain ⟨v, o'⟩ := x
      simp only [h1, Option.bind_eq_bind, Option.bind_some, Option.some.injEq, Prod.mk.injEq] at hs
      obtain ⟨rfl, rfl⟩ := hs
      obtain ⟨s', e, r'⟩ := RefCount.step_sim r.rel op h1
      refine ⟨⟨s', s.refs⟩, by simp [step, e], r', fun n h i w hf => ?_⟩
      obtain ⟨w0, f0, hw, hp⟩ := op_points r.rel e hf
      obtain ⟨b, c, hr, hb, hc⟩ := r.refs n h i w0 f0
      exact ⟨b, c, hr, hp b hb, fun h => hc (hw h)⟩
  | «at» n h i =>
    simp only [Spec.step] at hs
    cases h1 : a.vecs.vals[h]?.join with
    | none => simp [h1] at hs
    | some l =>
      simp only [h1, Option.bind_eq_bind, Option.bind_some] at hs
      split at hs
      case isFalse => cases hs
      case isTrue hi =>
        simp only [Option.some.injEq, Prod.mk.injEq] at hs
        obtain ⟨rfl, rfl⟩ := hs
        obtain ⟨p, hp, hh, hl⟩ := handle_of_vals r.rel h1
        obtain ⟨s', q, ha, hq, hc, hl', r'⟩ := appropriate_sim r.rel hp hl
        obtain ⟨Q, l', hQ, hb, hlen, hcont, -⟩ := r'.inv.content_some (cnt_pos hq)
        rw [hl'] at hcont
        cases hcont
        refine ⟨⟨s', upd s.refs n (some (Q.blk, i, false))⟩, by simp [step, ha, addr_ok hQ hb hi], r', ?_⟩
        intro m h' i' w hf
        by_cases hm : m = n
        · subst hm
          simp only [upd_same, Option.some.injEq, Prod.mk.injEq] at hf
          obtain ⟨rfl, rfl, rfl⟩ := hf
          exact ⟨Q.blk, false, by simp, ⟨q, Q, hq, hQ, rfl, by omega, fun _ => hc⟩, fun _ => rfl⟩
        · simp only [upd_ne _ _ hm] at hf ⊢
          simp only [Spec.killRead, Option.bind_eq_some_iff] at hf
          obtain ⟨⟨h0, i0, w0⟩, hf, e⟩ := hf
          split at e
          · cases e
          rename_i hne
          simp only [Option.some.injEq, Prod.mk.injEq] at e
          obtain ⟨rfl, rfl, rfl⟩ := e
          obtain ⟨b, c, hr, hb', hc'⟩ := r.refs m h0 i0 w0 hf
          exact ⟨b, c, hr, appropriate_points r.rel ha hb' (fun e => by simpa [e] using hne), hc'⟩
  | cat n h i =>
    simp only [Spec.step] at hs
    cases h1 : a.vecs.vals[h]?.join with
    | none => simp [h1] at hs
    | some l =>
      simp only [h1, Option.bind_eq_bind, Option.bind_some] at hs
      split at hs
      case isFalse => cases hs
      case isTrue hi =>
        simp only [Option.some.injEq, Prod.mk.injEq] at hs
        obtain ⟨rfl, rfl⟩ := hs
        obtain ⟨p, hp, hh, hl⟩ := handle_of_vals r.rel h1
        obtain ⟨P, l', hP, hb, hlen, hcont, -⟩ := r.rel.inv.content_some (cnt_pos hp)
        rw [hl] at hcont
        cases hcont
        refine ⟨⟨s.mem, upd s.refs n (some (P.blk, i, true))⟩, by simp [step, hh, addr_ok hP hb hi], r.rel, ?_⟩
        intro m h' i' w hf
        by_cases hm : m = n
        · subst hm
          simp only [upd_same, Option.some.injEq, Prod.mk.injEq] at hf
          obtain ⟨rfl, rfl, rfl⟩ := hf
          exact ⟨P.blk, true, by simp, ⟨p, P, hp, hP, rfl, by omega, by simp⟩, by simp⟩
        · simp only [upd_ne _ _ hm] at hf ⊢
          exact r.refs m h' i' w hf
  | get n =>
    simp only [Spec.step] at hs
    cases h1 : a.refs n with
    | none => simp [h1] at hs
    | some x =>
      obtain ⟨h, i, w⟩ := x
      simp only [h1, Option.bind_eq_bind, Option.bind_some] at hs
      cases h2 : a.vecs.vals[h]?.join with
      | none => simp [h2] at hs
      | some l =>
        simp only [h2, Option.bind_some] at hs
        cases h3 : l[i]? with
        | none => simp [h3] at hs
        | some v =>
          simp only [h3, Option.bind_some, Option.some.injEq, Prod.mk.injEq] at hs
          obtain ⟨rfl, rfl⟩ := hs
          obtain ⟨b, c, hr, ⟨p, P, hp, hP, rfl, -, -⟩, -⟩ := r.refs n h i w h1
          obtain ⟨p', hp', hh, hl⟩ := handle_of_vals r.rel h2
          rw [hp] at hp'
          cases hp'
          have hb : s.mem.blks P.blk = some l := by simpa [content, hP] using hl
          exact ⟨s, by simp [step, hr, getBlk, hb, h3], r⟩
  | set n v =>
    simp only [Spec.step] at hs
    cases h1 : a.refs n with
    | none => simp [h1] at hs
    | some x =>
      obtain ⟨h, i, w⟩ := x
      simp only [h1, Option.bind_eq_bind, Option.bind_some] at hs
      cases w with
      | false => simp at hs
      | true =>
        simp only [if_true] at hs
        cases h2 : a.vecs.vals[h]?.join with
        | none => simp [h2] at hs
        | some l =>
          simp only [h2, Option.bind_some, Option.some.injEq, Prod.mk.injEq] at hs
          obtain ⟨rfl, rfl⟩ := hs
          obtain ⟨b, c, hr, ⟨p, P, hp, hP, rfl, hi, hc1⟩, hc⟩ := r.refs n h i true h1
          obtain ⟨p', hp', hh, hl⟩ := handle_of_vals r.rel h2
          rw [hp] at hp'
          cases hp'
          have hb : s.mem.blks P.blk = some l := by simpa [content, hP] using hl
          obtain ⟨l', hb', hlen⟩ := r.rel.inv.data p P hP
          rw [hb] at hb'
          cases hb'
          have hil : i < l.length := by omega
          cases hc rfl
          refine ⟨_, by simp [step, hr, getBlk, hb, hil]; rfl, ?_, ?_⟩
          · exact write_sim r.rel hp (hc1 rfl) hP hb (by simp)
          · intro m h' i' w hf
            obtain ⟨b, c, e1, e2, e3⟩ := r.refs m h' i' w hf
            exact ⟨b, c, e1, points_blks e2, e3⟩

theorem run_sim {s : St α} {a a' : Spec.ASt α} {k : Nat} (r : Sim s a k) (cs : List (Stmt α)) {os : List (Out α)}
    (hs : Spec.run a cs = some (a', os)) : ∃ s', run s cs = .ok (s', os) ∧ Sim s' a' k := by
  induction cs generalizing s a os with
  | nil =>
    simp only [Spec.run, Option.some.injEq, Prod.mk.injEq] at hs
    obtain ⟨rfl, rfl⟩ := hs
    exact ⟨s, rfl, r⟩
  | cons c cs ih =>
    simp only [Spec.run] at hs
    cases h1 : Spec.step a c with
    | none => simp [h1] at hs
    | some x =>
      obtain ⟨a1, o⟩ := x
      simp only [h1, Option.bind_eq_bind, Option.bind_some] at hs
      cases h2 : Spec.run a1 cs with
      | none => simp [h2] at hs
      | some y =>
        obtain ⟨a2, os'⟩ := y
        simp only [h2, Option.bind_some, Option.some.injEq, Prod.mk.injEq] at hs
        obtain ⟨rfl, rfl⟩ := hs
        obtain ⟨s1, e1, r1⟩ := step_sim r c h1
        obtain ⟨s2, e2, r2⟩ := ih r1 h2
        exact ⟨s2, by simp [run, e1, e2], r2⟩

theorem sim_init (ext : List (Cells α)) : Sim (init ext) (Spec.init ext) ext.length :=
  ⟨rel_init ext, by simp [Spec.init]⟩

/-- `appropriate` changes no element which exists. -/
theorem appropriate_blks {s s' : RefCount.St α} {a : RefCount.Spec.ASt α} {k : Nat} (r : Rel s a k) {h q : Nat}
    (ha : appropriate s h = .ok (s', q)) {b : Nat} {l : Cells α} (hb : s.blks b = some l) : s'.blks b = some l := by
  simp only [appropriate] at ha
  cases hh : handle s h with
  | ub => simp [hh] at ha
  | abort => simp [hh] at ha
  | ok p =>
    simp only [hh, Res.ok_bind, getPtr] at ha
    cases hP : s.ptrs p with
    | none => simp [hP, Res.ofOption] at ha
    | some P =>
      simp only [hP, Res.ofOption_some, Res.ok_bind] at ha
      split at ha
      · rename_i hr
        cases hc : getBlk s P.blk with
        | ub => simp [hc] at ha
        | abort => simp [hc] at ha
        | ok c =>
          have hpn := ptr_ne_fresh r (handle_of hh)
          have h1 : ¬ P.refs - 1 ≤ 0 := by omega
          have hd : dereference (newBoth s (List.take P.size c)).1 p =
              .ok { (newBoth s (List.take P.size c)).1 with
                    ptrs := upd (newBoth s (List.take P.size c)).1.ptrs p (some { P with refs := P.refs - 1 }) } := by
            simp [dereference, getPtr, newBoth, newBlk, newPtr, upd_ne _ _ hpn, hP, h1]
          simp only [hc, Res.ok_bind, hd, Res.pure_eq, Res.ok.injEq, Prod.mk.injEq] at ha
          obtain ⟨rfl, -⟩ := ha
          have : b ≠ s.nblk := by
            rintro rfl
            rw [r.inv.freshB _ (Nat.le_refl _)] at hb
            cases hb
          simp [newBoth, newBlk, newPtr, upd_ne _ _ this, hb]
      · simp only [Res.pure_eq, Res.ok.injEq, Prod.mk.injEq] at ha
        obtain ⟨rfl, rfl⟩ := ha
        exact hb

end Verif.ElemRef
