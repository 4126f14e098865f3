import Verif.Lemmas.RefCount
/-
Simulation of the value semantics by the copy-on-write heap, operation by operation.
-/
namespace Verif.RefCount

variable {α : Type}

/-- Number of handles on the `pointer` at `p`. -/
def cnt (hs : List (Option Nat)) (p : Nat) : Nat := hs.count (some p)

/-- Simulation relation. -/
structure Rel (s : St α) (a : Spec.ASt α) (k : Nat) : Prop where
  inv : Inv s (cnt s.hs) k
  vals : a.vals = s.hs.map fun o => o.bind (content s)
  elen : a.ext.length = k
  avail : ∀ b l, a.ext[b]? = some (some l) → Avail s b l

theorem cnt_append (hs : List (Option Nat)) (p : Nat) :
    cnt (hs ++ [some p]) = upd (cnt hs) p (cnt hs p + 1) := by
  funext q
  by_cases e : q = p
  · subst e; simp [cnt, List.count_append]
  · have : ¬ p = q := fun h => e h.symm
    simp [cnt, List.count_append, upd_ne _ _ e, this]

theorem cnt_set_none {hs : List (Option Nat)} {h p : Nat} (e : hs[h]? = some (some p)) :
    cnt (hs.set h none) = upd (cnt hs) p (cnt hs p - 1) := by
  obtain ⟨hl, e'⟩ := List.getElem?_eq_some_iff.1 e
  funext q
  by_cases eq : q = p
  · subst eq; simp [cnt, List.count_set hl, e']
  · have : ¬ p = q := fun h => eq h.symm
    simp [cnt, List.count_set hl, e', upd_ne _ _ eq, this]

theorem cnt_pos {hs : List (Option Nat)} {h p : Nat} (e : hs[h]? = some (some p)) :
    0 < cnt hs p := by
  apply List.count_pos_iff.2
  exact List.mem_of_getElem? e

theorem cnt_set_some {hs : List (Option Nat)} {h p q : Nat} (e : hs[h]? = some (some p))
    (hq : q ≠ p) :
    cnt (hs.set h (some q)) = upd (upd (cnt hs) p (cnt hs p - 1)) q (cnt hs q + 1) := by
  obtain ⟨hl, e'⟩ := List.getElem?_eq_some_iff.1 e
  funext r
  have hq' : ¬ p = q := fun h => hq h.symm
  by_cases e1 : r = q
  · subst e1; simp [cnt, List.count_set hl, e', hq']
  · rw [upd_ne _ _ e1]
    have e1' : ¬ q = r := fun h => e1 h.symm
    by_cases e2 : r = p
    · subst e2; simp [cnt, List.count_set hl, e', e1']
    · have : ¬ p = r := fun h => e2 h.symm
      simp [cnt, List.count_set hl, e', upd_ne _ _ e2, this, e1']

theorem handle_of_vals {s : St α} {a : Spec.ASt α} {k : Nat} (r : Rel s a k) {h : Nat}
    {l : List (Option α)} (e : a.vals[h]?.join = some l) :
    ∃ p, s.hs[h]? = some (some p) ∧ handle s h = .ok p ∧ content s p = some l := by
  rw [r.vals] at e
  simp only [List.getElem?_map] at e
  cases hh : s.hs[h]? with
  | none => rw [hh] at e; simp at e
  | some o =>
    cases o with
    | none => rw [hh] at e; simp at e
    | some p =>
      rw [hh] at e
      simp at e
      exact ⟨p, rfl, by simp [handle, hh], e⟩

theorem map_content_congr {s s' : St α} (hs : List (Option Nat))
    (h : ∀ p, some p ∈ hs → content s' p = content s p) :
    (hs.map fun o => o.bind (content s')) = hs.map fun o => o.bind (content s) := by
  apply List.map_congr_left
  intro o ho
  cases o with
  | none => rfl
  | some p => simp [h p ho]

/-- `content` only looks at the two heaps. -/
theorem content_hs (s : St α) (hs : List (Option Nat)) : content { s with hs := hs } = content s :=
  rfl

theorem Inv.congr_hs {s : St α} {c k} (h : Inv s c k) (hs : List (Option Nat)) :
    Inv { s with hs := hs } c k :=
  ⟨h.cnt, h.live, h.freshP, h.freshB, h.kle, h.data, h.own, h.inj, h.noleak, h.ext⟩

/-- A new handle on a fresh buffer. -/
theorem rel_new {s : St α} {a : Spec.ASt α} {k : Nat} (r : Rel s a k) (l : Cells α) :
    Rel { (newBoth s l).1 with hs := (newBoth s l).1.hs ++ [some (newBoth s l).2] }
      { a with vals := a.vals ++ [some l] } k := by
  obtain ⟨e1, e2, hi, hc, ho, ha⟩ := newBoth_spec r.inv l
  have hz := r.inv.fresh_zero
  constructor
  · refine Inv.congr_hs ?_ _
    rw [e1, e2, cnt_append, hz]; exact hi
  · simp only [e1, e2, List.map_append, content_hs]
    rw [r.vals, map_content_congr (s := s) (s' := (newBoth s l).1)]
    · simp [hc]
    · intro p hp
      refine ho p ?_
      rintro rfl
      have : 0 < cnt s.hs s.nptr := List.count_pos_iff.2 hp
      omega
  · exact r.elen
  · intro b m hb
    have hlt : b < k := by
      have := (List.getElem?_eq_some_iff.1 hb).1
      rw [← r.elen]; exact this
    exact ha b m hlt (r.avail b m hb)

/-- After `appropriate` the handle is the only one on its buffer, and all values are as before. -/
theorem appropriate_sim {s : St α} {a : Spec.ASt α} {k : Nat} (r : Rel s a k) {h p : Nat}
    (hp : s.hs[h]? = some (some p)) {l : Cells α} (hl : content s p = some l) :
    ∃ s' q, appropriate s h = .ok (s', q) ∧ s'.hs[h]? = some (some q) ∧ cnt s'.hs q = 1 ∧
      content s' q = some l ∧ Rel s' a k := by
  have hpos := cnt_pos hp
  obtain ⟨P, l', hP, hb, hlen, hcont, hrefs⟩ := r.inv.content_some hpos
  rw [hl] at hcont; cases hcont
  have hh : handle s h = .ok p := by simp [handle, hp]
  by_cases hgt : 1 < cnt s.hs p
  · have hg : P.refs > 1 := by omega
    obtain ⟨e1, e2, hi, hc, ho, ha⟩ := newBoth_spec r.inv (l.take P.size)
    have hfresh : s.nptr ≠ p := by
      have := r.inv.ptr_lt hP; omega
    have hlp : 0 < upd (cnt s.hs) s.nptr 1 p := by
      rw [upd_ne _ _ (Ne.symm hfresh)]; exact hpos
    obtain ⟨s2, d1, d2, d3, d4, d5, d6⟩ := dereference_spec hi hlp
    refine ⟨{ s2 with hs := s2.hs.set h (some s.nptr) }, s.nptr, ?_, ?_, ?_, ?_, ?_⟩
    · simp only [appropriate, hh, Res.ok_bind, getPtr, hP, Res.ofOption_some, hg, if_true, getBlk,
        hb]
      simp only [e1] at *
      simp [d1]
    · simp only [d2, e2]
      exact List.getElem?_set_self (List.getElem?_eq_some_iff.1 hp).1
    · simp only [d2, e2]
      rw [cnt_set_some hp hfresh, upd_same, r.inv.fresh_zero]
    · rw [content_hs, d5 _ (.inl hfresh), hc, ← hlen, List.take_length]
    · constructor
      · refine Inv.congr_hs ?_ _
        simp only [d2, e2]
        rw [cnt_set_some hp hfresh, r.inv.fresh_zero]
        have : upd (upd (cnt s.hs) p (cnt s.hs p - 1)) s.nptr (0 + 1)
            = upd (upd (cnt s.hs) s.nptr 1) p (upd (cnt s.hs) s.nptr 1 p - 1) := by
          funext x
          simp only [upd]
          by_cases x1 : x = s.nptr <;> by_cases x2 : x = p <;>
            simp_all
        rw [this]; exact d4
      · rw [r.vals]
        simp only [d2, e2, content_hs]
        apply List.ext_getElem?
        intro j
        simp only [List.getElem?_map, List.getElem?_set]
        by_cases hj : h = j
        · subst hj
          have hlt := (List.getElem?_eq_some_iff.1 hp).1
          simp only [if_true, hlt, hp, Option.map_some, Option.bind_some]
          rw [d5 _ (.inl hfresh), hc, hl, ← hlen, List.take_length]
        · simp only [if_neg hj]
          cases ho' : s.hs[j]? with
          | none => rfl
          | some o =>
            cases o with
            | none => rfl
            | some q =>
              simp only [Option.map_some, Option.bind_some]
              have hq := cnt_pos ho'
              have hqn : q ≠ s.nptr := by
                rintro rfl
                have := r.inv.fresh_zero; omega
              rw [d5 q ?_, ho q hqn]
              right
              rw [upd_ne _ _ (Ne.symm hfresh)]
              exact hgt
      · exact r.elen
      · intro b m hbm
        have hlt : b < k := by
          have := (List.getElem?_eq_some_iff.1 hbm).1
          rw [← r.elen]; exact this
        have := d6 b m hlt (ha b m hlt (r.avail b m hbm))
        exact this
  · have hg : ¬ P.refs > 1 := by omega
    refine ⟨s, p, ?_, hp, by omega, hl, r⟩
    simp [appropriate, hh, getPtr, hP, hg]

/-- Writing through the only handle of a buffer. -/
theorem write_sim {s : St α} {a : Spec.ASt α} {k : Nat} (r : Rel s a k) {h p : Nat} {P : Ptr}
    (hp : s.hs[h]? = some (some p)) (h1 : cnt s.hs p = 1) {l l' : Cells α}
    (hP : s.ptrs p = some P) (hb : s.blks P.blk = some l) (hlen : l'.length = l.length) :
    Rel { s with blks := upd s.blks P.blk (some l') }
      { a with vals := a.vals.set h (some l') } k := by
  have hlt := (List.getElem?_eq_some_iff.1 hp).1
  have hne : ∀ j, j ≠ h → s.hs[j]? ≠ some (some p) := by
    intro j hj hje
    have h2 : 0 < cnt (s.hs.set h none) p := by
      apply cnt_pos (h := j)
      rw [List.getElem?_set_ne (Ne.symm hj)]; exact hje
    rw [cnt_set_none hp] at h2
    simp [h1] at h2
  have hcont : ∀ q, q ≠ p → content { s with blks := upd s.blks P.blk (some l') } q
      = content s q := by
    intro q hq
    simp only [content]
    cases hQ : s.ptrs q with
    | none => rfl
    | some Q =>
      simp only [Option.bind_some]
      rw [upd_ne]
      intro e
      exact hq (r.inv.inj _ _ _ _ hQ hP e)
  constructor
  · have i := r.inv
    refine ⟨i.cnt, i.live, i.freshP, ?_, i.kle, ?_, i.own, i.inj, ?_, ?_⟩
    · intro b hbn
      have := i.blk_lt hP
      simp only at hbn ⊢
      rw [upd_ne _ _ (by omega)]; exact i.freshB b hbn
    · intro q Q hQ
      obtain ⟨m, hm, e⟩ := i.data q Q hQ
      by_cases eb : Q.blk = P.blk
      · refine ⟨l', by simp [eb], ?_⟩
        rw [eb, hb] at hm; cases hm
        omega
      · exact ⟨m, by simp only; rw [upd_ne _ _ eb]; exact hm, e⟩
    · intro b m hbk hm
      by_cases eb : b = P.blk
      · exact ⟨p, P, hP, eb.symm⟩
      · simp only at hm; rw [upd_ne _ _ eb] at hm; exact i.noleak b m hbk hm
    · intro b hbk
      by_cases eb : b = P.blk
      · exact ⟨l', by simp [eb]⟩
      · obtain ⟨m, hm⟩ := i.ext b hbk
        exact ⟨m, by simp only; rw [upd_ne _ _ eb]; exact hm⟩
  · simp only [r.vals]
    apply List.ext_getElem?
    intro j
    simp only [List.getElem?_map, List.getElem?_set, List.length_map]
    by_cases hj : h = j
    · subst hj
      simp only [if_true, hlt, hp, Option.map_some, Option.bind_some]
      simp [content, hP]
    · simp only [if_neg hj]
      cases ho' : s.hs[j]? with
      | none => rfl
      | some o =>
        cases o with
        | none => rfl
        | some q =>
          simp only [Option.map_some, Option.bind_some]
          rw [hcont q]
          rintro rfl
          exact hne j (Ne.symm hj) ho'
  · exact r.elen
  · intro b m hbm
    obtain ⟨a1, a2⟩ := r.avail b m hbm
    refine ⟨?_, a2⟩
    simp only; rw [upd_ne _ _ (Ne.symm (a2 p P hP))]; exact a1

theorem step_sim {s : St α} {a a' : Spec.ASt α} {k : Nat} (r : Rel s a k) (op : Op α) {o : Out α}
    (hs : Spec.step a op = some (a', o)) :
    ∃ s', step s op = .ok (s', o) ∧ Rel s' a' k := by
  cases op with
  | newEmpty =>
    simp only [Spec.step, Option.some.injEq, Prod.mk.injEq] at hs
    obtain ⟨rfl, rfl⟩ := hs
    exact ⟨_, rfl, rel_new r []⟩
  | newSize n =>
    simp only [Spec.step, Option.some.injEq, Prod.mk.injEq] at hs
    obtain ⟨rfl, rfl⟩ := hs
    exact ⟨_, rfl, rel_new r _⟩
  | wrap b n =>
    simp only [Spec.step] at hs
    cases hc : a.ext[b]?.join with
    | none => simp [hc] at hs
    | some l =>
      simp only [hc, Option.bind_eq_bind, Option.bind_some] at hs
      split at hs
      · rename_i hn
        simp only [Option.some.injEq, Prod.mk.injEq] at hs
        obtain ⟨rfl, rfl⟩ := hs
        subst hn
        have hc' : a.ext[b]? = some (some l) := by
          cases hx : a.ext[b]? with
          | none => simp [hx] at hc
          | some x => simp [hx] at hc; simp [hc]
        have hlt : b < k := by
          have := (List.getElem?_eq_some_iff.1 hc').1
          rw [← r.elen]; exact this
        obtain ⟨hi, hct, ho, ha⟩ := wrap_spec r.inv hlt (r.avail b l hc')
        refine ⟨_, rfl, ?_⟩
        have hz := r.inv.fresh_zero
        constructor
        · refine Inv.congr_hs ?_ _
          show Inv _ (cnt (s.hs ++ [some s.nptr])) k
          rw [cnt_append, hz]; exact hi
        · show a.vals ++ [some l] = List.map _ (s.hs ++ [some s.nptr])
          simp only [List.map_append]
          rw [r.vals]
          congr 1
          · symm
            apply map_content_congr
            intro p hp
            refine ho p ?_
            rintro rfl
            have : 0 < cnt s.hs s.nptr := List.count_pos_iff.2 hp
            omega
          · exact congrArg (fun x => [x]) hct.symm
        · simp [r.elen]
        · intro b' m hb'
          have hne : b' ≠ b := by
            rintro rfl
            simp only [List.getElem?_set] at hb'
            simp at hb'
          simp only at hb'
          rw [List.getElem?_set_ne (Ne.symm hne)] at hb'
          exact ha b' m hne (r.avail b' m hb')
      · simp at hs
  | copy h =>
    simp only [Spec.step] at hs
    cases hc : a.vals[h]?.join with
    | none => simp [hc] at hs
    | some l =>
      simp only [hc, Option.bind_eq_bind, Option.bind_some, Option.some.injEq,
        Prod.mk.injEq] at hs
      obtain ⟨rfl, rfl⟩ := hs
      obtain ⟨p, hp, hh, hl⟩ := handle_of_vals r hc
      obtain ⟨s1, e1, e2, hi, hct, ha⟩ := reference_spec r.inv (cnt_pos hp)
      refine ⟨{ s1 with hs := s1.hs ++ [some p] }, by simp [step, hh, e1], ?_⟩
      constructor
      · refine Inv.congr_hs ?_ _
        simp only [e2, cnt_append]; exact hi
      · simp only [e2, content_hs, List.map_append]
        rw [r.vals, map_content_congr (s := s) (s' := s1) _ (fun p _ => hct p)]
        simp [hct, hl]
      · exact r.elen
      · exact fun b m hb => ha b m (r.avail b m hb)
  | destroy h =>
    simp only [Spec.step] at hs
    cases hc : a.vals[h]?.join with
    | none => simp [hc] at hs
    | some l =>
      simp only [hc, Option.bind_eq_bind, Option.bind_some, Option.some.injEq,
        Prod.mk.injEq] at hs
      obtain ⟨rfl, rfl⟩ := hs
      obtain ⟨p, hp, hh, hl⟩ := handle_of_vals r hc
      obtain ⟨s1, e1, e2, e3, hi, hct, ha⟩ := dereference_spec r.inv (cnt_pos hp)
      refine ⟨{ s1 with hs := s1.hs.set h none }, by simp [step, hh, e1], ?_⟩
      constructor
      · refine Inv.congr_hs ?_ _
        simp only [e2, cnt_set_none hp]; exact hi
      · simp only [e2, content_hs, r.vals]
        apply List.ext_getElem?
        intro j
        simp only [List.getElem?_map, List.getElem?_set, List.length_map]
        by_cases hj : h = j
        · subst hj
          simp [(List.getElem?_eq_some_iff.1 hp).1]
        · simp only [if_neg hj]
          cases ho' : s.hs[j]? with
          | none => rfl
          | some o =>
            cases o with
            | none => rfl
            | some q =>
              simp only [Option.map_some, Option.bind_some]
              rw [hct q]
              by_cases e : q = p
              · right
                subst e
                have h2 : 0 < cnt (s.hs.set h none) q := by
                  apply cnt_pos (h := j)
                  rw [List.getElem?_set_ne hj]; exact ho'
                rw [cnt_set_none hp] at h2
                simp at h2; omega
              · exact .inl e
      · exact r.elen
      · intro b m hb
        have hlt : b < k := by
          have := (List.getElem?_eq_some_iff.1 hb).1
          rw [← r.elen]; exact this
        exact ha b m hlt (r.avail b m hb)
  | assign h g =>
    simp only [Spec.step] at hs
    cases hc : a.vals[h]?.join with
    | none => simp [hc] at hs
    | some l =>
    cases hd : a.vals[g]?.join with
    | none => simp [hc, hd] at hs
    | some m =>
      simp only [hc, hd, Option.bind_eq_bind, Option.bind_some, Option.some.injEq,
        Prod.mk.injEq] at hs
      obtain ⟨rfl, rfl⟩ := hs
      obtain ⟨p, hp, hh, hl⟩ := handle_of_vals r hc
      obtain ⟨q, hq, hg, hm⟩ := handle_of_vals r hd
      by_cases e : q = p
      · subst e
        rw [hl] at hm; cases hm
        refine ⟨s, by simp [step, hh, hg], r.inv, ?_, r.elen, r.avail⟩
        simp only [r.vals]
        apply List.ext_getElem?
        intro j
        simp only [List.getElem?_map, List.getElem?_set, List.length_map]
        by_cases hj : h = j
        · subst hj
          simp only [if_true, (List.getElem?_eq_some_iff.1 hp).1, hp, Option.map_some,
            Option.bind_some, hl]
        · simp [hj]
      · obtain ⟨s1, e1, e2, e3, hi, hct, ha⟩ := dereference_spec r.inv (cnt_pos hp)
        have hq1 : 0 < upd (cnt s.hs) p (cnt s.hs p - 1) q := by
          rw [upd_ne _ _ e]; exact cnt_pos hq
        obtain ⟨s2, f1, f2, hi2, hct2, ha2⟩ := reference_spec hi hq1
        refine ⟨{ s2 with hs := s2.hs.set h (some q) }, by simp [step, hh, hg, e, e1, f1], ?_⟩
        constructor
        · refine Inv.congr_hs ?_ _
          simp only [f2, e2]
          rw [cnt_set_some hp e]
          rw [upd_ne _ _ e] at hi2
          exact hi2
        · simp only [f2, e2, content_hs, r.vals]
          apply List.ext_getElem?
          intro j
          simp only [List.getElem?_map, List.getElem?_set, List.length_map]
          by_cases hj : h = j
          · subst hj
            simp only [if_true, (List.getElem?_eq_some_iff.1 hp).1, Option.map_some,
              Option.bind_some]
            rw [hct2, hct q (.inl e), hm]
          · simp only [if_neg hj]
            cases ho' : s.hs[j]? with
            | none => rfl
            | some o =>
              cases o with
              | none => rfl
              | some x =>
                simp only [Option.map_some, Option.bind_some]
                rw [hct2, hct x]
                by_cases e : x = p
                · right
                  subst e
                  have h2 : 0 < cnt (s.hs.set h none) x := by
                    apply cnt_pos (h := j)
                    rw [List.getElem?_set_ne hj]; exact ho'
                  rw [cnt_set_none hp] at h2
                  simp at h2; omega
                · exact .inl e
        · exact r.elen
        · intro b m hb
          have hlt : b < k := by
            have := (List.getElem?_eq_some_iff.1 hb).1
            rw [← r.elen]; exact this
          exact ha2 b m (ha b m hlt (r.avail b m hb))
  | write h i v =>
    simp only [Spec.step] at hs
    cases hc : a.vals[h]?.join with
    | none => simp [hc] at hs
    | some l =>
      simp only [hc, Option.bind_eq_bind, Option.bind_some] at hs
      split at hs
      · rename_i hi
        simp only [Option.some.injEq, Prod.mk.injEq] at hs
        obtain ⟨rfl, rfl⟩ := hs
        obtain ⟨p, hp, hh, hl⟩ := handle_of_vals r hc
        obtain ⟨s1, q, e1, hq, h1, hcont, r1⟩ := appropriate_sim r hp hl
        obtain ⟨P, l', hP, hb, hlen, hcont', -⟩ := r1.inv.content_some (cnt_pos hq)
        rw [hcont] at hcont'; cases hcont'
        refine ⟨{ s1 with blks := upd s1.blks P.blk (some (l.set i (some v))) }, ?_, ?_⟩
        · simp [step, e1, getPtr, hP, getBlk, hb, hi]
        · exact write_sim r1 hq h1 hP hb (by simp)
      · simp at hs
  | read h i =>
    simp only [Spec.step] at hs
    cases hc : a.vals[h]?.join with
    | none => simp [hc] at hs
    | some l =>
      cases hv : l[i]? with
      | none => simp [hc, hv] at hs
      | some v =>
        simp only [hc, hv, Option.bind_eq_bind, Option.bind_some, Option.some.injEq,
          Prod.mk.injEq] at hs
        obtain ⟨rfl, rfl⟩ := hs
        obtain ⟨p, hp, hh, hl⟩ := handle_of_vals r hc
        obtain ⟨P, l', hP, hb, hlen, hcont', -⟩ := r.inv.content_some (cnt_pos hp)
        rw [hl] at hcont'; cases hcont'
        exact ⟨s, by simp [step, hh, getPtr, hP, getBlk, hb, hv], r⟩
  | size h =>
    simp only [Spec.step] at hs
    cases hc : a.vals[h]?.join with
    | none => simp [hc] at hs
    | some l =>
      simp only [hc, Option.bind_eq_bind, Option.bind_some, Option.some.injEq,
        Prod.mk.injEq] at hs
      obtain ⟨rfl, rfl⟩ := hs
      obtain ⟨p, hp, hh, hl⟩ := handle_of_vals r hc
      obtain ⟨P, l', hP, hb, hlen, hcont', -⟩ := r.inv.content_some (cnt_pos hp)
      rw [hl] at hcont'; cases hcont'
      exact ⟨s, by simp [step, hh, getPtr, hP, hlen], r⟩
  | resize h n =>
    simp only [Spec.step] at hs
    cases hc : a.vals[h]?.join with
    | none => simp [hc] at hs
    | some l =>
      simp only [hc, Option.bind_eq_bind, Option.bind_some, Option.some.injEq,
        Prod.mk.injEq] at hs
      obtain ⟨rfl, rfl⟩ := hs
      obtain ⟨p, hp, hh, hl⟩ := handle_of_vals r hc
      obtain ⟨s1, e1, e2, e3, hi, hct, ha⟩ := dereference_spec r.inv (cnt_pos hp)
      obtain ⟨f1, f2, hi2, hc2, ho, ha2⟩ := newBoth_spec hi (List.replicate n (none : Option α))
      have hfresh : s1.nptr ≠ p := by
        obtain ⟨P, hP⟩ := r.inv.live p (cnt_pos hp)
        have := r.inv.ptr_lt hP; omega
      have hz : cnt s.hs s1.nptr = 0 := by rw [e3]; exact r.inv.fresh_zero
      refine ⟨{ (newBoth s1 (List.replicate n (none : Option α))).1 with
        hs := (newBoth s1 (List.replicate n (none : Option α))).1.hs.set h
          (some (newBoth s1 (List.replicate n (none : Option α))).2) },
        by simp [step, hh, e1], ?_⟩
      constructor
      · refine Inv.congr_hs ?_ _
        rw [f1, f2, e2, cnt_set_some hp hfresh, hz]; exact hi2
      · simp only [f1, f2, e2, content_hs, r.vals]
        apply List.ext_getElem?
        intro j
        simp only [List.getElem?_map, List.getElem?_set, List.length_map]
        by_cases hj : h = j
        · subst hj
          simp [(List.getElem?_eq_some_iff.1 hp).1, hc2]
        · simp only [if_neg hj]
          cases ho' : s.hs[j]? with
          | none => rfl
          | some o =>
            cases o with
            | none => rfl
            | some x =>
              simp only [Option.map_some, Option.bind_some]
              have hx := cnt_pos ho'
              rw [ho x (by rintro rfl; omega), hct x]
              by_cases e : x = p
              · right
                subst e
                have h2 : 0 < cnt (s.hs.set h none) x := by
                  apply cnt_pos (h := j)
                  rw [List.getElem?_set_ne hj]; exact ho'
                rw [cnt_set_none hp] at h2
                simp at h2; omega
              · exact .inl e
      · exact r.elen
      · intro b m hb
        have hlt : b < k := by
          have := (List.getElem?_eq_some_iff.1 hb).1
          rw [← r.elen]; exact this
        exact ha2 b m hlt (ha b m hlt (r.avail b m hb))
  | touch h =>
    simp only [Spec.step] at hs
    cases hc : a.vals[h]?.join with
    | none => simp [hc] at hs
    | some l =>
      simp only [hc, Option.bind_eq_bind, Option.bind_some, Option.some.injEq,
        Prod.mk.injEq] at hs
      obtain ⟨rfl, rfl⟩ := hs
      obtain ⟨p, hp, hh, hl⟩ := handle_of_vals r hc
      obtain ⟨s1, q, e1, hq, h1, hcont, r1⟩ := appropriate_sim r hp hl
      exact ⟨s1, by simp [step, e1], r1⟩

theorem rel_init (ext : List (Cells α)) : Rel (init ext) (Spec.init ext) ext.length := by
  constructor
  · refine ⟨by simp [init], by simp [init, cnt], by simp [init], ?_, by simp [init], by simp [init],
      by simp [init], by simp [init], ?_, ?_⟩
    · intro b hb; simpa [init] using hb
    · intro b l hb h
      simp only [init] at h
      have := (List.getElem?_eq_some_iff.1 h).1
      omega
    · intro b hb; exact ⟨ext[b], by simp [init, hb]⟩
  · simp [init, Spec.init]
  · simp [Spec.init]
  · intro b l h
    simp [Spec.init] at h
    exact ⟨by simpa [init] using h, by simp [init]⟩

theorem run_sim {s : St α} {a a' : Spec.ASt α} {k : Nat} (r : Rel s a k) (ops : List (Op α))
    {os : List (Out α)} (hs : Spec.run a ops = some (a', os)) :
    ∃ s', run s ops = .ok (s', os) ∧ Rel s' a' k := by
  induction ops generalizing s a os with
  | nil =>
    simp only [Spec.run, Option.some.injEq, Prod.mk.injEq] at hs
    obtain ⟨rfl, rfl⟩ := hs
    exact ⟨s, rfl, r⟩
  | cons op ops ih =>
    simp only [Spec.run] at hs
    cases h1 : Spec.step a op with
    | none => simp [h1] at hs
    | some x =>
      obtain ⟨a1, o⟩ := x
      cases h2 : Spec.run a1 ops with
      | none => simp [h1, h2] at hs
      | some y =>
        obtain ⟨a2, os2⟩ := y
        simp only [h1, h2, Option.bind_eq_bind, Option.bind_some, Option.some.injEq,
          Prod.mk.injEq] at hs
        obtain ⟨rfl, rfl⟩ := hs
        obtain ⟨s1, e1, r1⟩ := step_sim r op h1
        obtain ⟨s2, e2, r2⟩ := ih r1 h2
        exact ⟨s2, by simp [run, e1, e2], r2⟩

end Verif.RefCount
