import Verif.Lemmas.ElemRef
import Verif.Model.Inplace
import Verif.Spec.Inplace
/-
The operators with assignment on the shared memory.
-/
namespace Verif.Inplace

open Verif RefCount
open Spec (ownValue Apart ByReference Plain)

variable {α : Type}

theorem lift2_eq (f : α → α → α) (x y : Option α) : lift2 f x y = Spec.both f x y := by
  cases x <;> cases y <;> rfl

/-- The loop, when the second operand at step `j` is `y j`. -/
theorem loop_eq (f : α → α → α) (src : Src α) (B : Nat) (s : RefCount.St α) (c : Cells α) (y : Nat → Option α)
    (r : Cells α) (hr : r = c.mapIdx fun j x => lift2 f x (y j)) :
    ∀ (n k : Nat), k + n = c.length →
    (∀ j, j < c.length → fetch { s with blks := upd s.blks B (some (r.take j ++ c.drop j)) } src j = .ok (y j)) →
    loop f src B { s with blks := upd s.blks B (some (r.take k ++ c.drop k)) } k n =
      .ok { s with blks := upd s.blks B (some r) } := by
  have hrl : r.length = c.length := by simp [hr]
  intro n
  induction n with
  | zero =>
    intro k hk _
    have e : r.take k ++ c.drop k = r := by
      rw [List.take_of_length_le (by omega), List.drop_of_length_le (by omega), List.append_nil]
    simp only [loop, Res.pure_eq]
    rw [e]
  | succ n ih =>
    intro k hk hf
    have hkl : k < c.length := by omega
    have h1 : (r.take k ++ c.drop k)[k]? = some c[k] := by
      rw [List.getElem?_append_right (by simp; omega)]
      simp only [List.length_take, List.getElem?_drop]
      rw [show k + (k - min k r.length) = k by omega, List.getElem?_eq_getElem hkl]
    have h2 : (r.take k ++ c.drop k).set k (lift2 f c[k] (y k)) = r.take (k + 1) ++ c.drop (k + 1) := by
      have e1 : r[k]'(by omega) = lift2 f c[k] (y k) := by simp [hr]
      rw [List.set_append_right _ _ (by simp; omega)]
      have : k - (r.take k).length = 0 := by simp; omega
      rw [this, List.drop_eq_getElem_cons hkl, List.set_cons_zero, ← e1]
      have e2 : r.take (k + 1) = r.take k ++ [r[k]'(by omega)] := List.take_succ_eq_append_getElem (by omega)
      rw [e2, List.append_assoc]
      rfl
    rw [loop]
    simp only [getBlk, upd_same, Res.ofOption_some, Res.ok_bind, h1, hf k hkl]
    have h3 : ∀ (g : Nat → Option (Cells α)) (a b : Option (Cells α)), upd (upd g B a) B b = upd g B b := by
      intro g a b
      funext x
      by_cases e : x = B <;> simp [upd, e]
    rw [h3, h2]
    exact ih (k + 1) (by omega) hf

/-- The loop from the first element to the last one. -/
theorem loop_all (f : α → α → α) (src : Src α) (B : Nat) (s : RefCount.St α) (c : Cells α) (hb : s.blks B = some c)
    (y : Nat → Option α) (r : Cells α) (hr : r = c.mapIdx fun j x => lift2 f x (y j))
    (hf : ∀ j, j < c.length →
      fetch { s with blks := upd s.blks B (some (r.take j ++ c.drop j)) } src j = .ok (y j)) :
    loop f src B s 0 c.length = .ok { s with blks := upd s.blks B (some r) } := by
  have h := loop_eq f src B s c y r hr c.length 0 (by omega) hf
  have e : upd s.blks B (some (r.take 0 ++ c.drop 0)) = s.blks := by
    funext x
    by_cases e : x = B <;> simp [upd, e, hb]
  rw [e] at h
  exact h

/-- What `appropriate` gives: the same block for the only owner, a new block otherwise. -/
theorem appropriate_cases {s : RefCount.St α} {a : RefCount.Spec.ASt α} {k : Nat} (r : Rel s a k) {h p : Nat}
    (hp : s.hs[h]? = some (some p)) {P : Ptr} (hP : s.ptrs p = some P) {l : Cells α} (hl : s.blks P.blk = some l) :
    ∃ s' q Q, appropriate s h = .ok (s', q) ∧ s'.hs[h]? = some (some q) ∧ cnt s'.hs q = 1 ∧ s'.ptrs q = some Q ∧
      s'.blks Q.blk = some l ∧ Q.size = l.length ∧ Rel s' a k ∧
      (∀ b m, s.blks b = some m → s'.blks b = some m) ∧
      (cnt s.hs p = 1 → s' = s ∧ q = p ∧ Q = P) ∧
      (1 < cnt s.hs p → ∀ b m, s.blks b = some m → Q.blk ≠ b) := by
  have hcont : content s p = some l := by simp [content, hP, hl]
  obtain ⟨s', q, e, hq, h1, hc, r'⟩ := appropriate_sim r hp hcont
  obtain ⟨Q, l', hQ, hb, hlen, hc', -⟩ := r'.inv.content_some (cnt_pos hq)
  rw [hc] at hc'
  cases hc'
  refine ⟨s', q, Q, e, hq, h1, hQ, hb, hlen.symm, r', fun b m hbm => ElemRef.appropriate_blks r e hbm, ?_, ?_⟩
  · intro hone
    have hr : P.refs = 1 := by rw [(r.inv.cnt p P hP).1, hone]; rfl
    have hh : handle s h = .ok p := by simp [handle, hp]
    have e' : appropriate s h = .ok (s, p) := by simp [appropriate, hh, getPtr, hP, hr]
    rw [e] at e'
    simp only [Res.ok.injEq, Prod.mk.injEq] at e'
    obtain ⟨rfl, rfl⟩ := e'
    rw [hP] at hQ
    cases hQ
    exact ⟨rfl, rfl, rfl⟩
  · intro hmany b m hbm hQb
    have hr : P.refs > 1 := by rw [(r.inv.cnt p P hP).1]; omega
    have hh : handle s h = .ok p := by simp [handle, hp]
    simp only [appropriate, hh, Res.ok_bind, getPtr, hP, Res.ofOption_some, hr, if_true, getBlk, hl] at e
    cases hd : dereference (newBoth s (l.take P.size)).1 p with
    | ub => simp [hd] at e
    | abort => simp [hd] at e
    | ok s2 =>
      rw [hd] at e
      simp only [Res.ok_bind, Res.pure_eq, Res.ok.injEq, Prod.mk.injEq] at e
      obtain ⟨rfl, rfl⟩ := e
      have hn : (newBoth s (l.take P.size)).2 = s.nptr := rfl
      have hpn : p ≠ s.nptr := ElemRef.ptr_ne_fresh r hp
      obtain ⟨Q', hQ', hQb', -⟩ := (ElemRef.keeps_dereference hd).2.2 s.nptr (.inl (Ne.symm hpn))
        ⟨s.nblk, (l.take P.size).length, 1, true⟩ (by simp [newBoth, newBlk, newPtr])
      simp only [hn] at hQ
      rw [hQ'] at hQ
      cases hQ
      rw [hQb'] at hQb
      simp only at hQb
      have := r.inv.freshB b (by omega)
      rw [this] at hbm
      cases hbm

/-- The data of a tensor which has a value. -/
theorem ptr_of_vals {s : RefCount.St α} {a : RefCount.Spec.ASt α} {k : Nat} (r : Rel s a k) {h : Nat}
    {l : List (Option α)} (e : a.vals[h]?.join = some l) :
    ∃ p P, s.hs[h]? = some (some p) ∧ handle s h = .ok p ∧ s.ptrs p = some P ∧ s.blks P.blk = some l ∧
      P.size = l.length := by
  obtain ⟨p, hp, hh, hc⟩ := handle_of_vals r e
  obtain ⟨P, l', hP, hb, hlen, hc', -⟩ := r.inv.content_some (cnt_pos hp)
  rw [hc] at hc'
  cases hc'
  exact ⟨p, P, hp, hh, hP, hb, hlen.symm⟩

/-- The call of std::transform, when the second operand at step `j` is `y j`. -/
theorem transform_eq {s : RefCount.St α} {a : RefCount.Spec.ASt α} {k : Nat} (f : α → α → α) {h : Nat}
    {src : RefCount.St α → Res (Src α)} {s' : RefCount.St α} {q : Nat} {Q : Ptr} {l : Cells α}
    (ha : appropriate s h = .ok (s', q)) (hq : s'.hs[h]? = some (some q)) (h1 : cnt s'.hs q = 1)
    (hQ : s'.ptrs q = some Q) (hb : s'.blks Q.blk = some l) (hz : Q.size = l.length) (r' : Rel s' a k)
    {sv : Src α} (hsv : src s' = .ok sv) (y : Nat → Option α)
    (hf : ∀ j, j < l.length → ∀ m : Cells α,
      m = (l.mapIdx fun j x => lift2 f x (y j)).take j ++ l.drop j →
      fetch { s' with blks := upd s'.blks Q.blk (some m) } sv j = .ok (y j)) :
    ∃ s2, transform f s h src = .ok s2 ∧ s2.hs = s'.hs ∧
      Rel s2 { a with vals := a.vals.set h (some (l.mapIdx fun j x => lift2 f x (y j))) } k := by
  refine ⟨{ s' with blks := upd s'.blks Q.blk (some (l.mapIdx fun j x => lift2 f x (y j))) }, ?_, rfl, ?_⟩
  · simp only [transform, ha, Res.ok_bind, getPtr, hQ, Res.ofOption_some, hsv, hz]
    exact loop_all f sv Q.blk s' l hb y _ rfl fun j hj => hf j hj _ rfl
  · exact write_sim r' hq h1 hQ hb (by simp)

theorem mapIdx_zipWith (f : α → α → α) (l m : Cells α) (h : l.length = m.length) :
    (l.mapIdx fun j x => lift2 f x (m[j]?).join) = List.zipWith (Spec.both f) l m := by
  apply List.ext_getElem?
  intro j
  simp only [List.getElem?_mapIdx, List.getElem?_zipWith]
  by_cases hj : j < l.length
  · rw [List.getElem?_eq_getElem hj, List.getElem?_eq_getElem (by omega)]
    simp [lift2_eq]
  · rw [List.getElem?_eq_none (by omega), List.getElem?_eq_none (by omega)]
    rfl

theorem mapIdx_map (f : α → α → α) (l : Cells α) (x : Option α) :
    (l.mapIdx fun _ y => lift2 f y x) = l.map fun y => Spec.both f y x := by
  apply List.ext_getElem?
  intro j
  simp [lift2_eq]

/-- The element at step `j` of the tensor which is being changed. -/
theorem mid_get {β : Type} {r c : List β} (hr : r.length = c.length) (j i : Nat) (hi : i < c.length) :
    (r.take j ++ c.drop j)[i]? = if i < j then r[i]? else c[i]? := by
  by_cases hij : i < j
  · rw [List.getElem?_append_left (by simp; omega)]
    simp [hij]
  · rw [List.getElem?_append_right (by simp; omega)]
    simp only [hij, if_false, List.length_take, List.getElem?_drop]
    congr 1
    omega

/-- An iterator over the data of a tensor with the same number of elements, possibly the same data. -/
theorem fetch_blk {s : RefCount.St α} {B b : Nat} {l m : Cells α} (f : α → α → α) (hB : s.blks B = some l)
    (hb : s.blks b = some m) (hlen : l.length = m.length) (j : Nat) (hj : j < l.length) (t : Cells α)
    (ht : t = (l.mapIdx fun j x => lift2 f x (m[j]?).join).take j ++ l.drop j) :
    fetch { s with blks := upd s.blks B (some t) } (.blk b) j = .ok (m[j]?).join := by
  have e : (m[j]?) = some m[j] := List.getElem?_eq_getElem (by omega)
  by_cases hbB : b = B
  · subst hbB
    rw [hB] at hb
    cases hb
    simp only [fetch, getBlk, upd_same, Res.ofOption_some, Res.ok_bind]
    rw [ht, mid_get (by simp) j j hj]
    rw [if_neg (Nat.lt_irrefl j), e]
    rfl
  · simp only [fetch, getBlk, upd_ne _ _ hbB, hb, Res.ofOption_some, Res.ok_bind]
    rw [e]
    rfl

/-- A reference to an element of other data. -/
theorem fetch_cell {s : RefCount.St α} {B b i : Nat} {m : Cells α} {x : Option α} (hne : B ≠ b)
    (hb : s.blks b = some m) (hx : m[i]? = some x) (j : Nat) (t : Cells α) :
    fetch { s with blks := upd s.blks B (some t) } (.cell b i) j = .ok x := by
  simp [fetch, getBlk, upd_ne _ _ (Ne.symm hne), hb, hx]

/-- A reference to an element of the data which is being changed. -/
theorem fetch_own {s : RefCount.St α} {B i : Nat} {l : Cells α} {x : Option α} (f : α → α → α)
    (hx : l[i]? = some x) (j : Nat) (t : Cells α)
    (ht : t = (l.mapIdx fun j z => lift2 f z (if j ≤ i then x else lift2 f x x)).take j ++ l.drop j) :
    fetch { s with blks := upd s.blks B (some t) } (.cell B i) j = .ok (if j ≤ i then x else lift2 f x x) := by
  have hi := (List.getElem?_eq_some_iff.1 hx).1
  simp only [fetch, getBlk, upd_same, Res.ofOption_some, Res.ok_bind]
  rw [ht, mid_get (by simp) j i hi]
  by_cases hij : i < j
  · have : ¬ j ≤ i := by omega
    simp [hij, this, hx, Res.ofOption]
  · have : j ≤ i := by omega
    simp [hij, this, hx, Res.ofOption]

theorem inplace_sim {s : RefCount.St α} {a a' : RefCount.Spec.ASt α} {k : Nat} (r : Rel s a k) (f : α → α → α)
    (first : Bool) (h : Nat) (o : Operand α) (ho : Apart h o) (hs : Spec.assign f a h o = some a') :
    ∃ s', inplace f first s h o = .ok s' ∧ Rel s' a' k ∧ s'.hs.length = s.hs.length := by
  simp only [Spec.assign] at hs
  cases hl : a.vals[h]?.join with
  | none => simp [hl] at hs
  | some l =>
  cases hv : Spec.value f a.vals l o with
  | none => simp [hl, hv] at hs
  | some l' =>
  simp only [hl, hv, Option.bind_eq_bind, Option.bind_some, Option.some.injEq] at hs
  subst hs
  have hlens : ∀ {s2 : RefCount.St α} {v : List (Option α)},
      Rel s2 { a with vals := a.vals.set h (some v) } k → s2.hs.length = s.hs.length := by
    intro s2 v r2
    have e1 := congrArg List.length r2.vals
    have e2 := congrArg List.length r.vals
    simp at e1 e2
    omega
  obtain ⟨p, P, hp, hh, hP, hb, hz⟩ := ptr_of_vals r hl
  cases o with
  | tensor g =>
    simp only [Spec.value] at hv
    cases hm : a.vals[g]?.join with
    | none => simp [hm] at hv
    | some m =>
      simp only [hm, Option.bind_eq_bind, Option.bind_some] at hv
      split at hv
      · rename_i hlen
        cases hv
        obtain ⟨pg, G, hpg, hhg, hG, hbg, hzg⟩ := ptr_of_vals r hm
        obtain ⟨s', q, Q, ea, hq, h1, hQ, hbQ, hzQ, r', hk, -, -⟩ := appropriate_cases r hp hP hb
        have hsz : P.size = G.size := by omega
        obtain ⟨pg', G', hpg', hhg', hG', hbg', -⟩ := ptr_of_vals r' hm
        have main : ∀ (src : RefCount.St α → Res (Src α)) (b : Nat), src s' = .ok (.blk b) → s'.blks b = some m →
            ∃ s2, transform f s h src = .ok s2 ∧
              Rel s2 { a with vals := a.vals.set h (some (List.zipWith (Spec.both f) l m)) } k ∧
              s2.hs.length = s.hs.length := by
          intro src b hsrc hbb
          obtain ⟨s2, e2, -, r2⟩ := transform_eq f ea hq h1 hQ hbQ hzQ r' hsrc (fun j => (m[j]?).join)
            (fun j hj t ht => fetch_blk f hbQ hbb hlen j hj t ht)
          rw [mapIdx_zipWith f l m hlen] at r2
          exact ⟨s2, e2, r2, hlens r2⟩
        cases first with
        | true =>
          simp only [inplace, sizeOf, block, hh, hhg, Res.ok_bind, getPtr, hP, hG, Res.ofOption_some, Res.pure_eq,
            hsz, if_true]
          exact main _ G.blk rfl (hk _ _ hbg)
        | false =>
          simp only [inplace, sizeOf, hh, hhg, Res.ok_bind, getPtr, hP, hG, Res.ofOption_some, Res.pure_eq,
            hsz, if_true, Bool.false_eq_true, if_false]
          refine main _ G'.blk ?_ hbg'
          simp [block, hhg', getPtr, hG']
      · cases hv
  | number x =>
    simp only [Spec.value, Option.some.injEq] at hv
    subst hv
    obtain ⟨s', q, Q, ea, hq, h1, hQ, hbQ, hzQ, r', hk, -, -⟩ := appropriate_cases r hp hP hb
    obtain ⟨s2, e2, -, r2⟩ := transform_eq (src := fun _ => pure (.const x)) f ea hq h1 hQ hbQ hzQ r' rfl
      (fun _ => some x) (fun j hj t ht => rfl)
    rw [mapIdx_map] at r2
    exact ⟨s2, e2, r2, hlens r2⟩
  | elem g i =>
    simp only [Spec.value] at hv
    cases hm : a.vals[g]?.join with
    | none => simp [hm] at hv
    | some m =>
    cases hx : m[i]? with
    | none => simp [hm, hx] at hv
    | some x =>
      simp only [hm, hx, Option.bind_eq_bind, Option.bind_some, Option.some.injEq] at hv
      subst hv
      obtain ⟨pg, G, hpg, hhg, hG, hbg, hzg⟩ := ptr_of_vals r hm
      obtain ⟨s', q, Q, ea, hq, h1, hQ, hbQ, hzQ, r', hk, hone, hmany⟩ := appropriate_cases r hp hP hb
      have hi := (List.getElem?_eq_some_iff.1 hx).1
      have hne : Q.blk ≠ G.blk := by
        by_cases hc : 1 < cnt s.hs p
        · exact hmany hc _ _ hbg
        · have hc1 : cnt s.hs p = 1 := by
            have := cnt_pos hp
            omega
          obtain ⟨-, -, rfl⟩ := hone hc1
          intro e
          have := r.inv.inj _ _ _ _ hP hG e
          subst this
          have := ElemRef.other_handle hp hpg (Ne.symm ho)
          omega
      obtain ⟨s2, e2, -, r2⟩ := transform_eq (src := fun _ => pure (.cell G.blk i)) f ea hq h1 hQ hbQ hzQ r' rfl
        (fun _ => x) (fun j hj t ht => fetch_cell hne (hk _ _ hbg) hx j t)
      rw [mapIdx_map] at r2
      refine ⟨s2, ?_, r2, hlens r2⟩
      simp only [inplace, hhg, Res.ok_bind, ElemRef.addr_ok hG hbg hi]
      exact e2
  | elemAt g i =>
    simp only [Spec.value] at hv
    cases hm : a.vals[g]?.join with
    | none => simp [hm] at hv
    | some m =>
    cases hx : m[i]? with
    | none => simp [hm, hx] at hv
    | some x =>
      simp only [hm, hx, Option.bind_eq_bind, Option.bind_some, Option.some.injEq] at hv
      subst hv
      obtain ⟨pg, G, hpg, hhg, hG, hbg, hzg⟩ := ptr_of_vals r hm
      obtain ⟨t1, u, U, eu, hu, hu1, hU, hbU, hzU, rt, -, -, -⟩ := appropriate_cases r hpg hG hbg
      obtain ⟨p', P', hp', hh', hP', hb', hz'⟩ := ptr_of_vals rt hl
      obtain ⟨s', q, Q, ea, hq, h1, hQ, hbQ, hzQ, r', hk, hone, hmany⟩ := appropriate_cases rt hp' hP' hb'
      have hi := (List.getElem?_eq_some_iff.1 hx).1
      have hne : Q.blk ≠ U.blk := by
        by_cases hc : 1 < cnt t1.hs p'
        · exact hmany hc _ _ hbU
        · have hc1 : cnt t1.hs p' = 1 := by
            have := cnt_pos hp'
            omega
          obtain ⟨-, -, rfl⟩ := hone hc1
          intro e
          have := rt.inv.inj _ _ _ _ hP' hU e
          subst this
          have := ElemRef.other_handle hp' hu (Ne.symm ho)
          omega
      obtain ⟨s2, e2, -, r2⟩ := transform_eq (src := fun _ => pure (.cell U.blk i)) f ea hq h1 hQ hbQ hzQ r' rfl
        (fun _ => x) (fun j hj t ht => fetch_cell hne (hk _ _ hbU) hx j t)
      rw [mapIdx_map] at r2
      refine ⟨s2, ?_, r2, hlens r2⟩
      simp only [inplace, eu, Res.ok_bind, ElemRef.addr_ok hU hbU hi]
      exact e2

theorem ownValue_eq (f : α → α → α) (l : Cells α) (i : Nat) (x : Option α) :
    (l.mapIdx fun j z => lift2 f z (if j ≤ i then x else lift2 f x x)) = ownValue f l i x := by
  simp only [ownValue, lift2_eq]

/-- `h op= h[i]`. -/
theorem own_sim {s : RefCount.St α} {a : RefCount.Spec.ASt α} {k : Nat} (r : Rel s a k) (f : α → α → α) (first : Bool)
    {h i p : Nat} {l : List (Option α)} (hl : a.vals[h]?.join = some l) {x : Option α} (hx : l[i]? = some x)
    (hp : s.hs[h]? = some (some p)) :
    ∃ s', inplace f first s h (.elem h i) = .ok s' ∧
      (1 < cnt s.hs p → Rel s' { a with vals := a.vals.set h (some (l.map fun y => Spec.both f y x)) } k) ∧
      (cnt s.hs p = 1 → Rel s' { a with vals := a.vals.set h (some (ownValue f l i x)) } k) := by
  obtain ⟨p', P, hp', hh, hP, hb, hz⟩ := ptr_of_vals r hl
  rw [hp] at hp'
  cases hp'
  obtain ⟨s', q, Q, ea, hq, h1, hQ, hbQ, hzQ, r', hk, hone, hmany⟩ := appropriate_cases r hp hP hb
  have hi := (List.getElem?_eq_some_iff.1 hx).1
  by_cases hc : 1 < cnt s.hs p
  · obtain ⟨s2, e2, -, r2⟩ := transform_eq (src := fun _ => pure (.cell P.blk i)) f ea hq h1 hQ hbQ hzQ r' rfl
      (fun _ => x) (fun j hj t ht => fetch_cell (hmany hc _ _ hb) (hk _ _ hb) hx j t)
    rw [mapIdx_map] at r2
    refine ⟨s2, ?_, fun _ => r2, fun h => by omega⟩
    simp only [inplace, hh, Res.ok_bind, ElemRef.addr_ok hP hb hi]
    exact e2
  · have hc1 : cnt s.hs p = 1 := by
      have := cnt_pos hp
      omega
    obtain ⟨rfl, rfl, rfl⟩ := hone hc1
    obtain ⟨s2, e2, -, r2⟩ := transform_eq (src := fun _ => pure (.cell Q.blk i)) f ea hq h1 hQ hbQ hzQ r' rfl
      (fun j => if j ≤ i then x else lift2 f x x) (fun j hj t ht => fetch_own f hx j t ht)
    rw [ownValue_eq] at r2
    refine ⟨s2, ?_, fun h => by omega, fun _ => r2⟩
    simp only [inplace, hh, Res.ok_bind, ElemRef.addr_ok hP hb hi]
    exact e2

/-- `h op= h.at(i)`. -/
theorem ownAt_sim {s : RefCount.St α} {a : RefCount.Spec.ASt α} {k : Nat} (r : Rel s a k) (f : α → α → α)
    (first : Bool) {h i : Nat} {l : List (Option α)} (hl : a.vals[h]?.join = some l) {x : Option α}
    (hx : l[i]? = some x) :
    ∃ s', inplace f first s h (.elemAt h i) = .ok s' ∧
      Rel s' { a with vals := a.vals.set h (some (ownValue f l i x)) } k := by
  obtain ⟨p, P, hp, hh, hP, hb, hz⟩ := ptr_of_vals r hl
  obtain ⟨t1, u, U, eu, hu, hu1, hU, hbU, hzU, rt, -, -, -⟩ := appropriate_cases r hp hP hb
  obtain ⟨s', q, Q, ea, hq, h1, hQ, hbQ, hzQ, r', hk, hone, hmany⟩ := appropriate_cases rt hu hU hbU
  have hi := (List.getElem?_eq_some_iff.1 hx).1
  obtain ⟨rfl, rfl, rfl⟩ := hone hu1
  obtain ⟨s2, e2, -, r2⟩ := transform_eq (src := fun _ => pure (.cell Q.blk i)) f ea hq h1 hQ hbQ hzQ r' rfl
    (fun j => if j ≤ i then x else lift2 f x x) (fun j hj t ht => fetch_own f hx j t ht)
  rw [ownValue_eq] at r2
  refine ⟨s2, ?_, r2⟩
  simp only [inplace, eu, Res.ok_bind, ElemRef.addr_ok hU hbU hi]
  exact e2

/-- The copy which is returned and destroyed leaves no trace. -/
theorem discard_sim {s : RefCount.St α} {a : RefCount.Spec.ASt α} {k : Nat} (r : Rel s a k) {h p : Nat}
    (hp : s.hs[h]? = some (some p)) :
    ∃ s1 s2, reference s p = .ok s1 ∧ dereference s1 p = .ok s2 ∧ Rel s2 a k ∧ s2.hs = s.hs := by
  obtain ⟨s1, e1, e2, hi, hct, ha⟩ := reference_spec r.inv (cnt_pos hp)
  have hpos := cnt_pos hp
  obtain ⟨s2, d1, d2, d3, d4, d5, d6⟩ := dereference_spec hi (p := p) (by simp)
  refine ⟨s1, s2, e1, d1, ⟨?_, ?_, r.elen, ?_⟩, d2.trans e2⟩
  · have e : upd (upd (cnt s.hs) p (cnt s.hs p + 1)) p (upd (cnt s.hs) p (cnt s.hs p + 1) p - 1) = cnt s.hs := by
      funext x
      by_cases hx : x = p
      · subst hx; simp
      · simp [upd_ne _ _ hx]
    rw [e] at d4
    rw [d2, e2]
    exact d4
  · rw [r.vals, d2, e2]
    symm
    apply map_content_congr
    intro q _
    rw [d5 q (.inr (by simp; omega)), hct]
  · intro b m hb
    have hlt : b < k := by
      have := (List.getElem?_eq_some_iff.1 hb).1
      rw [← r.elen]; exact this
    exact d6 b m hlt (ha b m (r.avail b m hb))

/-- The memory holds the values, and the references name the same tensors. -/
structure Sim (s : St α) (a : Spec.ASt α) (k : Nat) : Prop where
  rel : Rel s.mem a.mem k
  names : s.names = a.names

theorem sim_init (ext : List (Cells α)) : Sim (init ext) (Spec.init ext) ext.length :=
  ⟨rel_init ext, rfl⟩

theorem byValue_iff (k : Kind) (o : Operand α) : byValue k o = false ↔ ByReference k o := by
  cases k <;> cases o <;> simp [byValue, ByReference]

/-- The end of `h op= o;`. -/
theorem finish_sim {s1 : RefCount.St α} {a1 : RefCount.Spec.ASt α} {kk : Nat} (r1 : Rel s1 a1 kk) (k : Kind) (h : Nat)
    (o : Operand α) {l : Cells α} (hl : a1.vals[h]?.join = some l) (names : List Nat) :
    ∃ s2, (if byValue k o then do
        let p ← handle s1 h
        let s2 ← reference s1 p
        let s3 ← dereference s2 p
        pure ((⟨s3, names⟩, .unit) : St α × Out α)
      else pure (⟨s1, names⟩, .unit)) = .ok (⟨s2, names⟩, .unit) ∧ Rel s2 a1 kk := by
  cases hb : byValue k o with
  | false => exact ⟨s1, by simp, r1⟩
  | true =>
    obtain ⟨p, hp, hh, -⟩ := handle_of_vals r1 hl
    obtain ⟨s2, s3, e2, e3, r3, -⟩ := discard_sim r1 hp
    exact ⟨s3, by simp [hh, e2, e3], r3⟩

theorem assign_self {f : α → α → α} {a a' : RefCount.Spec.ASt α} {h : Nat} {o : Operand α}
    (hs : Spec.assign f a h o = some a') : ∃ l, a'.vals[h]?.join = some l := by
  simp only [Spec.assign] at hs
  cases hl : a.vals[h]?.join with
  | none => simp [hl] at hs
  | some l =>
  cases hv : Spec.value f a.vals l o with
  | none => simp [hl, hv] at hs
  | some l' =>
  simp only [hl, hv, Option.bind_eq_bind, Option.bind_some, Option.some.injEq] at hs
  subst hs
  have hlt : h < a.vals.length := by
    rcases Nat.lt_or_ge h a.vals.length with h1 | h1
    · exact h1
    · rw [List.getElem?_eq_none h1] at hl; cases hl
  exact ⟨l', by simp [hlt]⟩

theorem step_sim (sem : Kind → α → α → α) {s : St α} {a a' : Spec.ASt α} {k : Nat} (r : Sim s a k) (c : Stmt α)
    (hc : Plain c) {o : Out α} (hs : Spec.step sem a c = some (a', o)) :
    ∃ s', step sem s c = .ok (s', o) ∧ Sim s' a' k := by
  cases c with
  | op op =>
    simp only [Spec.step] at hs
    cases h1 : RefCount.Spec.step a.mem op with
    | none => simp [h1] at hs
    | some x =>
      simp only [h1, Option.bind_eq_bind, Option.bind_some, Option.some.injEq, Prod.mk.injEq] at hs
      obtain ⟨rfl, rfl⟩ := hs
      obtain ⟨m, e, r'⟩ := RefCount.step_sim r.rel op h1
      exact ⟨⟨m, s.names⟩, by simp [step, e], r', r.names⟩
  | assign kd first h op =>
    simp only [Spec.step] at hs
    cases h1 : Spec.assign (sem kd) a.mem h op with
    | none => simp [h1] at hs
    | some x =>
      simp only [h1, Option.bind_eq_bind, Option.bind_some, Option.some.injEq, Prod.mk.injEq] at hs
      obtain ⟨rfl, rfl⟩ := hs
      obtain ⟨m, e, r', -⟩ := inplace_sim r.rel (sem kd) first h op hc h1
      obtain ⟨l, hl⟩ := assign_self h1
      obtain ⟨s2, e2, r2⟩ := finish_sim r' kd h op hl s.names
      exact ⟨⟨s2, s.names⟩, by simp only [step, e, Res.ok_bind]; exact e2, r2, r.names⟩
  | keep kd first h op =>
    obtain ⟨hc1, hc2⟩ := hc
    simp only [Spec.step] at hs
    cases h1 : Spec.assign (sem kd) a.mem h op with
    | none => simp [h1] at hs
    | some x =>
      simp only [h1, Option.bind_eq_bind, Option.bind_some, Option.some.injEq, Prod.mk.injEq] at hs
      obtain ⟨rfl, rfl⟩ := hs
      obtain ⟨m, e, r', -⟩ := inplace_sim r.rel (sem kd) first h op hc1 h1
      have hb := (byValue_iff kd op).2 hc2
      exact ⟨⟨m, s.names ++ [h]⟩, by simp [step, e, hb], r', by simp [r.names]⟩
  | look n i =>
    simp only [Spec.step] at hs
    cases h1 : a.names[n]? with
    | none => simp [h1] at hs
    | some h =>
    cases h2 : a.mem.vals[h]?.join with
    | none => simp [h1, h2] at hs
    | some l =>
    cases h3 : l[i]? with
    | none => simp [h1, h2, h3] at hs
    | some v =>
      simp only [h1, h2, h3, Option.bind_eq_bind, Option.bind_some, Option.some.injEq, Prod.mk.injEq] at hs
      obtain ⟨rfl, rfl⟩ := hs
      obtain ⟨m, e, -⟩ := RefCount.step_sim r.rel (.read h i) (a' := a.mem) (o := .val v)
        (by simp [RefCount.Spec.step, h2, h3])
      refine ⟨s, ?_, r⟩
      simp [step, r.names, h1, e]

theorem run_sim (sem : Kind → α → α → α) {s : St α} {a a' : Spec.ASt α} {k : Nat} (r : Sim s a k) (cs : List (Stmt α))
    (hc : ∀ c ∈ cs, Plain c) {os : List (Out α)} (hs : Spec.run sem a cs = some (a', os)) :
    ∃ s', run sem s cs = .ok (s', os) ∧ Sim s' a' k := by
  induction cs generalizing s a os with
  | nil =>
    simp only [Spec.run, Option.some.injEq, Prod.mk.injEq] at hs
    obtain ⟨rfl, rfl⟩ := hs
    exact ⟨s, rfl, r⟩
  | cons c cs ih =>
    simp only [Spec.run] at hs
    cases h1 : Spec.step sem a c with
    | none => simp [h1] at hs
    | some x =>
      obtain ⟨a1, o⟩ := x
      cases h2 : Spec.run sem a1 cs with
      | none => simp [h1, h2] at hs
      | some y =>
        obtain ⟨a2, os2⟩ := y
        simp only [h1, h2, Option.bind_eq_bind, Option.bind_some, Option.some.injEq, Prod.mk.injEq] at hs
        obtain ⟨rfl, rfl⟩ := hs
        obtain ⟨s1, e1, r1⟩ := step_sim sem r c (hc c (by simp)) h1
        obtain ⟨s2, e2, r2⟩ := ih r1 (fun c hcs => hc c (by simp [hcs])) h2
        exact ⟨s2, by simp [run, e1, e2], r2⟩

theorem run_append (sem : Kind → α → α → α) (s : St α) (cs ds : List (Stmt α)) :
    run sem s (cs ++ ds) = (do
      let x ← run sem s cs
      let y ← run sem x.1 ds
      pure (y.1, x.2 ++ y.2)) := by
  induction cs generalizing s with
  | nil =>
    simp only [List.nil_append, run, Res.ok_bind]
    cases run sem s ds with
    | ok y => rfl
    | abort => rfl
    | ub => rfl
  | cons c cs ih =>
    simp only [List.cons_append, run]
    cases h1 : step sem s c with
    | abort => rfl
    | ub => rfl
    | ok x =>
      simp only [Res.ok_bind, ih]
      cases h2 : run sem x.1 cs with
      | abort => rfl
      | ub => rfl
      | ok y =>
        cases h3 : run sem y.1 ds <;> simp [h3]

end Verif.Inplace
