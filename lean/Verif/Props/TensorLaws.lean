import Verif.Props.Network
import Verif.Props.Reduce
import Mathlib.Data.Fintype.EquivFin
import Mathlib.Data.List.FinRange
/-
C134: laws between permute, trace, scale, fold and sums, for tensors of any rank.
-/
namespace Verif.Tensor

open Verif Spec

variable {α : Type}

theorem swapAt_get {β : Type} (l : List β) {i j : Nat} (hi : i < l.length) (hj : j < l.length) (k : Nat) :
    (swapAt l i j)[k]? = if k = j then l[i]? else if k = i then l[j]? else l[k]? := by
  unfold swapAt
  rw [List.getElem?_eq_getElem hi, List.getElem?_eq_getElem hj]
  simp only [List.getElem?_set, List.length_set]
  by_cases h1 : k = j
  · subst h1; simp [hj]
  · rw [if_neg (fun h => h1 h.symm), if_neg h1]
    by_cases h2 : k = i
    · subst h2; simp [hi]
    · rw [if_neg (fun h => h2 h.symm), if_neg h2]

/-- The elements of the tensor which permute returns. -/
theorem permute_get (t : Tensor α) (wf : t.WF) {i j : Int} {n m : Nat} (hi : norm t.dims.length i = some n)
    (hj : norm t.dims.length j = some m) :
    ∃ b : Tensor α, permute t i j = .ok b ∧ b.WF ∧ b.dims = swapAt t.dims n m ∧
      ∀ idx, InB idx b.dims → InB (swapAt idx n m) t.dims ∧
        elem b.dims b.data idx = elem t.dims t.data (swapAt idx n m) := by
  obtain ⟨b, e, wfb, hd, hel⟩ := (c17_permute t wf i j).1 n m hi hj
  refine ⟨b, e, wfb, hd, fun idx hidx => ?_⟩
  have hlen : b.dims.length = t.dims.length := by rw [hd, swapAt_length]
  obtain ⟨c, -, -, hd2, hel2⟩ := (c17_permute b wfb i j).1 n m (by rw [hlen]; exact hi) (by rw [hlen]; exact hj)
  have h1 := (hel2 idx hidx).1
  rw [hd2, hd, swapAt_swapAt] at h1
  refine ⟨h1, ?_⟩
  have := (hel _ h1).2
  rwa [swapAt_swapAt] at this

/-- C134: the order of the two indices given to permute does not matter, and permuting an index with itself does
nothing. -/
theorem c134_permute_arguments (t : Tensor α) (wf : t.WF) (i j : Int) :
    permute t i j = permute t j i ∧
    (∀ n, norm t.dims.length i = some n → norm t.dims.length j = some n → permute t i j = .ok t) := by
  constructor
  · cases hi : norm t.dims.length i with
    | none => rw [(c17_permute t wf i j).2 (.inl hi), (c17_permute t wf j i).2 (.inr hi)]
    | some n =>
      cases hj : norm t.dims.length j with
      | none => rw [(c17_permute t wf i j).2 (.inr hj), (c17_permute t wf j i).2 (.inl hj)]
      | some m =>
        obtain ⟨b, e, wfb, hd, hb⟩ := permute_get t wf hi hj
        obtain ⟨c, e', wfc, hd', hc⟩ := permute_get t wf hj hi
        rw [e, e']
        have hdd : b.dims = c.dims := by rw [hd, hd', swapAt_comm]
        rw [ext_elem wfb wfc hdd fun idx h => by
          rw [(hb idx h).2, (hc idx (hdd ▸ h)).2, swapAt_comm]]
  · intro n hi hj
    obtain ⟨b, e, wfb, hd, hb⟩ := permute_get t wf hi hj
    rw [swapAt_self] at hd
    rw [e, ext_elem wfb wf hd fun idx h => by rw [(hb idx h).2, swapAt_self]]

/-- C134: permutations of disjoint pairs of indices may be made in any order. -/
theorem c134_permute_disjoint (t : Tensor α) (wf : t.WF) (i j k l : Int) (a b c d : Nat)
    (hi : norm t.dims.length i = some a) (hj : norm t.dims.length j = some b) (hk : norm t.dims.length k = some c)
    (hl : norm t.dims.length l = some d) (h1 : a ≠ c) (h2 : a ≠ d) (h3 : b ≠ c) (h4 : b ≠ d) :
    (do let u ← permute t i j; permute u k l) = (do let u ← permute t k l; permute u i j) := by
  have key : ∀ x : List Nat, x.length = t.dims.length →
      swapAt (swapAt x a b) c d = swapAt (swapAt x c d) a b := by
    intro x hx
    have ha := norm_lt hi
    have hb := norm_lt hj
    have hc := norm_lt hk
    have hd := norm_lt hl
    apply List.ext_getElem?
    intro p
    rw [swapAt_get (swapAt x a b) (by rw [swapAt_length]; omega) (by rw [swapAt_length]; omega),
      swapAt_get (swapAt x c d) (by rw [swapAt_length]; omega) (by rw [swapAt_length]; omega)]
    simp only [swapAt_get x (i := a) (j := b) (by omega) (by omega),
      swapAt_get x (i := c) (j := d) (by omega) (by omega)]
    split_ifs <;> first | rfl | omega
  obtain ⟨u, e, wfu, hdu, hu⟩ := permute_get t wf hi hj
  have lu : u.dims.length = t.dims.length := by rw [hdu, swapAt_length]
  obtain ⟨v, e', wfv, hdv, hv⟩ := permute_get t wf hk hl
  have lv : v.dims.length = t.dims.length := by rw [hdv, swapAt_length]
  obtain ⟨x, e1, wfx, hdx, hx⟩ := permute_get u wfu (lu ▸ hk) (lu ▸ hl)
  obtain ⟨y, e2, wfy, hdy, hy⟩ := permute_get v wfv (lv ▸ hi) (lv ▸ hj)
  have hd : x.dims = y.dims := by rw [hdx, hdy, hdu, hdv, key _ rfl]
  have lx : x.dims.length = t.dims.length := by rw [hdx, swapAt_length, lu]
  rw [e, e', Res.ok_bind, Res.ok_bind, e1, e2]
  rw [ext_elem wfx wfy hd fun idx h => by
    have h' : InB idx y.dims := hd ▸ h
    rw [(hx idx h).2, (hy idx h').2, (hu _ (hx idx h).1).2, (hv _ (hy idx h').1).2,
      key idx (by rw [h.length, lx])]]

/-- C134: exchanging i and j, then j and k, and then i and j again exchanges i and k. -/
theorem c134_permute_braid (t : Tensor α) (wf : t.WF) (i j k : Int) (a b c : Nat)
    (hi : norm t.dims.length i = some a) (hj : norm t.dims.length j = some b) (hk : norm t.dims.length k = some c)
    (h1 : a ≠ b) (h2 : b ≠ c) (h3 : a ≠ c) :
    (do let u ← permute t i j; let v ← permute u j k; permute v i j) = permute t i k := by
  have key : ∀ x : List Nat, x.length = t.dims.length →
      swapAt (swapAt (swapAt x a b) b c) a b = swapAt x a c := by
    intro x hx
    have ha := norm_lt hi
    have hb := norm_lt hj
    have hc := norm_lt hk
    apply List.ext_getElem?
    intro p
    rw [swapAt_get _ (by simp only [swapAt_length]; omega) (by simp only [swapAt_length]; omega)]
    simp only [swapAt_get (swapAt x a b) (i := b) (j := c) (by rw [swapAt_length]; omega) (by rw [swapAt_length]; omega)]
    simp only [swapAt_get x (i := a) (j := b) (by omega) (by omega),
      swapAt_get x (i := a) (j := c) (by omega) (by omega)]
    split_ifs <;> first | rfl | omega | (subst_vars; rfl)
  obtain ⟨u, e, wfu, hdu, hu⟩ := permute_get t wf hi hj
  have lu : u.dims.length = t.dims.length := by rw [hdu, swapAt_length]
  obtain ⟨v, e1, wfv, hdv, hv⟩ := permute_get u wfu (lu ▸ hj) (lu ▸ hk)
  have lv : v.dims.length = t.dims.length := by rw [hdv, swapAt_length, lu]
  obtain ⟨w, e2, wfw, hdw, hw⟩ := permute_get v wfv (lv ▸ hi) (lv ▸ hj)
  have lw : w.dims.length = t.dims.length := by rw [hdw, swapAt_length, lv]
  obtain ⟨y, e3, wfy, hdy, hy⟩ := permute_get t wf hi hk
  have hd : w.dims = y.dims := by rw [hdw, hdy, hdv, hdu, key _ rfl]
  rw [e, e3, Res.ok_bind, e1, Res.ok_bind, e2]
  rw [ext_elem wfw wfy hd fun idx h => by
    have h' : InB idx y.dims := hd ▸ h
    rw [(hw idx h).2, (hy idx h').2, (hv _ (hw idx h).1).2, (hu _ (hv _ (hw idx h).1).1).2,
      key idx (by rw [h.length, lw])]]

theorem perm_of_injective {x y : List α} (f : Fin x.length → Fin y.length) (hf : Function.Injective f)
    (hl : x.length = y.length) (hg : ∀ p : Fin x.length, x[(p : Nat)]? = y[(f p : Nat)]?) : x.Perm y := by
  have hb : Function.Bijective f :=
    (Fintype.bijective_iff_injective_and_card f).2 ⟨hf, by simpa using hl⟩
  have h1 : (x : Multiset α) = (Finset.univ : Finset (Fin x.length)).val.map fun p : Fin x.length => x[(p : Nat)] := by
    rw [Fin.univ_val_map, List.ofFn_getElem]
  have h2 : (y : Multiset α) = (Finset.univ : Finset (Fin y.length)).val.map fun p : Fin y.length => y[(p : Nat)] := by
    rw [Fin.univ_val_map, List.ofFn_getElem]
  rw [← Multiset.coe_eq_coe, h1, h2, ← Finset.map_univ_equiv (Equiv.ofBijective f hb), Finset.map_val,
    Multiset.map_map]
  apply Multiset.map_congr rfl
  intro p _
  have := hg p
  rw [List.getElem?_eq_getElem p.2, List.getElem?_eq_getElem (f p).2] at this
  simpa using this

theorem permute_inj (t b : Tensor α) (wf : t.WF) (i j : Int) (h : permute t i j = .ok b) :
    ∃ f : Fin b.data.length → Fin t.data.length, Function.Injective f ∧
      ∀ p : Fin b.data.length, b.data[(p : Nat)]? = t.data[(f p : Nat)]? := by
  cases hi : norm t.dims.length i with
  | none => rw [(c17_permute t wf i j).2 (.inl hi)] at h; cases h
  | some n =>
    cases hj : norm t.dims.length j with
    | none => rw [(c17_permute t wf i j).2 (.inr hj)] at h; cases h
    | some m =>
      obtain ⟨b', e, wfb, hd, hb⟩ := permute_get t wf hi hj
      rw [h] at e
      cases e
      have hne : t.dims ≠ [] := by
        intro e; have := norm_lt hi; rw [e] at this; simp at this
      have hne' : b.dims ≠ [] := by
        intro e; have := congrArg List.length hd; rw [e, swapAt_length] at this
        simp at this; exact hne (List.length_eq_zero_iff.1 this.symm)
      have l1 := wf.length_eq hne
      have l2 := wfb.length_eq hne'
      have ex : ∀ p : Fin b.data.length, ∃ idx, InB idx b.dims ∧ colPos b.dims idx = p := fun p =>
        colPos_surj b.dims p (by have := p.2; omega)
      choose ix hix hpos using ex
      refine ⟨fun p => ⟨colPos t.dims (swapAt (ix p) n m), by rw [l1]; exact colPos_lt (hb _ (hix p)).1⟩, ?_, ?_⟩
      · intro p q hpq
        have e1 := colPos_inj (hb _ (hix p)).1 (hb _ (hix q)).1 (Fin.mk.inj_iff.1 hpq)
        have e2 : ix p = ix q := by rw [← swapAt_swapAt (ix p) n m, e1, swapAt_swapAt]
        apply Fin.ext
        rw [← hpos p, ← hpos q, e2]
      · intro p
        have := (hb _ (hix p)).2
        rw [elem, elem, if_pos (hix p), if_pos (hb _ (hix p)).1, hpos p] at this
        exact this

/-- C134: permute returns the elements of the tensor in another order. -/
theorem c134_permute_perm (t b : Tensor α) (wf : t.WF) (i j : Int) (h : permute t i j = .ok b) :
    b.data.Perm t.data := by
  have wfb : b.WF := by
    cases hi : norm t.dims.length i with
    | none => rw [(c17_permute t wf i j).2 (.inl hi)] at h; cases h
    | some n =>
      cases hj : norm t.dims.length j with
      | none => rw [(c17_permute t wf i j).2 (.inr hj)] at h; cases h
      | some m =>
        obtain ⟨b', e, wfb, -⟩ := permute_get t wf hi hj
        rw [h] at e; cases e; exact wfb
  obtain ⟨f, hf, hg⟩ := permute_inj t b wf i j h
  obtain ⟨g, hgi, -⟩ := permute_inj b t wfb i j (c17_involution t wf i j b h)
  have l1 := Fintype.card_le_of_injective f hf
  have l2 := Fintype.card_le_of_injective g hgi
  simp only [Fintype.card_fin] at l1 l2
  exact perm_of_injective f hf (by omega) hg

/-- C134: the order of the indices given to trace does not matter. -/
theorem c134_trace_symmetric [Zero α] [Add α] (D : Tensor α) (i j : Int) : trace2 D i j = trace2 D j i := by
  simp only [trace2, Res.assert_bind]
  split_ifs <;> first | rfl | omega

/-- C134: the trace over two indices does not change if they are exchanged before; the program stops for the same
arguments. -/
theorem c134_trace_permute [AddCommMonoid α] (D : Tensor α) (wf : D.WF) (i j : Int) :
    (do let E ← permute D i j; trace2 E i j) = trace2 D i j := by
  cases hi : norm D.dims.length i with
  | none => rw [(c17_permute D wf i j).2 (.inl hi), c25_trace_positions D i j (.inl hi)]; rfl
  | some n =>
    cases hj : norm D.dims.length j with
    | none => rw [(c17_permute D wf i j).2 (.inr hj), c25_trace_positions D i j (.inr (.inl hj))]; rfl
    | some m =>
      obtain ⟨E, e, wfE, hd, hE⟩ := permute_get D wf hi hj
      have lE : E.dims.length = D.dims.length := by rw [hd, swapAt_length]
      rw [e, Res.ok_bind]
      by_cases hnm : n = m
      · subst hnm
        rw [c25_trace_positions D i j (.inr (.inr (by rw [hi, hj]))),
          c25_trace_positions E i j (.inr (.inr (by rw [lE, hi, hj])))]
      by_cases hir : i = -(D.dims.length : Int)
      · rw [hir, c25_trace_minus_rank D, ← lE, c25_trace_minus_rank E]
      by_cases hjr : j = -(D.dims.length : Int)
      · rw [c134_trace_symmetric D, c134_trace_symmetric E, hjr, c25_trace_minus_rank D, ← lE,
          c25_trace_minus_rank E]
      have main : ∀ (i j : Int) (n m : Nat), norm D.dims.length i = some n → norm D.dims.length j = some m →
          n < m → i ≠ -(D.dims.length : Int) → j ≠ -(D.dims.length : Int) → E.dims = swapAt D.dims n m →
          (∀ idx, InB idx E.dims → InB (swapAt idx n m) D.dims ∧
            elem E.dims E.data idx = elem D.dims D.data (swapAt idx n m)) →
          trace2 E i j = trace2 D i j := by
        intro i j n m hi hj hlt hir hjr hd hE
        obtain ⟨P, A, Q, B, R, hD, rfl, rfl⟩ := split2 D.dims n m hlt (norm_lt hj)
        have hlen : (P ++ A :: Q).length = P.length + 1 + Q.length := by simp; omega
        have hd' : E.dims = P ++ B :: (Q ++ A :: R) := by rw [hd, hD, swapAt_split]
        obtain ⟨c, e1, wfc, hdc, hc⟩ := c25_trace D wf i j P Q R A B hD hir hjr
          (.inl ⟨hi, by rw [hj, hlen]⟩)
        obtain ⟨c', e2, wfc', hdc', hc'⟩ := c25_trace E wfE i j P Q R B A hd' (by rw [lE]; exact hir)
          (by rw [lE]; exact hjr) (.inl ⟨by rw [lE, hi], by rw [lE, hj, hlen]⟩)
        rw [e1, e2]
        rw [ext_elem wfc' wfc (by rw [hdc, hdc']) fun idx hidx => ?_]
        rw [hdc'] at hidx
        obtain ⟨x, hx, rfl⟩ := outIdx_of_inB hidx
        obtain ⟨y, r, rfl, hy, hr⟩ := inB_append_split hx
        obtain ⟨p, q, rfl, hp, hq⟩ := inB_append_split hy
        have hin : ∀ l < min A B, InB (p ++ l :: (q ++ l :: r)) (P ++ A :: (Q ++ B :: R)) := fun l hl =>
          hp.append ⟨by omega, hq.append ⟨by omega, hr⟩⟩
        have ex : ∀ l, ∃ v, l < min A B → elem D.dims D.data (p ++ l :: (q ++ l :: r)) = some v := by
          intro l
          by_cases hl : l < min A B
          · obtain ⟨v, hv, -⟩ := elem_some wf (js := p ++ l :: (q ++ l :: r)) (by rw [hD]; exact hin l hl) (by simp)
            exact ⟨v, fun _ => hv⟩
          · exact ⟨0, fun h => (hl h).elim⟩
        choose f hf using ex
        rw [hc p q r hp hq hr f hf, hc' p q r hp hq hr f ?_, min_comm]
        intro l hl
        have hl' : l < min A B := by omega
        rw [(hE _ (by rw [hd']; exact hp.append ⟨by omega, hq.append ⟨by omega, hr⟩⟩)).2, ← hf l hl']
        have hsp := swapAt_split p q r l l
        rw [show (p ++ l :: q).length = (P ++ A :: Q).length by simp [hp.length, hq.length], hp.length] at hsp
        rw [hsp]
      rcases Nat.lt_or_gt_of_ne hnm with hlt | hlt
      · exact main i j n m hi hj hlt hir hjr hd hE
      · rw [c134_trace_symmetric D, c134_trace_symmetric E]
        exact main j i m n hj hi hlt hjr hir (by rw [hd, swapAt_comm])
          (by simpa only [swapAt_comm _ m n] using hE)

/-- C134: sum and mean do not change when indices are exchanged. -/
theorem c134_permute_sum [AddCommMonoid α] (div : α → Nat → α) (t b : Tensor α) (wf : t.WF) (i j : Int)
    (h : permute t i j = .ok b) : sumAll b = sumAll t ∧ meanAll div b = meanAll div t := by
  have hp := c134_permute_perm t b wf i j h
  rw [(c33_sum div b).1, (c33_sum div t).1, (c33_sum div b).2, (c33_sum div t).2, hp.sum_eq, hp.length_eq]
  exact ⟨rfl, rfl⟩

/-! ### scale -/

/-- The elements of the tensor which scale returns. -/
theorem scale_get {β γ : Type} (mul : α → β → γ) (t : Tensor α) (wf : t.WF) {ndx : Int} (v : Tensor β) {n : Nat}
    (h : norm t.dims.length ndx = some n) :
    (t.dims[n]? = some v.data.length → ∃ c, scale mul t ndx v = .ok c ∧ c.WF ∧ c.dims = t.dims ∧
      ∀ idx k x y, InB idx t.dims → idx[n]? = some k → elem t.dims t.data idx = some x → v.data[k]? = some y →
        elem c.dims c.data idx = some (mul x y)) ∧
    (t.dims[n]? ≠ some v.data.length → scale mul t ndx v = .abort) := by
  obtain ⟨P, L, Q, hd, rfl⟩ := norm_split h
  have hL : t.dims[P.length]? = some L := by rw [hd]; simp
  have hs := c24_scale mul t wf ndx v P Q L hd h
  rw [hL]
  constructor
  · intro e
    obtain ⟨c, e1, wfc, hdc, hc⟩ := hs.1 (Option.some.inj e).symm
    refine ⟨c, e1, wfc, hdc, fun idx k x y hidx hk hx hy => ?_⟩
    rw [hd] at hidx
    obtain ⟨p, r, rfl, hp, hr⟩ := inB_append_split hidx
    rcases r with _ | ⟨l, q⟩
    · simp [InB] at hr
    · obtain ⟨hl, hq⟩ := hr
      rw [← hp.length] at hk
      simp at hk
      subst hk
      exact hc p l q hp hl hq x y hx hy
  · intro e
    exact hs.2 fun h' => e (by rw [h'])

theorem index_get {idx dims : List Nat} (h : InB idx dims) {n L : Nat} (hn : dims[n]? = some L) :
    ∃ k, idx[n]? = some k ∧ k < L := by
  induction dims generalizing idx n with
  | nil => simp at hn
  | cons d ds ih =>
    rcases idx with _ | ⟨x, xs⟩
    · exact h.elim
    · rcases n with _ | n
      · simp at hn; subst hn; exact ⟨x, rfl, h.1⟩
      · simpa using ih h.2 (by simpa using hn)

/-- C134: scaling along two indices, equal or not, may be done in any order, and the program stops for the same
arguments. -/
theorem c134_scale_commute [CommSemigroup α] (t v w : Tensor α) (wf : t.WF) (i j : Int) :
    (do let a ← scale (· * ·) t i v; scale (· * ·) a j w) =
    (do let a ← scale (· * ·) t j w; scale (· * ·) a i v) := by
  have total : ∀ (u : Tensor α) (k : Int), (∃ c, scale (· * ·) t k u = .ok c ∧ c.WF ∧ c.dims = t.dims) ∨
      scale (· * ·) t k u = .abort := by
    intro u k
    cases hk : norm t.dims.length k with
    | none => exact .inr (scale_norm_none _ t k u hk)
    | some n =>
      by_cases hd : t.dims[n]? = some u.data.length
      · obtain ⟨c, e, wfc, hdc, -⟩ := (scale_get (· * ·) t wf u hk).1 hd
        exact .inl ⟨c, e, wfc, hdc⟩
      · exact .inr ((scale_get (· * ·) t wf u hk).2 hd)
  have stops : ∀ (u x : Tensor α) (k l : Int), scale (· * ·) t k u = .abort →
      (do let a ← scale (· * ·) t l x; scale (· * ·) a k u) = .abort := by
    intro u x k l h
    rcases total x l with ⟨c, e, wfc, hdc⟩ | e
    · rw [e, Res.ok_bind]
      cases hk : norm t.dims.length k with
      | none => exact scale_norm_none _ c k u (by rw [hdc, hk])
      | some n =>
        by_cases hd : t.dims[n]? = some u.data.length
        · obtain ⟨c', e', -⟩ := (scale_get (· * ·) t wf u hk).1 hd
          rw [e'] at h; cases h
        · exact (scale_get (· * ·) c wfc u (by rw [hdc, hk])).2 (by rw [hdc]; exact hd)
    · rw [e]; rfl
  cases hi : norm t.dims.length i with
  | none => rw [stops v w i j (scale_norm_none _ t i v hi), scale_norm_none _ t i v hi]; rfl
  | some n =>
    cases hj : norm t.dims.length j with
    | none => rw [stops w v j i (scale_norm_none _ t j w hj), scale_norm_none _ t j w hj]; rfl
    | some m =>
      by_cases hn : t.dims[n]? = some v.data.length
      · by_cases hm : t.dims[m]? = some w.data.length
        · obtain ⟨a, ea, wfa, hda, ha⟩ := (scale_get (· * ·) t wf v hi).1 hn
          obtain ⟨b, eb, wfb, hdb, hb⟩ := (scale_get (· * ·) t wf w hj).1 hm
          obtain ⟨x, ex, wfx, hdx, hx⟩ := (scale_get (· * ·) a wfa w (by rw [hda, hj])).1 (by rw [hda, hm])
          obtain ⟨y, ey, wfy, hdy, hy⟩ := (scale_get (· * ·) b wfb v (by rw [hdb, hi])).1 (by rw [hdb, hn])
          rw [ea, eb, Res.ok_bind, Res.ok_bind, ex, ey]
          rw [ext_elem wfx wfy (by rw [hdx, hdy, hda, hdb]) fun idx hidx => ?_]
          rw [hdx, hda] at hidx
          obtain ⟨k, hk, hkl⟩ := index_get hidx hn
          obtain ⟨l, hl, hll⟩ := index_get hidx hm
          have hne : idx ≠ [] := by rintro rfl; simp at hk
          obtain ⟨q, hq, -⟩ := elem_some wf hidx hne
          have h1 := ha idx k q _ hidx hk hq (List.getElem?_eq_getElem hkl)
          have h2 := hb idx l q _ hidx hl hq (List.getElem?_eq_getElem hll)
          rw [hx idx l _ _ (by rw [hda]; exact hidx) hl h1 (List.getElem?_eq_getElem hll),
            hy idx k _ _ (by rw [hdb]; exact hidx) hk h2 (List.getElem?_eq_getElem hkl), mul_right_comm]
        · have h := (scale_get (· * ·) t wf w hj).2 hm
          rw [stops w v j i h, h]; rfl
      · have h := (scale_get (· * ·) t wf v hi).2 hn
        rw [stops v w i j h, h]; rfl

/-- C134: scaling by ones does nothing. -/
theorem c134_scale_ones [MulOneClass α] (t v : Tensor α) (wf : t.WF) (i : Int) (n : Nat)
    (hi : norm t.dims.length i = some n) (hl : t.dims[n]? = some v.data.length) (hv : ∀ x ∈ v.data, x = 1) :
    scale (· * ·) t i v = .ok t := by
  obtain ⟨c, e, wfc, hdc, hc⟩ := (scale_get (· * ·) t wf v hi).1 hl
  rw [e, ext_elem wfc wf hdc fun idx hidx => ?_]
  rw [hdc] at hidx
  obtain ⟨k, hk, hkl⟩ := index_get hidx hl
  have hne : idx ≠ [] := by rintro rfl; simp at hk
  obtain ⟨q, hq, -⟩ := elem_some wf hidx hne
  rw [hc idx k q _ hidx hk hq (List.getElem?_eq_getElem hkl), hq, hv _ (List.getElem_mem hkl), mul_one]

/-- C134: exchanging two indices and then scaling along the first is scaling along the second and then exchanging
them; the program stops for the same arguments. -/
theorem c134_scale_permute {β : Type} (mul : α → β → α) (t : Tensor α) (v : Tensor β) (wf : t.WF) (i j : Int) :
    (do let a ← permute t i j; scale mul a i v) = (do let a ← scale mul t j v; permute a i j) := by
  cases hj : norm t.dims.length j with
  | none => rw [(c17_permute t wf i j).2 (.inr hj), scale_norm_none _ t j v hj]; rfl
  | some m =>
    cases hi : norm t.dims.length i with
    | none =>
      rw [(c17_permute t wf i j).2 (.inl hi)]
      by_cases hd : t.dims[m]? = some v.data.length
      · obtain ⟨c, e, wfc, hdc, -⟩ := (scale_get mul t wf v hj).1 hd
        rw [e, Res.ok_bind, (c17_permute c wfc i j).2 (.inl (by rw [hdc, hi]))]; rfl
      · rw [(scale_get mul t wf v hj).2 hd]; rfl
    | some n =>
      obtain ⟨a, ea, wfa, hda, ha⟩ := permute_get t wf hi hj
      have la : a.dims.length = t.dims.length := by rw [hda, swapAt_length]
      have hn := norm_lt hi
      have hm := norm_lt hj
      have hdim : a.dims[n]? = t.dims[m]? := by
        rw [hda, swapAt_get _ hn hm]
        by_cases h : n = m
        · rw [if_pos h, h]
        · rw [if_neg h, if_pos rfl]
      rw [ea, Res.ok_bind]
      by_cases hd : t.dims[m]? = some v.data.length
      · obtain ⟨b, eb, wfb, hdb, hb⟩ := (scale_get mul t wf v hj).1 hd
        obtain ⟨x, ex, wfx, hdx, hx⟩ := (scale_get mul a wfa v (by rw [la, hi])).1 (by rw [hdim, hd])
        obtain ⟨y, ey, wfy, hdy, hy⟩ := permute_get b wfb (i := i) (j := j) (by rw [hdb, hi]) (by rw [hdb, hj])
        rw [eb, Res.ok_bind, ex, ey]
        have hdd : x.dims = y.dims := by rw [hdx, hda, hdy, hdb]
        rw [ext_elem wfx wfy hdd fun idx hidx => ?_]
        have h1 : InB idx a.dims := by rw [← hdx]; exact hidx
        obtain ⟨k, hk, hkl⟩ := index_get h1 (hdim.trans hd)
        have hne : idx ≠ [] := by rintro rfl; simp at hk
        obtain ⟨q, hq, -⟩ := elem_some wfa h1 hne
        have h2 := (ha idx h1).2
        rw [hx idx k q _ h1 hk hq (List.getElem?_eq_getElem hkl), (hy idx (hdd ▸ hidx)).2]
        rw [hb (swapAt idx n m) k q _ (ha idx h1).1 ?_ (by rw [← h2, hq]) (List.getElem?_eq_getElem hkl)]
        have hlen : idx.length = t.dims.length := by rw [h1.length, la]
        rw [swapAt_get _ (by omega) (by omega), if_pos rfl, hk]
      · rw [(scale_get mul t wf v hj).2 hd, (scale_get mul a wfa v (by rw [la, hi])).2 (by rw [hdim]; exact hd)]
        rfl

/-! ### Linearity -/

theorem add_wf {f : α → α → α} {a b : Tensor α} (wfa : a.WF) (wfb : b.WF) (hd : a.dims = b.dims) :
    binopTT f a b = .ok ⟨a.dims, List.zipWith f a.data b.data⟩ ∧
    (⟨a.dims, List.zipWith f a.data b.data⟩ : Tensor α).WF := by
  have h1 : a.data.length = totalSize a.dims := wfa
  have h2 : b.data.length = totalSize b.dims := wfb
  have hl : a.data.length = b.data.length := by rw [h1, h2, hd]
  refine ⟨binopTT_ok f a b wfa hl, ?_⟩
  show (List.zipWith f a.data b.data).length = totalSize a.dims
  simp; omega

theorem map_wf {f : α → α} {a : Tensor α} (wfa : a.WF) : (⟨a.dims, a.data.map f⟩ : Tensor α).WF := by
  show (a.data.map f).length = totalSize a.dims
  rw [List.length_map]; exact wfa

/-- C134: the trace over two indices of a tensor of any rank is linear. -/
theorem c134_trace_linear [CommSemiring α] (A B : Tensor α) (wfA : A.WF) (wfB : B.WF) (hd : A.dims = B.dims)
    (i j : Int) (k : α) :
    (do let C ← binopTT (· + ·) A B; trace2 C i j) =
      (do let x ← trace2 A i j; let y ← trace2 B i j; binopTT (· + ·) x y) ∧
    (do let C ← unop (k * ·) A; trace2 C i j) = (do let x ← trace2 A i j; unop (k * ·) x) := by
  obtain ⟨eC, wfC⟩ := add_wf (f := (· + ·)) wfA wfB hd
  have eK := unop_ok (k * ·) A wfA
  have wfK := map_wf (f := (k * ·)) wfA
  rw [eC, eK, Res.ok_bind, Res.ok_bind]
  have bad : ((norm A.dims.length i = none ∨ norm A.dims.length j = none ∨
      norm A.dims.length i = norm A.dims.length j) ∨ i = -(A.dims.length : Int) ∨ j = -(A.dims.length : Int)) →
      ∀ T : Tensor α, T.dims = A.dims → trace2 T i j = .abort := by
    rintro (h | rfl | rfl) T hT
    · exact c25_trace_positions T i j (by rw [hT]; exact h)
    · rw [← hT, c25_trace_minus_rank]
    · rw [c134_trace_symmetric, ← hT, c25_trace_minus_rank]
  by_cases hb : ((norm A.dims.length i = none ∨ norm A.dims.length j = none ∨
      norm A.dims.length i = norm A.dims.length j) ∨ i = -(A.dims.length : Int) ∨ j = -(A.dims.length : Int))
  · rw [bad hb A rfl]; exact ⟨bad hb _ rfl, bad hb _ rfl⟩
  · push Not at hb
    obtain ⟨⟨hi, hj, hne⟩, hir, hjr⟩ := hb
    obtain ⟨n, hi⟩ := Option.ne_none_iff_exists'.1 hi
    obtain ⟨m, hj⟩ := Option.ne_none_iff_exists'.1 hj
    obtain ⟨P, a, Q, b, R, hD, hpos⟩ := c25_trace_covers A i j n m hi hj (by rintro rfl; exact hne (hi.trans hj.symm))
    obtain ⟨x, ex, wfx, hdx, hx⟩ := c25_trace A wfA i j P Q R a b hD hir hjr hpos
    obtain ⟨y, ey, wfy, hdy, hy⟩ := c25_trace B wfB i j P Q R a b (hd ▸ hD) (hd ▸ hir) (hd ▸ hjr) (hd ▸ hpos)
    obtain ⟨z, ez, wfz, hdz, hz⟩ := c25_trace _ wfC i j P Q R a b hD hir hjr hpos
    obtain ⟨w, ew, wfw, hdw, hw⟩ := c25_trace _ wfK i j P Q R a b hD hir hjr hpos
    have hxy : x.dims = y.dims := by rw [hdx, hdy]
    obtain ⟨e1, wf1⟩ := add_wf (f := (· + ·)) wfx wfy hxy
    have e2 := unop_ok (k * ·) x wfx
    have wf2 := map_wf (f := (k * ·)) wfx
    rw [ex, ey, ez, ew, Res.ok_bind, Res.ok_bind, Res.ok_bind, e1, e2]
    have at_ : ∀ idx, InB idx (outDims (P ++ Q ++ R)) → ∃ f g : Nat → α,
        elem x.dims x.data idx = some (∑ l ∈ Finset.range (min a b), f l) ∧
        elem y.dims y.data idx = some (∑ l ∈ Finset.range (min a b), g l) ∧
        elem z.dims z.data idx = some (∑ l ∈ Finset.range (min a b), (f l + g l)) ∧
        elem w.dims w.data idx = some (∑ l ∈ Finset.range (min a b), k * f l) := by
      intro idx hidx
      obtain ⟨u, hu, rfl⟩ := outIdx_of_inB hidx
      obtain ⟨v, r, rfl, hv, hr⟩ := inB_append_split hu
      obtain ⟨p, q, rfl, hp, hq⟩ := inB_append_split hv
      have hin : ∀ l < min a b, InB (p ++ l :: (q ++ l :: r)) A.dims := fun l hl => by
        rw [hD]; exact hp.append ⟨by omega, hq.append ⟨by omega, hr⟩⟩
      have hf : ∀ l < min a b, elem A.dims A.data (p ++ l :: (q ++ l :: r)) = some (val A (p ++ l :: (q ++ l :: r))) :=
        fun l hl => elem_val wfA (hin l hl) (by simp)
      have hg : ∀ l < min a b, elem B.dims B.data (p ++ l :: (q ++ l :: r)) = some (val B (p ++ l :: (q ++ l :: r))) :=
        fun l hl => elem_val wfB (hd ▸ hin l hl) (by simp)
      refine ⟨_, _, hx p q r hp hq hr _ hf, hy p q r hp hq hr _ hg, hz p q r hp hq hr _ fun l hl => ?_,
        hw p q r hp hq hr _ fun l hl => ?_⟩
      · exact elem_zipWith _ _ _ _ _ _ _ (hf l hl) (by rw [hd]; exact hg l hl)
      · show elem A.dims (A.data.map (k * ·)) _ = _
        rw [elem_map, hf l hl]; rfl
    constructor
    · rw [ext_elem wfz wf1 (by rw [hdz]; exact hdx.symm) fun idx hidx => ?_]
      obtain ⟨f, g, h1, h2, h3, -⟩ := at_ idx (hdz ▸ hidx)
      rw [h3, elem_zipWith _ _ _ _ _ _ _ h1 (by rw [hxy]; exact h2), Finset.sum_add_distrib]
    · rw [ext_elem wfw wf2 (by rw [hdw]; exact hdx.symm) fun idx hidx => ?_]
      obtain ⟨f, g, h1, -, -, h4⟩ := at_ idx (hdw ▸ hidx)
      rw [h4, elem_map, h1, Option.map_some, Finset.mul_sum]

/-- C134: a contraction is linear in the second tensor. -/
theorem c134_fold_linear [CommSemiring α] (A B C : Tensor α) (wfA : A.WF) (wfB : B.WF) (wfC : C.WF)
    (hd : B.dims = C.dims) (i j : Int) (k : α) :
    (do let D ← binopTT (· + ·) B C; fold A i D j) =
      (do let x ← fold A i B j; let y ← fold A i C j; binopTT (· + ·) x y) ∧
    (do let D ← unop (k * ·) B; fold A i D j) = (do let x ← fold A i B j; unop (k * ·) x) := by
  obtain ⟨eD, wfD⟩ := add_wf (f := (· + ·)) wfB wfC hd
  have eK := unop_ok (k * ·) B wfB
  have wfK := map_wf (f := (k * ·)) wfB
  rw [eD, eK, Res.ok_bind, Res.ok_bind]
  have stop : ∀ r : Res (Tensor α), (r = .abort) → (do let x ← r; let y ← fold A i C j; binopTT (· + ·) x y) =
      (.abort : Res (Tensor α)) ∧ (do let x ← r; unop (k * ·) x) = (.abort : Res (Tensor α)) := by
    rintro _ rfl; exact ⟨rfl, rfl⟩
  cases hi : norm A.dims.length i with
  | none =>
    have h := c19_fold_positions A B i j (.inl hi)
    rw [(stop _ h).1, (stop _ h).2]
    exact ⟨c19_fold_positions A _ i j (.inl hi), c19_fold_positions A _ i j (.inl hi)⟩
  | some n =>
    cases hj : norm B.dims.length j with
    | none =>
      have h := c19_fold_positions A B i j (.inr hj)
      rw [(stop _ h).1, (stop _ h).2]
      exact ⟨c19_fold_positions A _ i j (.inr hj), c19_fold_positions A _ i j (.inr hj)⟩
    | some m =>
      obtain ⟨P, L, Q, hA, rfl⟩ := norm_split hi
      obtain ⟨R, L', S, hB, rfl⟩ := norm_split hj
      by_cases hL : L = L' ∧ L ≠ 0
      · obtain ⟨rfl, hL⟩ := hL
        obtain ⟨x, ex, wfx, hdx, hx⟩ := fold_val wfA wfB hA hB hi hj hL
        obtain ⟨y, ey, wfy, hdy, hy⟩ := fold_val wfA wfC hA (hd ▸ hB) hi (hd ▸ hj) hL
        obtain ⟨z, ez, wfz, hdz, hz⟩ := fold_val wfA wfD hA hB hi hj hL
        obtain ⟨w, ew, wfw, hdw, hw⟩ := fold_val wfA wfK hA hB hi hj hL
        have hxy : x.dims = y.dims := by rw [hdx, hdy]
        obtain ⟨e1, wf1⟩ := add_wf (f := (· + ·)) wfx wfy hxy
        have e2 := unop_ok (k * ·) x wfx
        have wf2 := map_wf (f := (k * ·)) wfx
        rw [ex, ey, ez, ew, Res.ok_bind, Res.ok_bind, Res.ok_bind, e1, e2]
        have at_ : ∀ idx, InB idx (outDims (P ++ Q ++ (R ++ S))) → ∃ f g h : Nat → α,
            elem x.dims x.data idx = some (∑ l ∈ Finset.range L, f l * g l) ∧
            elem y.dims y.data idx = some (∑ l ∈ Finset.range L, f l * h l) ∧
            elem z.dims z.data idx = some (∑ l ∈ Finset.range L, f l * (g l + h l)) ∧
            elem w.dims w.data idx = some (∑ l ∈ Finset.range L, f l * (k * g l)) := by
          intro idx hidx
          obtain ⟨u, hu, rfl⟩ := outIdx_of_inB hidx
          obtain ⟨u, v, rfl, hu, hv⟩ := inB_append_split hu
          obtain ⟨p, q, rfl, hp, hq⟩ := inB_append_split hu
          obtain ⟨r, s, rfl, hr, hs⟩ := inB_append_split hv
          have hin : ∀ l < L, InB (r ++ l :: s) B.dims := fun l hl => by
            rw [hB]; exact hr.append ⟨hl, hs⟩
          refine ⟨_, _, _, hx p q r s hp hq hr hs, hy p q r s hp hq hr hs, ?_, ?_⟩
          · rw [hz p q r s hp hq hr hs]
            congr 1
            refine Finset.sum_congr rfl fun l hl => ?_
            have hl := Finset.mem_range.1 hl
            congr 1
            exact val_eq (elem_zipWith _ _ _ _ _ _ _ (elem_val wfB (hin l hl) (by simp))
              (by rw [hd]; exact elem_val wfC (hd ▸ hin l hl) (by simp)))
          · rw [hw p q r s hp hq hr hs]
            congr 1
            refine Finset.sum_congr rfl fun l hl => ?_
            have hl := Finset.mem_range.1 hl
            congr 1
            apply val_eq
            show elem B.dims (B.data.map (k * ·)) _ = _
            rw [elem_map, elem_val wfB (hin l hl) (by simp)]; rfl
        constructor
        · rw [ext_elem wfz wf1 (by rw [hdz]; exact hdx.symm) fun idx hidx => ?_]
          obtain ⟨f, g, h, h1, h2, h3, -⟩ := at_ idx (hdz ▸ hidx)
          rw [h3, elem_zipWith _ _ _ _ _ _ _ h1 (by rw [hxy]; exact h2), ← Finset.sum_add_distrib]
          simp only [mul_add]
        · rw [ext_elem wfw wf2 (by rw [hdw]; exact hdx.symm) fun idx hidx => ?_]
          obtain ⟨f, g, h, h1, -, -, h4⟩ := at_ idx (hdw ▸ hidx)
          rw [h4, elem_map, h1, Option.map_some, Finset.mul_sum]
          congr 1
          exact Finset.sum_congr rfl fun l _ => by ring
      · have hL' : L ≠ L' ∨ L = 0 := by tauto
        have h := (c19_fold A B wfA wfB i j P Q R S L L' hA hB hi hj).2 hL'
        rw [(stop _ h).1, (stop _ h).2]
        exact ⟨(c19_fold A _ wfA wfD i j P Q R S L L' hA hB hi hj).2 hL',
          (c19_fold A _ wfA wfK i j P Q R S L L' hA hB hi hj).2 hL'⟩

/-- C134: a contraction is linear in the first tensor. -/
theorem c134_fold_linear_first [CommSemiring α] (A B C : Tensor α) (wfA : A.WF) (wfB : B.WF) (wfC : C.WF)
    (hd : A.dims = B.dims) (i j : Int) (k : α) :
    (do let D ← binopTT (· + ·) A B; fold D i C j) =
      (do let x ← fold A i C j; let y ← fold B i C j; binopTT (· + ·) x y) ∧
    (do let D ← unop (k * ·) A; fold D i C j) = (do let x ← fold A i C j; unop (k * ·) x) := by
  obtain ⟨eD, wfD⟩ := add_wf (f := (· + ·)) wfA wfB hd
  have eK := unop_ok (k * ·) A wfA
  have wfK := map_wf (f := (k * ·)) wfA
  rw [eD, eK, Res.ok_bind, Res.ok_bind]
  have stop : ∀ r : Res (Tensor α), (r = .abort) → (do let x ← r; let y ← fold B i C j; binopTT (· + ·) x y) =
      (.abort : Res (Tensor α)) ∧ (do let x ← r; unop (k * ·) x) = (.abort : Res (Tensor α)) := by
    rintro _ rfl; exact ⟨rfl, rfl⟩
  cases hi : norm A.dims.length i with
  | none =>
    have h := c19_fold_positions A C i j (.inl hi)
    rw [(stop _ h).1, (stop _ h).2]
    exact ⟨c19_fold_positions _ C i j (.inl hi), c19_fold_positions _ C i j (.inl hi)⟩
  | some n =>
    cases hj : norm C.dims.length j with
    | none =>
      have h := c19_fold_positions A C i j (.inr hj)
      rw [(stop _ h).1, (stop _ h).2]
      exact ⟨c19_fold_positions _ C i j (.inr hj), c19_fold_positions _ C i j (.inr hj)⟩
    | some m =>
      obtain ⟨P, L, Q, hA, rfl⟩ := norm_split hi
      obtain ⟨R, L', S, hC, rfl⟩ := norm_split hj
      by_cases hL : L = L' ∧ L ≠ 0
      · obtain ⟨rfl, hL⟩ := hL
        obtain ⟨x, ex, wfx, hdx, hx⟩ := fold_val wfA wfC hA hC hi hj hL
        obtain ⟨y, ey, wfy, hdy, hy⟩ := fold_val wfB wfC (hd ▸ hA) hC (hd ▸ hi) hj hL
        obtain ⟨z, ez, wfz, hdz, hz⟩ := fold_val wfD wfC hA hC hi hj hL
        obtain ⟨w, ew, wfw, hdw, hw⟩ := fold_val wfK wfC hA hC hi hj hL
        have hxy : x.dims = y.dims := by rw [hdx, hdy]
        obtain ⟨e1, wf1⟩ := add_wf (f := (· + ·)) wfx wfy hxy
        have e2 := unop_ok (k * ·) x wfx
        have wf2 := map_wf (f := (k * ·)) wfx
        rw [ex, ey, ez, ew, Res.ok_bind, Res.ok_bind, Res.ok_bind, e1, e2]
        have at_ : ∀ idx, InB idx (outDims (P ++ Q ++ (R ++ S))) → ∃ f g h : Nat → α,
            elem x.dims x.data idx = some (∑ l ∈ Finset.range L, f l * h l) ∧
            elem y.dims y.data idx = some (∑ l ∈ Finset.range L, g l * h l) ∧
            elem z.dims z.data idx = some (∑ l ∈ Finset.range L, (f l + g l) * h l) ∧
            elem w.dims w.data idx = some (∑ l ∈ Finset.range L, (k * f l) * h l) := by
          intro idx hidx
          obtain ⟨u, hu, rfl⟩ := outIdx_of_inB hidx
          obtain ⟨u, v, rfl, hu, hv⟩ := inB_append_split hu
          obtain ⟨p, q, rfl, hp, hq⟩ := inB_append_split hu
          obtain ⟨r, s, rfl, hr, hs⟩ := inB_append_split hv
          have hin : ∀ l < L, InB (p ++ l :: q) A.dims := fun l hl => by
            rw [hA]; exact hp.append ⟨hl, hq⟩
          refine ⟨_, _, _, hx p q r s hp hq hr hs, hy p q r s hp hq hr hs, ?_, ?_⟩
          · rw [hz p q r s hp hq hr hs]
            congr 1
            refine Finset.sum_congr rfl fun l hl => ?_
            have hl := Finset.mem_range.1 hl
            congr 1
            exact val_eq (elem_zipWith _ _ _ _ _ _ _ (elem_val wfA (hin l hl) (by simp))
              (by rw [hd]; exact elem_val wfB (hd ▸ hin l hl) (by simp)))
          · rw [hw p q r s hp hq hr hs]
            congr 1
            refine Finset.sum_congr rfl fun l hl => ?_
            have hl := Finset.mem_range.1 hl
            congr 1
            apply val_eq
            show elem A.dims (A.data.map (k * ·)) _ = _
            rw [elem_map, elem_val wfA (hin l hl) (by simp)]; rfl
        constructor
        · rw [ext_elem wfz wf1 (by rw [hdz]; exact hdx.symm) fun idx hidx => ?_]
          obtain ⟨f, g, h, h1, h2, h3, -⟩ := at_ idx (hdz ▸ hidx)
          rw [h3, elem_zipWith _ _ _ _ _ _ _ h1 (by rw [hxy]; exact h2), ← Finset.sum_add_distrib]
          simp only [add_mul]
        · rw [ext_elem wfw wf2 (by rw [hdw]; exact hdx.symm) fun idx hidx => ?_]
          obtain ⟨f, g, h, h1, -, -, h4⟩ := at_ idx (hdw ▸ hidx)
          rw [h4, elem_map, h1, Option.map_some, Finset.mul_sum]
          congr 1
          exact Finset.sum_congr rfl fun l _ => by ring
      · have hL' : L ≠ L' ∨ L = 0 := by tauto
        have h := (c19_fold A C wfA wfC i j P Q R S L L' hA hC hi hj).2 hL'
        rw [(stop _ h).1, (stop _ h).2]
        exact ⟨(c19_fold _ C wfD wfC i j P Q R S L L' hA hC hi hj).2 hL',
          (c19_fold _ C wfK wfC i j P Q R S L L' hA hC hi hj).2 hL'⟩

/-! Tensors which meet the hypotheses. -/

/-- A tensor of rank four. -/
def sample4 : Tensor Int := ⟨[1, 2, 1, 2], [1, 2, 3, 4]⟩

example : sample4.WF ∧ norm sample4.dims.length 0 = some 0 ∧ norm sample4.dims.length 1 = some 1 ∧
    norm sample4.dims.length (-2) = some 2 ∧ norm sample4.dims.length (-1) = some 3 := by
  refine ⟨rfl, rfl, rfl, rfl, rfl⟩
example : sample4.dims[1]? = some (⟨[2], [1, 1]⟩ : Tensor Int).data.length ∧
    ∀ x ∈ (⟨[2], [1, 1]⟩ : Tensor Int).data, x = 1 := ⟨rfl, by simp⟩
example : (⟨[2, 1], [1, 2]⟩ : Tensor Int).permute 0 1 = .ok ⟨[1, 2], [1, 2]⟩ := by decide
example : trace2 sample4 1 3 = .ok ⟨[1, 1], [5]⟩ := by decide
example : fold sample4 1 (⟨[2], [1, 1]⟩ : Tensor Int) 0 = .ok ⟨[1, 1, 2], [3, 7]⟩ := by decide

end Verif.Tensor
