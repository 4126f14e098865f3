import Verif.Lemmas.Scale
/-
C24: scaling a tensor along an index.
-/
namespace Verif.Tensor

open Verif Spec

variable {α β γ : Type}

theorem wf_split {P Q : List Nat} {L : Nat} {ts : List α} (wf : (⟨P ++ L :: Q, ts⟩ : Tensor α).WF) :
    ts.length = prod P * (L * prod Q) := by
  have := WF.length_eq wf (by simp)
  simpa only [prod_append, prod_cons] using this

/-- C24: scale(A,n,v). `P` and `Q` are the dimensions of A before and after n, and `L` the n-th one. -/
theorem c24_scale (mul : α → β → γ) (t : Tensor α) (wf : t.WF) (ndx : Int) (v : Tensor β)
    (P Q : List Nat) (L : Nat) (hd : t.dims = P ++ L :: Q)
    (h : norm t.dims.length ndx = some P.length) :
    (v.data.length = L → ∃ c, scale mul t ndx v = .ok c ∧ c.WF ∧ c.dims = t.dims ∧
      ∀ p i q, InB p P → i < L → InB q Q → ∀ x y, elem t.dims t.data (p ++ i :: q) = some x →
        v.data[i]? = some y → elem c.dims c.data (p ++ i :: q) = some (mul x y)) ∧
    (v.data.length ≠ L → scale mul t ndx v = .abort) := by
  obtain ⟨dims, ts⟩ := t
  simp only at hd
  subst hd
  have hl := wf_split wf
  constructor
  · intro hv
    obtain ⟨ys, hys, hlen, hget⟩ := scale_reads (prod P) (prod Q) v.data hv
    refine ⟨_, by rw [scale_split mul P Q L ts ndx v h hl ys hys, if_pos (show L = v.size from hv.symm)], ?_, rfl, ?_⟩
    · show (List.zipWith mul ts ys).length = _
      rw [List.length_zipWith, hlen, hl, Nat.min_self, totalSize_of_ne (by simp), prod_append,
        prod_cons]
    · intro p i q hp hi hq x y hx hy
      have hin : InB (p ++ i :: q) (P ++ L :: Q) := hp.append (by simp [hi, hq])
      simp only [elem, if_pos hin] at hx ⊢
      have := hget _ i _ (colPos_lt hp) hi (colPos_lt hq)
      rw [hy, ← colPos_split1 _ _ _ _ _ _ hp.length] at this
      simp [List.getElem?_zipWith, hx, this]
  · intro hv
    exact scale_ne mul P Q L ts ndx v h (fun e => hv e.symm)

/-- C24: a position which does not exist stops the program. -/
theorem c24_scale_position (mul : α → β → γ) (t : Tensor α) (ndx : Int) (v : Tensor β)
    (h : norm t.dims.length ndx = none) : scale mul t ndx v = .abort := scale_norm_none mul t ndx v h

/-- C24: scale_inplace leaves in the tensor what scale returns, and stops in the same cases. -/
theorem c24_scale_inplace (mul : α → β → α) (t : Tensor α) (wf : t.WF) (ndx : Int) (v : Tensor β) :
    scaleInplace mul t ndx v = scale mul t ndx v := by
  cases h : norm t.dims.length ndx with
  | none => simp [scaleInplace, scale_norm_none mul t ndx v h, rank, normalizeIndex_eq, h]
  | some n =>
    obtain ⟨P, L, Q, hd, hn⟩ := norm_split h
    obtain ⟨dims, ts⟩ := t
    simp only at hd h
    subst hd hn
    by_cases hL : L = v.size
    · obtain ⟨ys, hys, hlen, -⟩ := scale_reads (prod P) (prod Q) v.data hL.symm
      rw [scale_split mul P Q L ts ndx v h (wf_split wf) ys hys, if_pos hL]
      simp only [scaleInplace, rank, normalizeIndex_eq, h, Res.ok_bind, Int.toNat_natCast,
        surrounding_split, Res.assert_bind]
      rw [if_pos hL]
      have := modLoop_seq mul v.data _ ys [] ts hys (by rw [scaleVec_length, wf_split wf])
      simp only [List.length_nil, List.nil_append] at this
      rw [this]
      rfl
    · rw [scale_ne mul P Q L ts ndx v h hL]
      simp only [scaleInplace, rank, normalizeIndex_eq, h, Res.ok_bind, Int.toNat_natCast,
        surrounding_split, Res.assert_bind]
      rw [if_neg hL]

/-- C24: scale_inplace when the vector is the tensor which is modified. -/
theorem c24_scale_inplace_self (mul : α → α → α) (t : Tensor α) (wf : t.WF) (ndx : Int) :
    scaleInplaceSelf mul t ndx = scale mul t ndx t := by
  cases h : norm t.dims.length ndx with
  | none => simp [scaleInplaceSelf, scale_norm_none mul t ndx t h, rank, normalizeIndex_eq, h]
  | some n =>
    obtain ⟨P, L, Q, hd, hn⟩ := norm_split h
    obtain ⟨dims, ts⟩ := t
    simp only at hd h
    subst hd hn
    have hl := wf_split wf
    by_cases hL : L = ts.length
    · obtain ⟨ys, hys, hlen, hget⟩ := scale_reads (L := L) (prod P) (prod Q) ts hL.symm
      rw [scale_split mul P Q L ts ndx ⟨_, ts⟩ h hl ys hys, if_pos (by simpa [size] using hL)]
      simp only [scaleInplaceSelf, rank, normalizeIndex_eq, h, Res.ok_bind, Int.toNat_natCast,
        surrounding_split, Res.assert_bind]
      rw [if_pos (by simpa [size] using hL)]
      have hvec : scaleVec (prod P) L (prod Q) = List.range L := by
        rcases Nat.eq_zero_or_pos L with h0 | h0
        · have : (scaleVec (prod P) L (prod Q)).length = 0 := by
            rw [scaleVec_length, h0]; simp
          rw [List.eq_nil_of_length_eq_zero this, h0]; rfl
        · have hPQ : prod P * prod Q = 1 := by
            have : L * (prod P * prod Q) = L * 1 := by rw [hl] at hL; nlinarith
            exact Nat.eq_of_mul_eq_mul_left h0 this
          have h1 : prod P = 1 := Nat.eq_one_of_mul_eq_one_right hPQ
          have h2 : prod Q = 1 := Nat.eq_one_of_mul_eq_one_left hPQ
          rw [h1, h2]
          simp [scaleVec, loop, loop_eq]
      have hys' : ys = ts := by
        rw [hvec] at hys
        have : ys.map some = ts.map some := by
          rw [← hys]
          apply List.ext_getElem?
          intro k
          by_cases hk : k < L
          · have : k < ts.length := by omega
            simp [hk, this]
          · have : ts.length ≤ k := by omega
            simp [hk, this]
        exact List.map_injective_iff.2 (Option.some_injective _) this
      rw [hys', hvec]
      have := modLoop_self mul L [] ts hL
      simp only [List.length_nil, List.nil_append, Nat.zero_add] at this
      rw [show List.map (fun x => (x.2, x.1)) (List.range L).zipIdx =
        (List.range L).map fun k => (k, k) by
          apply List.ext_getElem?
          intro k
          by_cases hk : k < L <;> simp [hk], this]
      simp
    · rw [scale_ne mul P Q L ts ndx ⟨_, ts⟩ h hL]
      simp only [scaleInplaceSelf, rank, normalizeIndex_eq, h, Res.ok_bind, Int.toNat_natCast,
        surrounding_split, Res.assert_bind]
      rw [if_neg (by simpa [size] using hL)]

/-- C24: scaling by v and then by w is scaling by the elementwise product of both. -/
theorem c24_scale_scale [Semigroup α] (t v w : Tensor α) (wft : t.WF) (wfv : v.WF) (ndx : Int) :
    (do let a ← scale (· * ·) t ndx v
        scale (· * ·) a ndx w) =
    (do let u ← binopTT (· * ·) v w
        scale (· * ·) t ndx u) := by
  by_cases hvw : v.data.length = w.data.length
  · rw [binopTT_ok _ v w wfv hvw, Res.ok_bind]
    cases h : norm t.dims.length ndx with
    | none => rw [scale_norm_none _ t ndx _ h, scale_norm_none _ t ndx _ h]; rfl
    | some n =>
      obtain ⟨P, L, Q, hd, hn⟩ := norm_split h
      rw [← hn] at h
      by_cases hL : v.data.length = L
      · obtain ⟨a, ea, wfa, hda, ga⟩ := (c24_scale (· * ·) t wft ndx v P Q L hd h).1 hL
        obtain ⟨b, eb, wfb, hdb, gb⟩ := (c24_scale (· * ·) a wfa ndx w P Q L (by rw [hda, hd])
          (by rw [hda, h])).1 (by omega)
        obtain ⟨c, ec, wfc, hdc, gc⟩ := (c24_scale (· * ·) t wft ndx
          ⟨v.dims, List.zipWith (· * ·) v.data w.data⟩ P Q L hd h).1 (by simp; omega)
        rw [ea, Res.ok_bind, eb, ec]
        congr 1
        apply ext_elem wfb wfc (by rw [hdb, hda, hdc])
        intro idx hidx
        rw [hdb, hda, hd] at hidx
        obtain ⟨p, r, rfl, hp, hr⟩ : ∃ p r, idx = p ++ r ∧ InB p P ∧ InB r (L :: Q) := by
          have hle : (idx.take P.length).length = P.length := by
            have := hidx.length; simp at this ⊢; omega
          have := hidx
          rw [← List.take_append_drop P.length idx, InB_append hle] at this
          exact ⟨_, _, (List.take_append_drop P.length idx).symm, this.1, this.2⟩
        rcases r with _ | ⟨i, q⟩
        · simp [InB] at hr
        · obtain ⟨hi, hq⟩ := hr
          obtain ⟨x, hx, -⟩ := elem_some wft (js := p ++ i :: q) (by rw [hd]; exact hidx) (by simp)
          obtain ⟨y, hy⟩ : ∃ y, v.data[i]? = some y := ⟨_, List.getElem?_eq_getElem (by omega)⟩
          obtain ⟨z, hz⟩ : ∃ z, w.data[i]? = some z := ⟨_, List.getElem?_eq_getElem (by omega)⟩
          rw [gb p i q hp hi hq _ z (ga p i q hp hi hq x y hx hy) hz,
            gc p i q hp hi hq x (y * z) hx (by simp [List.getElem?_zipWith, hy, hz]), mul_assoc]
      · rw [(c24_scale (· * ·) t wft ndx v P Q L hd h).2 hL,
          (c24_scale (· * ·) t wft ndx _ P Q L hd h).2 (by simp; omega)]
        rfl
  · have : binopTT (· * ·) v w = (.abort : Res (Tensor α)) := by
      simp [binopTT, size, Res.assert_bind, hvw]
    rw [this]
    cases h : norm t.dims.length ndx with
    | none => rw [scale_norm_none _ t ndx _ h]; rfl
    | some n =>
      obtain ⟨P, L, Q, hd, hn⟩ := norm_split h
      rw [← hn] at h
      by_cases hL : v.data.length = L
      · obtain ⟨a, ea, wfa, hda, ga⟩ := (c24_scale (· * ·) t wft ndx v P Q L hd h).1 hL
        rw [ea, Res.ok_bind, (c24_scale (· * ·) a wfa ndx w P Q L (by rw [hda, hd])
          (by rw [hda, h])).2 (by omega)]
        rfl
      · rw [(c24_scale (· * ·) t wft ndx v P Q L hd h).2 hL]
        rfl

example : scale (· * ·) (⟨[2, 2], [1, 2, 3, 4]⟩ : Tensor Int) (-1) ⟨[2], [10, 20]⟩ =
    .ok ⟨[2, 2], [10, 20, 60, 80]⟩ := by decide
example : scale (· * ·) (⟨[2, 2], [1, 2, 3, 4]⟩ : Tensor Int) 0 ⟨[2], [10, 20]⟩ =
    .ok ⟨[2, 2], [10, 40, 30, 80]⟩ := by decide
example : scaleInplaceSelf (· * ·) (⟨[3], [1, 2, 3]⟩ : Tensor Int) 0 = .ok ⟨[3], [1, 4, 9]⟩ := by
  decide

end Verif.Tensor
