import Verif.Lemmas.Fold
import Verif.Spec.Fold
/-
Contractions in terms of index tuples.
-/
namespace Verif.Tensor

open Verif Spec

variable {α : Type}

theorem split1 {β : Type} (l : List β) (i : Nat) (h : i < l.length) :
    ∃ P x Q, l = P ++ x :: Q ∧ P.length = i :=
  ⟨l.take i, l[i], l.drop (i + 1), by simp, by simp; omega⟩

theorem colPos_split1 (P Q p q : List Nat) (x i : Nat) (hp : p.length = P.length) :
    colPos (P ++ x :: Q) (p ++ i :: q) = colPos P p + prod P * (i + x * colPos Q q) := by
  rw [colPos_append _ _ hp, colPos_cons]

theorem colPos_four (P Q R S p q r s : List Nat) (hp : p.length = P.length)
    (hq : q.length = Q.length) (hr : r.length = R.length) :
    colPos (P ++ Q ++ (R ++ S)) (p ++ q ++ (r ++ s)) =
      colPos P p + prod P * (colPos Q q + prod Q * (colPos R r + prod R * colPos S s)) := by
  rw [colPos_append _ _ (by simp [hp, hq]), colPos_append _ _ hp, colPos_append _ _ hr, prod_append]
  ring

variable [CommSemiring α]

theorem doFold_norm_none (conj : α → α) (dc : Bool) (a b : Tensor α) (ndx1 ndx2 : Int)
    (h : norm a.dims.length ndx1 = none ∨ norm b.dims.length ndx2 = none) :
    doFold conj dc a ndx1 b ndx2 = .abort := by
  rcases h with h | h
  · simp [doFold, doFoldInto, rank, normalizeIndex_eq, h]
  · simp only [doFold, doFoldInto, rank, normalizeIndex_eq, h]
    cases norm a.dims.length ndx1 <;> rfl

theorem doFold_split (conj : α → α) (dc : Bool) (P Q R S : List Nat) (L L' : Nat)
    (da db : List α) (ndx1 ndx2 : Int)
    (h1 : norm (P ++ L :: Q).length ndx1 = some P.length)
    (h2 : norm (R ++ L' :: S).length ndx2 = some R.length) :
    doFold conj dc ⟨P ++ L :: Q, da⟩ ndx1 ⟨R ++ L' :: S, db⟩ ndx2 =
      if L ≠ 0 ∧ L = L' then
        if totalSize (outDims (P ++ Q ++ (R ++ S))) = 0 then .ok ⟨outDims (P ++ Q ++ (R ++ S)), []⟩
        else do
          let c ← foldBody conj dc da db (totalSize (outDims (P ++ Q ++ (R ++ S))))
            (prod P) (prod Q) (prod R) L (prod S)
          pure ⟨outDims (P ++ Q ++ (R ++ S)), c⟩
      else .abort := by
  have e1 : (P ++ L :: Q)[P.length]? = some L := by simp
  have e2 : (P ++ L :: Q).take P.length = P := by simp
  have e3 : (P ++ L :: Q).drop (P.length + 1) = Q := by
    rw [show P ++ L :: Q = (P ++ [L]) ++ Q by simp, List.drop_left' (by simp)]
  have f1 : (R ++ L' :: S)[R.length]? = some L' := by simp
  have f2 : (R ++ L' :: S).take R.length = R := by simp
  have f3 : (R ++ L' :: S).drop (R.length + 1) = S := by
    rw [show R ++ L' :: S = (R ++ [L']) ++ S by simp, List.drop_left' (by simp)]
  have ho : (if (P ++ Q ++ (R ++ S)).length = 0 then [1] else P ++ Q ++ (R ++ S)) =
      outDims (P ++ Q ++ (R ++ S)) := by
    simp only [outDims, List.length_eq_zero_iff]
  simp only [doFold, doFoldInto, rank, normalizeIndex_eq, h1, h2, Res.ok_bind, Int.toNat_natCast, e1, e2, e3,
    f1, f2, f3, Res.ofOption_some, foldl_mul, Nat.one_mul, Res.assert_bind, ho, Bool.false_eq_true, if_false]
  by_cases g1 : L = 0
  · rw [if_neg (by omega), if_neg (by omega)]
  · by_cases g2 : L = L'
    · rw [if_pos g1, if_pos g2, if_pos (show L ≠ 0 ∧ L = L' from ⟨g1, g2⟩)]
      rfl
    · rw [if_pos g1, if_neg g2, if_neg (by tauto)]

theorem outDims_total (P Q R S : List Nat) :
    totalSize (outDims (P ++ Q ++ (R ++ S))) = prod P * prod Q * prod R * prod S := by
  unfold outDims
  split
  · rename_i h
    simp only [List.append_eq_nil_iff] at h
    obtain ⟨⟨rfl, rfl⟩, rfl, rfl⟩ := h
    rfl
  · rename_i h
    rw [totalSize_of_ne h]
    simp only [prod_append]; ring

/-- The result of a contraction, in terms of grouped positions. -/
theorem doFold_ok (conj : α →+* α) (hc : ∀ x, conj (conj x) = x) (dc : Bool)
    (P Q R S : List Nat) (L : Nat) (da db : List α) (ndx1 ndx2 : Int)
    (h1 : norm (P ++ L :: Q).length ndx1 = some P.length)
    (h2 : norm (R ++ L :: S).length ndx2 = some R.length) (hL : L ≠ 0)
    (ha : da.length = prod P * L * prod Q) (hb : db.length = prod R * L * prod S) :
    ∃ c, doFold conj dc ⟨P ++ L :: Q, da⟩ ndx1 ⟨R ++ L :: S, db⟩ ndx2 =
        .ok ⟨outDims (P ++ Q ++ (R ++ S)), c⟩ ∧ c.length = prod P * prod Q * prod R * prod S ∧
      ∀ i j k m, i < prod P → j < prod Q → k < prod R → m < prod S →
        c[i + prod P * (j + prod Q * (k + prod R * m))]? =
          some (foldVal (if dc then (conj : α → α) else id) da db (prod P) (prod R) L i j k m) := by
  rw [doFold_split _ _ _ _ _ _ _ _ _ _ _ _ h1 h2, if_pos ⟨hL, rfl⟩, outDims_total]
  by_cases h0 : prod P * prod Q * prod R * prod S = 0
  · rw [if_pos h0]
    refine ⟨[], rfl, by simpa using h0.symm, ?_⟩
    intro i j k m hi hj hk hm
    have := pos_lt hi hj hk hm
    omega
  · rw [if_neg h0]
    obtain ⟨c, e, hl, hv⟩ := foldBody_spec conj hc dc da db (prod P) (prod Q) (prod R) L (prod S) _
      ha hb hL rfl h0
    exact ⟨c, by rw [e]; rfl, hl, hv⟩

theorem elem_ent (P Q : List Nat) (L : Nat) (da : List α) (p q : List Nat) (l : Nat) (x : α)
    (hp : InB p P) (h : elem (P ++ L :: Q) da (p ++ l :: q) = some x) :
    ent da (prod P) L (colPos P p) l (colPos Q q) = x := by
  rw [elem] at h
  split at h
  · rw [colPos_split1 _ _ _ _ _ _ hp.length] at h
    simp [ent, h]
  · simp at h

theorem outDims_elem {β : Type} (P Q R S p q r s : List Nat) (c : List β) (hp : InB p P)
    (hq : InB q Q) (hr : InB r R) (hs : InB s S) :
    elem (outDims (P ++ Q ++ (R ++ S))) c (outIdx (p ++ q ++ (r ++ s))) =
      c[colPos P p + prod P * (colPos Q q + prod Q * (colPos R r + prod R * colPos S s))]? := by
  have hb : InB (p ++ q ++ (r ++ s)) (P ++ Q ++ (R ++ S)) := (hp.append hq).append (hr.append hs)
  rw [← colPos_four P Q R S p q r s hp.length hq.length hr.length]
  have hlen := hb.length
  unfold outDims outIdx
  by_cases h : P ++ Q ++ (R ++ S) = []
  · have h' : p ++ q ++ (r ++ s) = [] := by rw [h] at hlen; simpa using hlen
    rw [if_pos h, if_pos h', h, h']
    simp [elem, InB]
  · have h' : p ++ q ++ (r ++ s) ≠ [] := by
      intro e; rw [e] at hlen
      exact h (by simpa using hlen.symm)
    rw [if_neg h, if_neg h', elem, if_pos hb]

/-- Elements of a contraction. -/
theorem doFold_elem (conj : α →+* α) (hc : ∀ x, conj (conj x) = x) (dc : Bool)
    (a b : Tensor α) (wfa : a.WF) (wfb : b.WF)
    (P Q R S : List Nat) (L : Nat) (ndx1 ndx2 : Int) (hda : a.dims = P ++ L :: Q)
    (hdb : b.dims = R ++ L :: S)
    (h1 : norm a.dims.length ndx1 = some P.length)
    (h2 : norm b.dims.length ndx2 = some R.length) (hL : L ≠ 0) :
    ∃ c : Tensor α, doFold conj dc a ndx1 b ndx2 = .ok c ∧ c.WF ∧
      c.dims = outDims (P ++ Q ++ (R ++ S)) ∧
      ∀ p q r s, InB p P → InB q Q → InB r R → InB s S → ∀ f g : Nat → α,
        (∀ l < L, elem a.dims a.data (p ++ l :: q) = some (f l)) →
        (∀ l < L, elem b.dims b.data (r ++ l :: s) = some (g l)) →
        elem c.dims c.data (outIdx (p ++ q ++ (r ++ s))) =
          some (∑ l ∈ Finset.range L, (if dc then (conj : α → α) else id) (f l) * g l) := by
  obtain ⟨dimsa, da⟩ := a
  obtain ⟨dimsb, db⟩ := b
  simp only at hda hdb
  subst hda hdb
  have ha : da.length = prod P * L * prod Q := by
    rw [WF.length_eq wfa (by simp)]; simp only [prod_append, prod_cons]; ring
  have hb : db.length = prod R * L * prod S := by
    rw [WF.length_eq wfb (by simp)]; simp only [prod_append, prod_cons]; ring
  obtain ⟨c, e, hl, hv⟩ := doFold_ok conj hc dc P Q R S L da db ndx1 ndx2 h1 h2 hL ha hb
  refine ⟨_, e, ?_, rfl, ?_⟩
  · show c.length = totalSize _
    rw [outDims_total, hl]
  · intro p q r s hp hq hr hs f g hf hg
    simp only
    rw [outDims_elem P Q R S p q r s c hp hq hr hs,
      hv _ _ _ _ (colPos_lt hp) (colPos_lt hq) (colPos_lt hr) (colPos_lt hs)]
    congr 1
    apply Finset.sum_congr rfl
    intro l hl
    rw [Finset.mem_range] at hl
    rw [elem_ent P Q L da p q l (f l) hp (hf l hl), elem_ent R S L db r s l (g l) hr (hg l hl)]

theorem norm_split {d : List Nat} {i : Int} {n : Nat} (h : norm d.length i = some n) :
    ∃ P L Q, d = P ++ L :: Q ∧ P.length = n := split1 d n (norm_lt h)

/-- Two contractions with the same values are equal. -/
theorem doFold_congr (conj conj' : α →+* α) (hc : ∀ x, conj (conj x) = x)
    (hc' : ∀ x, conj' (conj' x) = x) (dc dc' : Bool) (dimsa : List Nat) (da da' : List α)
    (b : Tensor α) (wfa : (⟨dimsa, da⟩ : Tensor α).WF) (wfb : b.WF) (hda : da'.length = da.length)
    (ndx1 ndx2 : Int)
    (h : ∀ p : Nat, (if dc then (conj : α → α) else id) (da[p]?.getD 0) =
      (if dc' then (conj' : α → α) else id) (da'[p]?.getD 0)) :
    doFold conj dc ⟨dimsa, da⟩ ndx1 b ndx2 = doFold conj' dc' ⟨dimsa, da'⟩ ndx1 b ndx2 := by
  cases h1 : norm dimsa.length ndx1 with
  | none => rw [doFold_norm_none _ _ _ _ _ _ (Or.inl h1), doFold_norm_none _ _ _ _ _ _ (Or.inl h1)]
  | some n1 =>
    cases h2 : norm b.dims.length ndx2 with
    | none =>
      rw [doFold_norm_none _ _ _ _ _ _ (Or.inr h2), doFold_norm_none _ _ _ _ _ _ (Or.inr h2)]
    | some n2 =>
      obtain ⟨dimsb, db⟩ := b
      obtain ⟨P, L, Q, rfl, rfl⟩ := norm_split h1
      obtain ⟨R, L', S, hd, rfl⟩ := norm_split h2
      simp only at hd
      subst hd
      have ha : da.length = prod P * L * prod Q := by
        rw [WF.length_eq wfa (by simp)]; simp only [prod_append, prod_cons]; ring
      by_cases hL : L ≠ 0 ∧ L = L'
      · obtain ⟨hL, rfl⟩ := hL
        have hb : db.length = prod R * L * prod S := by
          rw [WF.length_eq wfb (by simp)]; simp only [prod_append, prod_cons]; ring
        obtain ⟨c, e, hl, hv⟩ := doFold_ok conj hc dc P Q R S L da db ndx1 ndx2 h1 h2 hL ha hb
        obtain ⟨c', e', hl', hv'⟩ := doFold_ok conj' hc' dc' P Q R S L da' db ndx1 ndx2 h1 h2 hL
          (by omega) hb
        rw [e, e']
        congr 2
        apply List.ext_getElem?
        intro x
        by_cases hx : x < c.length
        · rw [hl] at hx
          obtain ⟨i, j, k, m, hi, hj, hk, hm, rfl⟩ := pos_decomp _ _ _ _ x hx
          rw [hv i j k m hi hj hk hm, hv' i j k m hi hj hk hm]
          congr 1
          apply Finset.sum_congr rfl
          intro l _
          simp only [ent]
          rw [h]
        · rw [List.getElem?_eq_none (by omega), List.getElem?_eq_none (by omega)]
      · rw [doFold_split _ _ _ _ _ _ _ _ _ _ _ _ h1 h2, doFold_split _ _ _ _ _ _ _ _ _ _ _ _ h1 h2,
          if_neg hL, if_neg hL]

end Verif.Tensor
