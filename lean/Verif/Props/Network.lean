import Verif.Props.Fold
import Verif.Props.Trace
import Verif.Props.Kron
import Verif.Props.Scale
/-
C98: contractions of several tensors.
-/
namespace Verif.Tensor

open Verif Spec

variable {α : Type} [CommSemiring α]

/-- The element at an index tuple. -/
def val (a : Tensor α) (idx : List Nat) : α := (elem a.dims a.data idx).getD 0

theorem elem_val {a : Tensor α} (wf : a.WF) {idx : List Nat} (h : InB idx a.dims) (hne : idx ≠ []) :
    elem a.dims a.data idx = some (val a idx) := by
  obtain ⟨v, e, -⟩ := elem_some wf h hne
  simp [val, e]

omit [CommSemiring α] in
theorem inB_append_split {idx P Q : List Nat} (h : InB idx (P ++ Q)) :
    ∃ p q, idx = p ++ q ∧ InB p P ∧ InB q Q := by
  have hl := h.length
  rw [List.length_append] at hl
  refine ⟨idx.take P.length, idx.drop P.length, (List.take_append_drop _ _).symm, ?_⟩
  rw [← InB_append (by rw [List.length_take]; omega), List.take_append_drop]
  exact h

/-- A contraction which is possible. -/
theorem fold_val {a b : Tensor α} (wfa : a.WF) (wfb : b.WF) {ndx1 ndx2 : Int} {P Q R S : List Nat} {L : Nat}
    (hda : a.dims = P ++ L :: Q) (hdb : b.dims = R ++ L :: S) (h1 : norm a.dims.length ndx1 = some P.length)
    (h2 : norm b.dims.length ndx2 = some R.length) (hL : L ≠ 0) :
    ∃ c : Tensor α, fold a ndx1 b ndx2 = .ok c ∧ c.WF ∧ c.dims = outDims (P ++ Q ++ (R ++ S)) ∧
      ∀ p q r s, InB p P → InB q Q → InB r R → InB s S →
        elem c.dims c.data (outIdx (p ++ q ++ (r ++ s))) =
          some (∑ l ∈ Finset.range L, val a (p ++ l :: q) * val b (r ++ l :: s)) := by
  obtain ⟨c, e, wf, hd, hel⟩ := (c19_fold a b wfa wfb ndx1 ndx2 P Q R S L L hda hdb h1 h2).1 rfl hL
  refine ⟨c, e, wf, hd, fun p q r s hp hq hr hs => hel p q r s hp hq hr hs _ _ ?_ ?_⟩
  · intro l hl
    exact elem_val wfa (by rw [hda]; exact hp.append (by simp [hl, hq])) (by simp)
  · intro l hl
    exact elem_val wfb (by rw [hdb]; exact hr.append (by simp [hl, hs])) (by simp)

/-- A contraction gives a result or stops the program. -/
theorem fold_total {a b : Tensor α} (wfa : a.WF) (wfb : b.WF) (ndx1 ndx2 : Int) :
    (∃ c : Tensor α, fold a ndx1 b ndx2 = .ok c ∧ c.WF) ∨ fold a ndx1 b ndx2 = .abort := by
  cases h1 : norm a.dims.length ndx1 with
  | none => exact .inr (c19_fold_positions a b ndx1 ndx2 (.inl h1))
  | some n1 =>
    cases h2 : norm b.dims.length ndx2 with
    | none => exact .inr (c19_fold_positions a b ndx1 ndx2 (.inr h2))
    | some n2 =>
      obtain ⟨P, L, Q, hda, e1⟩ := norm_split h1
      obtain ⟨R, L', S, hdb, e2⟩ := norm_split h2
      have h := c19_fold a b wfa wfb ndx1 ndx2 P Q R S L L' hda hdb (by rw [h1, e1]) (by rw [h2, e2])
      by_cases hL : L = L' ∧ L ≠ 0
      · obtain ⟨c, e, wf, -⟩ := h.1 hL.1 hL.2
        exact .inl ⟨c, e, wf⟩
      · exact .inr (h.2 (by tauto))

omit [CommSemiring α] in
theorem outDims_ne {d : List Nat} (h : d ≠ []) : outDims d = d := if_neg h
omit [CommSemiring α] in
theorem outIdx_ne {d : List Nat} (h : d ≠ []) : outIdx d = d := if_neg h

omit [CommSemiring α] in
/-- An index tuple of a result. -/
theorem outIdx_of_inB {D idx : List Nat} (h : InB idx (outDims D)) : ∃ x, InB x D ∧ idx = outIdx x := by
  by_cases hD : D = []
  · subst hD
    refine ⟨[], trivial, ?_⟩
    rcases idx with _ | ⟨x, _ | ⟨y, z⟩⟩
    · exact h.elim
    · have : x < 1 := h.1
      simp only [outIdx, if_true]
      rw [show x = 0 by omega]
    · exact h.2.elim
  · rw [outDims_ne hD] at h
    refine ⟨idx, h, ?_⟩
    rw [outIdx_ne]
    rintro rfl
    exact hD (List.eq_nil_of_length_eq_zero h.length.symm)

theorem val_eq {a : Tensor α} {idx : List Nat} {x : α} (h : elem a.dims a.data idx = some x) : val a idx = x := by
  simp [val, h]

theorem chain_lt {a b c : Tensor α} (wfa : a.WF) (wfb : b.WF) (wfc : c.WF) {i j k l k' j' : Int}
    {P Q R S T U V : List Nat} {L L' M M' : Nat} (hda : a.dims = P ++ L :: Q)
    (hdb : b.dims = R ++ L' :: (S ++ M :: T)) (hdc : c.dims = U ++ M' :: V)
    (hi : norm a.dims.length i = some P.length) (hj : norm b.dims.length j = some R.length)
    (hk : norm b.dims.length k = some (R.length + 1 + S.length)) (hl : norm c.dims.length l = some U.length)
    (hk' : norm (a.dims.length + b.dims.length - 2) k' = some (P.length + Q.length + R.length + S.length))
    (hj' : norm (b.dims.length + c.dims.length - 2) j' = some R.length) :
    (do let ab ← fold a i b j; fold ab k' c l) = (do let bc ← fold b k c l; fold a i bc j') := by
  have hdb' : b.dims = (R ++ L' :: S) ++ M :: T := by rw [hdb]; simp
  have hkb : norm b.dims.length k = some (R ++ L' :: S).length := by
    rw [hk]
    simp
    omega
  have hab := c19_fold a b wfa wfb i j P Q R (S ++ M :: T) L L' hda hdb hi hj
  have hbc := c19_fold b c wfb wfc k l (R ++ L' :: S) T U V M M' hdb' hdc hkb hl
  have hnab : ∀ x : Tensor α, x.dims = outDims (P ++ Q ++ (R ++ (S ++ M :: T))) →
      x.dims = (P ++ Q ++ (R ++ S)) ++ M :: T ∧ norm x.dims.length k' = some (P ++ Q ++ (R ++ S)).length := by
    intro x hx
    rw [outDims_ne (by simp)] at hx
    have hx' : x.dims = (P ++ Q ++ (R ++ S)) ++ M :: T := by rw [hx]; simp
    refine ⟨hx', ?_⟩
    have e : x.dims.length = a.dims.length + b.dims.length - 2 := by
      rw [hx', hda, hdb]
      simp
      omega
    rw [e, hk']
    simp
    omega
  have hnbc : ∀ x : Tensor α, x.dims = outDims ((R ++ L' :: S) ++ T ++ (U ++ V)) →
      x.dims = R ++ L' :: (S ++ T ++ (U ++ V)) ∧ norm x.dims.length j' = some R.length := by
    intro x hx
    rw [outDims_ne (by simp)] at hx
    have hx' : x.dims = R ++ L' :: (S ++ T ++ (U ++ V)) := by rw [hx]; simp
    refine ⟨hx', ?_⟩
    have e : x.dims.length = b.dims.length + c.dims.length - 2 := by
      rw [hx', hdb, hdc]
      simp
      omega
    rw [e, hj']
  by_cases hL : L = L' ∧ L ≠ 0
  · obtain ⟨rfl, hL⟩ := hL
    by_cases hM : M = M' ∧ M ≠ 0
    · obtain ⟨rfl, hM⟩ := hM
      obtain ⟨ab, e1, wf1, hd1, h1⟩ := fold_val wfa wfb hda hdb hi hj hL
      obtain ⟨bc, e2, wf2, hd2, h2⟩ := fold_val wfb wfc hdb' hdc hkb hl hM
      obtain ⟨hd1, hn1⟩ := hnab ab hd1
      obtain ⟨hd2, hn2⟩ := hnbc bc hd2
      obtain ⟨x, e3, wf3, hd3, h3⟩ := fold_val wf1 wfc hd1 hdc hn1 hl hM
      obtain ⟨y, e4, wf4, hd4, h4⟩ := fold_val wfa wf2 hda hd2 hi hn2 hL
      rw [e1, e2]
      simp only [Res.ok_bind, e3, e4]
      congr 1
      have hdd : x.dims = y.dims := by rw [hd3, hd4]; simp
      refine ext_elem wf3 wf4 hdd fun idx hidx => ?_
      rw [hd3] at hidx
      obtain ⟨t, ht, rfl⟩ := outIdx_of_inB hidx
      obtain ⟨t1, t2, rfl, ht1, ht2⟩ := inB_append_split ht
      obtain ⟨t3, w, rfl, ht3, hw⟩ := inB_append_split ht1
      obtain ⟨pq, rs, rfl, hpq, hrs⟩ := inB_append_split ht3
      obtain ⟨p, q, rfl, hp, hq⟩ := inB_append_split hpq
      obtain ⟨r, s, rfl, hr, hs⟩ := inB_append_split hrs
      obtain ⟨u, v, rfl, hu, hv⟩ := inB_append_split ht2
      rw [h3 _ w u v ht3 hw hu hv]
      have h4' := h4 p q r (s ++ w ++ (u ++ v)) hp hq hr ((hs.append hw).append (hu.append hv))
      rw [show p ++ q ++ (r ++ s) ++ w ++ (u ++ v) = p ++ q ++ (r ++ (s ++ w ++ (u ++ v))) by simp, h4']
      congr 1
      have hl1 : ∀ m ∈ Finset.range M, val ab (p ++ q ++ (r ++ s) ++ m :: w) * val c (u ++ m :: v) =
          ∑ l ∈ Finset.range L, val a (p ++ l :: q) * val b (r ++ l :: (s ++ m :: w)) * val c (u ++ m :: v) := by
        intro m hm
        have := h1 p q r (s ++ m :: w) hp hq hr (hs.append (by simp [Finset.mem_range.1 hm, hw]))
        rw [outIdx_ne (by simp)] at this
        rw [← Finset.sum_mul, ← val_eq this]
        simp
      have hl2 : ∀ l ∈ Finset.range L, val a (p ++ l :: q) * val bc (r ++ l :: (s ++ w ++ (u ++ v))) =
          ∑ m ∈ Finset.range M, val a (p ++ l :: q) * val b (r ++ l :: (s ++ m :: w)) * val c (u ++ m :: v) := by
        intro l hl
        have := h2 (r ++ l :: s) w u v (hr.append (by simp [Finset.mem_range.1 hl, hs])) hw hu hv
        rw [outIdx_ne (by simp)] at this
        rw [show r ++ l :: (s ++ w ++ (u ++ v)) = r ++ l :: s ++ w ++ (u ++ v) by simp, val_eq this, Finset.mul_sum]
        refine Finset.sum_congr rfl fun m _ => ?_
        rw [mul_assoc]
        simp
      rw [Finset.sum_congr rfl hl1, Finset.sum_congr rfl hl2, Finset.sum_comm]
    · rw [hbc.2 (by tauto)]
      obtain ⟨ab, e1, wf1, hd1, -⟩ := hab.1 rfl hL
      obtain ⟨hd1, hn1⟩ := hnab ab hd1
      rw [e1]
      simp only [Res.ok_bind]
      exact (c19_fold ab c wf1 wfc k' l _ T U V M M' hd1 hdc hn1 hl).2 (by tauto)
  · rw [hab.2 (by tauto)]
    by_cases hM : M = M' ∧ M ≠ 0
    · obtain ⟨bc, e2, wf2, hd2, -⟩ := hbc.1 hM.1 hM.2
      obtain ⟨hd2, hn2⟩ := hnbc bc hd2
      rw [e2]
      simp only [Res.ok_bind]
      exact ((c19_fold a bc wfa wf2 i j' P Q R _ L L' hda hd2 hi hn2).2 (by tauto)).symm
    · rw [hbc.2 (by tauto)]
      rfl

theorem chain_gt {a b c : Tensor α} (wfa : a.WF) (wfb : b.WF) (wfc : c.WF) {i j k l k' j' : Int}
    {P Q R S T U V : List Nat} {L L' M M' : Nat} (hda : a.dims = P ++ L :: Q)
    (hdb : b.dims = R ++ M :: (S ++ L' :: T)) (hdc : c.dims = U ++ M' :: V)
    (hi : norm a.dims.length i = some P.length) (hj : norm b.dims.length j = some (R.length + 1 + S.length))
    (hk : norm b.dims.length k = some R.length) (hl : norm c.dims.length l = some U.length)
    (hk' : norm (a.dims.length + b.dims.length - 2) k' = some (P.length + Q.length + R.length))
    (hj' : norm (b.dims.length + c.dims.length - 2) j' = some (R.length + S.length)) :
    (do let ab ← fold a i b j; fold ab k' c l) = (do let bc ← fold b k c l; fold a i bc j') := by
  have hdb' : b.dims = (R ++ M :: S) ++ L' :: T := by rw [hdb]; simp
  have hjb : norm b.dims.length j = some (R ++ M :: S).length := by
    rw [hj]
    simp
    omega
  have hab := c19_fold a b wfa wfb i j P Q (R ++ M :: S) T L L' hda hdb' hi hjb
  have hbc := c19_fold b c wfb wfc k l R (S ++ L' :: T) U V M M' hdb hdc hk hl
  have hnab : ∀ x : Tensor α, x.dims = outDims (P ++ Q ++ ((R ++ M :: S) ++ T)) →
      x.dims = (P ++ Q ++ R) ++ M :: (S ++ T) ∧ norm x.dims.length k' = some (P ++ Q ++ R).length := by
    intro x hx
    rw [outDims_ne (by simp)] at hx
    have hx' : x.dims = (P ++ Q ++ R) ++ M :: (S ++ T) := by rw [hx]; simp
    refine ⟨hx', ?_⟩
    have e : x.dims.length = a.dims.length + b.dims.length - 2 := by
      rw [hx', hda, hdb]
      simp
      omega
    rw [e, hk']
    simp
    omega
  have hnbc : ∀ x : Tensor α, x.dims = outDims (R ++ (S ++ L' :: T) ++ (U ++ V)) →
      x.dims = (R ++ S) ++ L' :: (T ++ (U ++ V)) ∧ norm x.dims.length j' = some (R ++ S).length := by
    intro x hx
    rw [outDims_ne (by simp)] at hx
    have hx' : x.dims = (R ++ S) ++ L' :: (T ++ (U ++ V)) := by rw [hx]; simp
    refine ⟨hx', ?_⟩
    have e : x.dims.length = b.dims.length + c.dims.length - 2 := by
      rw [hx', hdb, hdc]
      simp
      omega
    rw [e, hj']
    simp
  by_cases hL : L = L' ∧ L ≠ 0
  · obtain ⟨rfl, hL⟩ := hL
    by_cases hM : M = M' ∧ M ≠ 0
    · obtain ⟨rfl, hM⟩ := hM
      obtain ⟨ab, e1, wf1, hd1, h1⟩ := fold_val wfa wfb hda hdb' hi hjb hL
      obtain ⟨bc, e2, wf2, hd2, h2⟩ := fold_val wfb wfc hdb hdc hk hl hM
      obtain ⟨hd1, hn1⟩ := hnab ab hd1
      obtain ⟨hd2, hn2⟩ := hnbc bc hd2
      obtain ⟨x, e3, wf3, hd3, h3⟩ := fold_val wf1 wfc hd1 hdc hn1 hl hM
      obtain ⟨y, e4, wf4, hd4, h4⟩ := fold_val wfa wf2 hda hd2 hi hn2 hL
      rw [e1, e2]
      simp only [Res.ok_bind, e3, e4]
      congr 1
      have hdd : x.dims = y.dims := by rw [hd3, hd4]; simp
      refine ext_elem wf3 wf4 hdd fun idx hidx => ?_
      rw [hd3] at hidx
      obtain ⟨t, ht, rfl⟩ := outIdx_of_inB hidx
      obtain ⟨t1, t2, rfl, ht1, ht2⟩ := inB_append_split ht
      obtain ⟨t3, sw, rfl, ht3, hsw⟩ := inB_append_split ht1
      obtain ⟨pq, r, rfl, hpq, hr⟩ := inB_append_split ht3
      obtain ⟨p, q, rfl, hp, hq⟩ := inB_append_split hpq
      obtain ⟨s, w, rfl, hs, hw⟩ := inB_append_split hsw
      obtain ⟨u, v, rfl, hu, hv⟩ := inB_append_split ht2
      rw [h3 _ (s ++ w) u v ht3 hsw hu hv]
      have h4' := h4 p q (r ++ s) (w ++ (u ++ v)) hp hq (hr.append hs) (hw.append (hu.append hv))
      rw [show p ++ q ++ r ++ (s ++ w) ++ (u ++ v) = p ++ q ++ (r ++ s ++ (w ++ (u ++ v))) by simp, h4']
      congr 1
      have hl1 : ∀ m ∈ Finset.range M, val ab (p ++ q ++ r ++ m :: (s ++ w)) * val c (u ++ m :: v) =
          ∑ l ∈ Finset.range L, val a (p ++ l :: q) * val b (r ++ m :: (s ++ l :: w)) * val c (u ++ m :: v) := by
        intro m hm
        have := h1 p q (r ++ m :: s) w hp hq (hr.append (by simp [Finset.mem_range.1 hm, hs])) hw
        rw [outIdx_ne (by simp)] at this
        rw [← Finset.sum_mul, show p ++ q ++ r ++ m :: (s ++ w) = p ++ q ++ (r ++ m :: s ++ w) by simp, val_eq this]
        simp
      have hl2 : ∀ l ∈ Finset.range L, val a (p ++ l :: q) * val bc (r ++ s ++ l :: (w ++ (u ++ v))) =
          ∑ m ∈ Finset.range M, val a (p ++ l :: q) * val b (r ++ m :: (s ++ l :: w)) * val c (u ++ m :: v) := by
        intro l hl
        have := h2 r (s ++ l :: w) u v hr (hs.append (by simp [Finset.mem_range.1 hl, hw])) hu hv
        rw [outIdx_ne (by simp)] at this
        rw [show r ++ s ++ l :: (w ++ (u ++ v)) = r ++ (s ++ l :: w) ++ (u ++ v) by simp, val_eq this, Finset.mul_sum]
        refine Finset.sum_congr rfl fun m _ => ?_
        rw [mul_assoc]
      rw [Finset.sum_congr rfl hl1, Finset.sum_congr rfl hl2, Finset.sum_comm]
    · rw [hbc.2 (by tauto)]
      obtain ⟨ab, e1, wf1, hd1, -⟩ := hab.1 rfl hL
      obtain ⟨hd1, hn1⟩ := hnab ab hd1
      rw [e1]
      simp only [Res.ok_bind]
      exact (c19_fold ab c wf1 wfc k' l _ (S ++ T) U V M M' hd1 hdc hn1 hl).2 (by tauto)
  · rw [hab.2 (by tauto)]
    by_cases hM : M = M' ∧ M ≠ 0
    · obtain ⟨bc, e2, wf2, hd2, -⟩ := hbc.1 hM.1 hM.2
      obtain ⟨hd2, hn2⟩ := hnbc bc hd2
      rw [e2]
      simp only [Res.ok_bind]
      exact ((c19_fold a bc wfa wf2 i j' P Q (R ++ S) _ L L' hda hd2 hi hn2).2 (by tauto)).symm
    · rw [hbc.2 (by tauto)]
      rfl

/-- C98: three tensors contracted in a chain give the same tensor, with its indices in the same order, whichever of
the two contractions is made first, and the program stops for the same arguments.  Index `j` of the tensor in the
middle goes with index `i` of the first and index `k` with index `l` of the last; `k'` is the place of index `k`
in the result of the first contraction, `j'` that of `j` in the result of the second. -/
theorem c98_chain (a b c : Tensor α) (wfa : a.WF) (wfb : b.WF) (wfc : c.WF) (i j k l k' j' : Int) (jn kn : Nat)
    (hj : norm b.dims.length j = some jn) (hk : norm b.dims.length k = some kn) (hjk : jn ≠ kn)
    (hk' : norm (a.dims.length + b.dims.length - 2) k' =
      some (a.dims.length - 1 + (if jn < kn then kn - 1 else kn)))
    (hj' : norm (b.dims.length + c.dims.length - 2) j' = some (if kn < jn then jn - 1 else jn)) :
    (do let ab ← fold a i b j; fold ab k' c l) = (do let bc ← fold b k c l; fold a i bc j') := by
  cases hi : norm a.dims.length i with
  | none =>
    rw [c19_fold_positions a b i j (.inl hi)]
    rcases fold_total wfb wfc k l with ⟨bc, e, -⟩ | e
    · rw [e]
      simp only [Res.ok_bind]
      exact (c19_fold_positions a bc i j' (.inl hi)).symm
    · rw [e]
      rfl
  | some n =>
    cases hl : norm c.dims.length l with
    | none =>
      rw [c19_fold_positions b c k l (.inr hl)]
      rcases fold_total wfa wfb i j with ⟨ab, e, -⟩ | e
      · rw [e]
        simp only [Res.ok_bind]
        exact c19_fold_positions ab c k' l (.inr hl)
      · rw [e]
        rfl
    | some n' =>
      obtain ⟨P, L, Q, hda, e1⟩ := norm_split hi
      obtain ⟨U, M', V, hdc, e2⟩ := norm_split hl
      have hjl := norm_lt hj
      have hkl := norm_lt hk
      subst e1 e2
      have hal : a.dims.length - 1 = P.length + Q.length := by
        rw [hda]
        simp
      rw [hal] at hk'
      rcases Nat.lt_or_gt_of_ne hjk with hlt | hlt
      · obtain ⟨R, L', S, M, T, hdb, e3, e4⟩ := split2_lt hlt hkl
        rw [if_pos hlt] at hk'
        rw [if_neg (by omega)] at hj'
        refine chain_lt (R := R) (S := S) wfa wfb wfc hda hdb hdc hi (by rw [hj, e3]) (by rw [hk]; congr 1; omega) hl ?_ (by rw [hj', e3])
        rw [hk']
        congr 1
        omega
      · obtain ⟨R, M, S, L', T, hdb, e3, e4⟩ := split2_lt hlt hjl
        rw [if_neg (by omega)] at hk'
        rw [if_pos hlt] at hj'
        refine chain_gt (R := R) (S := S) wfa wfb wfc hda hdb hdc hi (by rw [hj]; congr 1; omega) (by rw [hk, e3]) hl ?_ ?_
        · rw [hk']
          congr 1
          omega
        · rw [hj']
          congr 1
          omega

/-- C98: a matrix applied to one index of a tensor with foldin. -/
theorem op_val {A T : Tensor α} {m n L : Nat} {f : Nat → Nat → α} (hA : IsMat A.dims A.data m n f) (wf : T.WF)
    {i : Int} {R S : List Nat} (hd : T.dims = R ++ L :: S)
    (hi : norm T.dims.length i = some R.length) :
    (n = L → ∃ c : Tensor α, foldin A 1 T i = .ok c ∧ c.WF ∧ c.dims = R ++ m :: S ∧
      ∀ r x s, InB r R → x < m → InB s S →
        elem c.dims c.data (r ++ x :: s) = some (∑ l ∈ Finset.range L, f x l * val T (r ++ l :: s))) ∧
    (n ≠ L → foldin A 1 T i = .abort) := by
  have h := c21_foldin_partial A T (IsMat.wf hA) wf 1 i [m] [] R S n L hA.1 hd (by rw [hA.1]; rfl) hi
    (by rw [hA.1]; simp)
  refine ⟨fun e => ?_, h.2⟩
  obtain ⟨c, e1, wf1, hd1, h1⟩ := h.1 e
  subst e
  refine ⟨c, e1, wf1, by simpa using hd1, fun r x s hr hx hs => ?_⟩
  have := h1 [x] [] r s (by simp [hx]) trivial hr hs (fun l => f x l) (fun l => val T (r ++ l :: s)) ?_ ?_
  · simpa using this
  · intro l hl
    exact hA.2.2 x l hx hl
  · intro l hl
    exact elem_val wf (by rw [hd]; exact hr.append (by simp [hl, hs])) (by simp)

/-- C98: two matrices applied one after the other to an index of a tensor are applied as their product, and the
program stops for the same arguments.  The dimension between them is not zero: see `c98_negation_operators`. -/
theorem c98_operators_partial (A B T : Tensor α) (wfA : A.WF) (wfB : B.WF) (wf : T.WF) (i : Int) (m n n' p : Nat)
    (hA : A.dims = [m, n]) (hB : B.dims = [n', p]) (hn : n ≠ 0) :
    (do let u ← foldin B 1 T i; foldin A 1 u i) = (do let ab ← mmult A B; foldin ab 1 T i) := by
  obtain ⟨f, hf⟩ := exists_isMat A wfA m n hA
  obtain ⟨g, hg⟩ := exists_isMat B wfB n' p hB
  cases hi : norm T.dims.length i with
  | none =>
    rw [show foldin B 1 T i = .abort from foldin_norm_none _ _ _ _ _ _ (.inr hi)]
    rcases fold_total wfA wfB (-1) 0 with ⟨ab, e, -⟩ | e
    · rw [show mmult A B = .ok ab from e]
      simp only [Res.ok_bind]
      exact (foldin_norm_none _ _ ab T 1 i (.inr hi)).symm
    · rw [show mmult A B = .abort from e]
      rfl
  | some d =>
    obtain ⟨R, L, S, hd, hR⟩ := norm_split hi
    rw [← hR] at hi
    by_cases hnn : n = n'
    · subst hnn
      obtain ⟨ab, e, hab⟩ := mmult_isMat hf hg hn
      rw [e]
      simp only [Res.ok_bind]
      by_cases hp : p = L
      · subst hp
        obtain ⟨u, e1, wf1, hd1, h1⟩ := (op_val hg wf hd hi).1 rfl
        have hl : u.dims.length = T.dims.length := by rw [hd1, hd]; simp
        obtain ⟨x, e2, wf2, hd2, h2⟩ := (op_val hf wf1 hd1 (by rw [hl, hi])).1 rfl
        obtain ⟨y, e3, wf3, hd3, h3⟩ := (op_val hab wf hd hi).1 rfl
        rw [e1, Res.ok_bind, e2, e3]
        congr 1
        refine ext_elem wf2 wf3 (hd2.trans hd3.symm) fun idx hidx => ?_
        rw [hd2] at hidx
        obtain ⟨r, xs, rfl, hr, hxs⟩ := inB_append_split hidx
        obtain _ | ⟨x0, s⟩ := xs
        · exact hxs.elim
        obtain ⟨hx, hs⟩ := hxs
        rw [h2 r x0 s hr hx hs, h3 r x0 s hr hx hs]
        congr 1
        have : ∀ l ∈ Finset.range n, f x0 l * val u (r ++ l :: s) =
            ∑ q ∈ Finset.range p, f x0 l * g l q * val T (r ++ q :: s) := by
          intro l hl
          rw [val_eq (h1 r l s hr (Finset.mem_range.1 hl) hs), Finset.mul_sum]
          exact Finset.sum_congr rfl fun q _ => (mul_assoc _ _ _).symm
        rw [Finset.sum_congr rfl this, Finset.sum_comm]
        exact Finset.sum_congr rfl fun q _ => (Finset.sum_mul _ _ _).symm
      · rw [(op_val hg wf hd hi).2 hp, (op_val hab wf hd hi).2 hp]
        rfl
    · have e : mmult A B = .abort := (c19_fold A B wfA wfB (-1) 0 [m] [] [] [p] n n' hA hB (by rw [hA]; rfl)
        (by rw [hB]; rfl)).2 (.inl hnn)
      rw [e]
      by_cases hp : p = L
      · subst hp
        obtain ⟨u, e1, wf1, hd1, h1⟩ := (op_val hg wf hd hi).1 rfl
        have hl : u.dims.length = T.dims.length := by rw [hd1, hd]; simp
        rw [e1, Res.ok_bind, (op_val hf wf1 hd1 (by rw [hl, hi])).2 hnn]
        rfl
      · rw [(op_val hg wf hd hi).2 hp]
        rfl

/-- C98 is false of the code if the dimension between the matrices is zero: they can be applied one after the other,
but their product stops the program (tensor_fold.cc:59-66). -/
theorem c98_negation_operators (A B T : Tensor α) (wfA : A.WF) (wfB : B.WF) (wf : T.WF) (i : Int) (m p : Nat)
    (R S : List Nat) (hA : A.dims = [m, 0]) (hB : B.dims = [0, p]) (hd : T.dims = R ++ p :: S)
    (hi : norm T.dims.length i = some R.length) :
    (∃ c : Tensor α, (do let u ← foldin B 1 T i; foldin A 1 u i) = .ok c ∧ c.dims = R ++ m :: S ∧ ∀ x ∈ c.data, x = 0) ∧
    (do let ab ← mmult A B; foldin ab 1 T i) = .abort := by
  obtain ⟨f, hf⟩ := exists_isMat A wfA m 0 hA
  obtain ⟨g, hg⟩ := exists_isMat B wfB 0 p hB
  constructor
  · obtain ⟨u, e1, wf1, hd1, h1⟩ := (op_val hg wf hd hi).1 rfl
    have hl : u.dims.length = T.dims.length := by rw [hd1, hd]; simp
    obtain ⟨x, e2, wf2, hd2, h2⟩ := (op_val hf wf1 hd1 (by rw [hl, hi])).1 rfl
    refine ⟨x, by rw [e1, Res.ok_bind, e2], hd2, fun y hy => ?_⟩
    have hz : x = ⟨x.dims, List.replicate x.data.length 0⟩ := by
      refine ext_elem wf2 (by show (List.replicate _ _).length = _; rw [List.length_replicate]; exact wf2) rfl
        fun idx hidx => ?_
      have hidx' := hidx
      rw [hd2] at hidx
      obtain ⟨r, xs, rfl, hr, hxs⟩ := inB_append_split hidx
      obtain _ | ⟨x0, s⟩ := xs
      · exact hxs.elim
      obtain ⟨hx, hs⟩ := hxs
      have e := h2 r x0 s hr hx hs
      rw [e]
      rw [elem, if_pos hidx'] at e
      rw [elem, if_pos hidx', List.getElem?_replicate, if_pos (List.getElem?_eq_some_iff.1 e).1]
      simp
    have hz' := congrArg Tensor.data hz
    rw [hz'] at hy
    exact (List.mem_replicate.1 hy).2
  · rw [show mmult A B = .abort from (c19_fold A B wfA wfB (-1) 0 [m] [] [] [p] 0 0 hA hB (by rw [hA]; rfl)
        (by rw [hB]; rfl)).2 (.inr rfl)]
    rfl

/-- Matrices applied to two indices of a tensor. -/
theorem op_commute_lt {A B T : Tensor α} {m n m' n' : Nat} (hA : A.dims = [m, n]) (hB : B.dims = [m', n'])
    (wfA : A.WF) (wfB : B.WF) (wf : T.WF) {i j : Int} {R S V : List Nat} {L M : Nat}
    (hd : T.dims = R ++ L :: (S ++ M :: V)) (hi : norm T.dims.length i = some R.length)
    (hj : norm T.dims.length j = some (R.length + 1 + S.length)) :
    (do let u ← foldin A 1 T i; foldin B 1 u j) = (do let u ← foldin B 1 T j; foldin A 1 u i) := by
  obtain ⟨f, hf⟩ := exists_isMat A wfA m n hA
  obtain ⟨g, hg⟩ := exists_isMat B wfB m' n' hB
  have key : ∀ X, T.dims.length = (R ++ X :: S ++ M :: V).length := by
    intro X
    rw [hd]
    simp
  have hd' : T.dims = (R ++ L :: S) ++ M :: V := by rw [hd]; simp
  have hj' : ∀ X, norm T.dims.length j = some (R ++ X :: S).length := by
    intro X
    rw [hj]
    simp
    omega
  have hleft : n = L → ∃ u : Tensor α, foldin A 1 T i = .ok u ∧ u.WF ∧ u.dims = R ++ m :: S ++ M :: V ∧
      norm u.dims.length j = some (R ++ m :: S).length ∧
      ∀ r x s, InB r R → x < m → InB s (S ++ M :: V) →
        elem u.dims u.data (r ++ x :: s) = some (∑ l ∈ Finset.range L, f x l * val T (r ++ l :: s)) := by
    intro e
    obtain ⟨u, e1, wf1, hd1, h1⟩ := (op_val hf wf hd hi).1 e
    have hd1' : u.dims = R ++ m :: S ++ M :: V := by rw [hd1]; simp
    exact ⟨u, e1, wf1, hd1', by rw [hd1', ← key m, hj' m], h1⟩
  have hright : n' = M → ∃ u : Tensor α, foldin B 1 T j = .ok u ∧ u.WF ∧ u.dims = R ++ L :: (S ++ m' :: V) ∧
      norm u.dims.length i = some R.length ∧
      ∀ r x s, InB r (R ++ L :: S) → x < m' → InB s V →
        elem u.dims u.data (r ++ x :: s) = some (∑ l ∈ Finset.range M, g x l * val T (r ++ l :: s)) := by
    intro e
    obtain ⟨u, e1, wf1, hd1, h1⟩ := (op_val hg wf hd' (hj' L)).1 e
    have hd1' : u.dims = R ++ L :: (S ++ m' :: V) := by rw [hd1]; simp
    refine ⟨u, e1, wf1, hd1', ?_, h1⟩
    rw [← hi, hd1', hd]
    simp
  by_cases h1 : n = L
  · obtain ⟨u, e1, wf1, hd1, hj1, g1⟩ := hleft h1
    rw [e1, Res.ok_bind]
    by_cases h2 : n' = M
    · obtain ⟨w, e2, wf2, hd2, hi2, g2⟩ := hright h2
      obtain ⟨x, e3, wf3, hd3, g3⟩ := (op_val hg wf1 hd1 hj1).1 h2
      obtain ⟨y, e4, wf4, hd4, g4⟩ := (op_val hf wf2 hd2 hi2).1 h1
      rw [e2, Res.ok_bind, e3, e4]
      congr 1
      have hdd : x.dims = y.dims := by rw [hd3, hd4]; simp
      refine ext_elem wf3 wf4 hdd fun idx hidx => ?_
      rw [hdd, hd4] at hidx
      obtain ⟨r, xs, rfl, hr, hxs⟩ := inB_append_split hidx
      obtain _ | ⟨x0, t⟩ := xs
      · exact hxs.elim
      obtain ⟨hx, ht⟩ := hxs
      obtain ⟨s, zs, rfl, hs, hzs⟩ := inB_append_split ht
      obtain _ | ⟨y0, v⟩ := zs
      · exact hzs.elim
      obtain ⟨hy, hv⟩ := hzs
      rw [g4 r x0 _ hr hx ht]
      have := g3 (r ++ x0 :: s) y0 v (hr.append ⟨hx, hs⟩) hy hv
      rw [show r ++ x0 :: (s ++ y0 :: v) = r ++ x0 :: s ++ y0 :: v by simp, this]
      congr 1
      have l1 : ∀ q ∈ Finset.range M, g y0 q * val u (r ++ x0 :: s ++ q :: v) =
          ∑ l ∈ Finset.range L, g y0 q * (f x0 l * val T (r ++ l :: (s ++ q :: v))) := by
        intro q hq
        rw [show r ++ x0 :: s ++ q :: v = r ++ x0 :: (s ++ q :: v) by simp,
          val_eq (g1 r x0 (s ++ q :: v) hr hx (hs.append ⟨Finset.mem_range.1 hq, hv⟩)), Finset.mul_sum]
      have l2 : ∀ l ∈ Finset.range L, f x0 l * val w (r ++ l :: (s ++ y0 :: v)) =
          ∑ q ∈ Finset.range M, g y0 q * (f x0 l * val T (r ++ l :: (s ++ q :: v))) := by
        intro l hl
        rw [show r ++ l :: (s ++ y0 :: v) = r ++ l :: s ++ y0 :: v by simp,
          val_eq (g2 (r ++ l :: s) y0 v (hr.append ⟨Finset.mem_range.1 hl, hs⟩) hy hv), Finset.mul_sum]
        refine Finset.sum_congr rfl fun q _ => ?_
        rw [mul_left_comm]
        simp
      rw [Finset.sum_congr rfl l1, Finset.sum_congr rfl l2, Finset.sum_comm]
    · rw [(op_val hg wf hd' (hj' L)).2 h2, (op_val hg wf1 hd1 hj1).2 h2]
      rfl
  · rw [(op_val hf wf hd hi).2 h1]
    by_cases h2 : n' = M
    · obtain ⟨w, e2, wf2, hd2, hi2, g2⟩ := hright h2
      rw [e2, Res.ok_bind, (op_val hf wf2 hd2 hi2).2 h1]
      rfl
    · rw [(op_val hg wf hd' (hj' L)).2 h2]
      rfl

/-- C98: matrices applied to two different indices of a tensor may be applied in any order, and the program stops
for the same arguments. -/
theorem c98_commute (A B T : Tensor α) (wfA : A.WF) (wfB : B.WF) (wf : T.WF) (i j : Int) (m n m' n' : Nat)
    (hA : A.dims = [m, n]) (hB : B.dims = [m', n']) (hij : norm T.dims.length i ≠ norm T.dims.length j) :
    (do let u ← foldin A 1 T i; foldin B 1 u j) = (do let u ← foldin B 1 T j; foldin A 1 u i) := by
  have total : ∀ (C : Tensor α) (c d : Nat) (k : Int), C.WF → C.dims = [c, d] →
      (∃ u : Tensor α, foldin C 1 T k = .ok u ∧ u.dims.length = T.dims.length) ∨ foldin C 1 T k = .abort := by
    intro C c d k wfC hC
    obtain ⟨f, hf⟩ := exists_isMat C wfC c d hC
    cases hk : norm T.dims.length k with
    | none => exact .inr (foldin_norm_none _ _ _ _ _ _ (.inr hk))
    | some x =>
      obtain ⟨R, L, S, hd, hR⟩ := norm_split hk
      rw [← hR] at hk
      by_cases h : d = L
      · obtain ⟨u, e, -, hu, -⟩ := (op_val hf wf hd hk).1 h
        exact .inl ⟨u, e, by rw [hu, hd]; simp⟩
      · exact .inr ((op_val hf wf hd hk).2 h)
  cases hi : norm T.dims.length i with
  | none =>
    rw [show foldin A 1 T i = .abort from foldin_norm_none _ _ _ _ _ _ (.inr hi)]
    rcases total B m' n' j wfB hB with ⟨u, e, hu⟩ | e
    · rw [e, Res.ok_bind, show foldin A 1 u i = .abort from foldin_norm_none _ _ _ _ _ _ (.inr (by rw [hu, hi]))]
      rfl
    · rw [e]
      rfl
  | some x =>
    cases hj : norm T.dims.length j with
    | none =>
      rw [show foldin B 1 T j = .abort from foldin_norm_none _ _ _ _ _ _ (.inr hj)]
      rcases total A m n i wfA hA with ⟨u, e, hu⟩ | e
      · rw [e, Res.ok_bind, show foldin B 1 u j = .abort from foldin_norm_none _ _ _ _ _ _ (.inr (by rw [hu, hj]))]
        rfl
      · rw [e]
        rfl
    | some y =>
      have hxy : x ≠ y := by
        rintro rfl
        exact hij (hi.trans hj.symm)
      rcases Nat.lt_or_gt_of_ne hxy with h | h
      · obtain ⟨R, L, S, M, V, hd, e1, e2⟩ := split2_lt h (norm_lt hj)
        exact op_commute_lt hA hB wfA wfB wf hd (by rw [hi, e1]) (by rw [hj, e2])
      · obtain ⟨R, L, S, M, V, hd, e1, e2⟩ := split2_lt h (norm_lt hi)
        exact (op_commute_lt hB hA wfB wfA wf hd (by rw [hj, e1]) (by rw [hi, e2])).symm

/-- C98: the identity applied to an index leaves the tensor as it is, and the program stops if the sizes differ. -/
theorem c98_identity (T : Tensor α) (wf : T.WF) (i : Int) (n L : Nat) (R S : List Nat)
    (hd : T.dims = R ++ L :: S) (hi : norm T.dims.length i = some R.length) :
    (do let e ← eye n n; foldin e 1 T i) = if n = L then .ok T else .abort := by
  obtain ⟨e, he, hf⟩ := eye_isMat (α := α) n n
  rw [he, Res.ok_bind]
  by_cases h : n = L
  · rw [if_pos h]
    obtain ⟨c, e1, wf1, hd1, h1⟩ := (op_val hf wf hd hi).1 h
    rw [e1]
    congr 1
    subst h
    refine ext_elem wf1 wf (hd1.trans hd.symm) fun idx hidx => ?_
    rw [hd1] at hidx
    obtain ⟨r, xs, rfl, hr, hxs⟩ := inB_append_split hidx
    obtain _ | ⟨x, s⟩ := xs
    · exact hxs.elim
    obtain ⟨hx, hs⟩ := hxs
    rw [h1 r x s hr hx hs, elem_val wf (by rw [hd]; exact hr.append ⟨hx, hs⟩) (by simp)]
    congr 1
    rw [Finset.sum_eq_single x]
    · simp
    · intro l _ hl
      rw [if_neg (Ne.symm hl), zero_mul]
    · intro hx'
      exact absurd (Finset.mem_range.2 hx) hx'
  · rw [if_neg h]
    exact (op_val hf wf hd hi).2 h

/-- C98: a diagonal matrix applied to an index is scale on that index, and the program stops for the same
arguments. -/
theorem c98_diagonal (T v : Tensor α) (wf : T.WF) (i : Int) :
    (do let d ← diagSquare v 0; foldin d 1 T i) = scale (· * ·) T i v := by
  obtain ⟨d, e, h⟩ := c27_diag v 0 v.data.length v.data.length (by simp) (fun i => (v.data[i]?).getD 0)
    (by intro i hi; simp [hi])
  have e' : diagSquare v 0 = .ok d := by simpa [diagSquare, size] using e
  rw [e', Res.ok_bind]
  cases hi : norm T.dims.length i with
  | none =>
    rw [c24_scale_position _ _ _ _ hi]
    exact foldin_norm_none _ _ _ _ _ _ (.inr hi)
  | some x =>
    obtain ⟨R, L, S, hd, hR⟩ := norm_split hi
    rw [← hR] at hi
    have hs := c24_scale (· * ·) T wf i v R S L hd hi
    by_cases hL : v.data.length = L
    · obtain ⟨c, e1, wf1, hd1, h1⟩ := (op_val h wf hd hi).1 hL
      obtain ⟨c', e2, wf2, hd2, h2⟩ := hs.1 hL
      rw [e1, e2]
      congr 1
      subst hL
      refine ext_elem wf1 wf2 (by rw [hd1, hd2, hd]) fun idx hidx => ?_
      rw [hd1] at hidx
      obtain ⟨r, xs, rfl, hr, hxs⟩ := inB_append_split hidx
      obtain _ | ⟨x, s⟩ := xs
      · exact hxs.elim
      obtain ⟨hx, hs⟩ := hxs
      rw [h1 r x s hr hx hs, h2 r x s hr hx hs (val T (r ++ x :: s)) ((v.data[x]?).getD 0)
        (elem_val wf (by rw [hd]; exact hr.append ⟨hx, hs⟩) (by simp)) (by simp [hx])]
      congr 1
      rw [Finset.sum_eq_single x]
      · simp [diagEntry, mul_comm]
      · intro l _ hl
        have : diagEntry (fun i => (v.data[i]?).getD 0) 0 x l = 0 := by
          rw [diagEntry, if_neg (by omega)]
        rw [this, zero_mul]
      · intro hx'
        exact absurd (Finset.mem_range.2 hx) hx'
    · rw [hs.2 hL]
      exact (op_val h wf hd hi).2 hL

/-- C98: the operands of a contraction exchanged give the same elements, with the indices of the first after those of
the second, and the program stops for the same arguments. -/
theorem c98_exchange (a b : Tensor α) (wfa : a.WF) (wfb : b.WF) (i j : Int) :
    (fold a i b j = .abort ∧ fold b j a i = .abort) ∨
    ∃ (c d : Tensor α) (X Y : List Nat), fold a i b j = .ok c ∧ fold b j a i = .ok d ∧ c.WF ∧ d.WF ∧
      c.dims = outDims (X ++ Y) ∧ d.dims = outDims (Y ++ X) ∧
      X.length + 1 = a.dims.length ∧ Y.length + 1 = b.dims.length ∧
      ∀ x y, InB x X → InB y Y →
        elem c.dims c.data (outIdx (x ++ y)) = elem d.dims d.data (outIdx (y ++ x)) := by
  cases h1 : norm a.dims.length i with
  | none => exact .inl ⟨c19_fold_positions a b i j (.inl h1), c19_fold_positions b a j i (.inr h1)⟩
  | some n1 =>
    cases h2 : norm b.dims.length j with
    | none => exact .inl ⟨c19_fold_positions a b i j (.inr h2), c19_fold_positions b a j i (.inl h2)⟩
    | some n2 =>
      obtain ⟨P, L, Q, hda, e1⟩ := norm_split h1
      obtain ⟨R, L', S, hdb, e2⟩ := norm_split h2
      rw [← e1] at h1
      rw [← e2] at h2
      by_cases hL : L = L' ∧ L ≠ 0
      · obtain ⟨rfl, hL⟩ := hL
        obtain ⟨c, ec, wfc, hdc, hc⟩ := fold_val wfa wfb hda hdb h1 h2 hL
        obtain ⟨d, ed, wfd, hdd, hd⟩ := fold_val wfb wfa hdb hda h2 h1 hL
        refine .inr ⟨c, d, P ++ Q, R ++ S, ec, ed, wfc, wfd, hdc, hdd, by rw [hda]; simp; omega,
          by rw [hdb]; simp; omega, fun x y hx hy => ?_⟩
        obtain ⟨p, q, rfl, hp, hq⟩ := inB_append_split hx
        obtain ⟨r, s, rfl, hr, hs⟩ := inB_append_split hy
        rw [hc p q r s hp hq hr hs, hd r s p q hr hs hp hq]
        exact congrArg some (Finset.sum_congr rfl fun l _ => mul_comm _ _)
      · exact .inl ⟨(c19_fold a b wfa wfb i j P Q R S L L' hda hdb h1 h2).2 (by tauto),
          (c19_fold b a wfb wfa j i R S P Q L' L hdb hda h2 h1).2 (by
            rcases Classical.not_and_iff_not_or_not.1 hL with h | h
            · exact .inl fun e => h e.symm
            · by_cases h' : L' = L
              · exact .inr (by rw [h']; exact Classical.not_not.1 h)
              · exact .inl h')⟩

/-- C98: foldin on the last index is fold with the operands exchanged, and on the first index it is fold, if the
dimension summed is not zero and one of the operands is not a vector. -/
theorem c98_foldin_ends_partial (a b : Tensor α) (wfa : a.WF) (wfb : b.WF) (i : Int) (L : Nat)
    (hL : L ≠ 0) (hne : ¬ (a.dims.length = 1 ∧ b.dims.length = 1)) :
    (∀ R, b.dims = R ++ [L] → foldin a i b (-1) = fold b (-1) a i) ∧
    (∀ S, b.dims = L :: S → foldin a i b 0 = fold a i b 0) := by
  cases h1 : norm a.dims.length i with
  | none =>
    exact ⟨fun R hR => by rw [c19_fold_positions b a (-1) i (.inr h1)]; exact foldin_norm_none _ _ _ _ _ _ (.inl h1),
      fun R hR => by rw [c19_fold_positions a b i 0 (.inl h1)]; exact foldin_norm_none _ _ _ _ _ _ (.inl h1)⟩
  | some n1 =>
    obtain ⟨P, L', Q, hda, e1⟩ := norm_split h1
    rw [← e1] at h1
    constructor
    · intro R hR
      have h2 : norm b.dims.length (-1) = some R.length := by
        rw [hR, c04_norm]
        simp
      have hf := c21_foldin_partial a b wfa wfb i (-1) P Q R [] L' L hda hR h1 h2 hne
      by_cases hl : L' = L
      · subst hl
        obtain ⟨c, ec, wfc, hdc, hc⟩ := hf.1 rfl
        obtain ⟨d, ed, wfd, hdd, hd⟩ := fold_val wfb wfa hR hda h2 h1 hL
        rw [ec, ed]
        have hz : R ++ [] ++ (P ++ Q) ≠ [] := by
          intro e
          simp only [List.append_nil, List.append_eq_nil_iff] at e
          obtain ⟨rfl, rfl, rfl⟩ := e
          exact hne ⟨by rw [hda]; rfl, by rw [hR]; rfl⟩
        rw [outDims_ne hz] at hdd
        congr 1
        refine ext_elem wfc wfd (by rw [hdc, hdd]; simp) fun idx hidx => ?_
        rw [hdc] at hidx
        obtain ⟨r, t, rfl, hr, ht⟩ := inB_append_split hidx
        obtain ⟨p, q, rfl, hp, hq⟩ := inB_append_split ht
        rw [List.append_nil] at hq
        have e1 := hc p q r [] hp hq hr trivial _ _
          (fun l hl => elem_val wfa (by rw [hda]; exact hp.append ⟨hl, hq⟩) (by simp))
          (fun l hl => elem_val wfb (by rw [hR]; exact hr.append ⟨hl, trivial⟩) (by simp))
        have e2 := hd r [] p q hr trivial hp hq
        rw [outIdx_ne (by
          intro e
          apply hz
          have l1 := hr.length
          have l2 := hp.length
          have l3 := hq.length
          simp only [List.append_nil, List.append_eq_nil_iff] at e
          obtain ⟨rfl, rfl, rfl⟩ := e
          simp only [List.length_nil] at l1 l2 l3
          rw [List.eq_nil_of_length_eq_zero l1.symm, List.eq_nil_of_length_eq_zero l2.symm,
            List.eq_nil_of_length_eq_zero l3.symm]
          rfl)] at e2
        simp only [List.append_nil] at e1 e2
        rw [e1, e2]
        exact congrArg some (Finset.sum_congr rfl fun l _ => mul_comm _ _)
      · rw [hf.2 hl, (c19_fold b a wfb wfa (-1) i R [] P Q L L' hR hda h2 h1).2 (.inl (Ne.symm hl))]
    · intro S hS
      have h2 : norm b.dims.length 0 = some ([] : List Nat).length := by
        rw [hS, c04_norm]
        simp
      have hf := c21_foldin_partial a b wfa wfb i 0 P Q [] S L' L hda hS h1 h2 hne
      by_cases hl : L' = L
      · subst hl
        obtain ⟨c, ec, wfc, hdc, hc⟩ := hf.1 rfl
        obtain ⟨d, ed, wfd, hdd, hd⟩ := fold_val wfa wfb hda hS h1 h2 hL
        rw [ec, ed]
        have hz : P ++ Q ++ ([] ++ S) ≠ [] := by
          intro e
          simp only [List.nil_append, List.append_eq_nil_iff] at e
          obtain ⟨⟨rfl, rfl⟩, rfl⟩ := e
          exact hne ⟨by rw [hda]; rfl, by rw [hS]; rfl⟩
        rw [outDims_ne hz] at hdd
        congr 1
        refine ext_elem wfc wfd (by rw [hdc, hdd]; simp) fun idx hidx => ?_
        rw [hdc, List.nil_append] at hidx
        obtain ⟨p, t, rfl, hp, ht⟩ := inB_append_split hidx
        obtain ⟨q, s, rfl, hq, hs⟩ := inB_append_split ht
        have e1 := hc p q [] s hp hq trivial hs _ _
          (fun l hl => elem_val wfa (by rw [hda]; exact hp.append ⟨hl, hq⟩) (by simp))
          (fun l hl => elem_val wfb (idx := [] ++ l :: s) (by rw [hS]; exact ⟨hl, hs⟩) (by simp))
        have e2 := hd p q [] s hp hq trivial hs
        rw [outIdx_ne (by
          intro e
          apply hz
          have l1 := hp.length
          have l2 := hq.length
          have l3 := hs.length
          simp only [List.nil_append, List.append_eq_nil_iff] at e
          obtain ⟨⟨rfl, rfl⟩, rfl⟩ := e
          simp only [List.length_nil] at l1 l2 l3
          rw [List.eq_nil_of_length_eq_zero l1.symm, List.eq_nil_of_length_eq_zero l2.symm,
            List.eq_nil_of_length_eq_zero l3.symm]
          rfl)] at e2
        rw [List.nil_append] at e1
        rw [List.nil_append, List.append_assoc] at e2
        rw [e1, e2]
      · rw [hf.2 hl, (c19_fold a b wfa wfb i 0 P Q [] S L' L hda hS h1 h2).2 (.inl hl)]

/-- C98: the matrix kron(B,A) acts on a matrix X written as a vector as A X B^T, if X has elements. (With none, mmult
stops the program.) -/
theorem c98_vec_partial (A B X : Tensor α) (wfA : A.WF) (wfB : B.WF) (wfX : X.WF) (a1 a2 b1 b2 : Nat)
    (hA : A.dims = [a1, a2]) (hB : B.dims = [b1, b2]) (hX : X.dims = [a2, b2]) (ha : a2 ≠ 0) (hb : b2 ≠ 0) :
    ∃ t : Tensor α, (do let k ← kron B A; let x ← flatten X; mmult k x) = .ok t ∧
      (do let bt ← transpose B; let y ← mmult X bt; let z ← mmult A y; flatten z) = .ok t := by
  obtain ⟨fA, hA⟩ := exists_isMat A wfA _ _ hA
  obtain ⟨fB, hB⟩ := exists_isMat B wfB _ _ hB
  obtain ⟨fX, hX⟩ := exists_isMat X wfX _ _ hX
  obtain ⟨k, ek, hk⟩ := kron_isMat hB hA
  obtain ⟨bt, ebt, hbt⟩ := transpose_isMat hB
  obtain ⟨y, ey, hy⟩ := mmult_isMat hX hbt hb
  obtain ⟨z, ez, hz⟩ := mmult_isMat hA hy ha
  have efl : ∀ t : Tensor α, flatten t = .ok ⟨[t.data.length], t.data⟩ := by
    intro t
    simp [flatten, reshape, size, Res.assert]
  have wfx : (⟨[X.data.length], X.data⟩ : Tensor α).WF := by simp [WF]
  obtain ⟨c, ec, wfc, hdc, hc⟩ := fold_val (ndx1 := -1) (ndx2 := 0) (P := [a1 * b1]) (Q := []) (R := []) (S := [])
    (IsMat.wf hk) wfx hk.1 (by rw [hX.2.1]; rfl) (by rw [hk.1]; rfl) (by simp [norm]) (Nat.mul_ne_zero ha hb)
  refine ⟨c, ?_, ?_⟩
  · simp only [ek, efl, Res.ok_bind]
    exact ec
  · simp only [ebt, ey, ez, efl, Res.ok_bind]
    congr 1
    have wfz : (⟨[z.data.length], z.data⟩ : Tensor α).WF := by simp [WF]
    have hcd : c.dims = [a1 * b1] := hdc
    refine ext_elem wfz wfc (by rw [hcd]; simp [hz.2.1]) fun idx hidx => ?_
    simp only [hz.2.1] at hidx
    obtain _ | ⟨x, _ | ⟨_, _⟩⟩ := idx
    · exact hidx.elim
    · have hx : x < a1 * b1 := hidx.1
      have e := hc [x] [] [] [] ⟨hx, trivial⟩ trivial trivial trivial
      simp only [List.append_nil, List.nil_append, outIdx] at e
      rw [if_neg (by simp)] at e
      rw [e]
      have ha1 : 0 < a1 := Nat.pos_of_ne_zero (by rintro rfl; simp at hx)
      have h1 : x % a1 < a1 := Nat.mod_lt _ ha1
      have h2 : x / a1 < b1 := Nat.div_lt_of_lt_mul hx
      have hpos := isMat_pos hz h1 h2
      rw [Nat.mod_add_div] at hpos
      rw [elem, if_pos (by simp only [hz.2.1]; exact ⟨hx, trivial⟩)]
      simp only [colPos_cons, colPos_nil, Nat.mul_zero, Nat.add_zero]
      rw [hpos]
      congr 1
      rw [sum_range_mul]
      simp only [Finset.mul_sum]
      rw [Finset.sum_comm]
      refine Finset.sum_congr rfl fun q hq => Finset.sum_congr rfl fun p hp => ?_
      have hp := Finset.mem_range.1 hp
      have hq := Finset.mem_range.1 hq
      have hpq : p + a2 * q < a2 * b2 := pos_lt' hp hq
      have v1 : val k ([x] ++ (p + a2 * q) :: []) = kronF a1 a2 fB fA x (p + a2 * q) :=
        val_eq (hk.2.2 x _ hx hpq)
      have v2 : val (⟨[X.data.length], X.data⟩ : Tensor α) ([p + a2 * q]) = fX p q := by
        apply val_eq
        rw [elem, if_pos (by simp only [hX.2.1]; exact ⟨hpq, trivial⟩)]
        simp only [colPos_cons, colPos_nil, Nat.mul_zero, Nat.add_zero]
        exact isMat_pos hX hp hq
      rw [v1, v2, kronF, Nat.add_mul_mod_self_left, Nat.mod_eq_of_lt hp, Nat.add_mul_div_left _ _ (by omega),
        Nat.div_eq_of_lt hp, Nat.zero_add]
      ring
    · exact hidx.2.elim

/-- C98: the transpose of a Kronecker product is the product of the transposes. -/
theorem c98_kron_transpose (A B : Tensor α) (wfA : A.WF) (wfB : B.WF) (a1 a2 b1 b2 : Nat)
    (hA : A.dims = [a1, a2]) (hB : B.dims = [b1, b2]) :
    ∃ t : Tensor α, (do let k ← kron A B; transpose k) = .ok t ∧
      (do let x ← transpose A; let y ← transpose B; kron x y) = .ok t := by
  obtain ⟨fA, hA⟩ := exists_isMat A wfA _ _ hA
  obtain ⟨fB, hB⟩ := exists_isMat B wfB _ _ hB
  obtain ⟨k, ek, hk⟩ := kron_isMat hA hB
  obtain ⟨t, et, ht⟩ := transpose_isMat hk
  obtain ⟨x, ex, hx⟩ := transpose_isMat hA
  obtain ⟨y, ey, hy⟩ := transpose_isMat hB
  obtain ⟨u, eu, hu⟩ := kron_isMat hx hy
  refine ⟨t, by simp only [ek, Res.ok_bind, et], ?_⟩
  simp only [ex, ey, Res.ok_bind, eu]
  congr 1
  exact IsMat.unique hu ht fun i j _ _ => rfl

/-- C98: the trace of the Kronecker product of two square matrices is the product of their traces. -/
theorem c98_kron_trace (A B : Tensor α) (wfA : A.WF) (wfB : B.WF) (n m : Nat)
    (hA : A.dims = [n, n]) (hB : B.dims = [m, m]) :
    ∃ x y, trace A = .ok x ∧ trace B = .ok y ∧ (do let k ← kron A B; trace k) = .ok (x * y) := by
  obtain ⟨fA, hA⟩ := exists_isMat A wfA _ _ hA
  obtain ⟨fB, hB⟩ := exists_isMat B wfB _ _ hB
  obtain ⟨k, ek, hk⟩ := kron_isMat hA hB
  refine ⟨_, _, trace_isMat hA, trace_isMat hB, ?_⟩
  rw [ek, Res.ok_bind, trace_isMat hk]
  congr 1
  simp only [Nat.min_self]
  rw [sum_range_mul, Finset.sum_mul_sum]
  refine Finset.sum_congr rfl fun i hi => Finset.sum_congr rfl fun j hj => ?_
  have hj := Finset.mem_range.1 hj
  simp only [kronF]
  rw [Nat.add_mul_mod_self_left, Nat.mod_eq_of_lt hj, Nat.add_mul_div_left _ _ (by omega),
    Nat.div_eq_of_lt hj, Nat.zero_add]

/- The hypotheses of the theorems can be met, and the laws give results. -/
example : fold (⟨[1, 2], [1, 2]⟩ : Tensor Int) 1 ⟨[2, 2], [1, 0, 3, 1]⟩ 0 = .ok ⟨[1, 2], [1, 5]⟩ := by decide
example : (do let ab ← fold (⟨[1, 2], [1, 2]⟩ : Tensor Int) 1 ⟨[2, 2], [1, 0, 3, 1]⟩ 0; fold ab 1 ⟨[2], [1, 1]⟩ 0) =
    .ok ⟨[1], [6]⟩ := by decide
example : (do let bc ← fold (⟨[2, 2], [1, 0, 3, 1]⟩ : Tensor Int) 1 ⟨[2], [1, 1]⟩ 0; fold ⟨[1, 2], [1, 2]⟩ 1 bc 0) =
    .ok ⟨[1], [6]⟩ := by decide
example : norm 2 0 = some 0 ∧ norm 2 1 = some 1 ∧ norm (2 + 2 - 2) 1 = some (2 - 1 + (1 - 1)) ∧
    norm (2 + 1 - 2) 0 = some 0 := by decide
example : (do let u ← foldin (⟨[1, 2], [1, 1]⟩ : Tensor Int) 1 ⟨[2, 2], [1, 2, 3, 4]⟩ 0; foldin ⟨[1, 2], [1, -1]⟩ 1 u 1) =
    .ok ⟨[1, 1], [-4]⟩ := by decide
example : (do let u ← foldin (⟨[1, 2], [1, -1]⟩ : Tensor Int) 1 ⟨[2, 2], [1, 2, 3, 4]⟩ 1; foldin ⟨[1, 2], [1, 1]⟩ 1 u 0) =
    .ok ⟨[1, 1], [-4]⟩ := by decide
example : (do let e ← eye 2 2; foldin e 1 (⟨[2, 1], [3, 4]⟩ : Tensor Int) 0) = .ok ⟨[2, 1], [3, 4]⟩ := by decide
example : (do let d ← diagSquare (⟨[2], [5, 6]⟩ : Tensor Int) 0; foldin d 1 ⟨[2, 1], [3, 4]⟩ 0) =
    .ok ⟨[2, 1], [15, 24]⟩ := by decide
example : (do let k ← kron (⟨[1, 2], [1, 2]⟩ : Tensor Int) ⟨[2, 1], [3, 4]⟩; let x ← flatten ⟨[1, 2], [5, 6]⟩; mmult k x) =
    .ok ⟨[2], [51, 68]⟩ := by decide

end Verif.Tensor
