import Verif.Props.TraceLaws
/-
C134: two tensors which are contracted over two pairs of indices, with fold for one pair and trace for the other.
-/
namespace Verif.Tensor

open Verif Spec

variable {α : Type} [CommSemiring α]

/-- The index `l`, after `a` indices. -/
def ins1 (a l : Nat) (y : List Nat) : List Nat := y.take a ++ l :: y.drop a

theorem ins1_at {a l : Nat} {y p q : List Nat} (hy : y = p ++ q) (ha : a = p.length) : ins1 a l y = p ++ l :: q := by
  rw [hy, ha, ins1, List.take_left, List.drop_left]

/-- An element of a contraction. -/
def pairSum (F G : List Nat → α) (L a n b : Nat) (x : List Nat) : α :=
  ∑ l ∈ Finset.range L, F (ins1 a l (x.take n)) * G (ins1 b l (x.drop n))

theorem pairSum_at {F G : List Nat → α} {L a n b : Nat} {x p q r s : List Nat} (hx : x = p ++ q ++ (r ++ s))
    (ha : a = p.length) (hn : n = (p ++ q).length) (hb : b = r.length) :
    pairSum F G L a n b x = ∑ l ∈ Finset.range L, F (p ++ l :: q) * G (r ++ l :: s) := by
  unfold pairSum
  rw [hx, hn, List.take_left, List.drop_left]
  simp only [ins1_at rfl ha, ins1_at rfl hb]

/-- The elements of a contraction, in terms of functions for those of the tensors. -/
theorem fold_pairs (a b : Tensor α) (wfa : a.WF) (wfb : b.WF) (F G : List Nat → α)
    (hF : ∀ x, InB x a.dims → elem a.dims a.data x = some (F x))
    (hG : ∀ x, InB x b.dims → elem b.dims b.data x = some (G x)) (P Q R S : List Nat) (L : Nat) (hL : L ≠ 0)
    (hda : a.dims = P ++ L :: Q) (hdb : b.dims = R ++ L :: S) :
    ∃ c : Tensor α, fold a (P.length : Nat) b (R.length : Nat) = .ok c ∧ c.WF ∧ c.dims = outDims (P ++ Q ++ (R ++ S)) ∧
      ∀ x, InB x (P ++ Q ++ (R ++ S)) →
        elem c.dims c.data (outIdx x) = some (pairSum F G L P.length (P ++ Q).length R.length x) := by
  have la : a.dims.length = P.length + 1 + Q.length := by rw [hda]; simp; omega
  have lb : b.dims.length = R.length + 1 + S.length := by rw [hdb]; simp; omega
  obtain ⟨c, e, wf, hd, hc⟩ := (c19_fold a b wfa wfb (P.length : Nat) (R.length : Nat) P Q R S L L hda hdb
    (by unfold Spec.norm; rw [if_pos (by omega)]; simp) (by unfold Spec.norm; rw [if_pos (by omega)]; simp)).1 rfl hL
  refine ⟨c, e, wf, hd, fun x hx => ?_⟩
  obtain ⟨y, z, rfl, hy, hz⟩ := inB_append_split hx
  obtain ⟨p, q, rfl, hp, hq⟩ := inB_append_split hy
  obtain ⟨r, s, rfl, hr, hs⟩ := inB_append_split hz
  rw [pairSum_at rfl hp.length.symm (by simp [hp.length, hq.length]) hr.length.symm]
  refine hc p q r s hp hq hr hs (fun l => F (p ++ l :: q)) (fun l => G (r ++ l :: s)) (fun l hl => ?_) (fun l hl => ?_)
  · exact hF _ (by rw [hda]; exact hp.append ⟨hl, hq⟩)
  · exact hG _ (by rw [hdb]; exact hr.append ⟨hl, hs⟩)

/-- The elements of the trace of a contraction. -/
theorem trace_fold (a b : Tensor α) (wfa : a.WF) (wfb : b.WF) (F G : List Nat → α)
    (hF : ∀ x, InB x a.dims → elem a.dims a.data x = some (F x))
    (hG : ∀ x, InB x b.dims → elem b.dims b.data x = some (G x)) (P Q R S : List Nat) (L : Nat) (hL : L ≠ 0)
    (hda : a.dims = P ++ L :: Q) (hdb : b.dims = R ++ L :: S) (P' Q' R' : List Nat) (A' B' : Nat)
    (hd' : P ++ Q ++ (R ++ S) = P' ++ A' :: (Q' ++ B' :: R')) :
    ∃ c : Tensor α, (do let E ← fold a (P.length : Nat) b (R.length : Nat)
                        trace2 E (P'.length : Nat) (P'.length + 1 + Q'.length : Nat)) = .ok c ∧ c.WF ∧
      c.dims = outDims (P' ++ Q' ++ R') ∧ ∀ x, InB x (P' ++ Q' ++ R') →
        elem c.dims c.data (outIdx x) = some (∑ m ∈ Finset.range (min A' B'),
          pairSum F G L P.length (P ++ Q).length R.length (ins2 P'.length Q'.length m x)) := by
  obtain ⟨E, e, wfE, hdE, hE⟩ := fold_pairs a b wfa wfb F G hF hG P Q R S L hL hda hdb
  have ho : outDims (P ++ Q ++ (R ++ S)) = P ++ Q ++ (R ++ S) := by rw [outDims, if_neg (by rw [hd']; simp)]
  obtain ⟨c, e', h⟩ := trace_total E wfE (pairSum F G L P.length (P ++ Q).length R.length)
    (by
      intro x hx
      rw [hdE, ho] at hx
      have := hE x hx
      rwa [outIdx, if_neg (by
        rintro rfl
        have := hx.length
        rw [hd'] at this
        simp at this)] at this) P' Q' R' A' B' (by rw [hdE, ho, hd'])
  exact ⟨c, by rw [e]; exact e', h⟩

theorem pairs_ordered (a b : Tensor α) (wfa : a.WF) (wfb : b.WF) (i k j l X Y : Nat) (hik : i < k) (hjl : j ≠ l)
    (hai : a.dims[i]? = some X) (hbj : b.dims[j]? = some X) (hak : a.dims[k]? = some Y) (hbl : b.dims[l]? = some Y)
    (hX : X ≠ 0) (hY : Y ≠ 0) :
    (do let E ← fold a i b j; trace2 E ((k - if i < k then 1 else 0 : Nat) : Int) ((a.dims.length - 1 + (l - if j < l then 1 else 0) : Nat) : Int)) =
      (do let E ← fold a k b l; trace2 E ((i - if k < i then 1 else 0 : Nat) : Int) ((a.dims.length - 1 + (j - if l < j then 1 else 0) : Nat) : Int)) := by
  have lk := (List.getElem?_eq_some_iff.1 hak).1
  have lj := (List.getElem?_eq_some_iff.1 hbj).1
  have ll := (List.getElem?_eq_some_iff.1 hbl).1
  obtain ⟨F, hF⟩ := total a wfa (by intro h; simp [h] at lk)
  obtain ⟨G, hG⟩ := total b wfb (by intro h; simp [h] at lj)
  obtain ⟨P, X', Q, Y', R, hda, hi, hk⟩ := split2_lt (d := a.dims) hik lk
  have hX' : X' = X := by
    rw [hda, ← hi, List.getElem?_append_right le_rfl] at hai
    simpa using hai
  have hY' : Y' = Y := by
    rw [hda, ← hk, show P ++ X' :: (Q ++ Y' :: R) = (P ++ X' :: Q) ++ Y' :: R by simp,
      show P.length + 1 + Q.length = (P ++ X' :: Q).length by simp; omega, List.getElem?_append_right le_rfl] at hak
    simpa using hak
  subst hX' hY'
  have la : a.dims.length = P.length + Q.length + R.length + 2 := by rw [hda]; simp; omega
  rw [if_pos hik, if_neg (by omega : ¬ k < i), la]
  rcases lt_or_gt_of_ne hjl with h | h
  · obtain ⟨S, X, T, Y, U, hdb, hj, hl⟩ := split2_lt (d := b.dims) h ll
    have hX' : X' = X := by
      rw [hdb, ← hj, List.getElem?_append_right le_rfl] at hbj
      simpa using hbj.symm
    have hY' : Y' = Y := by
      rw [hdb, ← hl, show S ++ X :: (T ++ Y :: U) = (S ++ X :: T) ++ Y :: U by simp,
        show S.length + 1 + T.length = (S ++ X :: T).length by simp; omega, List.getElem?_append_right le_rfl] at hbl
      simpa using hbl.symm
    subst hX' hY'
    have t1 := trace_fold a b wfa wfb F G hF hG P (Q ++ Y' :: R) S (T ++ Y' :: U) X' hX hda hdb (P ++ Q) (R ++ S ++ T) U Y' Y'
      (by simp)
    have t2 := trace_fold a b wfa wfb F G hF hG (P ++ X' :: Q) R (S ++ X' :: T) U Y' hY (by rw [hda]; simp) (by rw [hdb]; simp)
      P (Q ++ R ++ S) (T ++ U) X' X' (by simp)
    have e1 : k - 1 = (P ++ Q).length := by simp; omega
    have e2 : P.length + Q.length + R.length + 2 - 1 + (l - 1) = (P ++ Q).length + 1 + (R ++ S ++ T).length := by
      simp; omega
    have e3 : P.length + Q.length + R.length + 2 - 1 + (j - 0) = P.length + 1 + (Q ++ R ++ S).length := by simp; omega
    have e4 : k = (P ++ X' :: Q).length := by simp; omega
    have e5 : l = (S ++ X' :: T).length := by simp; omega
    rw [if_pos h, if_neg (by omega : ¬ l < j), e1, e2, e3, Nat.sub_zero, ← hi, ← hj, e4, e5]
    rw [show P ++ Q ++ (R ++ S ++ T) ++ U = P ++ Q ++ R ++ S ++ (T ++ U) by simp] at t1
    rw [show P ++ (Q ++ R ++ S) ++ (T ++ U) = P ++ Q ++ R ++ S ++ (T ++ U) by simp] at t2
    refine same_traces t1 t2 fun x hx => ?_
    obtain ⟨x, y, rfl, hx, hy⟩ := inB_append_split hx
    obtain ⟨x, s, rfl, hx, hs⟩ := inB_append_split hx
    obtain ⟨x, r, rfl, hx, hr⟩ := inB_append_split hx
    obtain ⟨p, q, rfl, hp, hq⟩ := inB_append_split hx
    have hp := hp.length
    have hq := hq.length
    have hr := hr.length
    have hs := hs.length
    obtain ⟨t, u, rfl, ht, -⟩ := inB_append_split hy
    have ht := ht.length
    rw [min_self, min_self]
    have c1 : ∀ m, pairSum F G X' P.length (P ++ (Q ++ Y' :: R)).length S.length
        (ins2 (P ++ Q).length (R ++ S ++ T).length m (p ++ q ++ r ++ s ++ (t ++ u))) =
        ∑ n ∈ Finset.range X', F (p ++ n :: (q ++ m :: r)) * G (s ++ n :: (t ++ m :: u)) := by
      intro m
      rw [ins2_at (p := p ++ q) (q := r ++ s ++ t) (r := u) (by simp) (by simp [*]) (by simp [*]),
        pairSum_at (p := p) (q := q ++ m :: r) (r := s) (s := t ++ m :: u) (by simp) hp.symm (by simp [*]) hs.symm]
    have c2 : ∀ n, pairSum F G Y' (P ++ X' :: Q).length (P ++ X' :: Q ++ R).length (S ++ X' :: T).length
        (ins2 P.length (Q ++ R ++ S).length n (p ++ q ++ r ++ s ++ (t ++ u))) =
        ∑ m ∈ Finset.range Y', F (p ++ n :: (q ++ m :: r)) * G (s ++ n :: (t ++ m :: u)) := by
      intro n
      rw [ins2_at (p := p) (q := q ++ r ++ s) (r := t ++ u) (by simp) hp.symm (by simp [*]),
        pairSum_at (p := p ++ n :: q) (q := r) (r := s ++ n :: t) (s := u) (by simp) (by simp [*]) (by simp [*]) (by simp [*])]
      simp
    simp only [c1, c2]
    exact Finset.sum_comm
  · obtain ⟨S, Y, T, X, U, hdb, hl, hj⟩ := split2_lt (d := b.dims) h lj
    have hY' : Y' = Y := by
      rw [hdb, ← hl, List.getElem?_append_right le_rfl] at hbl
      simpa using hbl.symm
    have hX' : X' = X := by
      rw [hdb, ← hj, show S ++ Y :: (T ++ X :: U) = (S ++ Y :: T) ++ X :: U by simp,
        show S.length + 1 + T.length = (S ++ Y :: T).length by simp; omega, List.getElem?_append_right le_rfl] at hbj
      simpa using hbj.symm
    subst hX' hY'
    have t1 := trace_fold a b wfa wfb F G hF hG P (Q ++ Y' :: R) (S ++ Y' :: T) U X' hX hda (by rw [hdb]; simp) (P ++ Q)
      (R ++ S) (T ++ U) Y' Y' (by simp)
    have t2 := trace_fold a b wfa wfb F G hF hG (P ++ X' :: Q) R S (T ++ X' :: U) Y' hY (by rw [hda]; simp) hdb
      P (Q ++ R ++ S ++ T) U X' X' (by simp)
    have e1 : k - 1 = (P ++ Q).length := by simp; omega
    have e2 : P.length + Q.length + R.length + 2 - 1 + (l - 0) = (P ++ Q).length + 1 + (R ++ S).length := by
      simp; omega
    have e3 : P.length + Q.length + R.length + 2 - 1 + (j - 1) = P.length + 1 + (Q ++ R ++ S ++ T).length := by simp; omega
    have e4 : k = (P ++ X' :: Q).length := by simp; omega
    have e5 : j = (S ++ Y' :: T).length := by simp; omega
    rw [if_pos h, if_neg (by omega : ¬ j < l), e1, e2, e3, Nat.sub_zero, ← hi, ← hl, e4, e5]
    rw [show P ++ Q ++ (R ++ S) ++ (T ++ U) = P ++ Q ++ R ++ S ++ (T ++ U) by simp] at t1
    rw [show P ++ (Q ++ R ++ S ++ T) ++ U = P ++ Q ++ R ++ S ++ (T ++ U) by simp] at t2
    refine same_traces t1 t2 fun x hx => ?_
    obtain ⟨x, y, rfl, hx, hy⟩ := inB_append_split hx
    obtain ⟨x, s, rfl, hx, hs⟩ := inB_append_split hx
    obtain ⟨x, r, rfl, hx, hr⟩ := inB_append_split hx
    obtain ⟨p, q, rfl, hp, hq⟩ := inB_append_split hx
    have hp := hp.length
    have hq := hq.length
    have hr := hr.length
    have hs := hs.length
    obtain ⟨t, u, rfl, ht, -⟩ := inB_append_split hy
    have ht := ht.length
    rw [min_self, min_self]
    have c1 : ∀ m, pairSum F G X' P.length (P ++ (Q ++ Y' :: R)).length (S ++ Y' :: T).length
        (ins2 (P ++ Q).length (R ++ S).length m (p ++ q ++ r ++ s ++ (t ++ u))) =
        ∑ n ∈ Finset.range X', F (p ++ n :: (q ++ m :: r)) * G (s ++ m :: (t ++ n :: u)) := by
      intro m
      rw [ins2_at (p := p ++ q) (q := r ++ s) (r := t ++ u) (by simp) (by simp [*]) (by simp [*]),
        pairSum_at (p := p) (q := q ++ m :: r) (r := s ++ m :: t) (s := u) (by simp) hp.symm (by simp [*]) (by simp [*])]
      simp
    have c2 : ∀ n, pairSum F G Y' (P ++ X' :: Q).length (P ++ X' :: Q ++ R).length S.length
        (ins2 P.length (Q ++ R ++ S ++ T).length n (p ++ q ++ r ++ s ++ (t ++ u))) =
        ∑ m ∈ Finset.range Y', F (p ++ n :: (q ++ m :: r)) * G (s ++ m :: (t ++ n :: u)) := by
      intro n
      rw [ins2_at (p := p) (q := q ++ r ++ s ++ t) (r := u) (by simp) hp.symm (by simp [*]),
        pairSum_at (p := p ++ n :: q) (q := r) (r := s) (s := t ++ n :: u) (by simp) (by simp [*]) (by simp [*]) hs.symm]
      simp
    simp only [c1, c2]
    exact Finset.sum_comm

/-- C134: two tensors contracted over the indices i and j with fold, and over k and l with trace, or the other way
round. The other indices have moved in the tensor which fold returns: those of the first tensor behind the one which is
gone by one, and those of the second follow the ones of the first. -/
theorem c134_fold_trace (a b : Tensor α) (wfa : a.WF) (wfb : b.WF) (i k j l X Y : Nat) (hik : i ≠ k) (hjl : j ≠ l)
    (hai : a.dims[i]? = some X) (hbj : b.dims[j]? = some X) (hak : a.dims[k]? = some Y) (hbl : b.dims[l]? = some Y)
    (hX : X ≠ 0) (hY : Y ≠ 0) :
    (do let E ← fold a i b j
        trace2 E ((k - if i < k then 1 else 0 : Nat) : Int)
          ((a.dims.length - 1 + (l - if j < l then 1 else 0) : Nat) : Int)) =
      (do let E ← fold a k b l
          trace2 E ((i - if k < i then 1 else 0 : Nat) : Int)
            ((a.dims.length - 1 + (j - if l < j then 1 else 0) : Nat) : Int)) := by
  rcases lt_or_gt_of_ne hik with h | h
  · exact pairs_ordered a b wfa wfb i k j l X Y h hjl hai hbj hak hbl hX hY
  · exact (pairs_ordered a b wfa wfb k i l j Y X h hjl.symm hak hbl hai hbj hY hX).symm

/-- Two matrices: the sum of the products of their elements. -/
example : (do let E ← fold (⟨[2, 1], [1, 2]⟩ : Tensor Nat) 0 (⟨[2, 1], [3, 4]⟩ : Tensor Nat) 0; trace2 E 0 1) =
    (do let E ← fold (⟨[2, 1], [1, 2]⟩ : Tensor Nat) 1 (⟨[2, 1], [3, 4]⟩ : Tensor Nat) 1; trace2 E 0 1) :=
  c134_fold_trace ⟨[2, 1], [1, 2]⟩ ⟨[2, 1], [3, 4]⟩ rfl rfl 0 1 0 1 2 1 (by decide) (by decide) rfl rfl rfl rfl
    (by decide) (by decide)

/-- C134: false for indices of different dimensions: trace leaves out what one of the tensors has not, and fold stops
the program. -/
theorem c134_negation_fold_trace :
    (do let E ← fold (⟨[1, 1], [2]⟩ : Tensor Nat) 0 (⟨[1, 2], [3, 4]⟩ : Tensor Nat) 0; trace2 E 0 1) = .ok ⟨[1], [6]⟩ ∧
    (do let E ← fold (⟨[1, 1], [2]⟩ : Tensor Nat) 1 (⟨[1, 2], [3, 4]⟩ : Tensor Nat) 1; trace2 E 0 1) = .abort := by
  constructor <;> rfl

end Verif.Tensor
