import Verif.Props.PairLaws
/-
C134: traces over two indices of one of the tensors which are contracted.
-/
namespace Verif.Tensor

open Verif Spec

set_option linter.unusedSimpArgs false
set_option linter.unusedTactic false
set_option linter.unreachableTactic false

variable {α : Type} [CommSemiring α]

/-- The elements of the contraction of a trace with another tensor. -/
theorem fold_trace_first (a b : Tensor α) (wfa : a.WF) (wfb : b.WF) (F G : List Nat → α)
    (hF : ∀ x, InB x a.dims → elem a.dims a.data x = some (F x))
    (hG : ∀ x, InB x b.dims → elem b.dims b.data x = some (G x)) (P Q R : List Nat) (A B : Nat)
    (hd : a.dims = P ++ A :: (Q ++ B :: R)) (P' Q' R' S' : List Nat) (L : Nat) (hL : L ≠ 0)
    (hda : P ++ Q ++ R = P' ++ L :: Q') (hdb : b.dims = R' ++ L :: S') :
    ∃ c : Tensor α, (do let E ← trace2 a (P.length : Nat) (P.length + 1 + Q.length : Nat)
                        fold E (P'.length : Nat) b (R'.length : Nat)) = .ok c ∧ c.WF ∧
      c.dims = outDims (P' ++ Q' ++ (R' ++ S')) ∧ ∀ x, InB x (P' ++ Q' ++ (R' ++ S')) →
        elem c.dims c.data (outIdx x) = some (pairSum
          (fun x => ∑ l ∈ Finset.range (min A B), F (ins2 P.length Q.length l x)) G L P'.length (P' ++ Q').length R'.length x) := by
  obtain ⟨E, e, wfE, hdE, hE⟩ := trace_total a wfa F hF P Q R A B hd
  have ho : outDims (P ++ Q ++ R) = P ++ Q ++ R := by rw [outDims, if_neg (by rw [hda]; simp)]
  obtain ⟨c, e', h⟩ := fold_pairs E b wfE wfb (fun x => ∑ l ∈ Finset.range (min A B), F (ins2 P.length Q.length l x)) G
    (by
      intro x hx
      rw [hdE, ho] at hx
      have := hE x hx
      rwa [outIdx, if_neg (by
        rintro rfl
        have := hx.length
        rw [hda] at this
        simp at this)] at this) hG P' Q' R' S' L hL (by rw [hdE, ho, hda]) hdb
  exact ⟨c, by rw [e]; exact e', h⟩

/-- The elements of the contraction of a tensor with a trace. -/
theorem fold_trace_second (a b : Tensor α) (wfa : a.WF) (wfb : b.WF) (F G : List Nat → α)
    (hF : ∀ x, InB x a.dims → elem a.dims a.data x = some (F x))
    (hG : ∀ x, InB x b.dims → elem b.dims b.data x = some (G x)) (P Q R : List Nat) (A B : Nat)
    (hd : b.dims = P ++ A :: (Q ++ B :: R)) (P' Q' R' S' : List Nat) (L : Nat) (hL : L ≠ 0)
    (hdb : P ++ Q ++ R = R' ++ L :: S') (hda : a.dims = P' ++ L :: Q') :
    ∃ c : Tensor α, (do let E ← trace2 b (P.length : Nat) (P.length + 1 + Q.length : Nat)
                        fold a (P'.length : Nat) E (R'.length : Nat)) = .ok c ∧ c.WF ∧
      c.dims = outDims (P' ++ Q' ++ (R' ++ S')) ∧ ∀ x, InB x (P' ++ Q' ++ (R' ++ S')) →
        elem c.dims c.data (outIdx x) = some (pairSum F
          (fun x => ∑ l ∈ Finset.range (min A B), G (ins2 P.length Q.length l x)) L P'.length (P' ++ Q').length R'.length x) := by
  obtain ⟨E, e, wfE, hdE, hE⟩ := trace_total b wfb G hG P Q R A B hd
  have ho : outDims (P ++ Q ++ R) = P ++ Q ++ R := by rw [outDims, if_neg (by rw [hdb]; simp)]
  obtain ⟨c, e', h⟩ := fold_pairs a E wfa wfE F (fun x => ∑ l ∈ Finset.range (min A B), G (ins2 P.length Q.length l x)) hF
    (by
      intro x hx
      rw [hdE, ho] at hx
      have := hE x hx
      rwa [outIdx, if_neg (by
        rintro rfl
        have := hx.length
        rw [hdb] at this
        simp at this)] at this) P' Q' R' S' L hL hda (by rw [hdE, ho, hdb])
  exact ⟨c, by rw [e]; exact e', h⟩

theorem split3 {d : List Nat} {i j k : Nat} (h1 : i < j) (h2 : j < k) (h3 : k < d.length) :
    ∃ P A Q B R C S, d = P ++ A :: (Q ++ B :: (R ++ C :: S)) ∧ i = P.length ∧
      j = P.length + 1 + Q.length ∧ k = P.length + 1 + Q.length + 1 + R.length := by
  obtain ⟨P, A, Q, B, U, rfl, hP, hQ⟩ := split2_lt (d := d) h1 (by omega)
  simp only [List.length_append, List.length_cons] at h3
  obtain ⟨R, C, S, rfl, hR⟩ := split1 U (k - j - 1) (by omega)
  exact ⟨P, A, Q, B, R, C, S, rfl, hP.symm, hQ.symm, by omega⟩

theorem get_mid (P Q : List Nat) (X : Nat) : (P ++ X :: Q)[P.length]? = some X := by simp

theorem get_at {d P Q : List Nat} {X n : Nat} (h : d = P ++ X :: Q) (hn : n = P.length) : d[n]? = some X := by
  rw [h, hn, get_mid]

theorem five_parts {x P Q R S T : List Nat} (h : InB x (P ++ Q ++ R ++ S ++ T)) :
    ∃ p q r s t, x = p ++ q ++ r ++ s ++ t ∧ p.length = P.length ∧ q.length = Q.length ∧ r.length = R.length ∧
      s.length = S.length ∧ t.length = T.length := by
  obtain ⟨x, t, rfl, h, ht⟩ := inB_append_split h
  obtain ⟨x, s, rfl, h, hs⟩ := inB_append_split h
  obtain ⟨x, r, rfl, h, hr⟩ := inB_append_split h
  obtain ⟨p, q, rfl, hp, hq⟩ := inB_append_split h
  exact ⟨p, q, r, s, t, rfl, hp.length, hq.length, hr.length, hs.length, ht.length⟩

theorem six_parts {x P Q R S T U : List Nat} (h : InB x (P ++ Q ++ R ++ S ++ T ++ U)) :
    ∃ p q r s t u, x = p ++ q ++ r ++ s ++ t ++ u ∧ p.length = P.length ∧ q.length = Q.length ∧ r.length = R.length ∧
      s.length = S.length ∧ t.length = T.length ∧ u.length = U.length := by
  obtain ⟨x, u, rfl, h, hu⟩ := inB_append_split h
  obtain ⟨p, q, r, s, t, rfl, h1, h2, h3, h4, h5⟩ := five_parts h
  exact ⟨p, q, r, s, t, u, rfl, h1, h2, h3, h4, h5, hu.length⟩

theorem trace_first_ordered (a b : Tensor α) (wfa : a.WF) (wfb : b.WF) (i j k l X : Nat) (hkl : k < l) (hik : i ≠ k)
    (hil : i ≠ l) (hai : a.dims[i]? = some X) (hbj : b.dims[j]? = some X) (hX : X ≠ 0) (hl : l < a.dims.length) :
    (do let E ← fold a i b j
        trace2 E ((k - if i < k then 1 else 0 : Nat) : Int) ((l - if i < l then 1 else 0 : Nat) : Int)) =
      (do let E ← trace2 a k l; fold E (without k l i) b j) := by
  have li := (List.getElem?_eq_some_iff.1 hai).1
  have lj := (List.getElem?_eq_some_iff.1 hbj).1
  obtain ⟨F, hF⟩ := total a wfa (by intro h; simp [h] at li)
  obtain ⟨G, hG⟩ := total b wfb (by intro h; simp [h] at lj)
  obtain ⟨T, L, U, hdo, ho⟩ := split1 b.dims j lj
  obtain rfl : L = X := by
    have := get_at hdo ho.symm
    rw [hbj] at this
    exact (Option.some.inj this).symm
  rcases lt_or_gt_of_ne hik with h1 | h1
  · -- before both
    obtain ⟨P, L', Q, A, R, B, S, hd, q0, q1, q2⟩ := split3 h1 hkl hl
    obtain rfl : L = L' := by
      have := get_at (d := a.dims) (P := P) (Q := Q ++ (A :: (R ++ (B :: S)))) (X := L') (n := i) (by simp [hd]) (by (try simp only [List.length_append, List.length_cons]); omega)
      rw [hai] at this
      exact Option.some.inj this
    have t1 := trace_fold a b wfa wfb F G hF hG P (Q ++ (A :: (R ++ (B :: S)))) T U L hX (by simp [hd]) hdo
      (P ++ Q) R (S ++ (T ++ U)) A B (by simp)
    have t2 := fold_trace_first a b wfa wfb F G hF hG (P ++ (L :: Q)) R S A B (by simp [hd])
      P (Q ++ (R ++ S)) T U L hX (by simp) hdo
    have e1 : (k - if i < k then 1 else 0) = (P ++ Q).length := by
      (try simp only [List.length_append, List.length_cons]); split_ifs <;> omega
    have e2 : (l - if i < l then 1 else 0) = (P ++ Q).length + 1 + R.length := by
      (try simp only [List.length_append, List.length_cons]); split_ifs <;> omega
    have e3 : without k l i = P.length := by
      unfold without; (try simp only [List.length_append, List.length_cons]); split_ifs <;> omega
    have e4 : i = P.length := by (try simp only [List.length_append, List.length_cons]); omega
    have e5 : k = (P ++ (L :: Q)).length := by (try simp only [List.length_append, List.length_cons]); omega
    have e6 : l = (P ++ (L :: Q)).length + 1 + R.length := by (try simp only [List.length_append, List.length_cons]); omega
    rw [e1, e2, e3, e4, e5, e6, ← ho]
    rw [show (P ++ Q) ++ R ++ (S ++ (T ++ U)) = P ++ Q ++ R ++ S ++ T ++ U by simp] at t1
    rw [show P ++ (Q ++ (R ++ S)) ++ (T ++ U) = P ++ Q ++ R ++ S ++ T ++ U by simp] at t2
    refine same_traces t1 t2 fun x hx => ?_
    obtain ⟨p, q, r, s, t, u, rfl, hp, hq, hr, hs, ht, hu⟩ := six_parts hx
    have c1 : ∀ m, pairSum F G L P.length (P ++ (Q ++ (A :: (R ++ (B :: S))))).length T.length
        (ins2 (P ++ Q).length R.length m (p ++ q ++ r ++ s ++ t ++ u)) =
        ∑ n ∈ Finset.range L, F (p ++ (n :: (q ++ (m :: (r ++ (m :: s)))))) * G (t ++ (n :: u)) := by
      intro m
      rw [ins2_at (p := (p ++ q)) (q := r) (r := (s ++ (t ++ u))) (by simp) (by simp [*]) (by simp [*]),
        pairSum_at (p := p) (q := (q ++ (m :: (r ++ (m :: s))))) (r := t) (s := u) (by simp) (by simp [*]) (by simp [*]) (by simp [*])]
      all_goals simp
    rw [pairSum_at (p := p) (q := (q ++ (r ++ s))) (r := t) (s := u) (by simp) (by simp [*]) (by simp [*]) (by simp [*])]
    have c2 : ∀ m n, F (ins2 (P ++ (L :: Q)).length R.length m (p ++ n :: (q ++ (r ++ s)))) = F (p ++ (n :: (q ++ (m :: (r ++ (m :: s)))))) := by
      intro m n
      rw [ins2_at (p := (p ++ (n :: q))) (q := r) (r := s) (by simp) (by simp [*]) (by simp [*])]
      all_goals simp
    simp only [c1, c2, Finset.sum_mul]
    exact Finset.sum_comm
  · rcases lt_or_gt_of_ne hil with h2 | h2
    · -- between them
      obtain ⟨P, A, Q, L', R, B, S, hd, q0, q1, q2⟩ := split3 h1 h2 hl
      obtain rfl : L = L' := by
        have := get_at (d := a.dims) (P := P ++ (A :: Q)) (Q := R ++ (B :: S)) (X := L') (n := i) (by simp [hd]) (by (try simp only [List.length_append, List.length_cons]); omega)
        rw [hai] at this
        exact Option.some.inj this
      have t1 := trace_fold a b wfa wfb F G hF hG (P ++ (A :: Q)) (R ++ (B :: S)) T U L hX (by simp [hd]) hdo
        P (Q ++ R) (S ++ (T ++ U)) A B (by simp)
      have t2 := fold_trace_first a b wfa wfb F G hF hG P (Q ++ (L :: R)) S A B (by simp [hd])
        (P ++ Q) (R ++ S) T U L hX (by simp) hdo
      have e1 : (k - if i < k then 1 else 0) = P.length := by
        (try simp only [List.length_append, List.length_cons]); split_ifs <;> omega
      have e2 : (l - if i < l then 1 else 0) = P.length + 1 + (Q ++ R).length := by
        (try simp only [List.length_append, List.length_cons]); split_ifs <;> omega
      have e3 : without k l i = (P ++ Q).length := by
        unfold without; (try simp only [List.length_append, List.length_cons]); split_ifs <;> omega
      have e4 : i = (P ++ (A :: Q)).length := by (try simp only [List.length_append, List.length_cons]); omega
      have e5 : k = P.length := by (try simp only [List.length_append, List.length_cons]); omega
      have e6 : l = P.length + 1 + (Q ++ (L :: R)).length := by (try simp only [List.length_append, List.length_cons]); omega
      rw [e1, e2, e3, e4, e5, e6, ← ho]
      rw [show P ++ (Q ++ R) ++ (S ++ (T ++ U)) = P ++ Q ++ R ++ S ++ T ++ U by simp] at t1
      rw [show (P ++ Q) ++ (R ++ S) ++ (T ++ U) = P ++ Q ++ R ++ S ++ T ++ U by simp] at t2
      refine same_traces t1 t2 fun x hx => ?_
      obtain ⟨p, q, r, s, t, u, rfl, hp, hq, hr, hs, ht, hu⟩ := six_parts hx
      have c1 : ∀ m, pairSum F G L (P ++ (A :: Q)).length ((P ++ (A :: Q)) ++ (R ++ (B :: S))).length T.length
          (ins2 P.length (Q ++ R).length m (p ++ q ++ r ++ s ++ t ++ u)) =
          ∑ n ∈ Finset.range L, F (p ++ (m :: (q ++ (n :: (r ++ (m :: s)))))) * G (t ++ (n :: u)) := by
        intro m
        rw [ins2_at (p := p) (q := (q ++ r)) (r := (s ++ (t ++ u))) (by simp) (by simp [*]) (by simp [*]),
          pairSum_at (p := (p ++ (m :: q))) (q := (r ++ (m :: s))) (r := t) (s := u) (by simp) (by simp [*]) (by simp [*]) (by simp [*])]
        all_goals simp
      rw [pairSum_at (p := (p ++ q)) (q := (r ++ s)) (r := t) (s := u) (by simp) (by simp [*]) (by simp [*]) (by simp [*])]
      have c2 : ∀ m n, F (ins2 P.length (Q ++ (L :: R)).length m ((p ++ q) ++ n :: (r ++ s))) = F (p ++ (m :: (q ++ (n :: (r ++ (m :: s)))))) := by
        intro m n
        rw [ins2_at (p := p) (q := (q ++ (n :: r))) (r := s) (by simp) (by simp [*]) (by simp [*])]
        all_goals simp
      simp only [c1, c2, Finset.sum_mul]
      exact Finset.sum_comm
    · -- behind both
      obtain ⟨P, A, Q, B, R, L', S, hd, q0, q1, q2⟩ := split3 hkl h2 li
      obtain rfl : L = L' := by
        have := get_at (d := a.dims) (P := P ++ (A :: (Q ++ (B :: R)))) (Q := S) (X := L') (n := i) (by simp [hd]) (by (try simp only [List.length_append, List.length_cons]); omega)
        rw [hai] at this
        exact Option.some.inj this
      have t1 := trace_fold a b wfa wfb F G hF hG (P ++ (A :: (Q ++ (B :: R)))) S T U L hX (by simp [hd]) hdo
        P Q (R ++ (S ++ (T ++ U))) A B (by simp)
      have t2 := fold_trace_first a b wfa wfb F G hF hG P Q (R ++ (L :: S)) A B (by simp [hd])
        (P ++ (Q ++ R)) S T U L hX (by simp) hdo
      have e1 : (k - if i < k then 1 else 0) = P.length := by
        (try simp only [List.length_append, List.length_cons]); split_ifs <;> omega
      have e2 : (l - if i < l then 1 else 0) = P.length + 1 + Q.length := by
        (try simp only [List.length_append, List.length_cons]); split_ifs <;> omega
      have e3 : without k l i = (P ++ (Q ++ R)).length := by
        unfold without; (try simp only [List.length_append, List.length_cons]); split_ifs <;> omega
      have e4 : i = (P ++ (A :: (Q ++ (B :: R)))).length := by (try simp only [List.length_append, List.length_cons]); omega
      have e5 : k = P.length := by (try simp only [List.length_append, List.length_cons]); omega
      have e6 : l = P.length + 1 + Q.length := by (try simp only [List.length_append, List.length_cons]); omega
      rw [e1, e2, e3, e4, e5, e6, ← ho]
      rw [show P ++ Q ++ (R ++ (S ++ (T ++ U))) = P ++ Q ++ R ++ S ++ T ++ U by simp] at t1
      rw [show (P ++ (Q ++ R)) ++ S ++ (T ++ U) = P ++ Q ++ R ++ S ++ T ++ U by simp] at t2
      refine same_traces t1 t2 fun x hx => ?_
      obtain ⟨p, q, r, s, t, u, rfl, hp, hq, hr, hs, ht, hu⟩ := six_parts hx
      have c1 : ∀ m, pairSum F G L (P ++ (A :: (Q ++ (B :: R)))).length ((P ++ (A :: (Q ++ (B :: R)))) ++ S).length T.length
          (ins2 P.length Q.length m (p ++ q ++ r ++ s ++ t ++ u)) =
          ∑ n ∈ Finset.range L, F (p ++ (m :: (q ++ (m :: (r ++ (n :: s)))))) * G (t ++ (n :: u)) := by
        intro m
        rw [ins2_at (p := p) (q := q) (r := (r ++ (s ++ (t ++ u)))) (by simp) (by simp [*]) (by simp [*]),
          pairSum_at (p := (p ++ (m :: (q ++ (m :: r))))) (q := s) (r := t) (s := u) (by simp) (by simp [*]) (by simp [*]) (by simp [*])]
        all_goals simp
      rw [pairSum_at (p := (p ++ (q ++ r))) (q := s) (r := t) (s := u) (by simp) (by simp [*]) (by simp [*]) (by simp [*])]
      have c2 : ∀ m n, F (ins2 P.length Q.length m ((p ++ (q ++ r)) ++ n :: s)) = F (p ++ (m :: (q ++ (m :: (r ++ (n :: s)))))) := by
        intro m n
        rw [ins2_at (p := p) (q := q) (r := (r ++ (n :: s))) (by simp) (by simp [*]) (by simp [*])]
        all_goals simp
      simp only [c1, c2, Finset.sum_mul]
      exact Finset.sum_comm

theorem trace_second_ordered (a b : Tensor α) (wfa : a.WF) (wfb : b.WF) (i j k l X : Nat) (hkl : k < l) (hik : j ≠ k)
    (hil : j ≠ l) (hai : a.dims[i]? = some X) (hbj : b.dims[j]? = some X) (hX : X ≠ 0) (hl : l < b.dims.length) :
    (do let E ← fold a i b j
        trace2 E ((a.dims.length - 1 + (k - if j < k then 1 else 0) : Nat) : Int)
          ((a.dims.length - 1 + (l - if j < l then 1 else 0) : Nat) : Int)) =
      (do let E ← trace2 b k l; fold a i E (without k l j)) := by
  have li := (List.getElem?_eq_some_iff.1 hai).1
  have lj := (List.getElem?_eq_some_iff.1 hbj).1
  obtain ⟨F, hF⟩ := total a wfa (by intro h; simp [h] at li)
  obtain ⟨G, hG⟩ := total b wfb (by intro h; simp [h] at lj)
  obtain ⟨P, L, Q, hdo, ho⟩ := split1 a.dims i li
  obtain rfl : L = X := by
    have := get_at hdo ho.symm
    rw [hai] at this
    exact (Option.some.inj this).symm
  have la : a.dims.length - 1 = P.length + Q.length := by rw [hdo]; simp
  rw [la]
  rcases lt_or_gt_of_ne hik with h1 | h1
  · -- before both
    obtain ⟨R, L', S, A, T, B, U, hd, q0, q1, q2⟩ := split3 h1 hkl hl
    obtain rfl : L = L' := by
      have := get_at (d := b.dims) (P := R) (Q := S ++ (A :: (T ++ (B :: U)))) (X := L') (n := j) (by simp [hd]) (by (try simp only [List.length_append, List.length_cons]); omega)
      rw [hbj] at this
      exact Option.some.inj this
    have t1 := trace_fold a b wfa wfb F G hF hG P Q R (S ++ (A :: (T ++ (B :: U)))) L hX hdo (by simp [hd])
      (P ++ (Q ++ (R ++ S))) T U A B (by simp)
    have t2 := fold_trace_second a b wfa wfb F G hF hG (R ++ (L :: S)) T U A B (by simp [hd])
      P Q R (S ++ (T ++ U)) L hX (by simp) hdo
    have e1 : (P.length + Q.length + (k - if j < k then 1 else 0)) = (P ++ (Q ++ (R ++ S))).length := by
      (try simp only [List.length_append, List.length_cons]); split_ifs <;> omega
    have e2 : (P.length + Q.length + (l - if j < l then 1 else 0)) = (P ++ (Q ++ (R ++ S))).length + 1 + T.length := by
      (try simp only [List.length_append, List.length_cons]); split_ifs <;> omega
    have e3 : without k l j = R.length := by
      unfold without; (try simp only [List.length_append, List.length_cons]); split_ifs <;> omega
    have e4 : j = R.length := by (try simp only [List.length_append, List.length_cons]); omega
    have e5 : k = (R ++ (L :: S)).length := by (try simp only [List.length_append, List.length_cons]); omega
    have e6 : l = (R ++ (L :: S)).length + 1 + T.length := by (try simp only [List.length_append, List.length_cons]); omega
    rw [e1, e2, e3, e4, e5, e6, ← ho]
    rw [show (P ++ (Q ++ (R ++ S))) ++ T ++ U = P ++ Q ++ R ++ S ++ T ++ U by simp] at t1
    rw [show P ++ Q ++ (R ++ (S ++ (T ++ U))) = P ++ Q ++ R ++ S ++ T ++ U by simp] at t2
    refine same_traces t1 t2 fun x hx => ?_
    obtain ⟨p, q, r, s, t, u, rfl, hp, hq, hr, hs, ht, hu⟩ := six_parts hx
    have c1 : ∀ m, pairSum F G L P.length (P ++ Q).length R.length
        (ins2 (P ++ (Q ++ (R ++ S))).length T.length m (p ++ q ++ r ++ s ++ t ++ u)) =
        ∑ n ∈ Finset.range L, F (p ++ (n :: q)) * G (r ++ (n :: (s ++ (m :: (t ++ (m :: u)))))) := by
      intro m
      rw [ins2_at (p := (p ++ (q ++ (r ++ s)))) (q := t) (r := u) (by simp) (by simp [*]) (by simp [*]),
        pairSum_at (p := p) (q := q) (r := r) (s := (s ++ (m :: (t ++ (m :: u))))) (by simp) (by simp [*]) (by simp [*]) (by simp [*])]
      all_goals simp
    rw [pairSum_at (p := p) (q := q) (r := r) (s := (s ++ (t ++ u))) (by simp) (by simp [*]) (by simp [*]) (by simp [*])]
    have c2 : ∀ m n, G (ins2 (R ++ (L :: S)).length T.length m (r ++ n :: (s ++ (t ++ u)))) = G (r ++ (n :: (s ++ (m :: (t ++ (m :: u)))))) := by
      intro m n
      rw [ins2_at (p := (r ++ (n :: s))) (q := t) (r := u) (by simp) (by simp [*]) (by simp [*])]
      all_goals simp
    simp only [c1, c2, Finset.mul_sum]
    exact Finset.sum_comm
  · rcases lt_or_gt_of_ne hil with h2 | h2
    · -- between them
      obtain ⟨R, A, S, L', T, B, U, hd, q0, q1, q2⟩ := split3 h1 h2 hl
      obtain rfl : L = L' := by
        have := get_at (d := b.dims) (P := R ++ (A :: S)) (Q := T ++ (B :: U)) (X := L') (n := j) (by simp [hd]) (by (try simp only [List.length_append, List.length_cons]); omega)
        rw [hbj] at this
        exact Option.some.inj this
      have t1 := trace_fold a b wfa wfb F G hF hG P Q (R ++ (A :: S)) (T ++ (B :: U)) L hX hdo (by simp [hd])
        (P ++ (Q ++ R)) (S ++ T) U A B (by simp)
      have t2 := fold_trace_second a b wfa wfb F G hF hG R (S ++ (L :: T)) U A B (by simp [hd])
        P Q (R ++ S) (T ++ U) L hX (by simp) hdo
      have e1 : (P.length + Q.length + (k - if j < k then 1 else 0)) = (P ++ (Q ++ R)).length := by
        (try simp only [List.length_append, List.length_cons]); split_ifs <;> omega
      have e2 : (P.length + Q.length + (l - if j < l then 1 else 0)) = (P ++ (Q ++ R)).length + 1 + (S ++ T).length := by
        (try simp only [List.length_append, List.length_cons]); split_ifs <;> omega
      have e3 : without k l j = (R ++ S).length := by
        unfold without; (try simp only [List.length_append, List.length_cons]); split_ifs <;> omega
      have e4 : j = (R ++ (A :: S)).length := by (try simp only [List.length_append, List.length_cons]); omega
      have e5 : k = R.length := by (try simp only [List.length_append, List.length_cons]); omega
      have e6 : l = R.length + 1 + (S ++ (L :: T)).length := by (try simp only [List.length_append, List.length_cons]); omega
      rw [e1, e2, e3, e4, e5, e6, ← ho]
      rw [show (P ++ (Q ++ R)) ++ (S ++ T) ++ U = P ++ Q ++ R ++ S ++ T ++ U by simp] at t1
      rw [show P ++ Q ++ ((R ++ S) ++ (T ++ U)) = P ++ Q ++ R ++ S ++ T ++ U by simp] at t2
      refine same_traces t1 t2 fun x hx => ?_
      obtain ⟨p, q, r, s, t, u, rfl, hp, hq, hr, hs, ht, hu⟩ := six_parts hx
      have c1 : ∀ m, pairSum F G L P.length (P ++ Q).length (R ++ (A :: S)).length
          (ins2 (P ++ (Q ++ R)).length (S ++ T).length m (p ++ q ++ r ++ s ++ t ++ u)) =
          ∑ n ∈ Finset.range L, F (p ++ (n :: q)) * G (r ++ (m :: (s ++ (n :: (t ++ (m :: u)))))) := by
        intro m
        rw [ins2_at (p := (p ++ (q ++ r))) (q := (s ++ t)) (r := u) (by simp) (by simp [*]) (by simp [*]),
          pairSum_at (p := p) (q := q) (r := (r ++ (m :: s))) (s := (t ++ (m :: u))) (by simp) (by simp [*]) (by simp [*]) (by simp [*])]
        all_goals simp
      rw [pairSum_at (p := p) (q := q) (r := (r ++ s)) (s := (t ++ u)) (by simp) (by simp [*]) (by simp [*]) (by simp [*])]
      have c2 : ∀ m n, G (ins2 R.length (S ++ (L :: T)).length m ((r ++ s) ++ n :: (t ++ u))) = G (r ++ (m :: (s ++ (n :: (t ++ (m :: u)))))) := by
        intro m n
        rw [ins2_at (p := r) (q := (s ++ (n :: t))) (r := u) (by simp) (by simp [*]) (by simp [*])]
        all_goals simp
      simp only [c1, c2, Finset.mul_sum]
      exact Finset.sum_comm
    · -- behind both
      obtain ⟨R, A, S, B, T, L', U, hd, q0, q1, q2⟩ := split3 hkl h2 lj
      obtain rfl : L = L' := by
        have := get_at (d := b.dims) (P := R ++ (A :: (S ++ (B :: T)))) (Q := U) (X := L') (n := j) (by simp [hd]) (by (try simp only [List.length_append, List.length_cons]); omega)
        rw [hbj] at this
        exact Option.some.inj this
      have t1 := trace_fold a b wfa wfb F G hF hG P Q (R ++ (A :: (S ++ (B :: T)))) U L hX hdo (by simp [hd])
        (P ++ (Q ++ R)) S (T ++ U) A B (by simp)
      have t2 := fold_trace_second a b wfa wfb F G hF hG R S (T ++ (L :: U)) A B (by simp [hd])
        P Q (R ++ (S ++ T)) U L hX (by simp) hdo
      have e1 : (P.length + Q.length + (k - if j < k then 1 else 0)) = (P ++ (Q ++ R)).length := by
        (try simp only [List.length_append, List.length_cons]); split_ifs <;> omega
      have e2 : (P.length + Q.length + (l - if j < l then 1 else 0)) = (P ++ (Q ++ R)).length + 1 + S.length := by
        (try simp only [List.length_append, List.length_cons]); split_ifs <;> omega
      have e3 : without k l j = (R ++ (S ++ T)).length := by
        unfold without; (try simp only [List.length_append, List.length_cons]); split_ifs <;> omega
      have e4 : j = (R ++ (A :: (S ++ (B :: T)))).length := by (try simp only [List.length_append, List.length_cons]); omega
      have e5 : k = R.length := by (try simp only [List.length_append, List.length_cons]); omega
      have e6 : l = R.length + 1 + S.length := by (try simp only [List.length_append, List.length_cons]); omega
      rw [e1, e2, e3, e4, e5, e6, ← ho]
      rw [show (P ++ (Q ++ R)) ++ S ++ (T ++ U) = P ++ Q ++ R ++ S ++ T ++ U by simp] at t1
      rw [show P ++ Q ++ ((R ++ (S ++ T)) ++ U) = P ++ Q ++ R ++ S ++ T ++ U by simp] at t2
      refine same_traces t1 t2 fun x hx => ?_
      obtain ⟨p, q, r, s, t, u, rfl, hp, hq, hr, hs, ht, hu⟩ := six_parts hx
      have c1 : ∀ m, pairSum F G L P.length (P ++ Q).length (R ++ (A :: (S ++ (B :: T)))).length
          (ins2 (P ++ (Q ++ R)).length S.length m (p ++ q ++ r ++ s ++ t ++ u)) =
          ∑ n ∈ Finset.range L, F (p ++ (n :: q)) * G (r ++ (m :: (s ++ (m :: (t ++ (n :: u)))))) := by
        intro m
        rw [ins2_at (p := (p ++ (q ++ r))) (q := s) (r := (t ++ u)) (by simp) (by simp [*]) (by simp [*]),
          pairSum_at (p := p) (q := q) (r := (r ++ (m :: (s ++ (m :: t))))) (s := u) (by simp) (by simp [*]) (by simp [*]) (by simp [*])]
        all_goals simp
      rw [pairSum_at (p := p) (q := q) (r := (r ++ (s ++ t))) (s := u) (by simp) (by simp [*]) (by simp [*]) (by simp [*])]
      have c2 : ∀ m n, G (ins2 R.length S.length m ((r ++ (s ++ t)) ++ n :: u)) = G (r ++ (m :: (s ++ (m :: (t ++ (n :: u)))))) := by
        intro m n
        rw [ins2_at (p := r) (q := s) (r := (t ++ (n :: u))) (by simp) (by simp [*]) (by simp [*])]
        all_goals simp
      simp only [c1, c2, Finset.mul_sum]
      exact Finset.sum_comm

/-- C134: the trace over two indices of the first tensor may be computed before or after the contraction. -/
theorem c134_trace_first (a b : Tensor α) (wfa : a.WF) (wfb : b.WF) (i j k l X : Nat) (h : [i, k, l].Nodup)
    (hai : a.dims[i]? = some X) (hbj : b.dims[j]? = some X) (hX : X ≠ 0) (hk : k < a.dims.length)
    (hl : l < a.dims.length) :
    (do let E ← fold a i b j
        trace2 E ((k - if i < k then 1 else 0 : Nat) : Int) ((l - if i < l then 1 else 0 : Nat) : Int)) =
      (do let E ← trace2 a k l; fold E (without k l i) b j) := by
  simp only [List.nodup_cons, List.mem_cons, List.not_mem_nil, or_false, not_or, not_false_eq_true, List.nodup_nil,
    and_true] at h
  obtain ⟨⟨hik, hil⟩, hkl⟩ := h
  rcases lt_or_gt_of_ne hkl with h | h
  · exact trace_first_ordered a b wfa wfb i j k l X h hik hil hai hbj hX hl
  · have := trace_first_ordered a b wfa wfb i j l k X h hil hik hai hbj hX hk
    rw [c134_trace_symmetric a k l, without_comm k l, ← this]
    congr 1
    funext E
    exact c134_trace_symmetric _ _ _

/-- C134: the trace over two indices of the second tensor may be computed before or after the contraction. -/
theorem c134_trace_second (a b : Tensor α) (wfa : a.WF) (wfb : b.WF) (i j k l X : Nat) (h : [j, k, l].Nodup)
    (hai : a.dims[i]? = some X) (hbj : b.dims[j]? = some X) (hX : X ≠ 0) (hk : k < b.dims.length)
    (hl : l < b.dims.length) :
    (do let E ← fold a i b j
        trace2 E ((a.dims.length - 1 + (k - if j < k then 1 else 0) : Nat) : Int)
          ((a.dims.length - 1 + (l - if j < l then 1 else 0) : Nat) : Int)) =
      (do let E ← trace2 b k l; fold a i E (without k l j)) := by
  simp only [List.nodup_cons, List.mem_cons, List.not_mem_nil, or_false, not_or, not_false_eq_true, List.nodup_nil,
    and_true] at h
  obtain ⟨⟨hik, hil⟩, hkl⟩ := h
  rcases lt_or_gt_of_ne hkl with h | h
  · exact trace_second_ordered a b wfa wfb i j k l X h hik hil hai hbj hX hl
  · have := trace_second_ordered a b wfa wfb i j l k X h hil hik hai hbj hX hk
    rw [c134_trace_symmetric b k l, without_comm k l, ← this]
    congr 1
    funext E
    exact c134_trace_symmetric _ _ _

/-- A tensor of rank three, and a vector. -/
example : (do let E ← fold (⟨[2, 1, 2], [1, 2, 3, 4]⟩ : Tensor Nat) 1 (⟨[1], [5]⟩ : Tensor Nat) 0; trace2 E 0 1) =
    (do let E ← trace2 (⟨[2, 1, 2], [1, 2, 3, 4]⟩ : Tensor Nat) 0 2; fold E 0 (⟨[1], [5]⟩ : Tensor Nat) 0) :=
  c134_trace_first ⟨[2, 1, 2], [1, 2, 3, 4]⟩ ⟨[1], [5]⟩ rfl rfl 1 0 0 2 1 (by decide) rfl rfl (by decide) (by decide)
    (by decide)

/-- A vector, and a tensor of rank three. -/
example : (do let E ← fold (⟨[1], [5]⟩ : Tensor Nat) 0 (⟨[2, 1, 2], [1, 2, 3, 4]⟩ : Tensor Nat) 1; trace2 E 0 1) =
    (do let E ← trace2 (⟨[2, 1, 2], [1, 2, 3, 4]⟩ : Tensor Nat) 0 2; fold (⟨[1], [5]⟩ : Tensor Nat) 0 E 0) :=
  c134_trace_second ⟨[1], [5]⟩ ⟨[2, 1, 2], [1, 2, 3, 4]⟩ rfl rfl 0 1 0 2 1 (by decide) rfl rfl (by decide) (by decide)
    (by decide)

end Verif.Tensor
