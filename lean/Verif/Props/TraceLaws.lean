import Verif.Props.TensorLaws
import Verif.Spec.TraceLaws
/-
C134: traces over different pairs of indices may be computed in any order.
-/
namespace Verif.Tensor

open Verif Spec

variable {α : Type}

theorem without_comm (i j k : Nat) : without i j k = without j i k := by
  unfold without; omega

/-- Twice the index `l`, after `a` indices and after `b` more. -/
def ins2 (a b l : Nat) (y : List Nat) : List Nat := y.take a ++ l :: ((y.drop a).take b ++ l :: y.drop (a + b))

theorem ins2_append (p q r : List Nat) (l : Nat) : ins2 p.length q.length l (p ++ q ++ r) = p ++ l :: (q ++ l :: r) := by
  unfold ins2
  rw [List.append_assoc, List.take_left, List.drop_left, List.take_left, ← List.append_assoc, ← List.length_append,
    List.drop_left]

/-- The elements of a trace, in terms of a function for those of the tensor. -/
theorem trace_total [AddCommMonoid α] (D : Tensor α) (wf : D.WF) (F : List Nat → α)
    (hF : ∀ x, InB x D.dims → elem D.dims D.data x = some (F x)) (P Q R : List Nat) (A B : Nat)
    (hd : D.dims = P ++ A :: (Q ++ B :: R)) :
    ∃ c : Tensor α, trace2 D (P.length : Nat) (P.length + 1 + Q.length : Nat) = .ok c ∧ c.WF ∧
      c.dims = outDims (P ++ Q ++ R) ∧ ∀ x, InB x (P ++ Q ++ R) →
        elem c.dims c.data (outIdx x) = some (∑ l ∈ Finset.range (min A B), F (ins2 P.length Q.length l x)) := by
  have hlen : D.dims.length = P.length + 1 + Q.length + 1 + R.length := by rw [hd]; simp; omega
  obtain ⟨c, e, wfc, hdc, hc⟩ := c25_trace D wf (P.length : Nat) (P.length + 1 + Q.length : Nat) P Q R A B hd
    (by omega) (by omega) (.inl ⟨by unfold Spec.norm; rw [if_pos (by omega)]; simp,
      by unfold Spec.norm; rw [if_pos (by omega)]; congr 1⟩)
  refine ⟨c, e, wfc, hdc, fun x hx => ?_⟩
  obtain ⟨y, r, rfl, hy, hr⟩ := inB_append_split hx
  obtain ⟨p, q, rfl, hp, hq⟩ := inB_append_split hy
  rw [hc p q r hp hq hr (fun l => F (ins2 P.length Q.length l (p ++ q ++ r)))]
  intro l hl
  rw [← hp.length, ← hq.length, ins2_append]
  exact hF _ (by rw [hd]; exact hp.append ⟨by omega, hq.append ⟨by omega, hr⟩⟩)

/-- The elements of the trace of a trace. -/
theorem trace_trace [AddCommMonoid α] (D : Tensor α) (wf : D.WF) (F : List Nat → α)
    (hF : ∀ x, InB x D.dims → elem D.dims D.data x = some (F x)) (P Q R : List Nat) (A B : Nat)
    (hd : D.dims = P ++ A :: (Q ++ B :: R)) (P' Q' R' : List Nat) (A' B' : Nat)
    (hd' : P ++ Q ++ R = P' ++ A' :: (Q' ++ B' :: R')) :
    ∃ c : Tensor α, (do let E ← trace2 D (P.length : Nat) (P.length + 1 + Q.length : Nat)
                        trace2 E (P'.length : Nat) (P'.length + 1 + Q'.length : Nat)) = .ok c ∧ c.WF ∧
      c.dims = outDims (P' ++ Q' ++ R') ∧ ∀ x, InB x (P' ++ Q' ++ R') →
        elem c.dims c.data (outIdx x) = some (∑ m ∈ Finset.range (min A' B'), ∑ l ∈ Finset.range (min A B),
          F (ins2 P.length Q.length l (ins2 P'.length Q'.length m x))) := by
  obtain ⟨E, e, wfE, hdE, hE⟩ := trace_total D wf F hF P Q R A B hd
  have ho : outDims (P ++ Q ++ R) = P ++ Q ++ R := by rw [outDims, if_neg (by rw [hd']; simp)]
  obtain ⟨c, e', h⟩ := trace_total E wfE (fun x => ∑ l ∈ Finset.range (min A B), F (ins2 P.length Q.length l x))
    (by
      intro x hx
      rw [hdE, ho] at hx
      have := hE x hx
      rwa [outIdx, if_neg (by
        rintro rfl
        have := hx.length
        rw [hd'] at this
        simp at this)] at this) P' Q' R' A' B' (by rw [hdE, ho, hd'])
  exact ⟨c, by rw [e]; exact e', h⟩

theorem split4 {d : List Nat} {i j k l : Nat} (h1 : i < j) (h2 : j < k) (h3 : k < l) (h4 : l < d.length) :
    ∃ P A Q B R C S E T, d = P ++ A :: (Q ++ B :: (R ++ C :: (S ++ E :: T))) ∧ i = P.length ∧
      j = P.length + 1 + Q.length ∧ k = P.length + 1 + Q.length + 1 + R.length ∧
      l = P.length + 1 + Q.length + 1 + R.length + 1 + S.length := by
  obtain ⟨P, A, Q, B, U, rfl, hP, hQ⟩ := split2_lt (d := d) h1 (by omega)
  simp only [List.length_append, List.length_cons] at h4
  obtain ⟨R, C, S, E, T, rfl, hR, hS⟩ := split2_lt (d := U) (n := k - j - 1) (m := l - j - 1) (by omega) (by omega)
  exact ⟨P, A, Q, B, R, C, S, E, T, rfl, hP.symm, hQ.symm, by omega, by omega⟩

/-- The tensors are the same if the elements are. -/
theorem same_traces [AddCommMonoid α] {r r' : Res (Tensor α)} {d : List Nat} {f f' : List Nat → α}
    (h : ∃ c : Tensor α, r = .ok c ∧ c.WF ∧ c.dims = outDims d ∧ ∀ x, InB x d → elem c.dims c.data (outIdx x) = some (f x))
    (h' : ∃ c : Tensor α, r' = .ok c ∧ c.WF ∧ c.dims = outDims d ∧
      ∀ x, InB x d → elem c.dims c.data (outIdx x) = some (f' x))
    (e : ∀ x, InB x d → f x = f' x) : r = r' := by
  obtain ⟨c, rfl, wf, hd, hc⟩ := h
  obtain ⟨c', rfl, wf', hd', hc'⟩ := h'
  rw [ext_elem wf wf' (by rw [hd, hd']) fun idx hidx => ?_]
  rw [hd] at hidx
  obtain ⟨x, hx, rfl⟩ := outIdx_of_inB hidx
  rw [hc x hx, hc' x hx, e x hx]

theorem total [Zero α] (D : Tensor α) (wf : D.WF) (hne : D.dims ≠ []) :
    ∃ F : List Nat → α, ∀ x, InB x D.dims → elem D.dims D.data x = some (F x) := by
  have : ∀ x, ∃ v, InB x D.dims → elem D.dims D.data x = some v := by
    intro x
    by_cases hx : InB x D.dims
    · obtain ⟨v, hv, -⟩ := elem_some wf hx (by
        rintro rfl
        have := hx.length
        exact hne (List.length_eq_zero_iff.1 (by simpa using this.symm)))
      exact ⟨v, fun _ => hv⟩
    · exact ⟨0, fun h => (hx h).elim⟩
  choose F hF using this
  exact ⟨F, hF⟩

theorem inB_parts {x P Q R S T : List Nat} (h : InB x (P ++ Q ++ R ++ S ++ T)) :
    ∃ p q r s t, x = p ++ q ++ r ++ s ++ t ∧ p.length = P.length ∧ q.length = Q.length ∧ r.length = R.length ∧
      s.length = S.length := by
  obtain ⟨x, t, rfl, h, -⟩ := inB_append_split h
  obtain ⟨x, s, rfl, h, hs⟩ := inB_append_split h
  obtain ⟨x, r, rfl, h, hr⟩ := inB_append_split h
  obtain ⟨p, q, rfl, hp, hq⟩ := inB_append_split h
  exact ⟨p, q, r, s, t, rfl, hp.length, hq.length, hr.length, hs.length⟩

/-- `ins2` for lists written as other sums of parts. -/
theorem ins2_at {a b l : Nat} {y p q r : List Nat} (hy : y = p ++ q ++ r) (ha : a = p.length) (hb : b = q.length) :
    ins2 a b l y = p ++ l :: (q ++ l :: r) := by
  rw [hy, ha, hb, ins2_append]

theorem traces_ordered [AddCommMonoid α] (D : Tensor α) (wf : D.WF) (i j k l : Nat) (hij : i < j) (hkl : k < l)
    (hik : i < k) (hjk : j ≠ k) (hjl : j ≠ l) (hj : j < D.dims.length) (hl : l < D.dims.length) :
    (do let E ← trace2 D i j; trace2 E (without i j k) (without i j l)) =
      (do let E ← trace2 D k l; trace2 E (without k l i) (without k l j)) := by
  obtain ⟨F, hF⟩ := total D wf (by intro h; simp [h] at hj)
  rcases lt_or_gt_of_ne hjk with h | h
  · -- i < j < k < l
    obtain ⟨P, A, Q, B, R, C, S, E, T, hd, hi, hj', hk, hl'⟩ := split4 hij h hkl hl
    have t1 := trace_trace D wf F hF P Q (R ++ C :: (S ++ E :: T)) A B hd (P ++ Q ++ R) S T C E (by simp)
    have t2 := trace_trace D wf F hF (P ++ A :: (Q ++ B :: R)) S T C E (by rw [hd]; simp) P Q (R ++ S ++ T) A B (by simp)
    have e1 : without i j k = (P ++ Q ++ R).length := by unfold without; simp only [List.length_append]; split_ifs <;> omega
    have e2 : without i j l = (P ++ Q ++ R).length + 1 + S.length := by unfold without; simp only [List.length_append]; split_ifs <;> omega
    have e3 : without k l i = P.length := by unfold without; split_ifs <;> omega
    have e4 : without k l j = P.length + 1 + Q.length := by unfold without; split_ifs <;> omega
    have e5 : k = (P ++ A :: (Q ++ B :: R)).length := by simp; omega
    have e6 : l = (P ++ A :: (Q ++ B :: R)).length + 1 + S.length := by simp; omega
    rw [e1, e2, e3, e4, hi, hj', e5, e6]
    rw [show P ++ Q ++ (R ++ S ++ T) = P ++ Q ++ R ++ S ++ T by simp] at t2
    refine same_traces t1 t2 fun x hx => ?_
    obtain ⟨p, q, r, s, t, rfl, hp, hq, hr, hs⟩ := inB_parts hx
    rw [Finset.sum_comm]
    refine Finset.sum_congr rfl fun a _ => Finset.sum_congr rfl fun b _ => congrArg F ?_
    rw [ins2_at (l := b) (p := p ++ q ++ r) (q := s) (r := t) rfl (by simp [*]) hs.symm,
      ins2_at (l := a) (p := p) (q := q) (r := r ++ b :: (s ++ b :: t)) (by simp) hp.symm hq.symm,
      ins2_at (l := a) (p := p) (q := q) (r := r ++ s ++ t) (by simp) hp.symm hq.symm,
      ins2_at (l := b) (p := p ++ a :: (q ++ a :: r)) (q := s) (r := t) (by simp) (by simp [*]) hs.symm]
    simp
  · rcases lt_or_gt_of_ne hjl with h' | h'
    · -- i < k < j < l
      obtain ⟨P, A, Q, C, R, B, S, E, T, hd, hi, hk, hj', hl'⟩ := split4 hik h h' hl
      have t1 := trace_trace D wf F hF P (Q ++ C :: R) (S ++ E :: T) A B (by rw [hd]; simp) (P ++ Q) (R ++ S) T C E (by simp)
      have t2 := trace_trace D wf F hF (P ++ A :: Q) (R ++ B :: S) T C E (by rw [hd]; simp) P (Q ++ R) (S ++ T) A B (by simp)
      have e1 : without i j k = (P ++ Q).length := by unfold without; simp only [List.length_append]; split_ifs <;> omega
      have e2 : without i j l = (P ++ Q).length + 1 + (R ++ S).length := by unfold without; simp only [List.length_append]; split_ifs <;> omega
      have e3 : without k l i = P.length := by unfold without; split_ifs <;> omega
      have e4 : without k l j = P.length + 1 + (Q ++ R).length := by unfold without; simp only [List.length_append]; split_ifs <;> omega
      have e5 : k = (P ++ A :: Q).length := by simp; omega
      have e6 : l = (P ++ A :: Q).length + 1 + (R ++ B :: S).length := by simp; omega
      have e7 : j = P.length + 1 + (Q ++ C :: R).length := by simp; omega
      rw [e1, e2, e3, e4, hi, e7, e5, e6]
      rw [show P ++ Q ++ (R ++ S) ++ T = P ++ Q ++ R ++ S ++ T by simp] at t1
      rw [show P ++ (Q ++ R) ++ (S ++ T) = P ++ Q ++ R ++ S ++ T by simp] at t2
      refine same_traces t1 t2 fun x hx => ?_
      obtain ⟨p, q, r, s, t, rfl, hp, hq, hr, hs⟩ := inB_parts hx
      rw [Finset.sum_comm]
      refine Finset.sum_congr rfl fun a _ => Finset.sum_congr rfl fun b _ => congrArg F ?_
      rw [ins2_at (l := b) (p := p ++ q) (q := r ++ s) (r := t) (by simp) (by simp [*]) (by simp [*]),
        ins2_at (l := a) (p := p) (q := q ++ b :: r) (r := s ++ b :: t) (by simp) hp.symm (by simp [*]),
        ins2_at (l := a) (p := p) (q := q ++ r) (r := s ++ t) (by simp) hp.symm (by simp [*]),
        ins2_at (l := b) (p := p ++ a :: q) (q := r ++ a :: s) (r := t) (by simp) (by simp [*]) (by simp [*])]
      simp
    · -- i < k < l < j
      obtain ⟨P, A, Q, C, R, E, S, B, T, hd, hi, hk, hl', hj'⟩ := split4 hik hkl h' hj
      have t1 := trace_trace D wf F hF P (Q ++ C :: (R ++ E :: S)) T A B (by rw [hd]; simp) (P ++ Q) R (S ++ T) C E (by simp)
      have t2 := trace_trace D wf F hF (P ++ A :: Q) R (S ++ B :: T) C E (by rw [hd]; simp) P (Q ++ R ++ S) T A B (by simp)
      have e1 : without i j k = (P ++ Q).length := by unfold without; simp only [List.length_append]; split_ifs <;> omega
      have e2 : without i j l = (P ++ Q).length + 1 + R.length := by unfold without; simp only [List.length_append]; split_ifs <;> omega
      have e3 : without k l i = P.length := by unfold without; split_ifs <;> omega
      have e4 : without k l j = P.length + 1 + (Q ++ R ++ S).length := by unfold without; simp only [List.length_append]; split_ifs <;> omega
      have e5 : k = (P ++ A :: Q).length := by simp; omega
      have e6 : l = (P ++ A :: Q).length + 1 + R.length := by simp; omega
      have e7 : j = P.length + 1 + (Q ++ C :: (R ++ E :: S)).length := by simp; omega
      rw [e1, e2, e3, e4, hi, e7, e5, e6]
      rw [show P ++ Q ++ R ++ (S ++ T) = P ++ Q ++ R ++ S ++ T by simp] at t1
      rw [show P ++ (Q ++ R ++ S) ++ T = P ++ Q ++ R ++ S ++ T by simp] at t2
      refine same_traces t1 t2 fun x hx => ?_
      obtain ⟨p, q, r, s, t, rfl, hp, hq, hr, hs⟩ := inB_parts hx
      rw [Finset.sum_comm]
      refine Finset.sum_congr rfl fun a _ => Finset.sum_congr rfl fun b _ => congrArg F ?_
      rw [ins2_at (l := b) (p := p ++ q) (q := r) (r := s ++ t) (by simp) (by simp [*]) (by simp [*]),
        ins2_at (l := a) (p := p) (q := q ++ b :: (r ++ b :: s)) (r := t) (by simp) hp.symm (by simp [*]),
        ins2_at (l := a) (p := p) (q := q ++ r ++ s) (r := t) (by simp) hp.symm (by simp [*]),
        ins2_at (l := b) (p := p ++ a :: q) (q := r) (r := s ++ a :: t) (by simp) (by simp [*]) (by simp [*])]
      simp

/-- C134: the traces over the indices i and j, and over k and l, may be computed in either order. -/
theorem c134_trace_commute [AddCommMonoid α] (D : Tensor α) (wf : D.WF) (i j k l : Nat) (h : [i, j, k, l].Nodup)
    (hi : i < D.dims.length) (hj : j < D.dims.length) (hk : k < D.dims.length) (hl : l < D.dims.length) :
    (do let E ← trace2 D i j; trace2 E (without i j k) (without i j l)) =
      (do let E ← trace2 D k l; trace2 E (without k l i) (without k l j)) := by
  simp only [List.nodup_cons, List.mem_cons, List.not_mem_nil, or_false, not_or, not_false_eq_true, List.nodup_nil,
    and_true] at h
  obtain ⟨⟨hij, hik, hil⟩, ⟨hjk, hjl⟩, hkl⟩ := h
  -- i < j
  have s1 : ∀ (i j k l : Nat), i ≠ j → i ≠ k → i ≠ l → j ≠ k → j ≠ l → k < l → i < j →
      i < D.dims.length → j < D.dims.length → k < D.dims.length → l < D.dims.length →
      (do let E ← trace2 D i j; trace2 E (without i j k) (without i j l)) =
      (do let E ← trace2 D k l; trace2 E (without k l i) (without k l j)) := by
    intro i j k l hij hik hil hjk hjl hkl hij' hi hj hk hl
    rcases lt_or_gt_of_ne hik with h | h
    · exact traces_ordered D wf i j k l hij' hkl h hjk hjl hj hl
    · exact (traces_ordered D wf k l i j hkl hij' h hil.symm hjl.symm hl hj).symm
  have s2 : ∀ (i j k l : Nat), i ≠ j → i ≠ k → i ≠ l → j ≠ k → j ≠ l → k < l →
      i < D.dims.length → j < D.dims.length → k < D.dims.length → l < D.dims.length →
      (do let E ← trace2 D i j; trace2 E (without i j k) (without i j l)) =
      (do let E ← trace2 D k l; trace2 E (without k l i) (without k l j)) := by
    intro i j k l hij hik hil hjk hjl hkl hi hj hk hl
    rcases lt_or_gt_of_ne hij with h | h
    · exact s1 i j k l hij hik hil hjk hjl hkl h hi hj hk hl
    · have := s1 j i k l hij.symm hjk hjl hik hil hkl h hj hi hk hl
      simp only [c134_trace_symmetric D i j, without_comm i j]
      rw [this]
      congr 1
      funext E
      exact c134_trace_symmetric _ _ _
  rcases lt_or_gt_of_ne hkl with h | h
  · exact s2 i j k l hij hik hil hjk hjl h hi hj hk hl
  · have := s2 i j l k hij hil hik hjl hjk h hi hj hl hk
    simp only [c134_trace_symmetric D k l, without_comm k l]
    rw [← this]
    congr 1
    funext E
    exact c134_trace_symmetric _ _ _

/-- A tensor of rank four. -/
example : (do let E ← trace2 (⟨[2, 2, 1, 1], [1, 2, 3, 4]⟩ : Tensor Nat) 0 1; trace2 E 0 1) =
    (do let E ← trace2 (⟨[2, 2, 1, 1], [1, 2, 3, 4]⟩ : Tensor Nat) 2 3; trace2 E 0 1) :=
  c134_trace_commute ⟨[2, 2, 1, 1], [1, 2, 3, 4]⟩ rfl 0 1 2 3 (by decide) (by decide) (by decide) (by decide) (by decide)

end Verif.Tensor
