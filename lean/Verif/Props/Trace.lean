import Verif.Lemmas.Trace
/-
C25-C27: traces and diagonals.
-/
namespace Verif.Tensor

open Verif Spec

variable {α : Type}

theorem wf_split5 {P Q R : List Nat} {A B : Nat} {ds : List α}
    (wf : (⟨P ++ A :: (Q ++ B :: R), ds⟩ : Tensor α).WF) :
    ds.length = prod P * (A * (prod Q * (B * prod R))) := by
  have := WF.length_eq wf (by simp)
  simpa only [prod_append, prod_cons] using this

theorem norm_some {d : Nat} {i : Int} {n : Nat} (h : norm d i = some n) :
    (if i < 0 then i + (d : Int) else i) = n ∧ n < d := by
  unfold norm at h
  split at h
  · simp at h; split <;> omega
  · split at h
    · simp at h; split <;> omega
    · simp at h

theorem trace2_eq [Zero α] [Add α] (D : Tensor α) (i1 i2 : Int) (n : Nat) (hn : D.dims.length = n) :
    trace2 D i1 i2 = if i1 < n ∧ i1 > -(n : Int) then if i2 < n ∧ i2 > -(n : Int) then
      if (if i1 < 0 then i1 + (n : Int) else i1) > (if i2 < 0 then i2 + (n : Int) else i2) then
        traceOrdered D (if i2 < 0 then i2 + (n : Int) else i2).toNat
          (if i1 < 0 then i1 + (n : Int) else i1).toNat
      else if (if i2 < 0 then i2 + (n : Int) else i2) = (if i1 < 0 then i1 + (n : Int) else i1) then
        .abort
      else traceOrdered D (if i1 < 0 then i1 + (n : Int) else i1).toNat
          (if i2 < 0 then i2 + (n : Int) else i2).toNat
      else .abort else .abort := by
  subst hn
  simp only [trace2, Res.assert_bind]
  rfl

theorem takeDiag_eq (a : Tensor α) (w i1 i2 : Int) (n : Nat) (hn : a.dims.length = n) :
    takeDiag a w i1 i2 =
      if (if i1 < 0 then i1 + (n : Int) else i1) < n ∧ (if i1 < 0 then i1 + (n : Int) else i1) ≥ 0 then
      if (if i2 < 0 then i2 + (n : Int) else i2) < n ∧ (if i2 < 0 then i2 + (n : Int) else i2) ≥ 0 then
      if (if i1 < 0 then i1 + (n : Int) else i1) > (if i2 < 0 then i2 + (n : Int) else i2) then
        takeDiagOrdered a (-w) (if i2 < 0 then i2 + (n : Int) else i2).toNat
          (if i1 < 0 then i1 + (n : Int) else i1).toNat
      else takeDiagOrdered a w (if i1 < 0 then i1 + (n : Int) else i1).toNat
          (if i2 < 0 then i2 + (n : Int) else i2).toNat
      else .abort else .abort := by
  subst hn
  simp only [takeDiag, Res.assert_bind]
  rfl

/-- C25: trace(A,i,j). The positions i and j, in any order, are the first and the second of those that
separate the dimensions `P`, `Q` and `R`. (Positions are counted from the end if they are negative; the
code does not admit -rank, see `c25_trace_minus_rank`.) -/
theorem c25_trace [AddCommMonoid α] (D : Tensor α) (wf : D.WF) (i j : Int) (P Q R : List Nat)
    (A B : Nat) (hd : D.dims = P ++ A :: (Q ++ B :: R))
    (hi : i ≠ -(D.dims.length : Int)) (hj : j ≠ -(D.dims.length : Int))
    (hij : (norm D.dims.length i = some P.length ∧
        norm D.dims.length j = some (P.length + 1 + Q.length)) ∨
      (norm D.dims.length j = some P.length ∧
        norm D.dims.length i = some (P.length + 1 + Q.length))) :
    ∃ c : Tensor α, trace2 D i j = .ok c ∧ c.WF ∧ c.dims = outDims (P ++ Q ++ R) ∧
      ∀ p q r, InB p P → InB q Q → InB r R → ∀ f : Nat → α,
        (∀ l < min A B, elem D.dims D.data (p ++ l :: (q ++ l :: r)) = some (f l)) →
        elem c.dims c.data (outIdx (p ++ q ++ r)) = some (∑ l ∈ Finset.range (min A B), f l) := by
  obtain ⟨dims, ds⟩ := D
  simp only at hd
  subst hd
  obtain ⟨c, e, h⟩ := traceOrdered_ok P Q R A B ds (wf_split5 wf)
  refine ⟨c, ?_, h⟩
  have key : ∀ x : Int, ∀ n, x ≠ -((P ++ A :: (Q ++ B :: R)).length : Int) →
      norm (P ++ A :: (Q ++ B :: R)).length x = some n →
      (x < ((P ++ A :: (Q ++ B :: R)).length : Int) ∧
        x > -((P ++ A :: (Q ++ B :: R)).length : Int)) := by
    intro x n hx hn
    have := norm_some hn
    split at this <;> omega
  rcases hij with ⟨h1, h2⟩ | ⟨h1, h2⟩
  · rw [trace2_eq _ _ _ _ rfl]
    rw [if_pos (key i _ hi h1), if_pos (key j _ hj h2), (norm_some h1).1, (norm_some h2).1,
      if_neg (by omega), if_neg (by omega)]
    exact e
  · rw [trace2_eq _ _ _ _ rfl]
    rw [if_pos (key i _ hi h2), if_pos (key j _ hj h1), (norm_some h1).1, (norm_some h2).1,
      if_pos (by omega)]
    exact e

theorem split2_lt {d : List Nat} {n m : Nat} (h : n < m) (hm : m < d.length) :
    ∃ P A Q B R, d = P ++ A :: (Q ++ B :: R) ∧ P.length = n ∧ P.length + 1 + Q.length = m := by
  obtain ⟨P, A, S, rfl, hP⟩ := split1 d n (by omega)
  obtain ⟨Q, B, R, rfl, hQ⟩ := split1 S (m - n - 1) (by simp at hm; omega)
  exact ⟨P, A, Q, B, R, rfl, hP, by omega⟩

/-- Two different positions always separate the dimensions as required by `c25_trace`. -/
theorem c25_trace_covers (D : Tensor α) (i j : Int) (n m : Nat) (h1 : norm D.dims.length i = some n)
    (h2 : norm D.dims.length j = some m) (hne : n ≠ m) :
    ∃ P A Q B R, D.dims = P ++ A :: (Q ++ B :: R) ∧
      ((norm D.dims.length i = some P.length ∧
        norm D.dims.length j = some (P.length + 1 + Q.length)) ∨
      (norm D.dims.length j = some P.length ∧
        norm D.dims.length i = some (P.length + 1 + Q.length))) := by
  rcases Nat.lt_or_gt_of_ne hne with h | h
  · obtain ⟨P, A, Q, B, R, e, e1, e2⟩ := split2_lt h (norm_some h2).2
    exact ⟨P, A, Q, B, R, e, .inl ⟨by rw [h1, e1], by rw [h2, e2]⟩⟩
  · obtain ⟨P, A, Q, B, R, e, e1, e2⟩ := split2_lt h (norm_some h1).2
    exact ⟨P, A, Q, B, R, e, .inr ⟨by rw [h2, e1], by rw [h1, e2]⟩⟩

/-- C25: positions which do not exist, or twice the same one, stop the program. -/
theorem c25_trace_positions [Zero α] [Add α] (D : Tensor α) (i j : Int)
    (h : norm D.dims.length i = none ∨ norm D.dims.length j = none ∨
      norm D.dims.length i = norm D.dims.length j) :
    trace2 D i j = .abort := by
  have key : ∀ x : Int, norm D.dims.length x = none →
      ¬ (x < (D.dims.length : Int) ∧ x > -(D.dims.length : Int)) := by
    intro x hx
    unfold norm at hx
    split at hx
    · simp at hx
    · split at hx
      · simp at hx
      · omega
  rw [trace2_eq _ _ _ _ rfl]
  rcases hn : norm D.dims.length i with _ | n
  · rw [if_neg (key i hn)]
  · rcases hm : norm D.dims.length j with _ | m
    · rw [if_neg (key j hm)]
      split <;> rfl
    · rw [hn, hm] at h
      have : n = m := by simpa using h
      subst this
      rw [(norm_some hn).1, (norm_some hm).1, if_neg (lt_irrefl (n : Int)), if_pos rfl]
      simp

/-- The position -rank, which denotes the first index elsewhere in the library, stops the program. -/
theorem c25_trace_minus_rank [Zero α] [Add α] (D : Tensor α) (j : Int) :
    trace2 D (-(D.dims.length : Int)) j = .abort := by
  rw [trace2_eq _ _ _ _ rfl]
  rw [if_neg (by omega)]

theorem trace_isMat [AddCommMonoid α] {m : Tensor α} {r c : Nat} {f : Nat → Nat → α}
    (h : IsMat m.dims m.data r c f) :
    trace m = .ok (∑ i ∈ Finset.range (min r c), f i i) := by
  have d0 := dimension_nat m 0 r (by rw [h.1]; rfl)
  have d1 := dimension_nat m 1 c (by rw [h.1]; rfl)
  simp only [Nat.cast_zero, Nat.cast_one] at d0 d1
  have hr : m.rank = 2 := by simp [rank, h.1]
  simp only [trace, Res.assert_bind, if_pos hr, d0, d1, Res.ok_bind, loop_eq, Nat.zero_add]
  rw [← map_eq_flatMap_single (min r c) (fun i => i * (r + 1)), List.map_map,
    accum_range (min r c) _ (fun i => f i i) 0 (by
      intro i hi
      have := h.2.2 i i (by omega) (by omega)
      rw [elem, if_pos (by rw [h.1]; exact ⟨by omega, by omega, trivial⟩), h.1] at this
      simp only [Function.comp]
      rw [← this]
      congr 1
      simp; ring)]
  simp

/-- C25: trace(m) of a matrix is the sum of its diagonal. -/
theorem c25_trace_matrix [AddCommMonoid α] (m : Tensor α) (wf : m.WF) (r c : Nat)
    (hd : m.dims = [r, c]) (f : Nat → α)
    (hf : ∀ i < min r c, elem m.dims m.data [i, i] = some (f i)) :
    trace m = .ok (∑ i ∈ Finset.range (min r c), f i) := by
  obtain ⟨g, hg⟩ := exists_isMat m wf r c hd
  rw [trace_isMat hg]
  congr 1
  apply Finset.sum_congr rfl
  intro i hi
  have hi := Finset.mem_range.1 hi
  have := hg.2.2 i i (by omega) (by omega)
  rw [hf i hi] at this
  simpa using this.symm

/-- C25: trace(m) stops the program when m is not a matrix. -/
theorem c25_trace_rank [Zero α] [Add α] (m : Tensor α) (h : m.dims.length ≠ 2) :
    trace m = .abort := by
  simp [trace, rank, Res.assert_bind, h]

/-- C25: trace(mmult(a,b)) = trace(mmult(b,a)). (mmult stops the program for matrices without rows or
without columns.) -/
theorem c25_trace_cyclic [CommSemiring α] (a b : Tensor α) (wfa : a.WF) (wfb : b.WF) (m n : Nat)
    (ha : a.dims = [m, n]) (hb : b.dims = [n, m]) (hm : m ≠ 0) (hn : n ≠ 0) :
    ∃ s, (mmult a b >>= trace) = .ok s ∧ (mmult b a >>= trace) = .ok s := by
  obtain ⟨f, hf⟩ := exists_isMat a wfa m n ha
  obtain ⟨g, hg⟩ := exists_isMat b wfb n m hb
  obtain ⟨c, ec, hc⟩ := mmult_isMat hf hg hn
  obtain ⟨d, ed, hd⟩ := mmult_isMat hg hf hm
  refine ⟨_, by rw [ec, Res.ok_bind, trace_isMat hc], ?_⟩
  rw [ed, Res.ok_bind, trace_isMat hd, Nat.min_self, Nat.min_self, Finset.sum_comm]
  congr 1
  apply Finset.sum_congr rfl
  intro i _
  apply Finset.sum_congr rfl
  intro j _
  exact mul_comm _ _

example : trace2 (⟨[2, 2, 2], [1, 2, 3, 4, 5, 6, 7, 8]⟩ : Tensor Int) (-1) 0 = .ok ⟨[2], [7, 11]⟩ := by
  decide
example : trace (⟨[2, 3], [1, 2, 3, 4, 5, 6]⟩ : Tensor Int) = .ok 5 := by decide
example : mmult (⟨[1, 2], [1, 2]⟩ : Tensor Int) ⟨[2, 1], [3, 4]⟩ >>= trace = .ok 11 := by decide

/-- C26: take_diag(A,w,i,j), when the part of the claim that holds is asked for: the first position is
before the second. The dimensions after the last position must have no more than one element in all, or
those between both positions must have as many as the second of them: the code passes the former where it
should pass the latter. What is missing is `c26_take_diag_wrong` and `c26_take_diag_out_of_bounds`. -/
theorem c26_take_diag_partial [Zero α] (a : Tensor α) (wf : a.WF) (w i j : Int) (P Q R : List Nat)
    (A B : Nat) (hd : a.dims = P ++ A :: (Q ++ B :: R))
    (hi : norm a.dims.length i = some P.length)
    (hj : norm a.dims.length j = some (P.length + 1 + Q.length))
    (hw : -(A : Int) < w ∧ w < B)
    (hc : prod R ≤ 1 ∨ prod Q = B ∨ (A = 1 ∧ B = 1) ∨ diagLen A B w = 0) :
    ∃ c : Tensor α, takeDiag a w i j = .ok c ∧ c.WF ∧ c.dims = P ++ diagLen A B w :: (Q ++ R) ∧
      ∀ p q r l, InB p P → InB q Q → InB r R → l < diagLen A B w →
        elem c.dims c.data (p ++ l :: (q ++ r)) =
          elem a.dims a.data (p ++ diagRow w l :: (q ++ diagCol w l :: r)) := by
  obtain ⟨dims, xs⟩ := a
  simp only at hd
  subst hd
  obtain ⟨c, e, h⟩ := takeDiagOrdered_ok P Q R A B w xs (wf_split5 wf) hw hc
  refine ⟨c, ?_, h⟩
  have h1 := norm_some hi
  have h2 := norm_some hj
  rw [takeDiag_eq _ _ _ _ _ rfl, h1.1, h2.1]
  rw [if_pos (by omega), if_pos (by omega), if_neg (by omega)]
  exact e

/-- C26: the same with the positions exchanged: the diagonal remains at the place of the first one. -/
theorem c26_take_diag_exchanged_partial [Zero α] (a : Tensor α) (wf : a.WF) (w i j : Int)
    (P Q R : List Nat) (A B : Nat) (hd : a.dims = P ++ A :: (Q ++ B :: R))
    (hj : norm a.dims.length j = some P.length)
    (hi : norm a.dims.length i = some (P.length + 1 + Q.length))
    (hw : -(B : Int) < w ∧ w < A)
    (hc : prod R ≤ 1 ∨ prod Q = B ∨ (A = 1 ∧ B = 1) ∨ diagLen B A w = 0) :
    ∃ c : Tensor α, takeDiag a w i j = .ok c ∧ c.WF ∧ c.dims = P ++ diagLen B A w :: (Q ++ R) ∧
      ∀ p q r l, InB p P → InB q Q → InB r R → l < diagLen B A w →
        elem c.dims c.data (p ++ l :: (q ++ r)) =
          elem a.dims a.data (p ++ diagCol w l :: (q ++ diagRow w l :: r)) := by
  obtain ⟨dims, xs⟩ := a
  simp only at hd
  subst hd
  have hdl : diagLen A B (-w) = diagLen B A w := by
    unfold diagLen; rw [Int.neg_neg, Nat.min_comm]
  obtain ⟨c, e, h⟩ := takeDiagOrdered_ok P Q R A B (-w) xs (wf_split5 wf) (by omega)
    (by rw [hdl]; exact hc)
  rw [hdl] at h
  refine ⟨c, ?_, h.1, h.2.1, ?_⟩
  · have h1 := norm_some hi
    have h2 := norm_some hj
    rw [takeDiag_eq _ _ _ _ _ rfl, h1.1, h2.1]
    rw [if_pos (by omega), if_pos (by omega), if_pos (by omega)]
    exact e
  · intro p q r l hp hq hr hl
    have := h.2.2 p q r l hp hq hr hl
    simp only [diagRow, diagCol, Int.neg_neg] at this ⊢
    exact this

/-- C26: diagonals out of range and positions out of range stop the program. -/
theorem c26_take_diag_range (a : Tensor α) (w i j : Int) (P Q R : List Nat)
    (A B : Nat) (hd : a.dims = P ++ A :: (Q ++ B :: R))
    (hi : norm a.dims.length i = some P.length)
    (hj : norm a.dims.length j = some (P.length + 1 + Q.length))
    (hw : w ≤ -(A : Int) ∨ w ≥ B) : takeDiag a w i j = .abort := by
  obtain ⟨dims, xs⟩ := a
  simp only at hd
  subst hd
  have h1 := norm_some hi
  have h2 := norm_some hj
  rw [takeDiag_eq _ _ _ _ _ rfl, h1.1, h2.1]
  rw [if_pos (by omega), if_pos (by omega), if_neg (by omega), Int.toNat_natCast, Int.toNat_natCast,
    takeDiagOrdered_eq, if_pos hw]

theorem norm_none_range {d : Nat} {i : Int} (h : norm d i = none) :
    ¬ ((if i < 0 then i + (d : Int) else i) < d ∧ (if i < 0 then i + (d : Int) else i) ≥ 0) := by
  unfold norm at h
  split at h
  · simp at h
  · split at h
    · simp at h
    · split <;> omega

theorem c26_take_diag_positions (a : Tensor α) (w i j : Int)
    (h : norm a.dims.length i = none ∨ norm a.dims.length j = none) :
    takeDiag a w i j = .abort := by
  rw [takeDiag_eq _ _ _ _ _ rfl]
  rcases h with h | h
  · rw [if_neg (norm_none_range h)]
  · rw [if_neg (norm_none_range h)]
    simp

/-- C26 is false: with two dimensions of size 2 and a third one, elements of other places are returned.
The diagonal over the first two indices of a tensor of dimensions 2, 2, 2 with elements 0, ..., 7 should
be 0, 3, 4, 7. -/
theorem c26_take_diag_wrong :
    takeDiag (⟨[2, 2, 2], [0, 1, 2, 3, 4, 5, 6, 7]⟩ : Tensor Int) 0 0 1 =
      .ok ⟨[2, 2], [0, 3, 2, 5]⟩ ∧
    elem [2, 2, 2] [0, 1, 2, 3, 4, 5, 6, 7] [0, 0, 1] = some (4 : Int) := by decide

/-- C26 is false: for some dimensions, take_diag reads outside of the tensor. -/
theorem c26_take_diag_out_of_bounds :
    (fill [2, 3, 2, 2] (0 : Int)).WF ∧ takeDiag (fill [2, 3, 2, 2] (0 : Int)) 0 0 2 = .ub := by decide

/-- Twice the same position is not detected: the diagonal is taken over this position and the next. -/
theorem c26_take_diag_same_position (a : Tensor α) (w : Int) (i : Nat) (h : i + 1 < a.dims.length) :
    takeDiag a w i i = takeDiag a w i (i + 1 : Nat) := by
  have e : takeDiagOrdered a w i i = takeDiagOrdered a w i (i + 1) := by
    simp [takeDiagOrdered]
  rw [takeDiag_eq _ _ _ _ _ rfl, takeDiag_eq _ _ _ _ _ rfl]
  rw [if_neg (show ¬ ((i : Int) < 0) by omega), if_neg (show ¬ (((i + 1 : Nat) : Int) < 0) by omega)]
  rw [if_pos (show (i : Int) < a.dims.length ∧ (i : Int) ≥ 0 by omega),
    if_neg (show ¬ (i : Int) > i by omega),
    if_pos (show ((i + 1 : Nat) : Int) < a.dims.length ∧ ((i + 1 : Nat) : Int) ≥ 0 by omega),
    if_neg (show ¬ (i : Int) > (i + 1 : Nat) by omega),
    if_pos (show (i : Int) < a.dims.length ∧ (i : Int) ≥ 0 by omega)]
  rw [if_pos (show (i : Int) < a.dims.length ∧ (i : Int) ≥ 0 by omega)]
  exact e

example : takeDiag (⟨[2, 3], [1, 2, 3, 4, 5, 6]⟩ : Tensor Int) 1 0 (-1) = .ok ⟨[2], [3, 6]⟩ := by decide
example : takeDiag (⟨[2, 3], [1, 2, 3, 4, 5, 6]⟩ : Tensor Int) (-1) 0 (-1) = .ok ⟨[1], [2]⟩ := by decide
example : takeDiag (⟨[2, 3], [1, 2, 3, 4, 5, 6]⟩ : Tensor Int) (-1) 1 0 = .ok ⟨[2], [3, 6]⟩ := by decide

/-- Entries of the matrix with `g` on its w-th diagonal. -/
def diagEntry [Zero α] (g : Nat → α) (w : Int) (i j : Nat) : α :=
  if (j : Int) - i = w then g (min i j) else 0

/-- C27: diag(v,w,r,c) is the r x c matrix with v on the w-th diagonal and zeros elsewhere, if v has as
many elements as this diagonal. -/
theorem c27_diag [Zero α] (v : Tensor α) (w : Int) (r c : Nat)
    (hn : (v.data.length : Int) = min ((r : Int) - (-w).toNat) ((c : Int) - w.toNat)) (g : Nat → α)
    (hg : ∀ i < v.data.length, v.data[i]? = some (g i)) :
    ∃ t, diag v w r c = .ok t ∧ IsMat t.dims t.data r c (diagEntry g w) := by
  have h1 : (if w < 0 then (-w).toNat else 0) = (-w).toNat := by split <;> omega
  have h2 : (if w < 0 then 0 else w.toNat) = w.toNat := by split <;> omega
  obtain ⟨t, e, h⟩ := diagLoop_isMat v g r c (-w).toNat w.toNat v.data.length 0 _ _
    (fill_isMat r c (0 : α)) (by omega) (by omega) (by simpa using hg)
  refine ⟨t, ?_, h.congr ?_⟩
  · simp only [diag, h1, h2, ← hn]
    rw [if_neg (by omega), if_neg (by simp [size])]
    exact e
  · intro i j hi hj
    unfold diagEntry
    by_cases hij : (j : Int) - i = w
    · rw [if_pos hij, if_pos (by omega)]
      congr 1; omega
    · rw [if_neg hij, if_neg (by omega)]

/-- C27: a vector with another number of elements stops the program. -/
theorem c27_diag_length [Zero α] (v : Tensor α) (w : Int) (r c : Nat)
    (hn : (v.data.length : Int) ≠ min ((r : Int) - (-w).toNat) ((c : Int) - w.toNat)) :
    diag v w r c = .abort := by
  have h1 : (if w < 0 then (-w).toNat else 0) = (-w).toNat := by split <;> omega
  have h2 : (if w < 0 then 0 else w.toNat) = w.toNat := by split <;> omega
  simp only [diag, h1, h2]
  split
  · rfl
  · rw [if_pos (by rw [size]; exact hn.symm)]

/-- C27: take_diag(diag(v,w),w) = v, if v has elements. What is missing is `c27_empty`. -/
theorem c27_round_trip_partial [Zero α] (v : Tensor α) (w : Int) (n : Nat) (hd : v.dims = [n])
    (wf : v.WF) (hn : n ≠ 0) : (diagSquare v w >>= fun m => takeDiag m w 0 (-1)) = .ok v := by
  have hl : v.data.length = n := by rw [wf.length_eq (by simp [hd]), hd]; simp
  obtain ⟨t, e, h⟩ := c27_diag v w (n + w.natAbs) (n + w.natAbs) (by rw [hl]; omega)
    (fun i => (v.data[i]?).getD 0) (by intro i hi; simp [hi])
  have e' : diagSquare v w = .ok t := by rw [diagSquare, size, hl]; exact e
  rw [e', Res.ok_bind]
  have hlen : diagLen (n + w.natAbs) (n + w.natAbs) w = n := by unfold diagLen; omega
  obtain ⟨c, ec, wfc, hdc, hel⟩ := c26_take_diag_partial t (IsMat.wf h) w 0 (-1) [] [] []
    (n + w.natAbs) (n + w.natAbs) h.1 (by rw [h.1]; rfl) (by rw [h.1]; rfl) (by omega)
    (.inl (by simp))
  rw [hlen] at hdc hel
  rw [ec]
  congr 1
  apply ext_elem wfc wf (by rw [hdc, hd]; rfl)
  intro idx hidx
  rw [hdc] at hidx
  rcases idx with _ | ⟨l, _ | ⟨k, ks⟩⟩
  · simp [InB] at hidx
  · have hlt : l < n := by simpa using hidx
    have := hel [] [] [] l trivial trivial trivial hlt
    simp only [List.nil_append] at this
    rw [this, h.2.2 _ _ (by unfold diagRow; omega) (by unfold diagCol; omega)]
    unfold diagEntry
    rw [if_pos (by unfold diagRow diagCol; omega),
      show min (diagRow w l) (diagCol w l) = l by unfold diagRow diagCol; omega, hd]
    simp only [elem, if_pos (show InB [l] [n] from ⟨hlt, trivial⟩)]
    have : l < v.data.length := by omega
    simp [this]
  · simp [InB] at hidx

/-- C27 is false for empty vectors: take_diag stops the program. -/
theorem c27_empty [Zero α] (v : Tensor α) (w : Int) (hv : v.data = []) :
    (diagSquare v w >>= fun m => takeDiag m w 0 (-1)) = .abort := by
  obtain ⟨t, e, h⟩ := c27_diag v w w.natAbs w.natAbs (by rw [hv, List.length_nil]; omega) (fun _ => 0)
    (by simp [hv])
  have e' : diagSquare v w = .ok t := by rw [diagSquare, size, hv]; simpa using e
  rw [e', Res.ok_bind]
  exact c26_take_diag_range t w 0 (-1) [] [] [] w.natAbs w.natAbs h.1 (by rw [h.1]; rfl)
    (by rw [h.1]; rfl) (by omega)

example : diag (⟨[2], [5, 6]⟩ : Tensor Int) 1 2 3 = .ok ⟨[2, 3], [0, 0, 5, 0, 0, 6]⟩ := by decide
example : (diagSquare (⟨[2], [5, 6]⟩ : Tensor Int) (-1) >>= fun m => takeDiag m (-1) 0 (-1)) =
    .ok ⟨[2], [5, 6]⟩ := by decide

end Verif.Tensor
