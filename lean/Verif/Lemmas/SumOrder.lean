import Verif.Props.Dims
import Verif.Props.Trace
import Verif.Props.Reduce
/-
Sums over indices for numbers with any addition: which numbers are added, and in which order.
-/
namespace Verif.Tensor

open Verif Spec

variable {α β : Type}

theorem modLoop_order [Zero α] [Add α] (a1 a2b a3 a5 : Nat) (inp : Nat → Nat → Nat → Nat → Nat)
    (src : List α) (hsrc : ∀ i k m l, i < a1 → k < a3 → m < a5 → l < a2b → inp i k m l < src.length) :
    ∃ c, modLoop (· + ·) (fun _ => src) ((List.range a5).flatMap fun m =>
      (List.range a2b).flatMap fun l => (List.range a3).flatMap fun k =>
        (List.range a1).flatMap fun i => [(i + a1 * (k + a3 * m), inp i k m l)])
        (List.replicate (a1 * (a3 * a5)) (0 : α)) = .ok c ∧ c.length = a1 * (a3 * a5) ∧
      ∀ i k m, i < a1 → k < a3 → m < a5 → ∀ g : Nat → α, (∀ l < a2b, src[inp i k m l]? = some (g l)) →
        c[i + a1 * (k + a3 * m)]? = some (((List.range a2b).map g).foldl (· + ·) 0) := by
  obtain ⟨c, e, hl, hget⟩ := modLoop_get (· + ·) src ((List.range a5).flatMap fun m =>
      (List.range a2b).flatMap fun l => (List.range a3).flatMap fun k =>
        (List.range a1).flatMap fun i => [(i + a1 * (k + a3 * m), inp i k m l)])
        (List.replicate (a1 * (a3 * a5)) (0 : α)) (by
    intro s hs
    simp only [List.mem_flatMap, List.mem_range, List.mem_singleton] at hs
    obtain ⟨m, hm, l, hl, k, hk, i, hi, rfl⟩ := hs
    refine ⟨?_, hsrc i k m l hi hk hm hl⟩
    rw [List.length_replicate]
    exact pos_lt' hi (pos_lt' hk hm))
  refine ⟨c, e, by simpa using hl, ?_⟩
  intro i k m hi hk hm g hg
  rw [hget _ 0 (by rw [List.getElem?_replicate, if_pos (pos_lt' hi (pos_lt' hk hm))]),
    filter_nest a1 a2b a3 a5 (fun i k m _ => i + a1 * (k + a3 * m)) inp i k m hi hk hm
    (fun i' k' m' l hi' hk' _ _ e => pos3_inj hi' hk' hi hk e) (fun _ => rfl)]
  have : ((List.range a2b).map fun l => (i + a1 * (k + a3 * m), inp i k m l)).filterMap
      (fun s => src[s.2]?) = (List.range a2b).map g := by
    rw [List.filterMap_map]
    have : ∀ l ∈ List.range a2b, ((fun s : Nat × Nat => src[s.2]?) ∘
        fun l => (i + a1 * (k + a3 * m), inp i k m l)) l = some (g l) := by
      intro l hl
      exact hg l (List.mem_range.1 hl)
    rw [List.filterMap_congr this]
    simp [List.filterMap_eq_map']
  rw [this]

/-- The trace over two ordered positions. -/
theorem traceOrdered_order [Zero α] [Add α] (P Q R : List Nat) (A B : Nat) (ds : List α)
    (hl : ds.length = prod P * (A * (prod Q * (B * prod R)))) :
    ∃ c : Tensor α, traceOrdered ⟨P ++ A :: (Q ++ B :: R), ds⟩ P.length (P.length + 1 + Q.length) =
        .ok c ∧ c.WF ∧ c.dims = outDims (P ++ Q ++ R) ∧
      ∀ p q r, InB p P → InB q Q → InB r R → ∀ f : Nat → α,
        (∀ l < min A B, elem (P ++ A :: (Q ++ B :: R)) ds (p ++ l :: (q ++ l :: r)) = some (f l)) →
        elem c.dims c.data (outIdx (p ++ q ++ r)) = some (((List.range (min A B)).map f).foldl (· + ·) 0) := by
  obtain ⟨s1, s2, s3, s4, s5⟩ := split5 P Q R A B
  have hrank : (P ++ A :: (Q ++ B :: R)).length - 2 = (P ++ Q ++ R).length := by simp; omega
  have hpos : ∀ i k m l, i < prod P → k < prod Q → m < prod R → l < min A B →
      i + prod P * (l + A * (k + prod Q * (l + B * m))) < ds.length := by
    intro i k m l hi hk hm hlt
    rw [hl]
    exact pos_lt' hi (pos_lt' (by omega) (pos_lt' hk (pos_lt' (by omega) hm)))
  obtain ⟨c, e, hc, hget⟩ := modLoop_order (prod P) (min A B) (prod Q) (prod R)
    (fun i k m l => i + prod P * (l + A * (k + prod Q * (l + B * m)))) ds hpos
  have hc' : c.length = prod (P ++ Q ++ R) := by
    rw [hc]; simp only [prod_append]; ring
  refine ⟨⟨outDims (P ++ Q ++ R), c⟩, ?_, ?_, rfl, ?_⟩
  · have d1 := dimension_nat (α := α) ⟨P ++ A :: (Q ++ B :: R), ds⟩ P.length A s1
    have d2 := dimension_nat (α := α) ⟨P ++ A :: (Q ++ B :: R), ds⟩ (P.length + 1 + Q.length) B s2
    have hz : (fill (outDims (P ++ Q ++ R)) (0 : α)).data =
        List.replicate (prod P * (prod Q * prod R)) 0 := by
      simp only [fill, totalSize_outDims, prod_append, Nat.mul_assoc]
    simp only [traceOrdered, s3, s4, s5, rank, hrank, runWrites_dims, Res.ok_bind, d1, d2,
      foldl_mul, Nat.one_mul, traceSteps_eq, hz, e]
    rfl
  · show c.length = _
    rw [hc', totalSize_outDims]
  · intro p q r hp hq hr f hf
    simp only
    rw [elem_outIdx c ((hp.append hq).append hr), colPos_three _ _ _ _ _ _ hp.length hq.length]
    refine hget _ _ _ (colPos_lt hp) (colPos_lt hq) (colPos_lt hr) f fun l hlt => ?_
    have := hf l hlt
    rw [elem] at this
    split at this
    · rwa [colPos_five _ _ _ _ _ _ _ _ _ _ hp.length hq.length] at this
    · simp at this

theorem trace2_order [Zero α] [Add α] (D : Tensor α) (wf : D.WF) (i j : Int) (P Q R : List Nat)
    (A B : Nat) (hd : D.dims = P ++ A :: (Q ++ B :: R))
    (hi : i ≠ -(D.dims.length : Int)) (hj : j ≠ -(D.dims.length : Int))
    (hij : (norm D.dims.length i = some P.length ∧
        norm D.dims.length j = some (P.length + 1 + Q.length)) ∨
      (norm D.dims.length j = some P.length ∧
        norm D.dims.length i = some (P.length + 1 + Q.length))) :
    ∃ c : Tensor α, trace2 D i j = .ok c ∧ c.WF ∧ c.dims = outDims (P ++ Q ++ R) ∧
      ∀ p q r, InB p P → InB q Q → InB r R → ∀ f : Nat → α,
        (∀ l < min A B, elem D.dims D.data (p ++ l :: (q ++ l :: r)) = some (f l)) →
        elem c.dims c.data (outIdx (p ++ q ++ r)) = some (((List.range (min A B)).map f).foldl (· + ·) 0) := by
  obtain ⟨dims, ds⟩ := D
  simp only at hd
  subst hd
  obtain ⟨c, e, h⟩ := traceOrdered_order P Q R A B ds (wf_split5 wf)
  refine ⟨c, ?_, h⟩
  have key : ∀ x : Int, ∀ n, x ≠ -((P ++ A :: (Q ++ B :: R)).length : Int) →
      norm (P ++ A :: (Q ++ B :: R)).length x = some n →
      (x < ((P ++ A :: (Q ++ B :: R)).length : Int) ∧
        x > -((P ++ A :: (Q ++ B :: R)).length : Int)) := by
    intro x n hx hn
    have := norm_some hn
    split at this <;> omega
  rcases hij with ⟨h1, h2⟩ | ⟨h1, h2⟩
  · rw [trace2_eq _ _ _ _ rfl]
    rw [if_pos (key i _ hi h1), if_pos (key j _ hj h2), (norm_some h1).1, (norm_some h2).1,
      if_neg (by omega), if_neg (by omega)]
    exact e
  · rw [trace2_eq _ _ _ _ rfl]
    rw [if_pos (key i _ hi h2), if_pos (key j _ hj h1), (norm_some h1).1, (norm_some h2).1,
      if_pos (by omega)]
    exact e

theorem accum_order [Add α] (l : List α) (z : α) : accum z (l.map some) = some (l.foldl (· + ·) z) := by
  induction l generalizing z with
  | nil => rfl
  | cons x xs ih => simp [accum, ih]

/-- The trace of a matrix. -/
theorem trace_order [Zero α] [Add α] {m : Tensor α} {r c : Nat} {f : Nat → Nat → α}
    (h : IsMat m.dims m.data r c f) :
    trace m = .ok (((List.range (min r c)).map fun i => f i i).foldl (· + ·) 0) := by
  have d0 := dimension_nat m 0 r (by rw [h.1]; rfl)
  have d1 := dimension_nat m 1 c (by rw [h.1]; rfl)
  simp only [Nat.cast_zero, Nat.cast_one] at d0 d1
  have hr : m.rank = 2 := by simp [rank, h.1]
  simp only [trace, Res.assert_bind, if_pos hr, d0, d1, Res.ok_bind, loop_eq, Nat.zero_add]
  rw [← map_eq_flatMap_single (min r c) (fun i => i * (r + 1)), List.map_map]
  have : (List.range (min r c)).map ((fun it => m.data[it]?) ∘ fun i => i * (r + 1)) =
      ((List.range (min r c)).map fun i => f i i).map some := by
    rw [List.map_map]
    apply List.map_congr_left
    intro i hi
    have hi := List.mem_range.1 hi
    have := h.2.2 i i (by omega) (by omega)
    rw [elem, if_pos (by rw [h.1]; exact ⟨by omega, by omega, trivial⟩), h.1] at this
    simp only [Function.comp]
    rw [← this]
    congr 1
    simp; ring
  rw [this, accum_order]
  rfl

theorem meanNdx_order [Zero α] [Add α] (div : α → Nat → α) (t : Tensor α) (wf : t.WF) (ndx : Int)
    (P Q : List Nat) (L : Nat) (hd : t.dims = P ++ L :: Q) (hQ : Q ≠ [])
    (h : norm t.dims.length ndx = some P.length) :
    ∃ c, meanNdx div t ndx = .ok c ∧ c.WF ∧ c.dims = P ++ Q ∧
      ∀ p q, InB p P → InB q Q → ∀ f : Nat → α,
        (∀ l < L, elem t.dims t.data (p ++ l :: q) = some (f l)) →
        elem c.dims c.data (p ++ q) = some (div (((List.range L).map f).foldl (· + ·) 0) L) := by
  obtain ⟨dims, xs⟩ := t
  simp only at hd
  subst hd
  have hl := wf_split wf
  have hrank : (⟨P ++ L :: Q, xs⟩ : Tensor α).rank ≠ 1 := by
    have := List.length_pos_of_ne_nil hQ
    simp only [rank, List.length_append, List.length_cons]; omega
  have hlt : ∀ i l m, i < prod P → l < L → m < prod Q →
      i + prod P * (l + L * m) < xs.length := by
    intro i l m hi hl' hm
    rw [hl]; exact pos_lt' hi (pos_lt' hl' hm)
  obtain ⟨c, e, hc, hget⟩ := modLoop_order (prod P) L 1 (prod Q)
    (fun i _ m l => i + prod P * (l + L * m)) xs (fun i k m l hi _ hm hl' => hlt i l m hi hl' hm)
  rw [Nat.one_mul] at hc
  have ht : (P ++ L :: Q).take P.length = P := by simp
  have hdr : (P ++ L :: Q).drop (P.length + 1) = Q := by
    rw [show P ++ L :: Q = (P ++ [L]) ++ Q by simp, List.drop_left' (by simp)]
  have hdim := dimension_nat (⟨P ++ L :: Q, xs⟩ : Tensor α) P.length L (by simp)
  have hr1 : reshape (⟨P ++ L :: Q, xs⟩ : Tensor α) [prod P, L, prod Q] =
      .ok ⟨[prod P, L, prod Q], xs⟩ := by
    rw [reshape, Res.assert_pos (by simp [size, hl]), Res.ok_bind]; rfl
  have hne : P ++ Q ≠ [] := by simp [hQ]
  have hr2 : reshape (⟨[prod P, prod Q], c⟩ : Tensor α) (P ++ Q) = .ok ⟨P ++ Q, c⟩ := by
    rw [reshape, Res.assert_pos (by simp [size, hc, totalSize_of_ne, hne, prod_append]),
      Res.ok_bind]; rfl
  have hwf : (⟨P ++ Q, c⟩ : Tensor α).WF := by
    show c.length = _
    rw [hc, totalSize_of_ne hne, prod_append]
  have hz : (fill [prod P, prod Q] (0 : α)).data = List.replicate (prod P * (1 * prod Q)) 0 := by
    simp [fill]
  refine ⟨⟨P ++ Q, c.map fun x => div x L⟩, ?_, ?_, rfl, ?_⟩
  · rw [meanNdx, if_neg hrank]
    simp only [rank, normalizeIndex_eq, h, Res.ok_bind, Int.toNat_natCast, runWrites_meanDims,
      if_neg hQ, ht, hdr, foldl_mul, Nat.one_mul, hdim, hr1, hz, meanSteps_eq] at e ⊢
    rw [e]
    simp only [Res.ok_bind, hr2, unop_ok _ _ hwf]
  · show (c.map _).length = _
    rw [List.length_map]; exact hwf
  · intro p q hp hq f hf
    have hin : InB (p ++ q) (P ++ Q) := hp.append hq
    rw [elem_map, elem, if_pos hin, colPos_append _ _ hp.length]
    have := hget _ 0 _ (colPos_lt hp) (by omega) (colPos_lt hq) f fun l hl' => by
      have h1 := hf l hl'
      rwa [elem, if_pos (hp.append (by simp [hl', hq])), colPos_split1 _ _ _ _ _ _ hp.length] at h1
    rw [Nat.zero_add, Nat.one_mul] at this
    rw [this, Option.map_some]

/-- The mean of a vector. -/
theorem meanNdx_vector_order [Zero α] [Add α] (div : α → Nat → α) (t : Tensor α) (ndx : Int)
    (h : t.dims.length = 1) : meanNdx div t ndx = .ok ⟨[1], [meanAll div t]⟩ := by
  rw [meanNdx, if_pos (show t.rank = 1 from h), accum_order]
  rfl

/-- The sums of the rows from the first element on. -/
theorem matrixNormInf_order [Zero β] [Add β] [LT β] [DecidableLT β] (abs : α → β) (m : Tensor α) (r c : Nat)
    (f : Nat → Nat → α) (h : IsMat m.dims m.data r (c + 1) f) :
    matrixNormInf abs m = .ok (((List.range r).map fun i =>
      ((List.range c).map fun j => abs (f i (j + 1))).foldl (· + ·) (abs (f i 0))).foldl
        (fun o x => if o < x then x else o) 0) := by
  have a0 := dimension_nat m 0 r (by rw [h.1]; rfl)
  have a1 := dimension_nat m 1 (c + 1) (by rw [h.1]; rfl)
  simp only [Nat.cast_zero, Nat.cast_one] at a0 a1
  have hr : m.rank = 2 := by simp [rank, h.1]
  rw [matrixNormInf, Res.assert_pos hr, Res.ok_bind, a0, Res.ok_bind, a1, Res.ok_bind]
  have hw : runWrites r ((List.range r).map fun i => (i, (m.data[i]?).map abs)) =
      .ok ((List.range r).map fun i => abs (f i 0)) := by
    have := runWrites_range ((List.range r).map fun i => abs (f i 0)) (fun i => (m.data[i]?).map abs)
      (by
        intro i hi
        have hi : i < r := by simpa using hi
        have := isMat_pos h hi (show 0 < c + 1 by omega)
        simp only [Nat.mul_zero, Nat.add_zero] at this
        simp [this, hi])
    simpa using this
  rw [hw, Res.ok_bind]
  obtain ⟨l, e, hl, hget⟩ := modLoop_get (fun s x => s + abs x) m.data
    ((List.range (c + 1 - 1)).flatMap fun j => (List.range r).map fun i => (i, r + i + r * j))
    ((List.range r).map fun i => abs (f i 0)) (by
      intro s hs
      simp only [List.mem_flatMap, List.mem_range, List.mem_map] at hs
      obtain ⟨j, hj, i, hi, rfl⟩ := hs
      refine ⟨by simpa using hi, ?_⟩
      rw [h.2.1]
      have := pos_lt' hi (show j + 1 < c + 1 by omega)
      simp only
      linarith)
  rw [e, Res.ok_bind]
  have hl' : l = (List.range r).map fun i =>
      ((List.range c).map fun j => abs (f i (j + 1))).foldl (· + ·) (abs (f i 0)) := by
    apply List.ext_getElem?
    intro i
    by_cases hi : i < r
    · rw [hget i (abs (f i 0)) (by simp [hi])]
      have hfil : ((List.range (c + 1 - 1)).flatMap fun j => (List.range r).map fun i =>
          (i, r + i + r * j)).filter (fun s => s.1 = i) =
          (List.range c).map fun j => (i, r + i + r * j) := by
        rw [Nat.add_sub_cancel, List.filter_flatMap, map_eq_flatMap_single]
        congr 1
        funext j
        rw [map_eq_flatMap_single, List.filter_flatMap, flatMap_range_single r i hi]
        · simp
        · intro k _ hk; simp [hk]
      rw [hfil, List.filterMap_map]
      have hfm : (List.range c).filterMap ((fun s : Nat × Nat => m.data[s.2]?) ∘
          fun j => (i, r + i + r * j)) = (List.range c).map fun j => f i (j + 1) := by
        have : ∀ j ∈ List.range c, ((fun s : Nat × Nat => m.data[s.2]?) ∘
            fun j => (i, r + i + r * j)) j = some (f i (j + 1)) := by
          intro j hj
          have hj := List.mem_range.mp hj
          have := isMat_pos h hi (show j + 1 < c + 1 by omega)
          simp only [Function.comp]
          rw [← this]; congr 1; ring
        rw [List.filterMap_congr this]
        simp [List.filterMap_eq_map']
      rw [hfm, List.getElem?_map, List.getElem?_range hi, Option.map_some]
      have hfold : ∀ (l : List α) (z : β), l.foldl (fun s x => s + abs x) z =
          (l.map abs).foldl (· + ·) z := by
        intro l
        induction l with
        | nil => simp
        | cons x xs ih => intro z; simp [ih]
      rw [hfold, List.map_map]
      rfl
    · rw [List.getElem?_eq_none (by rw [hl]; simp; omega), List.getElem?_eq_none (by simp; omega)]
  subst hl'
  rfl

end Verif.Tensor
