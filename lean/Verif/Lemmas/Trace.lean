import Verif.Lemmas.Scale
import Verif.Lemmas.Matrix
import Verif.Spec.Diag
/-
Lemmas for traces and diagonals.
-/
namespace Verif.Tensor

open Verif Spec

variable {α β : Type}

theorem traceSteps_eq (a1 a2 a3 a4 a5 : Nat) :
    traceSteps a1 a2 a3 a4 a5 =
      (List.range a5).flatMap fun m => (List.range (min a2 a4)).flatMap fun l =>
        (List.range a3).flatMap fun k => (List.range a1).flatMap fun i =>
          [(i + a1 * (k + a3 * m), i + a1 * (l + a2 * (k + a3 * (l + a4 * m))))] := by
  unfold traceSteps
  split
  · rename_i h
    subst h
    simp [map_eq_flatMap_single]
  · simp only [map_eq_flatMap_single]

/-- A loop nest over l, k, i: the steps which address one position. -/
theorem filter_nest (a1 a2b a3 a5 : Nat) (out inp : Nat → Nat → Nat → Nat → Nat) (i k m : Nat)
    (hi : i < a1) (hk : k < a3) (hm : m < a5)
    (hinj : ∀ i' k' m' l, i' < a1 → k' < a3 → m' < a5 → l < a2b →
      out i' k' m' l = out i k m 0 → i' = i ∧ k' = k ∧ m' = m)
    (hl : ∀ l, out i k m l = out i k m 0) :
    ((List.range a5).flatMap fun m' => (List.range a2b).flatMap fun l =>
      (List.range a3).flatMap fun k' => (List.range a1).flatMap fun i' =>
        [(out i' k' m' l, inp i' k' m' l)]).filter (fun s => s.1 = out i k m 0) =
      (List.range a2b).map fun l => (out i k m 0, inp i k m l) := by
  simp only [List.filter_flatMap]
  rw [flatMap_range_single a5 m hm, map_eq_flatMap_single]
  · apply List.flatMap_congr
    intro l hlt
    have hlt := List.mem_range.1 hlt
    rw [flatMap_range_single a3 k hk, flatMap_range_single a1 i hi]
    · simp [hl]
    · intro i' hi' hne
      simp only [List.filter_eq_nil_iff, List.mem_singleton, forall_eq, decide_eq_true_eq]
      intro e
      exact hne (hinj i' k m l hi' hk hm hlt e).1
    · intro k' hk' hne
      rw [List.flatMap_eq_nil_iff]
      intro i' hi'
      simp only [List.filter_eq_nil_iff, List.mem_singleton, forall_eq, decide_eq_true_eq]
      intro e
      exact hne (hinj i' k' m l (List.mem_range.1 hi') hk' hm hlt e).2.1
  · intro m' hm' hne
    rw [List.flatMap_eq_nil_iff]
    intro l hlt
    rw [List.flatMap_eq_nil_iff]
    intro k' hk'
    rw [List.flatMap_eq_nil_iff]
    intro i' hi'
    simp only [List.filter_eq_nil_iff, List.mem_singleton, forall_eq, decide_eq_true_eq]
    intro e
    exact hne (hinj i' k' m' l (List.mem_range.1 hi') (List.mem_range.1 hk') hm'
      (List.mem_range.1 hlt) e).2.2

theorem pos3_inj {a b i j k i' j' k' : Nat} (hi : i < a) (hj : j < b) (hi' : i' < a) (hj' : j' < b)
    (h : i + a * (j + b * k) = i' + a * (j' + b * k')) : i = i' ∧ j = j' ∧ k = k' := by
  obtain ⟨e1, e2⟩ := pos_inj' hi hi' h
  obtain ⟨e3, e4⟩ := pos_inj' hj hj' e2
  exact ⟨e1, e3, e4⟩

/-- Sums over loop nests. -/
theorem modLoop_sum [AddCommMonoid α] (a1 a2b a3 a5 : Nat) (inp : Nat → Nat → Nat → Nat → Nat)
    (src : List α) (hsrc : ∀ i k m l, i < a1 → k < a3 → m < a5 → l < a2b → inp i k m l < src.length)
    (g : Nat → Nat → Nat → Nat → α) (hg : ∀ i k m l, i < a1 → k < a3 → m < a5 → l < a2b →
      src[inp i k m l]? = some (g i k m l)) :
    ∃ c, modLoop (· + ·) (fun _ => src) ((List.range a5).flatMap fun m =>
      (List.range a2b).flatMap fun l => (List.range a3).flatMap fun k =>
        (List.range a1).flatMap fun i => [(i + a1 * (k + a3 * m), inp i k m l)])
        (List.replicate (a1 * (a3 * a5)) (0 : α)) = .ok c ∧ c.length = a1 * (a3 * a5) ∧
      ∀ i k m, i < a1 → k < a3 → m < a5 →
        c[i + a1 * (k + a3 * m)]? = some (∑ l ∈ Finset.range a2b, g i k m l) := by
  obtain ⟨c, e, hl, hget⟩ := modLoop_get (· + ·) src ((List.range a5).flatMap fun m =>
      (List.range a2b).flatMap fun l => (List.range a3).flatMap fun k =>
        (List.range a1).flatMap fun i => [(i + a1 * (k + a3 * m), inp i k m l)])
        (List.replicate (a1 * (a3 * a5)) (0 : α)) (by
    intro s hs
    simp only [List.mem_flatMap, List.mem_range, List.mem_singleton] at hs
    obtain ⟨m, hm, l, hl, k, hk, i, hi, rfl⟩ := hs
    refine ⟨?_, hsrc i k m l hi hk hm hl⟩
    rw [List.length_replicate]
    exact pos_lt' hi (pos_lt' hk hm))
  refine ⟨c, e, by simpa using hl, ?_⟩
  intro i k m hi hk hm
  rw [hget _ 0 (by rw [List.getElem?_replicate, if_pos (pos_lt' hi (pos_lt' hk hm))]),
    filter_nest a1 a2b a3 a5 (fun i k m _ => i + a1 * (k + a3 * m)) inp i k m hi hk hm
    (fun i' k' m' l hi' hk' _ _ e => pos3_inj hi' hk' hi hk e) (fun _ => rfl)]
  have : ((List.range a2b).map fun l => (i + a1 * (k + a3 * m), inp i k m l)).filterMap
      (fun s => src[s.2]?) = (List.range a2b).map fun l => g i k m l := by
    rw [List.filterMap_map]
    have : ∀ l ∈ List.range a2b, ((fun s : Nat × Nat => src[s.2]?) ∘
        fun l => (i + a1 * (k + a3 * m), inp i k m l)) l = some (g i k m l) := by
      intro l hl
      exact hg i k m l hi hk hm (List.mem_range.1 hl)
    rw [List.filterMap_congr this]
    simp [List.filterMap_eq_map']
  rw [this, foldl_add_range, zero_add]

theorem runWrites_dims (l : List Nat) :
    runWrites (max l.length 1) ((0, some 1) :: seqFrom 0 (l.map some)) = .ok (outDims l) := by
  cases l with
  | nil => rfl
  | cons x xs =>
    have hm : max (x :: xs).length 1 = (x :: xs).length := by simp
    have := writeAll_seq (x :: xs) [] (some 1 :: List.replicate xs.length none) [] (by simp)
    simp only [List.nil_append, List.append_nil, List.length_nil] at this
    rw [hm, runWrites, writeAll, if_pos (by simp),
      show (List.replicate (x :: xs).length (none : Option Nat)).set 0 (some 1) =
        some 1 :: List.replicate xs.length none by simp [List.replicate_succ], this, Res.ok_bind,
      finish_map_some]
    simp [outDims]

theorem totalSize_outDims (l : List Nat) : totalSize (outDims l) = prod l := by
  unfold outDims
  split
  · rename_i h; subst h; rfl
  · rename_i h; exact totalSize_of_ne h

theorem dimension_nat (t : Tensor α) (i : Nat) (d : Nat) (h : t.dims[i]? = some d) :
    t.dimension i = .ok d := by
  have : i < t.dims.length := (List.getElem?_eq_some_iff.1 h).1
  have h1 : (t.rank : Int) > (i : Int) := by unfold rank; omega
  rw [dimension, Res.assert_pos h1, Res.ok_bind, Res.assert_pos (by omega), Res.ok_bind,
    Int.toNat_natCast, h]
  rfl

theorem elem_outIdx {P : List Nat} (c : List α) {p : List Nat} (hp : InB p P) :
    elem (outDims P) c (outIdx p) = c[colPos P p]? := by
  unfold outDims outIdx
  cases P with
  | nil =>
    cases p with
    | nil => simp [elem]
    | cons => simp [InB] at hp
  | cons x xs =>
    cases p with
    | nil => simp [InB] at hp
    | cons => simp [elem, hp]

theorem colPos_three (P Q R p q r : List Nat) (hp : p.length = P.length) (hq : q.length = Q.length) :
    colPos (P ++ Q ++ R) (p ++ q ++ r) =
      colPos P p + prod P * (colPos Q q + prod Q * colPos R r) := by
  rw [colPos_append _ _ (by simp [hp, hq]), colPos_append _ _ hp, prod_append]; ring

theorem colPos_five (P Q R p q r : List Nat) (A B i j : Nat) (hp : p.length = P.length)
    (hq : q.length = Q.length) :
    colPos (P ++ A :: (Q ++ B :: R)) (p ++ i :: (q ++ j :: r)) =
      colPos P p + prod P * (i + A * (colPos Q q + prod Q * (j + B * colPos R r))) := by
  rw [colPos_split1 _ _ _ _ _ _ hp, colPos_split1 _ _ _ _ _ _ hq]

theorem split5 (P Q R : List Nat) (A B : Nat) :
    (P ++ A :: (Q ++ B :: R))[P.length]? = some A ∧
    (P ++ A :: (Q ++ B :: R))[P.length + 1 + Q.length]? = some B ∧
    (P ++ A :: (Q ++ B :: R)).take P.length = P ∧
    ((P ++ A :: (Q ++ B :: R)).take (P.length + 1 + Q.length)).drop (P.length + 1) = Q ∧
    (P ++ A :: (Q ++ B :: R)).drop (P.length + 1 + Q.length + 1) = R := by
  have h1 : P ++ A :: (Q ++ B :: R) = (P ++ [A] ++ Q) ++ B :: R := by simp
  have hl : (P ++ [A] ++ Q).length = P.length + 1 + Q.length := by simp; omega
  refine ⟨by simp, ?_, by simp, ?_, ?_⟩
  · rw [h1, ← hl]; simp
  · rw [h1, ← hl, List.take_left', List.drop_left'] <;> simp
  · rw [h1, ← hl, show P ++ [A] ++ Q ++ B :: R = (P ++ [A] ++ Q ++ [B]) ++ R by simp,
      List.drop_left' (by simp; omega)]

/-- The trace over two ordered positions. -/
theorem traceOrdered_ok [AddCommMonoid α] (P Q R : List Nat) (A B : Nat) (ds : List α)
    (hl : ds.length = prod P * (A * (prod Q * (B * prod R)))) :
    ∃ c : Tensor α, traceOrdered ⟨P ++ A :: (Q ++ B :: R), ds⟩ P.length (P.length + 1 + Q.length) =
        .ok c ∧ c.WF ∧ c.dims = outDims (P ++ Q ++ R) ∧
      ∀ p q r, InB p P → InB q Q → InB r R → ∀ f : Nat → α,
        (∀ l < min A B, elem (P ++ A :: (Q ++ B :: R)) ds (p ++ l :: (q ++ l :: r)) = some (f l)) →
        elem c.dims c.data (outIdx (p ++ q ++ r)) = some (∑ l ∈ Finset.range (min A B), f l) := by
  obtain ⟨s1, s2, s3, s4, s5⟩ := split5 P Q R A B
  have hrank : (P ++ A :: (Q ++ B :: R)).length - 2 = (P ++ Q ++ R).length := by simp; omega
  have hpos : ∀ i k m l, i < prod P → k < prod Q → m < prod R → l < min A B →
      i + prod P * (l + A * (k + prod Q * (l + B * m))) < ds.length := by
    intro i k m l hi hk hm hlt
    rw [hl]
    exact pos_lt' hi (pos_lt' (by omega) (pos_lt' hk (pos_lt' (by omega) hm)))
  obtain ⟨c, e, hc, hget⟩ := modLoop_sum (prod P) (min A B) (prod Q) (prod R)
    (fun i k m l => i + prod P * (l + A * (k + prod Q * (l + B * m)))) ds hpos
    (fun i k m l => (ds[i + prod P * (l + A * (k + prod Q * (l + B * m)))]?).getD 0)
    (by
      intro i k m l hi hk hm hlt
      simp [hpos i k m l hi hk hm hlt])
  have hc' : c.length = prod (P ++ Q ++ R) := by
    rw [hc]; simp only [prod_append]; ring
  refine ⟨⟨outDims (P ++ Q ++ R), c⟩, ?_, ?_, rfl, ?_⟩
  · have d1 := dimension_nat (α := α) ⟨P ++ A :: (Q ++ B :: R), ds⟩ P.length A s1
    have d2 := dimension_nat (α := α) ⟨P ++ A :: (Q ++ B :: R), ds⟩ (P.length + 1 + Q.length) B s2
    have hz : (fill (outDims (P ++ Q ++ R)) (0 : α)).data =
        List.replicate (prod P * (prod Q * prod R)) 0 := by
      simp only [fill, totalSize_outDims, prod_append, Nat.mul_assoc]
    simp only [traceOrdered, s3, s4, s5, rank, hrank, runWrites_dims, Res.ok_bind, d1, d2,
      foldl_mul, Nat.one_mul, traceSteps_eq, hz, e]
    rfl
  · show c.length = _
    rw [hc', totalSize_outDims]
  · intro p q r hp hq hr f hf
    simp only
    rw [elem_outIdx c ((hp.append hq).append hr), colPos_three _ _ _ _ _ _ hp.length hq.length,
      hget _ _ _ (colPos_lt hp) (colPos_lt hq) (colPos_lt hr)]
    congr 1
    apply Finset.sum_congr rfl
    intro l hlt
    have hlt := Finset.mem_range.1 hlt
    have := hf l hlt
    rw [elem] at this
    split at this
    · rw [colPos_five _ _ _ _ _ _ _ _ _ _ hp.length hq.length] at this
      simp [this]
    · simp at this

theorem runWrites_newDims (l : List Nat) (h : l ≠ []) :
    runWrites (max l.length 1) (seqFrom 0 (l.map some)) = .ok l := by
  have : max l.length 1 = l.length := by
    have := List.length_pos_of_ne_nil h
    omega
  rw [this, runWrites_seq]

theorem updWrites_one (P Q : List Nat) (A n : Nat) :
    updWrites (P ++ A :: Q) [(P.length, some n)] = .ok (P ++ n :: Q) := by
  rw [updWrites, writeAll, if_pos (by simp), ← List.map_set, writeAll, Res.ok_bind, finish_map_some]
  simp

/-- The loops of do_diag, with the strides of the code. -/
theorem diag_body [Zero α] (a1 a2 a2b a3 a4 a5 : Nat) (w : Int) (xs : List α)
    (hp : ∀ i l k m, i < a1 → l < a2b → k < a3 → m < a5 →
      i + a1 * (((-w).toNat + l) + a2 * (k + a3 * ((w.toNat + l) + a4 * m))) < xs.length) :
    ∃ c, runWrites (a1 * (a2b * (a3 * a5)))
        ((diagSteps a1 a2 a2b a3 a4 a5 (-w)).map fun x => (x.1, xs[x.2]?)) = .ok c ∧
      c.length = a1 * (a2b * (a3 * a5)) ∧
      ∀ i l k m, i < a1 → l < a2b → k < a3 → m < a5 →
        c[i + a1 * (l + a2b * (k + a3 * m))]? =
          xs[i + a1 * (((-w).toNat + l) + a2 * (k + a3 * ((w.toNat + l) + a4 * m)))]? := by
  have ho2 : (if -w < 0 then (- -w).toNat else 0) = w.toNat := by split <;> omega
  have ho1 : (if -w < 0 then 0 else (-w).toNat) = (-w).toNat := by split <;> omega
  obtain ⟨c, e, hl, hv⟩ := runWrites4 a1 a2b a3 a5 (a1 * (a2b * (a3 * a5))) (by ring)
    (fun i l k m =>
      (xs[i + a1 * (((-w).toNat + l) + a2 * (k + a3 * ((w.toNat + l) + a4 * m)))]?).getD 0)
    ((diagSteps a1 a2 a2b a3 a4 a5 (-w)).map fun x => (x.1, xs[x.2]?)) (by
      intro s hs
      simp only [diagSteps, ho1, ho2, List.mem_map, List.mem_flatMap, List.mem_range] at hs
      obtain ⟨_, ⟨m, hm, l, hl, k, hk, i, hi, rfl⟩, rfl⟩ := hs
      exact ⟨i, l, k, m, hi, hl, hk, hm, rfl, by simp [hp i l k m hi hl hk hm]⟩) (by
      intro i l k m hi hl hk hm
      refine ⟨(_, xs[_]?), List.mem_map.2 ⟨(i + a1 * (l + a2b * (k + a3 * m)),
        i + a1 * (((-w).toNat + l) + a2 * (k + a3 * ((w.toNat + l) + a4 * m)))), ?_, rfl⟩, rfl⟩
      simp only [diagSteps, ho1, ho2, List.mem_map, List.mem_flatMap, List.mem_range]
      exact ⟨m, hm, l, hl, k, hk, i, hi, rfl⟩)
  refine ⟨c, e, hl, ?_⟩
  intro i l k m hi hl hk hm
  rw [hv i l k m hi hl hk hm]
  simp [hp i l k m hi hl hk hm]

theorem diagLen_code (A B : Nat) (w : Int) :
    (if w < 0 then max 0 (min ((A : Int) + w) B) else max 0 (min (A : Int) (B - w))).toNat =
      diagLen A B w := by
  unfold diagLen
  split <;> omega

theorem takeDiagOrdered_eq (P Q R : List Nat) (A B : Nat) (w : Int) (xs : List α) :
    takeDiagOrdered ⟨P ++ A :: (Q ++ B :: R), xs⟩ w P.length (P.length + 1 + Q.length) =
      if w ≤ -(A : Int) ∨ w ≥ B then .abort
      else if A = 1 ∧ B = 1 then reshape ⟨P ++ A :: (Q ++ B :: R), xs⟩ (P ++ A :: (Q ++ R))
      else (do
        let data ← runWrites (totalSize (P ++ diagLen A B w :: (Q ++ R)))
          (if diagLen A B w ≠ 0 then
            (diagSteps (prod P) A (diagLen A B w) (prod Q) (prod Q) (prod R) (-w)).map
              fun x => (x.1, xs[x.2]?) else [])
        pure ⟨P ++ diagLen A B w :: (Q ++ R), data⟩) := by
  obtain ⟨s1, s2, s3, s4, s5⟩ := split5 P Q R A B
  have d1 := dimension_nat (α := α) ⟨P ++ A :: (Q ++ B :: R), xs⟩ P.length A s1
  have d2 := dimension_nat (α := α) ⟨P ++ A :: (Q ++ B :: R), xs⟩ (P.length + 1 + Q.length) B s2
  have hmax : max (P.length + 1) (P.length + 1 + Q.length) = P.length + 1 + Q.length := by omega
  have hrank : (P ++ A :: (Q ++ B :: R)).length - 1 = (P ++ A :: (Q ++ R)).length := by
    simp; omega
  have hass : P ++ A :: Q ++ R = P ++ A :: (Q ++ R) := by simp
  simp only [takeDiagOrdered, s3, hmax, s4, s5, rank, d1, d2, Res.ok_bind, hrank, hass,
    runWrites_newDims _ (show P ++ A :: (Q ++ R) ≠ [] by simp), diagLen_code, foldl_mul,
    Nat.one_mul, updWrites_one]

theorem totalSize_mid (P Q R : List Nat) (n : Nat) :
    totalSize (P ++ n :: (Q ++ R)) = prod P * (n * (prod Q * prod R)) := by
  rw [totalSize_of_ne (by simp)]
  simp only [prod_append, prod_cons]

theorem runWrites_zero : runWrites 0 ([] : List (Nat × Option α)) = .ok [] := rfl

/-- take_diag for ordered positions. -/
theorem takeDiagOrdered_ok [Zero α] (P Q R : List Nat) (A B : Nat) (w : Int) (xs : List α)
    (hl : xs.length = prod P * (A * (prod Q * (B * prod R))))
    (hw : -(A : Int) < w ∧ w < B)
    (hc : prod R ≤ 1 ∨ prod Q = B ∨ (A = 1 ∧ B = 1) ∨ diagLen A B w = 0) :
    ∃ c : Tensor α,
      takeDiagOrdered ⟨P ++ A :: (Q ++ B :: R), xs⟩ w P.length (P.length + 1 + Q.length) = .ok c ∧
      c.WF ∧ c.dims = P ++ diagLen A B w :: (Q ++ R) ∧
      ∀ p q r l, InB p P → InB q Q → InB r R → l < diagLen A B w →
        elem c.dims c.data (p ++ l :: (q ++ r)) =
          elem (P ++ A :: (Q ++ B :: R)) xs (p ++ diagRow w l :: (q ++ diagCol w l :: r)) := by
  have hin : ∀ p q r l, InB p P → InB q Q → InB r R → l < diagLen A B w →
      InB (p ++ l :: (q ++ r)) (P ++ diagLen A B w :: (Q ++ R)) ∧
      InB (p ++ diagRow w l :: (q ++ diagCol w l :: r)) (P ++ A :: (Q ++ B :: R)) ∧
      colPos (P ++ diagLen A B w :: (Q ++ R)) (p ++ l :: (q ++ r)) =
        colPos P p + prod P * (l + diagLen A B w * (colPos Q q + prod Q * colPos R r)) := by
    intro p q r l hp hq hr hlt
    refine ⟨hp.append ⟨hlt, hq.append hr⟩, hp.append ⟨?_, hq.append ⟨?_, hr⟩⟩, ?_⟩
    · unfold diagLen at hlt; unfold diagRow; omega
    · unfold diagLen at hlt; unfold diagCol; omega
    · rw [colPos_split1 _ _ _ _ _ _ hp.length, colPos_append _ _ hq.length]
  rw [takeDiagOrdered_eq, if_neg (by omega)]
  by_cases h11 : A = 1 ∧ B = 1
  · rw [if_pos h11]
    obtain ⟨rfl, rfl⟩ := h11
    have hw0 : w = 0 := by omega
    subst hw0
    have hd1 : diagLen 1 1 0 = 1 := rfl
    have hlen : xs.length = totalSize (P ++ 1 :: (Q ++ R)) := by
      rw [totalSize_mid, hl]; ring
    refine ⟨⟨P ++ 1 :: (Q ++ R), xs⟩, by simp only [reshape, size, Res.assert_bind, hlen, if_true]; rfl, hlen,
      by rw [hd1], ?_⟩
    intro p q r l hp hq hr hlt
    obtain ⟨i1, i2, i3⟩ := hin p q r l hp hq hr hlt
    have hl0 : l = 0 := by rw [hd1] at hlt; omega
    subst hl0
    rw [hd1] at i1 i3
    simp only [elem, if_pos i1, if_pos i2, i3]
    rw [colPos_five _ _ _ _ _ _ _ _ _ _ hp.length hq.length]
    congr 1
    simp [diagRow, diagCol]
  · rw [if_neg h11, totalSize_mid]
    by_cases h0 : diagLen A B w = 0
    · rw [if_neg (by omega), h0]
      refine ⟨⟨P ++ 0 :: (Q ++ R), []⟩, by simp [runWrites_zero], ?_, rfl, ?_⟩
      · show 0 = totalSize (P ++ 0 :: (Q ++ R))
        rw [totalSize_mid]; simp
      · intro p q r l _ _ _ h; omega
    · rw [if_pos h0]
      have hm : ∀ m, m < prod R → prod Q * m = B * m := by
        intro m hm
        rcases hc with h | h | h | h
        · have : m = 0 := by omega
          subst this; simp
        · rw [h]
        · exact absurd h h11
        · exact absurd h h0
      obtain ⟨c, e, hlc, hv⟩ := diag_body (prod P) A (diagLen A B w) (prod Q) (prod Q) (prod R) w xs
        (by
          intro i l k m hi hlt hk hmm
          rw [hm m hmm, hl]
          refine pos_lt' hi (pos_lt' ?_ (pos_lt' hk (pos_lt' ?_ hmm)))
          · unfold diagLen at hlt; omega
          · unfold diagLen at hlt; omega)
      refine ⟨⟨P ++ diagLen A B w :: (Q ++ R), c⟩, by rw [e]; rfl, ?_, rfl, ?_⟩
      · show c.length = _
        rw [hlc, totalSize_mid]
      · intro p q r l hp hq hr hlt
        obtain ⟨i1, i2, i3⟩ := hin p q r l hp hq hr hlt
        simp only [elem, if_pos i1, if_pos i2, i3]
        rw [hv _ _ _ _ (colPos_lt hp) hlt (colPos_lt hq) (colPos_lt hr),
          hm _ (colPos_lt hr), colPos_five _ _ _ _ _ _ _ _ _ _ hp.length hq.length]
        congr 1
        unfold diagRow diagCol
        rw [Nat.add_comm l, Nat.add_comm l]

theorem diagLoop_isMat (a : Tensor α) (g : Nat → α) (rows cols r0 c0 n i : Nat) (t : Tensor α)
    (f : Nat → Nat → α) (h : IsMat t.dims t.data rows cols f) (hr : r0 + i + n ≤ rows)
    (hc : c0 + i + n ≤ cols) (ha : ∀ j < i + n, a.data[j]? = some (g j)) :
    ∃ t', diagLoop a r0 c0 t i n = .ok t' ∧ IsMat t'.dims t'.data rows cols fun x y =>
      if x + c0 = y + r0 ∧ r0 + i ≤ x ∧ x < r0 + i + n then g (x - r0) else f x y := by
  induction n generalizing i t f with
  | zero => exact ⟨t, rfl, h.congr fun a b _ _ => by rw [if_neg (by omega)]⟩
  | succ n ih =>
    obtain ⟨t1, e1, h1⟩ := set2_isMat h (r0 + i) (c0 + i) (by omega) (by omega) (g i)
    obtain ⟨t', e', h'⟩ := ih (i + 1) t1 _ h1 (by omega) (by omega) (fun j hj => ha j (by omega))
    refine ⟨t', ?_, h'.congr ?_⟩
    · have : a.dataAt i = .ok (g i) := by
        rw [dataAt, if_neg (by omega), Int.toNat_natCast, ha i (by omega)]
        rfl
      simp only [diagLoop, this, Res.ok_bind, e1, e']
    · intro x y _ _
      by_cases hxy : x + c0 = y + r0
      · by_cases hx : x = r0 + i
        · have hy : y = c0 + i := by omega
          rw [if_neg (by omega), if_pos ⟨hx, hy⟩, if_pos (by omega)]
          congr 1; omega
        · by_cases hlt : r0 + i ≤ x ∧ x < r0 + i + (n + 1)
          · rw [if_pos (by omega), if_pos (by omega)]
          · rw [if_neg (by omega), if_neg (by omega), if_neg (by omega)]
      · rw [if_neg (by omega), if_neg (by omega), if_neg (by omega)]

end Verif.Tensor
