import Verif.Props.Scale
import Verif.Props.Trace
import Verif.Lemmas.Arith
/-
C29-C31: operations that change dimensions: change_dimension, mean over an index, squeeze.
-/
namespace Verif.Tensor

open Verif Spec

variable {α : Type}

theorem changeDimension_norm_none [Zero α] (a : Tensor α) (dim : Int) (n : Nat)
    (h : norm a.dims.length dim = none) : changeDimension a dim n = .abort := by
  simp [changeDimension, rank, normalizeIndex_eq, h]

theorem mem_changeWrites {src : List α} {dn dold K : Nat} {w : Nat × Option α}
    (h : w ∈ changeWrites src dn dold K) :
    ∃ k < K, ∃ x < min dn dold, w = (k * dn + x, src[k * dold + x]?) := by
  simp only [changeWrites, List.mem_flatMap, List.mem_range, List.mem_map] at h
  obtain ⟨k, hk, x, hx, rfl⟩ := h
  exact ⟨k, hk, x, hx, rfl⟩

theorem changeWrites_mem (src : List α) {dn dold K k x : Nat} (hk : k < K) (hx : x < min dn dold) :
    (k * dn + x, src[k * dold + x]?) ∈ changeWrites src dn dold K := by
  simp only [changeWrites, List.mem_flatMap, List.mem_range, List.mem_map]
  exact ⟨k, hk, x, hx, rfl⟩

/-- The copies of change_dimension. -/
theorem changeData [Zero α] (src : List α) (I n L K : Nat) (hl : src.length = I * (L * K)) (hne : L ≠ n) :
    ∃ c, (if n > L then updWrites (List.replicate (I * (n * K)) (0 : α))
          (changeWrites src (n * I) (L * I) K)
        else runWrites (I * (n * K)) (changeWrites src (n * I) (L * I) K)) = .ok c ∧
      c.length = I * (n * K) ∧
      ∀ i l k, i < I → k < K → (l < min L n → c[i + I * (l + n * k)]? = src[i + I * (l + L * k)]?) ∧
        (L ≤ l → l < n → c[i + I * (l + n * k)]? = some 0) := by
  let f : Nat → α := fun p => (src[p % (n * I) + (L * I) * (p / (n * I))]?).getD 0
  have hf : ∀ k x, k < K → x < min (n * I) (L * I) →
      src[k * (L * I) + x]? = some (f (k * (n * I) + x)) := by
    intro k x hk hx
    have hlt : k * (L * I) + x < src.length := by
      rw [hl, Nat.mul_comm k, Nat.add_comm, show I * (L * K) = L * I * K by ring]
      exact pos_lt' (by omega) hk
    have hpos : 0 < n * I := by omega
    have e1 : (k * (n * I) + x) % (n * I) = x := by
      rw [Nat.mul_comm k, Nat.mul_add_mod, Nat.mod_eq_of_lt (by omega)]
    have e2 : (k * (n * I) + x) / (n * I) = k := by
      rw [Nat.mul_comm k, Nat.mul_add_div hpos, Nat.div_eq_of_lt (by omega), Nat.add_zero]
    simp only [f, e1, e2]
    rw [show x + L * I * k = k * (L * I) + x by ring, List.getElem?_eq_getElem hlt]
    rfl
  have hin : ∀ k x, k < K → x < min (n * I) (L * I) → k * (n * I) + x < I * (n * K) := by
    intro k x hk hx
    rw [Nat.mul_comm k, Nat.add_comm, show I * (n * K) = n * I * K by ring]
    exact pos_lt' (by omega) hk
  have hw : ∀ w ∈ changeWrites src (n * I) (L * I) K, w.1 < I * (n * K) ∧ w.2 = some (f w.1) := by
    intro w hw
    obtain ⟨k, hk, x, hx, rfl⟩ := mem_changeWrites hw
    exact ⟨hin k x hk hx, hf k x hk hx⟩
  have key : ∀ i l k, i < I → k < K → l < min L n →
      (i + I * (l + n * k), src[i + I * (l + L * k)]?) ∈ changeWrites src (n * I) (L * I) K := by
    intro i l k hi hk hll
    have hx : i + I * l < min (n * I) (L * I) := by
      have h1 : i + I * l < I * n := pos_lt' hi (by omega)
      have h2 : i + I * l < I * L := pos_lt' hi (by omega)
      rw [Nat.mul_comm n, Nat.mul_comm L]; omega
    have := changeWrites_mem src hk hx
    rw [show i + I * (l + n * k) = k * (n * I) + (i + I * l) by ring,
      show i + I * (l + L * k) = k * (L * I) + (i + I * l) by ring]
    exact this
  by_cases hnl : n > L
  · rw [if_pos hnl]
    obtain ⟨c, e, hc, h1, h2⟩ := updWrites_eq (List.replicate (I * (n * K)) (0 : α)) f _
      (by simpa only [List.length_replicate] using hw)
    simp only [List.length_replicate] at hc h1
    refine ⟨c, e, hc, ?_⟩
    intro i l k hi hk
    constructor
    · intro hll
      have hm := key i l k hi hk hll
      rw [h1 _ (hw _ hm).1 ⟨_, hm, rfl⟩]
      exact ((hw _ hm).2).symm
    · intro h3 h4
      rw [h2]
      · rw [List.getElem?_replicate, if_pos]
        rw [show I * (n * K) = I * n * K by ring, show i + I * (l + n * k) = (i + I * l) + I * n * k by ring]
        exact pos_lt' (pos_lt' hi h4) hk
      · intro w hmem
        obtain ⟨k', hk', x, hx, rfl⟩ := mem_changeWrites hmem
        simp only
        intro e
        have h5 : i + I * l < n * I := by rw [Nat.mul_comm n]; exact pos_lt' hi h4
        have := pos_inj' (d := n * I) (i := x) (j := i + I * l) (a := k') (b := k) (by omega) h5
          (by rw [Nat.mul_comm _ k']; linarith [e])
        have h6 : I * L ≤ I * l := Nat.mul_le_mul_left _ h3
        have h7 := this.1
        have h8 : x < L * I := by omega
        rw [Nat.mul_comm L] at h8
        omega
  · rw [if_neg hnl]
    have hln : n < L := by omega
    have hall : ∀ p < I * (n * K), ∃ w ∈ changeWrites src (n * I) (L * I) K, w.1 = p := by
      intro p hp
      have hI : 0 < I := by
        rcases Nat.eq_zero_or_pos I with h | h
        · rw [h] at hp; simp at hp
        · exact h
      have hn : 0 < n := by
        rcases Nat.eq_zero_or_pos n with h | h
        · rw [h] at hp; simp at hp
        · exact h
      have h1 : p / I < n * K := Nat.div_lt_of_lt_mul hp
      have h2 : p / I / n < K := Nat.div_lt_of_lt_mul h1
      refine ⟨_, key (p % I) (p / I % n) (p / I / n) (Nat.mod_lt _ hI) h2 ?_, ?_⟩
      · have := Nat.mod_lt (p / I) hn
        omega
      · simp only
        rw [Nat.mod_add_div, Nat.mod_add_div]
    rw [runWrites_eq _ f _ hw hall]
    refine ⟨_, rfl, by simp, ?_⟩
    intro i l k hi hk
    constructor
    · intro hll
      have hm := key i l k hi hk hll
      have h1 := hw _ hm
      rw [List.getElem?_map, List.getElem?_range h1.1, Option.map_some]
      exact h1.2.symm
    · intro h3 h4; omega

theorem changeDimension_split [Zero α] (P Q : List Nat) (L n : Nat) (xs : List α) (dim : Int)
    (h : norm (P ++ L :: Q).length dim = some P.length) (hne : L ≠ n) :
    changeDimension ⟨P ++ L :: Q, xs⟩ dim n =
      ((if n > L then updWrites (List.replicate (prod P * (n * prod Q)) (0 : α))
          (changeWrites xs (n * prod P) (L * prod P) (prod Q))
        else runWrites (prod P * (n * prod Q)) (changeWrites xs (n * prod P) (L * prod P) (prod Q)))
        >>= fun d => .ok ⟨P ++ n :: Q, d⟩) := by
  have hs : (P ++ L :: Q).set P.length n = P ++ n :: Q := by simp
  have hg : (P ++ L :: Q)[P.length]? = some L := by simp
  simp only [changeDimension, rank, normalizeIndex_eq, h, Res.ok_bind, Int.toNat_natCast, hg,
    Res.ofOption_some, if_neg hne, hs, surrounding_split]
  rw [totalSize_of_ne (by simp), prod_append, prod_cons]
  have : (fill (P ++ n :: Q) (0 : α)).data = List.replicate (prod P * (n * prod Q)) (0 : α) := by
    simp [fill, totalSize_of_ne, prod_append]
  rw [this]
  split <;> rfl

theorem inB_split {P Q : List Nat} {L : Nat} {idx : List Nat} (h : InB idx (P ++ L :: Q)) :
    ∃ p i q, idx = p ++ i :: q ∧ InB p P ∧ i < L ∧ InB q Q := by
  have hl := h.length
  obtain ⟨p, i, q, rfl, hp⟩ := split1 idx P.length (by simp at hl; omega)
  rw [InB_append hp] at h
  exact ⟨p, i, q, rfl, h.1, by simpa using h.2⟩

/-- C29: change_dimension(t,k,n): `P` and `Q` are the dimensions of t before and after k and `L` is the
k-th one. -/
theorem c29_change_dimension [Zero α] (t : Tensor α) (wf : t.WF) (dim : Int) (n : Nat)
    (P Q : List Nat) (L : Nat) (hd : t.dims = P ++ L :: Q)
    (h : norm t.dims.length dim = some P.length) :
    ∃ c, changeDimension t dim n = .ok c ∧ c.WF ∧ c.dims = P ++ n :: Q ∧
      ∀ p i q, InB p P → InB q Q →
        (i < min L n → elem c.dims c.data (p ++ i :: q) = elem t.dims t.data (p ++ i :: q)) ∧
        (L ≤ i → i < n → elem c.dims c.data (p ++ i :: q) = some 0) := by
  obtain ⟨dims, xs⟩ := t
  simp only at hd
  subst hd
  have hl := wf_split wf
  by_cases hne : L = n
  · subst hne
    refine ⟨⟨P ++ L :: Q, xs⟩, ?_, wf, rfl, ?_⟩
    · have hg : (P ++ L :: Q)[P.length]? = some L := by simp
      simp only [changeDimension, rank, normalizeIndex_eq, h, Res.ok_bind, Int.toNat_natCast, hg,
        Res.ofOption_some, if_true, Res.pure_eq]
    · intro p i q hp hq
      exact ⟨fun _ => rfl, fun _ _ => by omega⟩
  · obtain ⟨c, e, hc, hget⟩ := changeData xs (prod P) n L (prod Q) hl hne
    refine ⟨⟨P ++ n :: Q, c⟩, ?_, ?_, rfl, ?_⟩
    · rw [changeDimension_split P Q L n xs dim h hne, e, Res.ok_bind]
    · show c.length = _
      rw [hc, totalSize_of_ne (by simp), prod_append, prod_cons]
    · intro p i q hp hq
      have hg := hget _ i _ (colPos_lt hp) (colPos_lt hq)
      constructor
      · intro hi
        have h1 : InB (p ++ i :: q) (P ++ L :: Q) := hp.append (by simp [hq]; omega)
        have h2 : InB (p ++ i :: q) (P ++ n :: Q) := hp.append (by simp [hq]; omega)
        simp only [elem, if_pos h1, if_pos h2, colPos_split1 _ _ _ _ _ _ hp.length]
        exact hg.1 hi
      · intro h3 h4
        have h2 : InB (p ++ i :: q) (P ++ n :: Q) := hp.append (by simp [hq]; omega)
        simp only [elem, if_pos h2, colPos_split1 _ _ _ _ _ _ hp.length]
        exact hg.2 h3 h4

/-- C29: with the same length, the tensor is returned. -/
theorem c29_same [Zero α] (t : Tensor α) (dim : Int) (n k : Nat)
    (h : norm t.dims.length dim = some k) (hk : t.dims[k]? = some n) :
    changeDimension t dim n = .ok t := by
  simp only [changeDimension, rank, normalizeIndex_eq, h, Res.ok_bind, Int.toNat_natCast, hk,
    Res.ofOption_some, if_true, Res.pure_eq]

/-- C29: a position which does not exist stops the program. -/
theorem c29_position [Zero α] (t : Tensor α) (dim : Int) (n : Nat)
    (h : norm t.dims.length dim = none) : changeDimension t dim n = .abort :=
  changeDimension_norm_none t dim n h

/-- C29: enlarging and then shrinking gives the original. -/
theorem c29_round_trip [Zero α] (t : Tensor α) (wf : t.WF) (dim : Int) (k n L : Nat)
    (h : norm t.dims.length dim = some k) (hk : t.dims[k]? = some L) (hn : L ≤ n) :
    (do let u ← changeDimension t dim n; changeDimension u dim L) = .ok t := by
  obtain ⟨P, L', Q, hd, hP⟩ := norm_split h
  have : L' = L := by rw [hd] at hk; simpa [hP] using hk
  subst this
  subst hP
  obtain ⟨u, eu, wfu, hdu, hu⟩ := c29_change_dimension t wf dim n P Q L' hd h
  have hlen : u.dims.length = t.dims.length := by rw [hd, hdu]; simp
  obtain ⟨v, ev, wfv, hdv, hv⟩ := c29_change_dimension u wfu dim L' P Q n hdu (by rw [hlen]; exact h)
  rw [eu, Res.ok_bind, ev]
  congr 1
  apply ext_elem wfv wf (by rw [hdv, hd])
  intro idx hidx
  rw [hdv] at hidx
  obtain ⟨p, i, q, rfl, hp, hi, hq⟩ := inB_split hidx
  rw [(hv p i q hp hq).1 (by omega), (hu p i q hp hq).1 (by omega)]

example : changeDimension (⟨[2, 2], [1, 2, 3, 4]⟩ : Tensor Int) (-1) 3 =
    .ok ⟨[2, 3], [1, 2, 3, 4, 0, 0]⟩ := by decide
example : changeDimension (⟨[2, 2], [1, 2, 3, 4]⟩ : Tensor Int) 0 1 = .ok ⟨[1, 2], [1, 3]⟩ := by
  decide

theorem meanDims_after (ndx i j : Nat) (ds : List Nat) (h : ndx < i) :
    meanDims ndx i j ds = seqFrom j (ds.map some) := by
  induction ds generalizing i j with
  | nil => rfl
  | cons d ds ih =>
    simp only [meanDims, List.map_cons, seqFrom]
    rw [if_neg (by omega), ih _ _ (by omega)]

theorem meanDims_split (ndx i j : Nat) (P Q : List Nat) (L : Nat) (h : i + P.length = ndx) :
    meanDims ndx i j (P ++ L :: Q) = seqFrom j (P.map some) ++
      (j + P.length, some L) :: seqFrom (j + P.length) (Q.map some) := by
  induction P generalizing i j with
  | nil =>
    simp only [List.length_nil, Nat.add_zero] at h
    subst h
    simp [meanDims, seqFrom, meanDims_after]
  | cons d ds ih =>
    simp only [List.length_cons] at h
    simp only [List.cons_append, meanDims, List.map_cons, seqFrom, List.length_cons]
    rw [if_neg (by omega), ih _ _ (by omega)]
    simp only [List.cons.injEq, true_and]
    rw [show j + 1 + ds.length = j + (ds.length + 1) by omega]

theorem runWrites_meanDims (P Q : List Nat) (L : Nat) :
    runWrites ((P ++ L :: Q).length - 1) (meanDims P.length 0 0 (P ++ L :: Q)) =
      if Q = [] then .ub else .ok (P ++ Q) := by
  rw [meanDims_split _ _ _ _ _ _ (by simp), runWrites, writeAll_append]
  have e : List.replicate ((P ++ L :: Q).length - 1) (none : Option Nat) =
      [] ++ (List.replicate P.length none ++ List.replicate Q.length none) := by
    rw [List.nil_append, List.replicate_append_replicate]; congr 1; simp
  have h1 := writeAll_seq P [] (List.replicate P.length none) (List.replicate Q.length none) (by simp)
  simp only [List.length_nil, List.nil_append] at h1
  rw [e, List.nil_append, h1, Res.ok_bind, Nat.zero_add]
  cases Q with
  | nil => simp [writeAll]
  | cons d ds =>
    rw [if_neg (by simp), writeAll, if_pos (by simp)]
    have h2 := writeAll_seq (d :: ds) (P.map some) (some L :: List.replicate ds.length none) []
      (by simp)
    simp only [List.append_nil, List.length_map] at h2
    have e2 : (P.map some ++ List.replicate (d :: ds).length none).set P.length (some L) =
        P.map some ++ (some L :: List.replicate ds.length none) := by
      simp [List.replicate_succ]
    rw [e2, h2, Res.ok_bind, ← List.map_append, finish_map_some]

theorem meanSteps_eq (left middle right : Nat) :
    meanSteps left middle right = (List.range right).flatMap fun m =>
      (List.range middle).flatMap fun l => (List.range 1).flatMap fun k =>
        (List.range left).flatMap fun i =>
          [(i + left * (k + 1 * m), i + left * (l + middle * m))] := by
  simp [meanSteps, map_eq_flatMap_single]

/-- C30: mean(t,k) for the positions k other than the last one. `div x n` is the division of an
element by a number. What is missing is `c30_mean_last`. -/
theorem c30_mean_partial [AddCommMonoid α] (div : α → Nat → α) (t : Tensor α) (wf : t.WF) (ndx : Int)
    (P Q : List Nat) (L : Nat) (hd : t.dims = P ++ L :: Q) (hQ : Q ≠ [])
    (h : norm t.dims.length ndx = some P.length) :
    ∃ c, meanNdx div t ndx = .ok c ∧ c.WF ∧ c.dims = P ++ Q ∧
      ∀ p q, InB p P → InB q Q → ∀ f : Nat → α,
        (∀ l < L, elem t.dims t.data (p ++ l :: q) = some (f l)) →
        elem c.dims c.data (p ++ q) = some (div (∑ l ∈ Finset.range L, f l) L) := by
  obtain ⟨dims, xs⟩ := t
  simp only at hd
  subst hd
  have hl := wf_split wf
  have hrank : (⟨P ++ L :: Q, xs⟩ : Tensor α).rank ≠ 1 := by
    have := List.length_pos_of_ne_nil hQ
    simp only [rank, List.length_append, List.length_cons]; omega
  have hlt : ∀ i l m, i < prod P → l < L → m < prod Q →
      i + prod P * (l + L * m) < xs.length := by
    intro i l m hi hl' hm
    rw [hl]; exact pos_lt' hi (pos_lt' hl' hm)
  obtain ⟨c, e, hc, hget⟩ := modLoop_sum (prod P) L 1 (prod Q)
    (fun i _ m l => i + prod P * (l + L * m)) xs (fun i k m l hi _ hm hl' => hlt i l m hi hl' hm)
    (fun i _ m l => (xs[i + prod P * (l + L * m)]?).getD 0) (by
      intro i k m l hi _ hm hl'
      rw [List.getElem?_eq_getElem (hlt i l m hi hl' hm)]; rfl)
  rw [Nat.one_mul] at hc
  have ht : (P ++ L :: Q).take P.length = P := by simp
  have hdr : (P ++ L :: Q).drop (P.length + 1) = Q := by
    rw [show P ++ L :: Q = (P ++ [L]) ++ Q by simp, List.drop_left' (by simp)]
  have hdim := dimension_nat (⟨P ++ L :: Q, xs⟩ : Tensor α) P.length L (by simp)
  have hr1 : reshape (⟨P ++ L :: Q, xs⟩ : Tensor α) [prod P, L, prod Q] =
      .ok ⟨[prod P, L, prod Q], xs⟩ := by
    rw [reshape, Res.assert_pos (by simp [size, hl]), Res.ok_bind]; rfl
  have hne : P ++ Q ≠ [] := by simp [hQ]
  have hr2 : reshape (⟨[prod P, prod Q], c⟩ : Tensor α) (P ++ Q) = .ok ⟨P ++ Q, c⟩ := by
    rw [reshape, Res.assert_pos (by simp [size, hc, totalSize_of_ne, hne, prod_append]),
      Res.ok_bind]; rfl
  have hwf : (⟨P ++ Q, c⟩ : Tensor α).WF := by
    show c.length = _
    rw [hc, totalSize_of_ne hne, prod_append]
  have hz : (fill [prod P, prod Q] (0 : α)).data = List.replicate (prod P * (1 * prod Q)) 0 := by
    simp [fill]
  refine ⟨⟨P ++ Q, c.map fun x => div x L⟩, ?_, ?_, rfl, ?_⟩
  · rw [meanNdx, if_neg hrank]
    simp only [rank, normalizeIndex_eq, h, Res.ok_bind, Int.toNat_natCast, runWrites_meanDims,
      if_neg hQ, ht, hdr, foldl_mul, Nat.one_mul, hdim, hr1, hz, meanSteps_eq] at e ⊢
    rw [e]
    simp only [Res.ok_bind, hr2, unop_ok _ _ hwf]
  · show (c.map _).length = _
    rw [List.length_map]; exact hwf
  · intro p q hp hq f hf
    have hin : InB (p ++ q) (P ++ Q) := hp.append hq
    rw [elem_map, elem, if_pos hin, colPos_append _ _ hp.length]
    have := hget _ 0 _ (colPos_lt hp) (by omega) (colPos_lt hq)
    rw [Nat.zero_add, Nat.one_mul] at this
    rw [this, Option.map_some]
    congr 2
    apply Finset.sum_congr rfl
    intro l hl'
    have hl' := Finset.mem_range.mp hl'
    have h1 := hf l hl'
    rw [elem, if_pos (hp.append (by simp [hl', hq])), colPos_split1 _ _ _ _ _ _ hp.length] at h1
    rw [h1]; rfl

/-- C30: the mean of a vector over its only index. -/
theorem c30_mean_vector_partial [AddCommMonoid α] (div : α → Nat → α) (t : Tensor α) (ndx : Int)
    (h : t.dims.length = 1) : meanNdx div t ndx = .ok ⟨[1], [div t.data.sum t.data.length]⟩ := by
  rw [meanNdx, if_pos (show t.rank = 1 from h), accum_list]
  simp [size]

/-- C30 is false: the mean of a tensor over its last index writes out of bounds. -/
theorem c30_mean_last [AddCommMonoid α] (div : α → Nat → α) (t : Tensor α) (ndx : Int)
    (hr : 2 ≤ t.dims.length) (h : norm t.dims.length ndx = some (t.dims.length - 1)) :
    meanNdx div t ndx = .ub := by
  obtain ⟨P, L, Q, hd, hP⟩ := norm_split h
  obtain ⟨dims, xs⟩ := t
  simp only at hd hP hr h
  subst hd
  have hQ : Q = [] := by
    rw [← List.length_eq_zero_iff]
    simp only [List.length_append, List.length_cons] at hP; omega
  rw [← hP] at h
  rw [meanNdx, if_neg (by simp only [rank]; omega)]
  simp only [rank, normalizeIndex_eq, h, Res.ok_bind, Int.toNat_natCast, runWrites_meanDims, if_pos hQ]
  rfl

/-- C30: a position which does not exist stops the program. -/
theorem c30_position [Zero α] [Add α] (div : α → Nat → α) (t : Tensor α) (ndx : Int)
    (hr : t.dims.length ≠ 1) (h : norm t.dims.length ndx = none) :
    meanNdx div t ndx = .abort := by
  rw [meanNdx, if_neg (by simpa only [rank] using hr)]
  simp [rank, normalizeIndex_eq, h]

example : meanNdx (fun x n => x / (n : Int)) (⟨[2, 2], [1, 3, 4, 8]⟩ : Tensor Int) 0 =
    .ok ⟨[2], [2, 6]⟩ := by decide
example : meanNdx (fun x n => x / (n : Int)) (⟨[2, 2], [1, 3, 4, 8]⟩ : Tensor Int) 1 = .ub := by decide

theorem squeeze_count (d : List Nat) (h : ∀ x ∈ d, x ≠ 0) :
    d.filter (· > 1) = d.filter (· ≠ 1) ∧ (d.filter (· > 1)).length = d.length - d.count 1 := by
  have e : d.filter (· > 1) = d.filter (· ≠ 1) := by
    apply List.filter_congr
    intro x hx
    have := h x hx
    simp only [gt_iff_lt, ne_eq, decide_eq_decide]; omega
  refine ⟨e, ?_⟩
  rw [e]
  have : d.length = (d.filter (· ≠ 1)).length + d.count 1 := by
    rw [List.length_eq_length_filter_add (l := d) (f := fun x => decide (x ≠ 1)), List.count,
      List.countP_eq_length_filter]
    congr 3
    funext x
    by_cases hx : x = 1 <;> simp [hx]
  omega

theorem seqFrom_length (r : Nat) (l : List (Option α)) : (seqFrom r l).length = l.length := by
  induction l generalizing r with
  | nil => rfl
  | cons x xs ih => simp [seqFrom, ih]

theorem prod_filter (d : List Nat) : prod (d.filter (· ≠ 1)) = prod d := by
  induction d with
  | nil => rfl
  | cons x xs ih =>
    by_cases hx : x = 1
    · subst hx; simpa using ih
    · simp only [ne_eq, decide_not] at ih
      simp [hx, ih]

/-- C31: squeeze(t), if no dimension is zero, and some dimension is not one. What is missing is
`c31_ones` and `c31_zero`. -/
theorem c31_squeeze_partial (t : Tensor α) (wf : t.WF) (h0 : ∀ d ∈ t.dims, d ≠ 0)
    (h1 : ∃ d ∈ t.dims, d ≠ 1) :
    squeeze t = .ok ⟨t.dims.filter (· ≠ 1), t.data⟩ := by
  obtain ⟨dims, xs⟩ := t
  simp only at h0 h1 ⊢
  obtain ⟨e1, e2⟩ := squeeze_count dims h0
  have hs : squeezeDims dims = .ok (dims.filter (· ≠ 1)) := by
    rw [squeezeDims, List.take_of_length_le (by rw [seqFrom_length, List.length_map, e2]), ← e2,
      runWrites_seq, e1]
  have hne : dims.filter (· ≠ 1) ≠ [] := by
    obtain ⟨d, hd, hd1⟩ := h1
    exact List.ne_nil_of_mem (List.mem_filter.mpr ⟨hd, by simpa using hd1⟩)
  simp only [squeeze, hs, Res.ok_bind]
  have hne' : dims ≠ [] := by rintro rfl; simp at hne
  rw [reshape, Res.assert_pos, Res.ok_bind]
  · rfl
  · rw [totalSize_of_ne hne, prod_filter, size, WF.length_eq wf hne']

/-- C31: the elements are at the same places, up to the zeros for the dimensions which are dropped. -/
theorem c31_elements (dims : List Nat) (xs : List α) (idx : List Nat) (h : InB idx dims) :
    elem (dims.filter (· ≠ 1)) xs (((idx.zip dims).filter (·.2 ≠ 1)).map (·.1)) =
      elem dims xs idx := by
  have key : ∀ dims idx : List Nat, InB idx dims →
      InB (((idx.zip dims).filter (·.2 ≠ 1)).map (·.1)) (dims.filter (· ≠ 1)) ∧
      colPos (dims.filter (· ≠ 1)) (((idx.zip dims).filter (·.2 ≠ 1)).map (·.1)) =
        colPos dims idx := by
    intro dims
    induction dims with
    | nil => intro idx h; cases idx <;> simp_all [InB]
    | cons d ds ih =>
      intro idx h
      cases idx with
      | nil => simp [InB] at h
      | cons i is =>
        obtain ⟨h1, h2⟩ := h
        have := ih is h2
        by_cases hd : d = 1
        · subst hd
          have : i = 0 := by omega
          subst this
          simpa using ih is h2
        · simp only [ne_eq, decide_not] at this
          simp [hd, h1, this]
  obtain ⟨k1, k2⟩ := key dims idx h
  rw [elem, if_pos k1, k2, elem, if_pos h]

/-- C31 is false for tensors with dimensions 1 only: the program stops. -/
theorem c31_ones (t : Tensor α) (wf : t.WF) (hne : t.dims ≠ []) (h : ∀ d ∈ t.dims, d = 1) :
    squeeze t = .abort := by
  obtain ⟨dims, xs⟩ := t
  simp only at h hne
  have hrep : dims = List.replicate dims.length 1 := List.eq_replicate_iff.mpr ⟨rfl, h⟩
  have hc : dims.count 1 = dims.length := by
    rw [hrep, List.count_replicate_self, List.length_replicate]
  have hs : squeezeDims dims = .ok [] := by
    rw [squeezeDims, hc, Nat.sub_self]; rfl
  have hp : prod dims = 1 := by
    rw [hrep]
    generalize dims.length = n
    induction n with
    | zero => rfl
    | succ n ih => simpa [List.replicate_succ] using ih
  simp only [squeeze, hs, Res.ok_bind]
  rw [reshape, Res.assert_bind, if_neg]
  rw [size, WF.length_eq wf hne, hp]
  simp [totalSize]

theorem finish_none {l : List (Option α)} (h : none ∈ l) : finish l = .ub := by
  have : l.mapM id = none := by
    induction l with
    | nil => simp at h
    | cons x xs ih =>
      cases x with
      | none => simp
      | some v =>
        have : none ∈ xs := by simpa using h
        simp [ih this]
  rw [finish, this]; rfl

theorem squeeze_le (d : List Nat) : (d.filter (· > 1)).length + d.count 1 ≤ d.length := by
  induction d with
  | nil => simp
  | cons x xs ih =>
    rw [List.filter_cons, List.count_cons]
    by_cases h1 : x > 1
    · simp only [h1, decide_true, if_true, List.length_cons, beq_iff_eq]
      rw [if_neg (by omega)]; omega
    · simp only [h1, decide_false, List.length_cons, beq_iff_eq]
      simp only [Bool.false_eq_true, if_false]
      split <;> omega

theorem squeeze_lt (d : List Nat) (h : 0 ∈ d) :
    (d.filter (· > 1)).length + d.count 1 < d.length := by
  obtain ⟨a, b, rfl⟩ := List.append_of_mem h
  have h1 := squeeze_le a
  have h2 := squeeze_le b
  simp only [List.filter_append, List.length_append, List.count_append, List.length_cons,
    List.filter_cons, List.count_cons]
  simp only [gt_iff_lt] at h1 h2 ⊢
  simp
  omega

/-- C31 is false for tensors with a dimension 0: the new dimensions are not initialised. -/
theorem c31_zero (t : Tensor α) (h : 0 ∈ t.dims) : squeeze t = .ub := by
  obtain ⟨dims, xs⟩ := t
  simp only at h
  have hlt : (dims.filter (· > 1)).length < dims.length - dims.count 1 := by
    have := squeeze_lt dims h
    omega
  have hs : squeezeDims dims = .ub := by
    rw [squeezeDims, List.take_of_length_le (by rw [seqFrom_length, List.length_map]; omega)]
    have := writeAll_seq (dims.filter (· > 1)) [] (List.replicate (dims.filter (· > 1)).length none)
      (List.replicate (dims.length - dims.count 1 - (dims.filter (· > 1)).length) none) (by simp)
    simp only [List.nil_append, List.replicate_append_replicate, List.length_nil] at this
    rw [show (dims.filter (· > 1)).length + (dims.length - dims.count 1 - (dims.filter (· > 1)).length)
      = dims.length - dims.count 1 by omega] at this
    rw [runWrites, this, Res.ok_bind, finish_none]
    simp only [List.mem_append, List.mem_replicate]
    right
    exact ⟨by omega, trivial⟩
  rw [squeeze, hs]; rfl

example : squeeze (⟨[1, 2, 1, 2], [1, 2, 3, 4]⟩ : Tensor Int) = .ok ⟨[2, 2], [1, 2, 3, 4]⟩ := by
  decide

end Verif.Tensor
