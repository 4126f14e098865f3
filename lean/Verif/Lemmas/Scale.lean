import Verif.Lemmas.Modify
import Verif.Lemmas.Permute
import Verif.Lemmas.Fold2
import Verif.Lemmas.Arith
import Verif.Model.TensorOps
import Verif.Props.Permute
/-
Lemmas for scale.
-/
namespace Verif.Tensor

open Verif Spec

variable {α β γ : Type}

theorem surrounding_split (P Q : List Nat) (L : Nat) :
    surrounding (P ++ L :: Q) P.length = .ok (prod P, L, prod Q) := by
  have e1 : (P ++ L :: Q)[P.length]? = some L := by simp
  have e2 : (P ++ L :: Q).take P.length = P := by simp
  have e3 : (P ++ L :: Q).drop (P.length + 1) = Q := by
    rw [show P ++ L :: Q = (P ++ [L]) ++ Q by simp, List.drop_left' (by simp)]
  simp [surrounding, e2, e3, foldl_mul]

theorem loop_zero (n b : Nat) (f : Nat → List β) : loop n 0 b f = loop n 0 b fun _ => f b := by
  simp [loop_eq]

theorem scaleVec_eq (d1 d2 d3 : Nat) :
    scaleVec d1 d2 d3 = nest [(d1, 0), (d2, 1), (d3, 0)] 0 := by
  unfold scaleVec
  split
  · rename_i h
    subst h
    simp [nest, loop_flatMap, loop, loop_zero (f := fun p => loop d2 1 p fun q => [q])]
  · simp [nest, loop_flatMap, loop_zero (f := fun p => loop d2 1 p fun q => loop d1 0 q fun r => [r])]

theorem scaleVec_length (d1 d2 d3 : Nat) : (scaleVec d1 d2 d3).length = d1 * (d2 * d3) := by
  rw [scaleVec_eq, nest_length]; simp

theorem scaleVec_get {d1 d2 d3 i j k : Nat} (hi : i < d1) (hj : j < d2) (hk : k < d3) :
    (scaleVec d1 d2 d3)[i + d1 * (j + d2 * k)]? = some j := by
  have := nest_get [(d1, 0), (d2, 1), (d3, 0)] 0 [i, j, k] (by simp [hi, hj, hk])
  simpa [scaleVec_eq, dot] using this

theorem scaleVec_lt {d1 d2 d3 q : Nat} (h : q ∈ scaleVec d1 d2 d3) : q < d2 := by
  obtain ⟨k, hk⟩ := List.mem_iff_getElem?.1 h
  have hlt : k < d1 * (d2 * d3) := by
    rw [← scaleVec_length]; exact (List.getElem?_eq_some_iff.1 hk).1
  obtain ⟨idx, hidx, rfl⟩ := colPos_surj [d1, d2, d3] k (by simpa using hlt)
  rcases idx with _ | ⟨a, _ | ⟨b, _ | ⟨c, _ | ⟨d, e⟩⟩⟩⟩ <;> simp [InB] at hidx
  have := scaleVec_get hidx.1 hidx.2.1 hidx.2.2
  simp [this] at hk
  omega

theorem exists_map_some {δ : Type} (l : List (Option δ)) (h : ∀ v ∈ l, v.isSome) :
    ∃ r : List δ, l = r.map some := by
  induction l with
  | nil => exact ⟨[], rfl⟩
  | cons x xs ih =>
    obtain ⟨r, hr⟩ := ih (fun v hv => h v (by simp [hv]))
    obtain ⟨y, rfl⟩ := Option.isSome_iff_exists.1 (h x (by simp))
    exact ⟨y :: r, by simp [hr]⟩

theorem modLoop_seq (f : α → β → α) (src : List β) (qs : List Nat) (ys : List β) (pre suf : List α)
    (hq : qs.map (src[·]?) = ys.map some) (hl : qs.length = suf.length) :
    modLoop f (fun _ => src) ((qs.zipIdx pre.length).map fun x => (x.2, x.1)) (pre ++ suf) =
      .ok (pre ++ List.zipWith f suf ys) := by
  induction qs generalizing ys pre suf with
  | nil =>
    cases suf with
    | nil => simp [modLoop]
    | cons => simp at hl
  | cons q qs ih =>
    cases suf with
    | nil => simp at hl
    | cons x xs =>
      cases ys with
      | nil => simp at hq
      | cons y ys =>
        simp only [List.map_cons, List.cons.injEq] at hq
        have h1 : (pre ++ x :: xs)[pre.length]? = some x := by simp
        simp only [List.zipIdx_cons, List.map_cons, modLoop, h1, hq.1, Res.ofOption_some,
          Res.ok_bind]
        have := ih ys (pre ++ [f x y]) xs hq.2 (by simpa using hl)
        simp only [List.append_assoc, List.singleton_append, List.length_append,
          List.length_cons, List.length_nil, Nat.zero_add] at this
        rw [show (pre ++ x :: xs).set pre.length (f x y) = pre ++ f x y :: xs by simp, this]
        simp

theorem modLoop_self (f : α → α → α) (n : Nat) (pre suf : List α) (hl : n = suf.length) :
    modLoop f (fun b => b) ((List.range n).map fun k => (pre.length + k, pre.length + k))
      (pre ++ suf) = .ok (pre ++ suf.map fun x => f x x) := by
  induction n generalizing pre suf with
  | zero =>
    cases suf with
    | nil => simp [modLoop]
    | cons => simp at hl
  | succ n ih =>
    cases suf with
    | nil => simp at hl
    | cons x xs =>
      have h1 : (pre ++ x :: xs)[pre.length]? = some x := by simp
      rw [List.range_succ_eq_map]
      simp only [List.map_cons, List.map_map, modLoop, Nat.add_zero, h1, Res.ofOption_some,
        Res.ok_bind]
      have := ih (pre ++ [f x x]) xs (by simpa using hl)
      rw [show (pre ++ x :: xs).set pre.length (f x x) = pre ++ [f x x] ++ xs by simp]
      rw [show pre ++ f x x :: List.map (fun x => f x x) xs =
        pre ++ [f x x] ++ xs.map (fun x => f x x) by simp, ← this]
      congr 1
      apply List.map_congr_left
      intro k _
      simp; omega

/-- The values read from the vector. -/
theorem scale_reads {L : Nat} (d1 d3 : Nat) (v : List β) (hv : v.length = L) :
    ∃ ys : List β, (scaleVec d1 L d3).map (v[·]?) = ys.map some ∧ ys.length = d1 * (L * d3) ∧
      ∀ i j k, i < d1 → j < L → k < d3 → ys[i + d1 * (j + L * k)]? = v[j]? := by
  obtain ⟨ys, hys⟩ := exists_map_some ((scaleVec d1 L d3).map (v[·]?)) (by
    intro o ho
    simp only [List.mem_map] at ho
    obtain ⟨q, hq, rfl⟩ := ho
    have := scaleVec_lt hq
    simp [hv, this])
  refine ⟨ys, hys, ?_, ?_⟩
  · have := congrArg List.length hys
    simp only [List.length_map, scaleVec_length] at this
    exact this.symm
  · intro i j k hi hj hk
    have := congrArg (·[i + d1 * (j + L * k)]?) hys
    simp only [List.getElem?_map, scaleVec_get hi hj hk, Option.map_some] at this
    cases hy : ys[i + d1 * (j + L * k)]? with
    | none => simp [hy] at this
    | some y => simp [hy] at this; exact this.symm

theorem scale_split (mul : α → β → γ) (P Q : List Nat) (L : Nat) (ts : List α) (ndx : Int)
    (v : Tensor β) (h : norm (P ++ L :: Q).length ndx = some P.length)
    (wf : ts.length = prod P * (L * prod Q)) (ys : List β)
    (hys : (scaleVec (prod P) L (prod Q)).map (v.data[·]?) = ys.map some) :
    scale mul ⟨P ++ L :: Q, ts⟩ ndx v =
      if L = v.size then .ok ⟨P ++ L :: Q, List.zipWith mul ts ys⟩ else .abort := by
  simp only [scale, rank, normalizeIndex_eq, h, Res.ok_bind, Int.toNat_natCast, surrounding_split,
    Res.assert_bind]
  by_cases hL : L = v.size
  · rw [if_pos hL, if_pos hL]
    have hlen : ys.length = ts.length := by
      have := congrArg List.length hys
      simp only [List.length_map, scaleVec_length] at this
      omega
    rw [runWrites_seq' _ _ (List.zipWith mul ts ys)]
    · rfl
    · apply List.ext_getElem?
      intro k
      simp only [List.getElem?_map, List.getElem?_zipIdx, Nat.zero_add, Option.map_map]
      have hk := congrArg (·[k]?) hys
      simp only [List.getElem?_map] at hk
      cases hq : (scaleVec (prod P) L (prod Q))[k]? with
      | none =>
        simp only [hq, Option.map_none] at hk
        have : ys[k]? = none := by
          cases hy : ys[k]? with
          | none => rfl
          | some y => simp [hy] at hk
        simp [List.getElem?_zipWith, this]
      | some q =>
        simp only [hq, Option.map_some] at hk
        cases hy : ys[k]? with
        | none => simp [hy] at hk
        | some y =>
          simp only [hy, Option.map_some, Option.some.injEq] at hk
          have hlt : k < ts.length := by
            rw [← hlen]; exact (List.getElem?_eq_some_iff.1 hy).1
          simp [List.getElem?_zipWith, hy, hk, hlt]
    · rw [List.length_zipWith, hlen, Nat.min_self, wf,
        totalSize_of_ne (by simp), prod_append, prod_cons]
  · rw [if_neg hL, if_neg hL]

theorem scale_norm_none (mul : α → β → γ) (t : Tensor α) (ndx : Int) (v : Tensor β)
    (h : norm t.dims.length ndx = none) : scale mul t ndx v = .abort := by
  simp [scale, rank, normalizeIndex_eq, h]

/-- Without hypotheses on the length of the vector. -/
theorem scale_ne (mul : α → β → γ) (P Q : List Nat) (L : Nat) (ts : List α) (ndx : Int)
    (v : Tensor β) (h : norm (P ++ L :: Q).length ndx = some P.length) (hL : L ≠ v.size) :
    scale mul ⟨P ++ L :: Q, ts⟩ ndx v = .abort := by
  simp only [scale, rank, normalizeIndex_eq, h, Res.ok_bind, Int.toNat_natCast, surrounding_split,
    Res.assert_bind]
  rw [if_neg hL]

end Verif.Tensor
