import Verif.Props.Svd
import Verif.Lemmas.Thin
/-
Slices of matrices and vectors, and assignments to them.
-/
namespace Verif.Svd

open Verif Tensor View Spec

variable {α : Type}

theorem Finishes.bind {β γ : Type} {f : Nat → Run β} {h : Nat → β → Run γ} {a : β} {r : Res γ}
    (h1 : Finishes f (.ok a)) (h2 : Finishes (fun n => h n a) r) : Finishes (fun n => f n >>= h n) r := by
  obtain ⟨N1, e1⟩ := h1
  obtain ⟨N2, e2⟩ := h2
  refine ⟨max N1 N2, fun n hn => ?_⟩
  beta_reduce
  rw [e1 n (le_trans (le_max_left _ _) hn), Run.ok_bind]
  exact e2 n (le_trans (le_max_right _ _) hn)

theorem Finishes.bind_abort {β γ : Type} {f : Nat → Run β} {h : Nat → β → Run γ}
    (h1 : Finishes f .abort) : Finishes (fun n => f n >>= h n) .abort := by
  obtain ⟨N1, e1⟩ := h1
  refine ⟨N1, fun n hn => ?_⟩
  beta_reduce
  rw [e1 n hn, Run.abort_bind]

theorem Finishes.done {β : Type} (r : Res β) : Finishes (fun _ => Run.done r) r := ⟨0, fun _ _ => rfl⟩

theorem isMat_wf {t : Tensor α} {a b : Nat} {f : Nat → Nat → α} (ht : IsMat t.dims t.data a b f) : t.WF := by
  have := wf2 ht.2.1
  rw [← ht.1] at this
  exact this

theorem isVec_wf {t : Tensor α} {a : Nat} {f : Nat → α} (ht : IsVec t a f) : t.WF := by
  have := wf1 ht.2.1
  rw [← ht.1] at this
  exact this

theorem picks_list {L : List Nat} {x : Nat} (h : x < L.length) :
    (L.map Int.ofNat)[x]? = some ((L.getD x 0 : Nat) : Int) := by
  rw [List.getElem?_map, List.getElem?_eq_getElem h, getD_lt h]
  rfl

/-- t(r1, r2), where the ranges select the indices L1 and L2. -/
theorem slice_mat {t : Tensor α} {a b : Nat} {f : Nat → Nat → α} (ht : IsMat t.dims t.data a b f) (ha : 0 < a)
    (hb : 0 < b) {r1 r2 : View.Spec} {L1 L2 : List Nat} (v1 : Valid r1 a) (v2 : Valid r2 b)
    (s1 : sel r1 a = L1.map Int.ofNat) (s2 : sel r2 b = L2.map Int.ofNat) :
    ∃ s : Tensor α, Finishes (fun n => sliceT n t [r1, r2]) (.ok s) ∧
      IsMat s.dims s.data L1.length L2.length fun x y => f (L1.getD x 0) (L2.getD y 0) := by
  have hlim : limits t.dims t.data.length [r1, r2] = [a, b] := by simp [limits, ht.1]
  obtain ⟨s, h1, h2, h3, -, h5⟩ := c11_slice t (isMat_wf ht) [r1, r2] (by simp)
    (by rw [hlim]; simp; omega) (by rw [hlim]; exact ⟨v1, v2, trivial⟩)
  rw [hlim] at h3 h5
  simp only [selAll, s1, s2] at h3 h5
  have hd : s.dims = [L1.length, L2.length] := by
    rw [h3]
    simp
  refine ⟨s, sliceT_finishes h1, hd, ?_, fun i j hi hj => ?_⟩
  · have : s.data.length = totalSize s.dims := h2
    rw [this, hd]
    simp [totalSize]
  · obtain ⟨-, hin, he⟩ := h5 [i, j] [L1.getD i 0, L2.getD j 0] ⟨picks_list hi, picks_list hj, trivial⟩
    rw [he]
    have := ht.2.2 (L1.getD i 0) (L2.getD j 0) hin.1 hin.2.1
    rw [ht.1] at this
    exact this

/-- t(r), where the range selects the indices L. -/
theorem slice_vec {t : Tensor α} {a : Nat} {f : Nat → α} (ht : IsVec t a f) (ha : 0 < a) {r : View.Spec}
    {L : List Nat} (v : Valid r a) (hs : sel r a = L.map Int.ofNat) :
    ∃ s : Tensor α, Finishes (fun n => sliceT n t [r]) (.ok s) ∧
      IsVec s L.length fun x => f (L.getD x 0) := by
  have hlim : limits t.dims t.data.length [r] = [a] := by simp [limits, ht.2.1]
  obtain ⟨s, h1, h2, h3, -, h5⟩ := c11_slice t (isVec_wf ht) [r] (by simp)
    (by rw [hlim]; simp; omega) (by rw [hlim]; exact ⟨v, trivial⟩)
  rw [hlim] at h3 h5
  simp only [selAll, hs] at h3 h5
  have hd : s.dims = [L.length] := by
    rw [h3]
    simp
  refine ⟨s, sliceT_finishes h1, hd, ?_, fun i hi => ?_⟩
  · have : s.data.length = totalSize s.dims := h2
    rw [this, hd]
    simp [totalSize]
  · obtain ⟨hj, hin, he⟩ := h5 [i] [L.getD i 0] ⟨picks_list hi, trivial⟩
    rw [hd] at hj he
    have h6 : L.getD i 0 < a := hin.1
    have := ht.2.2 (L.getD i 0) h6
    rw [show elem [a] t.data [L.getD i 0] = some (f (L.getD i 0)) from by
      rw [elem, if_pos hin]
      simpa [colPos] using this] at he
    simpa [elem, InB, colPos, hi] using he

/-- The elements picked by lists of positions. -/
theorem picks2 {L1 L2 : List Nat} {j : List Nat} {x y : Nat}
    (h : Picks [L1.map Int.ofNat, L2.map Int.ofNat] j [x, y]) : x ∈ L1 ∧ y ∈ L2 := by
  match j, h with
  | [p, q], h =>
    obtain ⟨h1, h2, -⟩ := h
    rw [List.getElem?_map, Option.map_eq_some_iff] at h1 h2
    obtain ⟨x', h1, e1⟩ := h1
    obtain ⟨y', h2, e2⟩ := h2
    obtain rfl : x' = x := Int.ofNat.inj e1
    obtain rfl : y' = y := Int.ofNat.inj e2
    exact ⟨List.mem_of_getElem? h1, List.mem_of_getElem? h2⟩

theorem picks_idxOf {L : List Nat} {x : Nat} (h : x ∈ L) : (L.map Int.ofNat)[L.idxOf x]? = some ((x : Nat) : Int) := by
  have hl := List.idxOf_lt_length_of_mem h
  rw [picks_list hl, getD_lt hl, List.getElem_idxOf]

/-- t.at(r1, r2) = s. -/
theorem assign_mat {t s : Tensor α} {a b : Nat} {f h : Nat → Nat → α} (ht : IsMat t.dims t.data a b f)
    (ha : 0 < a) (hb : 0 < b) {r1 r2 : View.Spec} {L1 L2 : List Nat} (v1 : Valid r1 a) (v2 : Valid r2 b)
    (s1 : sel r1 a = L1.map Int.ofNat) (s2 : sel r2 b = L2.map Int.ofNat) (n1 : L1.Nodup) (n2 : L2.Nodup)
    (hs : IsMat s.dims s.data L1.length L2.length h) :
    ∃ t' : Tensor α, Finishes (fun n => assign n t [r1, r2] s) (.ok t') ∧
      IsMat t'.dims t'.data a b
        fun i j => if i ∈ L1 ∧ j ∈ L2 then h (L1.idxOf i) (L2.idxOf j) else f i j := by
  have hlim : limits t.dims t.data.length [r1, r2] = [a, b] := by simp [limits, ht.1]
  have hm : ∀ L : List Nat, L.Nodup → (L.map Int.ofNat).Nodup := fun L hL =>
    hL.map fun x y e => Int.ofNat.inj e
  obtain ⟨h1, -⟩ := c12_assign_tensor t s (isMat_wf ht) (isMat_wf hs) [r1, r2] (by simp)
    (by rw [hlim]; simp; omega) (by rw [hlim]; exact ⟨v1, v2, trivial⟩)
    (by rw [hlim]; simp only [selAll, s1, s2]; simp only [List.mem_cons, List.not_mem_nil, or_false]; rintro l (rfl | rfl); exacts [hm _ n1, hm _ n2])
  rw [hlim] at h1
  simp only [selAll, s1, s2] at h1
  obtain ⟨t', h2, h3, h4, h5, h6⟩ := h1 (by rw [hs.2.1]; simp [prod])
  refine ⟨t', h2, by rw [h4, ht.1], ?_, fun i j hi hj => ?_⟩
  · have : t'.data.length = totalSize t'.dims := h3
    rw [this, h4, ht.1]
    simp [totalSize]
  · rw [h4, ht.1]
    beta_reduce
    split
    · rename_i hij
      have := (h5 [L1.idxOf i, L2.idxOf j] [i, j] ⟨picks_idxOf hij.1, picks_idxOf hij.2, trivial⟩).1
      rw [this]
      have e := hs.2.2 (L1.idxOf i) (L2.idxOf j) (List.idxOf_lt_length_of_mem hij.1)
        (List.idxOf_lt_length_of_mem hij.2)
      rw [hs.1] at e
      simpa [elem, InB, List.idxOf_lt_length_of_mem hij.1, List.idxOf_lt_length_of_mem hij.2] using e
    · rename_i hij
      rw [h6 [i, j] ⟨hi, hj, trivial⟩ (by rintro ⟨q, hq⟩; exact hij (picks2 hq))]
      have := ht.2.2 i j hi hj
      rw [ht.1] at this
      exact this

/-- t.at(r1, r2) = s with another number of elements. -/
theorem assign_mat_abort {t s : Tensor α} {a b : Nat} {f : Nat → Nat → α} (ht : IsMat t.dims t.data a b f)
    (ha : 0 < a) (hb : 0 < b) {r1 r2 : View.Spec} {L1 L2 : List Nat} (v1 : Valid r1 a) (v2 : Valid r2 b)
    (s1 : sel r1 a = L1.map Int.ofNat) (s2 : sel r2 b = L2.map Int.ofNat) (n1 : L1.Nodup) (n2 : L2.Nodup)
    (wfs : s.WF) (hs : s.data.length ≠ L1.length * L2.length) :
    Finishes (fun n => assign n t [r1, r2] s) .abort := by
  have hlim : limits t.dims t.data.length [r1, r2] = [a, b] := by simp [limits, ht.1]
  have hm : ∀ L : List Nat, L.Nodup → (L.map Int.ofNat).Nodup := fun L hL =>
    hL.map fun x y e => Int.ofNat.inj e
  obtain ⟨-, h1⟩ := c12_assign_tensor t s (isMat_wf ht) wfs [r1, r2] (by simp)
    (by rw [hlim]; simp; omega) (by rw [hlim]; exact ⟨v1, v2, trivial⟩)
    (by rw [hlim]; simp only [selAll, s1, s2]; simp only [List.mem_cons, List.not_mem_nil, or_false]; rintro l (rfl | rfl); exacts [hm _ n1, hm _ n2])
  rw [hlim] at h1
  simp only [selAll, s1, s2] at h1
  exact h1 (by simpa [prod] using hs)

/-- t.at(r) = s. -/
theorem assign_vec {t s : Tensor α} {a : Nat} {f h : Nat → α} (ht : IsVec t a f) (ha : 0 < a) {r : View.Spec}
    {L : List Nat} (v : Valid r a) (s1 : sel r a = L.map Int.ofNat) (n1 : L.Nodup) (hs : IsVec s L.length h) :
    ∃ t' : Tensor α, Finishes (fun n => assign n t [r] s) (.ok t') ∧
      IsVec t' a fun i => if i ∈ L then h (L.idxOf i) else f i := by
  have hlim : limits t.dims t.data.length [r] = [a] := by simp [limits, ht.2.1]
  have hm : ∀ L : List Nat, L.Nodup → (L.map Int.ofNat).Nodup := fun L hL =>
    hL.map fun x y e => Int.ofNat.inj e
  obtain ⟨h1, -⟩ := c12_assign_tensor t s (isVec_wf ht) (isVec_wf hs) [r] (by simp)
    (by rw [hlim]; simp; omega) (by rw [hlim]; exact ⟨v, trivial⟩)
    (by rw [hlim]; simp only [selAll, s1]; simp only [List.mem_cons, List.not_mem_nil, or_false]; rintro l rfl; exact hm _ n1)
  rw [hlim] at h1
  simp only [selAll, s1] at h1
  obtain ⟨t', h2, h3, h4, h5, h6⟩ := h1 (by rw [hs.2.1]; simp [prod])
  refine ⟨t', h2, by rw [h4, ht.1], ?_, fun i hi => ?_⟩
  · have : t'.data.length = totalSize t'.dims := h3
    rw [this, h4, ht.1]
    simp [totalSize]
  · have hel : ∀ d : List α, elem [a] d [i] = d[i]? := fun d => by simp [elem, InB, hi, colPos]
    rw [← hel]
    beta_reduce
    split
    · rename_i hij
      have := (h5 [L.idxOf i] [i] ⟨picks_idxOf hij, trivial⟩).1
      rw [this]
      have e := hs.2.2 (L.idxOf i) (List.idxOf_lt_length_of_mem hij)
      simpa [colPos] using e
    · rename_i hij
      rw [h6 [i] ⟨hi, trivial⟩, hel, ht.2.2 i hi]
      rintro ⟨q, hq⟩
      match q, hq with
      | [q], hq =>
        obtain ⟨h1, -⟩ := hq
        rw [List.getElem?_map, Option.map_eq_some_iff] at h1
        obtain ⟨x', h1, e1⟩ := h1
        obtain rfl : x' = i := Int.ofNat.inj e1
        exact hij (List.mem_of_getElem? h1)

/-- range(q, q + p - 1). -/
theorem sel_run {q p d : Nat} (hp : 0 < p) :
    sel (.step (q : Int) ((q : Int) + p - 1) 1) d = ((List.range p).map (q + ·)).map Int.ofNat := by
  rw [sel, if_pos (by omega)]
  have : (((q : Int) + p - 1 - q) / 1 + 1).toNat = p := by
    rw [Int.ediv_one]
    omega
  rw [this, List.map_map]
  refine List.map_congr_left fun k _ => ?_
  simp

theorem valid_run {q p d : Nat} (hp : 0 < p) (h : q + p ≤ d) :
    Valid (.step (q : Int) ((q : Int) + p - 1) 1) d := by
  simp only [Valid]
  omega

theorem valid_list {L : List Nat} {d : Nat} (h : ∀ x ∈ L, x < d) : Valid (.list (L.map Int.ofNat)) d := by
  intro x hx
  obtain ⟨y, hy, rfl⟩ := List.mem_map.1 hx
  have := h y hy
  simp only [Int.ofNat_eq_natCast]
  omega

theorem run_nodup (q p : Nat) : ((List.range p).map (q + ·)).Nodup :=
  List.nodup_range.map fun x y e => by simpa using e

theorem mem_run {q p l : Nat} : l ∈ (List.range p).map (q + ·) ↔ q ≤ l ∧ l < q + p := by
  simp only [List.mem_map, List.mem_range]
  constructor
  · rintro ⟨x, hx, rfl⟩
    omega
  · intro h
    exact ⟨l - q, by omega, by omega⟩

theorem idxOf_run {q p l : Nat} (h : q ≤ l ∧ l < q + p) : ((List.range p).map (q + ·)).idxOf l = l - q := by
  have hx : l - q < ((List.range p).map (q + ·)).length := by
    simp
    omega
  have := (run_nodup q p).idxOf_getElem (l - q) hx
  rw [show ((List.range p).map (q + ·))[l - q] = l from by
    simp
    omega] at this
  exact this

end Verif.Svd
