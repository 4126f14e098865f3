import Verif.Lemmas.Loop
import Verif.Lemmas.Access
import Verif.Model.Permute
import Verif.Spec.Permute
/-
Lemmas for permute, transpose and adjoint.
-/
namespace Verif.Tensor

open Verif Spec

variable {α : Type}

theorem loop_flatMap {β γ : Type} (n s b : Nat) (f : Nat → List β) (g : β → List γ) :
    (loop n s b f).flatMap g = loop n s b fun p => (f p).flatMap g := by
  simp [loop_eq, List.flatMap_assoc]

/-- Loop nests which exchange groups of indices. -/
theorem scatter_perm (xs : List α) (ls : List (Nat × Nat)) (ds : List Nat)
    (hx : xs.length = prod (ls.map Prod.fst)) (hN : prod ds = prod (ls.map Prod.fst))
    (σ : List Nat → List Nat)
    (hb : ∀ idx, InB idx (ls.map Prod.fst) → InB (σ idx) ds)
    (hs : ∀ idx, InB idx (ls.map Prod.fst) → dot idx (ls.map Prod.snd) = colPos ds (σ idx))
    (hi : ∀ a b, InB a (ls.map Prod.fst) → InB b (ls.map Prod.fst) → σ a = σ b → a = b) :
    ∃ l, runWrites (prod ds) (copyTo xs (nest ls 0) 0) = .ok l ∧ l.length = prod ds ∧
      ∀ idx, InB idx (ls.map Prod.fst) →
        l[colPos ds (σ idx)]? = xs[colPos (ls.map Prod.fst) idx]? := by
  obtain ⟨l, h1, h2, h3⟩ := scatter_nest (prod ds) xs (by omega) ls hN.symm
    (fun idx h => by rw [hs idx h]; exact colPos_lt (hb idx h))
    (fun a b ha hb' he => by
      rw [hs a ha, hs b hb'] at he
      exact hi a b ha hb' (colPos_inj (hb a ha) (hb b hb') he))
  exact ⟨l, h1, h2, fun idx h => by rw [← hs idx h]; exact h3 idx h⟩

theorem permute12_eq (a1 a2 a3 : Nat) :
    permute12 a1 a2 a3 = nest [(a1, a2), (a2, 1), (a3, a1 * a2)] 0 := by
  simp [permute12, nest, loop_flatMap]

theorem permute23_eq (a1 a2 a3 a4 : Nat) :
    permute23 a1 a2 a3 a4 = nest [(a1, 1), (a2, a1 * a3), (a3, a1), (a4, a1 * a3 * a2)] 0 := by
  simp [permute23, nest, loop_flatMap]

theorem permute24_eq (a1 a2 a3 a4 a5 : Nat) :
    permute24 a1 a2 a3 a4 a5 = nest [(a1, 1), (a2, a1 * a4 * a3), (a3, a1 * a4), (a4, a1),
      (a5, a1 * a4 * a3 * a2)] 0 := by
  simp [permute24, nest, loop_flatMap]

theorem permute13_eq (a1 a2 a3 a4 : Nat) :
    permute13 a1 a2 a3 a4 = nest [(a1, a3 * a2), (a2, a3), (a3, 1), (a4, a3 * a2 * a1)] 0 := by
  simp [permute13, nest, loop_flatMap]

theorem adjointPositions_eq (rows cols : Nat) :
    adjointPositions rows cols = nest [(rows, cols), (cols, 1)] 0 := by
  simp [adjointPositions, nest, loop_flatMap]

/-- What all kernels achieve. -/
def Swapped (a1 a2 a3 a4 a5 : Nat) (xs l : List α) : Prop :=
  ∀ i j k p m, i < a1 → j < a2 → k < a3 → p < a4 → m < a5 →
    l[i + a1 * (p + a4 * (k + a3 * (j + a2 * m)))]? =
      xs[i + a1 * (j + a2 * (k + a3 * (p + a4 * m)))]?

theorem inB5 {idx : List Nat} {a b c d e : Nat} (h : InB idx [a, b, c, d, e]) :
    ∃ i j k l m, idx = [i, j, k, l, m] ∧ i < a ∧ j < b ∧ k < c ∧ l < d ∧ m < e := by
  match idx, h.length with
  | [i, j, k, l, m], _ => exact ⟨i, j, k, l, m, rfl, by simpa using h⟩

theorem inB4 {idx : List Nat} {a b c d : Nat} (h : InB idx [a, b, c, d]) :
    ∃ i j k l, idx = [i, j, k, l] ∧ i < a ∧ j < b ∧ k < c ∧ l < d := by
  match idx, h.length with
  | [i, j, k, l], _ => exact ⟨i, j, k, l, rfl, by simpa using h⟩

theorem inB3 {idx : List Nat} {a b c : Nat} (h : InB idx [a, b, c]) :
    ∃ i j k, idx = [i, j, k] ∧ i < a ∧ j < b ∧ k < c := by
  match idx, h.length with
  | [i, j, k], _ => exact ⟨i, j, k, rfl, by simpa using h⟩

theorem inB2 {idx : List Nat} {a b : Nat} (h : InB idx [a, b]) :
    ∃ i j, idx = [i, j] ∧ i < a ∧ j < b := by
  match idx, h.length with
  | [i, j], _ => exact ⟨i, j, rfl, by simpa using h⟩

theorem permute24_spec (a1 a2 a3 a4 a5 : Nat) (xs : List α)
    (hx : xs.length = a1 * a2 * a3 * a4 * a5) :
    ∃ l, runWrites (a1 * a2 * a3 * a4 * a5) (copyTo xs (permute24 a1 a2 a3 a4 a5) 0) = .ok l ∧
      l.length = a1 * a2 * a3 * a4 * a5 ∧ Swapped a1 a2 a3 a4 a5 xs l := by
  obtain ⟨l, h1, h2, h3⟩ := scatter_perm xs [(a1, 1), (a2, a1 * a4 * a3), (a3, a1 * a4), (a4, a1),
      (a5, a1 * a4 * a3 * a2)] [a1, a4, a3, a2, a5] (by simp; rw [hx]; ring) (by simp only [List.map_cons, List.map_nil, prod_cons, prod_nil]; ring)
    (fun idx => match idx with | [i, j, k, l, m] => [i, l, k, j, m] | _ => [])
    (by
      intro idx h
      obtain ⟨i, j, k, l, m, rfl, g⟩ := inB5 h
      simpa using ⟨g.1, g.2.2.2.1, g.2.2.1, g.2.1, g.2.2.2.2⟩)
    (by
      intro idx h
      obtain ⟨i, j, k, l, m, rfl, h⟩ := inB5 h
      simp [dot]; ring)
    (by
      intro a b ha hb he
      obtain ⟨i, j, k, l, m, rfl, -⟩ := inB5 ha
      obtain ⟨i', j', k', l', m', rfl, -⟩ := inB5 hb
      simp at he ⊢; omega)
  have e : prod [a1, a4, a3, a2, a5] = a1 * a2 * a3 * a4 * a5 := by simp; ring
  rw [e] at h1 h2
  refine ⟨l, by rw [permute24_eq]; exact h1, h2, ?_⟩
  intro i j k p m hi hj hk hp hm
  simpa using h3 [i, j, k, p, m] (by simp; omega)

theorem permute13_spec (a2 a3 a4 a5 : Nat) (xs : List α) (hx : xs.length = a2 * a3 * a4 * a5) :
    ∃ l, runWrites (a2 * a3 * a4 * a5) (copyTo xs (permute13 a2 a3 a4 a5) 0) = .ok l ∧
      l.length = a2 * a3 * a4 * a5 ∧ Swapped 1 a2 a3 a4 a5 xs l := by
  obtain ⟨l, h1, h2, h3⟩ := scatter_perm xs [(a2, a4 * a3), (a3, a4), (a4, 1),
      (a5, a4 * a3 * a2)] [a4, a3, a2, a5] (by simp; rw [hx]; ring) (by simp only [List.map_cons, List.map_nil, prod_cons, prod_nil]; ring)
    (fun idx => match idx with | [j, k, l, m] => [l, k, j, m] | _ => [])
    (by
      intro idx h
      obtain ⟨j, k, l, m, rfl, g⟩ := inB4 h
      simpa using ⟨g.2.2.1, g.2.1, g.1, g.2.2.2⟩)
    (by
      intro idx h
      obtain ⟨j, k, l, m, rfl, h⟩ := inB4 h
      simp [dot]; ring)
    (by
      intro a b ha hb he
      obtain ⟨j, k, l, m, rfl, -⟩ := inB4 ha
      obtain ⟨j', k', l', m', rfl, -⟩ := inB4 hb
      simp at he ⊢; omega)
  have e : prod [a4, a3, a2, a5] = a2 * a3 * a4 * a5 := by simp; ring
  rw [e] at h1 h2
  refine ⟨l, by rw [permute13_eq]; exact h1, h2, ?_⟩
  intro i j k p m hi hj hk hp hm
  obtain rfl : i = 0 := by omega
  simpa using h3 [j, k, p, m] (by simp; omega)

theorem permute23_spec (a1 a2 a4 a5 : Nat) (xs : List α) (hx : xs.length = a1 * a2 * a4 * a5) :
    ∃ l, runWrites (a1 * a2 * a4 * a5) (copyTo xs (permute23 a1 a2 a4 a5) 0) = .ok l ∧
      l.length = a1 * a2 * a4 * a5 ∧ Swapped a1 a2 1 a4 a5 xs l := by
  obtain ⟨l, h1, h2, h3⟩ := scatter_perm xs [(a1, 1), (a2, a1 * a4), (a4, a1), (a5, a1 * a4 * a2)]
      [a1, a4, a2, a5] (by simp; rw [hx]; ring) (by simp only [List.map_cons, List.map_nil, prod_cons, prod_nil]; ring)
    (fun idx => match idx with | [i, j, l, m] => [i, l, j, m] | _ => [])
    (by
      intro idx h
      obtain ⟨j, k, l, m, rfl, g⟩ := inB4 h
      simpa using ⟨g.1, g.2.2.1, g.2.1, g.2.2.2⟩)
    (by
      intro idx h
      obtain ⟨j, k, l, m, rfl, h⟩ := inB4 h
      simp [dot]; ring)
    (by
      intro a b ha hb he
      obtain ⟨j, k, l, m, rfl, -⟩ := inB4 ha
      obtain ⟨j', k', l', m', rfl, -⟩ := inB4 hb
      simp at he ⊢; omega)
  have e : prod [a1, a4, a2, a5] = a1 * a2 * a4 * a5 := by simp; ring
  rw [e] at h1 h2
  refine ⟨l, by rw [permute23_eq]; exact h1, h2, ?_⟩
  intro i j k p m hi hj hk hp hm
  obtain rfl : k = 0 := by omega
  simpa using h3 [i, j, p, m] (by simp; omega)

theorem permute12_spec (a2 a4 a5 : Nat) (xs : List α) (hx : xs.length = a2 * a4 * a5) :
    ∃ l, runWrites (a2 * a4 * a5) (copyTo xs (permute12 a2 a4 a5) 0) = .ok l ∧
      l.length = a2 * a4 * a5 ∧ Swapped 1 a2 1 a4 a5 xs l := by
  obtain ⟨l, h1, h2, h3⟩ := scatter_perm xs [(a2, a4), (a4, 1), (a5, a2 * a4)]
      [a4, a2, a5] (by simp; rw [hx]; ring) (by simp only [List.map_cons, List.map_nil, prod_cons, prod_nil]; ring)
    (fun idx => match idx with | [j, l, m] => [l, j, m] | _ => [])
    (by
      intro idx h
      obtain ⟨j, l, m, rfl, g⟩ := inB3 h
      simpa using ⟨g.2.1, g.1, g.2.2⟩)
    (by
      intro idx h
      obtain ⟨j, l, m, rfl, h⟩ := inB3 h
      simp [dot]; ring)
    (by
      intro a b ha hb he
      obtain ⟨j, l, m, rfl, -⟩ := inB3 ha
      obtain ⟨j', l', m', rfl, -⟩ := inB3 hb
      simp at he ⊢; omega)
  have e : prod [a4, a2, a5] = a2 * a4 * a5 := by simp; ring
  rw [e] at h1 h2
  refine ⟨l, by rw [permute12_eq]; exact h1, h2, ?_⟩
  intro i j k p m hi hj hk hp hm
  obtain rfl : k = 0 := by omega
  obtain rfl : i = 0 := by omega
  simpa using h3 [j, p, m] (by simp; omega)

theorem adjointPositions_spec (rows cols : Nat) (xs : List α) (hx : xs.length = rows * cols) :
    ∃ l, runWrites (rows * cols) (copyTo xs (adjointPositions rows cols) 0) = .ok l ∧
      l.length = rows * cols ∧
      ∀ i j, i < rows → j < cols → l[j + cols * i]? = xs[i + rows * j]? := by
  obtain ⟨l, h1, h2, h3⟩ := scatter_perm xs [(rows, cols), (cols, 1)]
      [cols, rows] (by simp; rw [hx]) (by simp only [List.map_cons, List.map_nil, prod_cons, prod_nil]; ring)
    (fun idx => match idx with | [i, j] => [j, i] | _ => [])
    (by
      intro idx h
      obtain ⟨j, l, rfl, g⟩ := inB2 h
      simpa using ⟨g.2, g.1⟩)
    (by
      intro idx h
      obtain ⟨j, l, rfl, h⟩ := inB2 h
      simp [dot]; ring)
    (by
      intro a b ha hb he
      obtain ⟨j, l, rfl, -⟩ := inB2 ha
      obtain ⟨j', l', rfl, -⟩ := inB2 hb
      simp at he ⊢; omega)
  have e : prod [cols, rows] = rows * cols := by simp; ring
  rw [e] at h1 h2
  refine ⟨l, by rw [adjointPositions_eq]; exact h1, h2, ?_⟩
  intro i j hi hj
  simpa using h3 [i, j] (by simp; omega)

/-- A list with two marked positions. -/
theorem split2 {β : Type} (l : List β) (i j : Nat) (hij : i < j) (hj : j < l.length) :
    ∃ P x M y Q, l = P ++ x :: (M ++ y :: Q) ∧ P.length = i ∧ (P ++ x :: M).length = j := by
  refine ⟨l.take i, l[i]'(by omega), (l.take j).drop (i + 1), l[j], l.drop (j + 1), ?_, ?_, ?_⟩
  · apply List.ext_getElem?
    intro k
    rcases Nat.lt_trichotomy k i with h | h | h
    · rw [List.getElem?_append_left (by simp; omega), List.getElem?_take_of_lt h]
    · subst h
      rw [List.getElem?_append_right (by simp)]
      have : k - (l.take k).length = 0 := by simp; omega
      rw [this]
      simp
    · rw [List.getElem?_append_right (by simp; omega)]
      simp only [List.length_take]
      have : k - min i l.length = (k - i - 1) + 1 := by omega
      rw [this, List.getElem?_cons_succ]
      rcases Nat.lt_trichotomy k j with h2 | h2 | h2
      · rw [List.getElem?_append_left (by simp; omega), List.getElem?_drop,
          List.getElem?_take_of_lt (by omega)]
        congr 1; omega
      · subst h2
        rw [List.getElem?_append_right (by simp; omega)]
        simp only [List.length_drop, List.length_take]
        have : k - i - 1 - (min k l.length - (i + 1)) = 0 := by omega
        rw [this]
        simp
      · rw [List.getElem?_append_right (by simp; omega)]
        simp only [List.length_drop, List.length_take]
        have : k - i - 1 - (min j l.length - (i + 1)) = (k - j - 1) + 1 := by omega
        rw [this, List.getElem?_cons_succ, List.getElem?_drop]
        congr 1; omega
  · simp; omega
  · simp; omega

theorem swapAt_split {β : Type} (P M Q : List β) (x y : β) :
    swapAt (P ++ x :: (M ++ y :: Q)) P.length (P ++ x :: M).length =
      P ++ y :: (M ++ x :: Q) := by
  have h1 : (P ++ x :: (M ++ y :: Q))[P.length]? = some x := by simp
  have h2 : (P ++ x :: (M ++ y :: Q))[(P ++ x :: M).length]? = some y := by
    have : P ++ x :: (M ++ y :: Q) = (P ++ x :: M) ++ y :: Q := by simp
    rw [this]; simp
  simp only [swapAt, h1, h2]
  rw [List.set_append_right _ _ (by simp)]
  simp only [Nat.sub_self, List.set_cons_zero]
  have : P ++ y :: (M ++ y :: Q) = (P ++ y :: M) ++ y :: Q := by simp
  have hl : (P ++ x :: M).length = (P ++ y :: M).length := by simp
  rw [this, hl, List.set_append_right _ _ (by simp)]
  simp

theorem swapAt_comm {β : Type} (l : List β) (i j : Nat) : swapAt l i j = swapAt l j i := by
  unfold swapAt
  by_cases h : i = j
  · subst h; rfl
  · cases hi : l[i]? <;> cases hj : l[j]? <;> simp
    exact List.set_comm _ _ h

theorem swapAt_self {β : Type} (l : List β) (i : Nat) : swapAt l i i = l := by
  unfold swapAt
  cases hi : l[i]? with
  | none => rfl
  | some x => simp [← (List.getElem?_eq_some_iff.1 hi).2]

theorem swapAt_length {β : Type} (l : List β) (i j : Nat) : (swapAt l i j).length = l.length := by
  unfold swapAt
  split <;> simp

theorem swapAt_swapAt {β : Type} (l : List β) (i j : Nat) : swapAt (swapAt l i j) i j = l := by
  by_cases hi : i < l.length
  · by_cases hj : j < l.length
    · rcases Nat.lt_trichotomy i j with h | h | h
      · obtain ⟨P, x, M, y, Q, rfl, rfl, rfl⟩ := split2 l i j h hj
        rw [swapAt_split]
        have := swapAt_split P M Q y x
        simp only [List.length_append, List.length_cons] at this ⊢
        exact this
      · subst h; rw [swapAt_self, swapAt_self]
      · obtain ⟨P, x, M, y, Q, rfl, rfl, rfl⟩ := split2 l j i h hi
        rw [swapAt_comm _ _ P.length, swapAt_comm _ _ P.length, swapAt_split]
        have := swapAt_split P M Q y x
        simp only [List.length_append, List.length_cons] at this ⊢
        exact this
    · have h2 : l[j]? = none := List.getElem?_eq_none (by omega)
      have : swapAt l i j = l := by unfold swapAt; rw [h2]; split <;> simp_all
      rw [this, this]
  · have h2 : l[i]? = none := List.getElem?_eq_none (by omega)
    have : swapAt l i j = l := by unfold swapAt; rw [h2]
    rw [this, this]

theorem filled_ok (dims : List Nat) (src : List α) (ps : List Nat) (l : List α)
    (h : runWrites (totalSize dims) (copyTo src ps 0) = .ok l) :
    filled dims src ps = .ok ⟨dims, l⟩ := by
  simp [filled, h]

theorem permuteNoA3_spec (t : Tensor α) (newDims : List Nat) (a1 a2 a4 a5 : Nat)
    (ht : t.data.length = a1 * a2 * a4 * a5) (h0 : t.data.length ≠ 0)
    (hn : totalSize newDims = t.data.length) :
    ∃ l, permuteNoA3 t newDims a1 a2 a4 a5 = .ok ⟨newDims, l⟩ ∧ l.length = t.data.length ∧
      Swapped a1 a2 1 a4 a5 t.data l := by
  have h1 : a1 ≠ 0 := by rintro rfl; simp at ht; simp [ht] at h0
  have h2 : a2 ≠ 0 := by rintro rfl; simp at ht; simp [ht] at h0
  have h4 : a4 ≠ 0 := by rintro rfl; simp at ht; simp [ht] at h0
  unfold permuteNoA3
  split
  · split
    · obtain ⟨l, e, hl, hs⟩ := permute23_spec a1 a2 a4 a5 t.data ht
      refine ⟨l, filled_ok _ _ _ _ ?_, by rw [hl, ht], hs⟩
      rw [hn, ht]; exact e
    · obtain rfl : a1 = 1 := by omega
      rw [Nat.one_mul] at ht
      obtain ⟨l, e, hl, hs⟩ := permute12_spec a2 a4 a5 t.data ht
      refine ⟨l, filled_ok _ _ _ _ ?_, by rw [hl, ht], hs⟩
      rw [hn, ht]; exact e
  · obtain rfl : a2 = 1 := by omega
    obtain rfl : a4 = 1 := by omega
    refine ⟨t.data, by simp [reshape, Res.assert_bind, hn, size], rfl, ?_⟩
    intro i j k p m hi hj hk hp hm
    obtain rfl : j = 0 := by omega
    obtain rfl : p = 0 := by omega
    rfl

theorem permuteSorted_spec (P M Q : List Nat) (x y : Nat) (data : List α)
    (h : data.length = prod P * x * prod M * y * prod Q) :
    ∃ l, permuteSorted ⟨P ++ x :: (M ++ y :: Q), data⟩ P.length (P ++ x :: M).length =
        .ok ⟨P ++ y :: (M ++ x :: Q), l⟩ ∧ l.length = data.length ∧
      Swapped (prod P) x (prod M) y (prod Q) data l := by
  have e1 : (P ++ x :: (M ++ y :: Q))[P.length]? = some x := by simp
  have e2 : (P ++ x :: (M ++ y :: Q))[(P ++ x :: M).length]? = some y := by
    have : P ++ x :: (M ++ y :: Q) = (P ++ x :: M) ++ y :: Q := by simp
    rw [this]; simp
  have e3 : (P ++ x :: (M ++ y :: Q)).take P.length = P := by simp
  have e4 : ((P ++ x :: (M ++ y :: Q)).take (P ++ x :: M).length).drop (P.length + 1) = M := by
    have : P ++ x :: (M ++ y :: Q) = (P ++ x :: M) ++ y :: Q := by simp
    rw [this, List.take_left]
    have : P ++ x :: M = (P ++ [x]) ++ M := by simp
    rw [this, List.drop_left' (by simp)]
  have e5 : (P ++ x :: (M ++ y :: Q)).drop ((P ++ x :: M).length + 1) = Q := by
    have : P ++ x :: (M ++ y :: Q) = (P ++ x :: M ++ [y]) ++ Q := by simp
    rw [this, List.drop_left' (by simp; omega)]
  have e6 : ((P ++ x :: (M ++ y :: Q)).set P.length y).set (P ++ x :: M).length x =
      P ++ y :: (M ++ x :: Q) := by
    have := swapAt_split P M Q x y
    simpa only [swapAt, e1, e2] using this
  have hn : totalSize (P ++ y :: (M ++ x :: Q)) = data.length := by
    rw [totalSize_of_ne (by simp), h]
    simp only [prod_append, prod_cons]; ring
  simp only [permuteSorted, e1, e2, e3, e4, e5, e6, Res.ofOption_some, Res.ok_bind, foldl_mul,
    Nat.one_mul, size]
  split
  case isFalse h0 =>
    have h0 : data.length = 0 := by omega
    refine ⟨data, by simp [reshape, Res.assert_bind, hn, size], rfl, ?_⟩
    intro i j k p m hi hj hk hp hm
    rw [List.getElem?_eq_none (by omega), List.getElem?_eq_none (by omega)]
  case isTrue h0 =>
    split
    case isTrue h2 =>
      subst h2
      obtain ⟨l, e, hl, hs⟩ := permuteNoA3_spec ⟨P ++ 1 :: (M ++ y :: Q), data⟩
        (P ++ y :: (M ++ 1 :: Q)) (prod P) (prod M) y (prod Q) (by simp only [h]; ring) h0 hn
      refine ⟨l, e, hl, ?_⟩
      intro i j k p m hi hj hk hp hm
      obtain rfl : j = 0 := by omega
      have := hs i k 0 p m hi hk (by omega) hp hm
      simpa using this
    case isFalse h2 =>
      split
      case isTrue h4 =>
        subst h4
        obtain ⟨l, e, hl, hs⟩ := permuteNoA3_spec ⟨P ++ x :: (M ++ 1 :: Q), data⟩
          (P ++ 1 :: (M ++ x :: Q)) (prod P) x (prod M) (prod Q) (by simp only [h]; ring) h0 hn
        refine ⟨l, e, hl, ?_⟩
        intro i j k p m hi hj hk hp hm
        obtain rfl : p = 0 := by omega
        have := hs i j 0 k m hi hj (by omega) hk hm
        simpa using this
      case isFalse h4 =>
        split
        case isTrue h3 =>
          split
          case isTrue h1 =>
            obtain ⟨l, e, hl, hs⟩ := permute24_spec (prod P) x (prod M) y (prod Q) data h
            refine ⟨l, filled_ok _ _ _ _ ?_, by rw [hl, h], hs⟩
            rw [hn, h]; exact e
          case isFalse h1 =>
            have h1' : prod P = 1 := by
              have : prod P ≠ 0 := by intro e; rw [e] at h; simp at h; simp [h] at h0
              omega
            rw [h1'] at h ⊢
            obtain ⟨l, e, hl, hs⟩ := permute13_spec x (prod M) y (prod Q) data (by rw [h]; ring)
            refine ⟨l, filled_ok _ _ _ _ ?_, by rw [hl, h]; ring, hs⟩
            rw [hn, h, Nat.one_mul]; exact e
        case isFalse h3 =>
          have h3' : prod M = 1 := by
            have : prod M ≠ 0 := by intro e; rw [e] at h; simp at h; simp [h] at h0
            omega
          obtain ⟨l, e, hl, hs⟩ := permuteNoA3_spec ⟨P ++ x :: (M ++ y :: Q), data⟩
            (P ++ y :: (M ++ x :: Q)) (prod P) x y (prod Q) (by simp only [h, h3']; ring) h0 hn
          refine ⟨l, e, hl, ?_⟩
          rw [h3']
          exact hs

theorem colPos_split (P M Q p m q : List Nat) (x y i j : Nat) (hp : p.length = P.length)
    (hm : m.length = M.length) :
    colPos (P ++ x :: (M ++ y :: Q)) (p ++ i :: (m ++ j :: q)) =
      colPos P p + prod P * (i + x * (colPos M m + prod M * (j + y * colPos Q q))) := by
  rw [colPos_append _ _ hp, colPos_cons, colPos_append _ _ hm, colPos_cons]

/-- permute for increasing positions, in terms of elements. -/
theorem permuteSorted_elem (t : Tensor α) (wf : t.WF) (n1 n2 : Nat) (h : n1 < n2)
    (h2 : n2 < t.dims.length) :
    ∃ b, permuteSorted t n1 n2 = .ok b ∧ b.WF ∧ b.dims = swapAt t.dims n1 n2 ∧
      ∀ idx, InB idx t.dims →
        InB (swapAt idx n1 n2) b.dims ∧
        elem b.dims b.data (swapAt idx n1 n2) = elem t.dims t.data idx := by
  obtain ⟨dims, data⟩ := t
  obtain ⟨P, x, M, y, Q, rfl, rfl, rfl⟩ := split2 dims n1 n2 h h2
  have hl : data.length = prod P * x * prod M * y * prod Q := by
    rw [WF.length_eq wf (by simp)]
    simp only [prod_append, prod_cons]; ring
  obtain ⟨l, e, hll, hs⟩ := permuteSorted_spec P M Q x y data hl
  refine ⟨_, e, ?_, (swapAt_split P M Q x y).symm, ?_⟩
  · show l.length = totalSize (P ++ y :: (M ++ x :: Q))
    rw [totalSize_of_ne (by simp), hll, hl]
    simp only [prod_append, prod_cons]; ring
  · intro idx hi
    have hlen := hi.length
    obtain ⟨p, i, m, j, q, rfl, hp, hpm⟩ := split2 idx P.length (P ++ x :: M).length h
      (by rw [hlen]; exact h2)
    have hm : m.length = M.length := by simp at hpm; omega
    rw [InB_append hp, InB_cons, InB_append hm, InB_cons] at hi
    obtain ⟨g1, g2, g3, g4, g5⟩ := hi
    have hsw : swapAt (p ++ i :: (m ++ j :: q)) P.length (P ++ x :: M).length =
        p ++ j :: (m ++ i :: q) := by
      have := swapAt_split p m q i j
      rw [← hp, ← hpm]
      exact this
    have hb : InB (p ++ j :: (m ++ i :: q)) (P ++ y :: (M ++ x :: Q)) := by
      rw [InB_append hp, InB_cons, InB_append hm, InB_cons]
      exact ⟨g1, g4, g3, g2, g5⟩
    have hb' : InB (p ++ i :: (m ++ j :: q)) (P ++ x :: (M ++ y :: Q)) := by
      rw [InB_append hp, InB_cons, InB_append hm, InB_cons]
      exact ⟨g1, g2, g3, g4, g5⟩
    rw [hsw]
    refine ⟨hb, ?_⟩
    simp only [elem, if_pos hb, if_pos hb']
    rw [colPos_split _ _ _ _ _ _ _ _ _ _ hp hm, colPos_split _ _ _ _ _ _ _ _ _ _ hp hm]
    exact hs _ _ _ _ _ (colPos_lt g1) g2 (colPos_lt g3) g4 (colPos_lt g5)

end Verif.Tensor
