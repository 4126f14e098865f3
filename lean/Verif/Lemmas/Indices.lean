import Verif.Model.Indices
import Verif.Lemmas.Res
import Verif.Lemmas.Index
/-
Lemmas about index lists and booleans.
-/
namespace Verif.Indices

variable {α β γ : Type}

theorem rangeLoop_length (step : Int) (n : Nat) (m : Int) :
    (rangeLoop step n m).length = n := by
  induction n generalizing m with
  | zero => rfl
  | succ n ih => simp [rangeLoop, ih]

theorem rangeLoop_get (step : Int) (n : Nat) (m : Int) (i : Nat) (h : i < n) :
    (rangeLoop step n m)[i]? = some (m + i * step) := by
  induction n generalizing m i with
  | zero => omega
  | succ n ih =>
    cases i with
    | zero => simp [rangeLoop]
    | succ i =>
      simp only [rangeLoop, List.getElem?_cons_succ]
      rw [ih (m + step) i (by omega)]
      congr 1
      push_cast
      ring

theorem copyWrites_mem (j : Nat) (l : List α) (w : Nat × Option α) :
    w ∈ copyWrites j l ↔ ∃ i x, l[i]? = some x ∧ w = (j + i, some x) := by
  induction l generalizing j with
  | nil => simp [copyWrites]
  | cons a l ih =>
    simp only [copyWrites, List.mem_cons, ih]
    constructor
    · rintro (rfl | ⟨i, x, h, rfl⟩)
      · exact ⟨0, a, by simp, by simp⟩
      · exact ⟨i + 1, x, by simpa using h, by simp; omega⟩
    · rintro ⟨i, x, h, rfl⟩
      cases i with
      | zero => left; simp at h; simp [h]
      | succ i => right; exact ⟨i, x, by simpa using h, by simp; omega⟩

theorem range_map_getElem {l : List α} (f : Nat → α) (h : ∀ i, i < l.length → l[i]? = some (f i)) :
    (List.range l.length).map f = l := by
  apply List.ext_getElem?
  intro i
  by_cases hi : i < l.length
  · rw [h i hi]; simp [hi]
  · simp [hi]

/-- Writing a list in all positions, whatever the order of the writes. -/
theorem runWrites_list (l : List α) (ws : List (Nat × Option α))
    (h1 : ∀ w ∈ ws, w.2.isSome ∧ l[w.1]? = w.2)
    (h2 : ∀ p < l.length, ∃ w ∈ ws, w.1 = p) :
    runWrites l.length ws = .ok l := by
  cases l with
  | nil =>
    cases ws with
    | nil => rfl
    | cons w ws =>
      have := h1 w (by simp)
      simp at this
      rw [← this.2] at this
      simp at this
  | cons a l =>
    set l' := a :: l with hl
    let f : Nat → α := fun i => (l'[i]?).getD a
    have hf : ∀ i, i < l'.length → l'[i]? = some (f i) := by
      intro i hi
      simp [f, hi]
    rw [runWrites_eq l'.length f ws _ h2, range_map_getElem f hf]
    intro w hw
    obtain ⟨g1, g2⟩ := h1 w hw
    have hlt : w.1 < l'.length := by
      rw [← g2] at g1
      by_contra hc
      rw [List.getElem?_eq_none (by omega)] at g1
      simp at g1
    exact ⟨hlt, by rw [← g2, hf _ hlt]⟩

theorem StaticVector.n_chain (x : α) (xs : List α) : (chain x xs).n = xs.length + 1 := by
  induction xs using List.reverseRecOn with
  | nil => rfl
  | append_singleton l a ih =>
    simp only [chain, List.foldl_append, List.foldl_cons, List.foldl_nil, StaticVector.n] at *
    simp [ih]

theorem StaticVector.push_chain (x : α) (xs : List α) :
    (chain x xs).push = copyWrites 0 (x :: xs) := by
  induction xs using List.reverseRecOn with
  | nil => rfl
  | append_singleton l a ih =>
    have hn := n_chain x l
    simp only [chain, List.foldl_append, List.foldl_cons, List.foldl_nil, StaticVector.push,
      StaticVector.n] at *
    rw [ih, hn]
    have : ∀ (j : Nat) (l : List α) (a : α),
        copyWrites j (l ++ [a]) = copyWrites j l ++ [(j + l.length, some a)] := by
      intro j l a
      induction l generalizing j with
      | nil => simp [copyWrites]
      | cons b l ih2 => simp [copyWrites, ih2]; omega
    have h2 := this 0 (x :: l) a
    simp only [List.cons_append] at h2
    rw [h2]
    simp

/-- What `which` computes, as a list. -/
def whichList (i : Nat) : List Bool → List Nat
  | [] => []
  | b :: bs => if b then i :: whichList (i + 1) bs else whichList (i + 1) bs

theorem whichList_length (i : Nat) (b : List Bool) : (whichList i b).length = b.count true := by
  induction b generalizing i with
  | nil => rfl
  | cons x b ih => cases x <;> simp [whichList, ih]

theorem whichWrites_eq (i o : Nat) (b : List Bool) :
    whichWrites i o b = copyWrites o (whichList i b) := by
  induction b generalizing i o with
  | nil => rfl
  | cons x b ih => cases x <;> simp [whichList, whichWrites, copyWrites, ih]

theorem runWrites_copy (l : List α) : runWrites l.length (copyWrites 0 l) = .ok l := by
  apply runWrites_list
  · intro w hw
    obtain ⟨i, x, h, rfl⟩ := (copyWrites_mem _ _ _).1 hw
    simpa using h
  · intro p hp
    exact ⟨(p, some l[p]), (copyWrites_mem _ _ _).2 ⟨p, l[p], by simp [hp], by simp⟩, rfl⟩

theorem whichList_mem (i : Nat) (b : List Bool) (k : Nat) :
    k ∈ whichList i b ↔ i ≤ k ∧ b[k - i]? = some true := by
  induction b generalizing i with
  | nil => simp [whichList]
  | cons x b ih =>
    have key : ∀ k, i + 1 ≤ k → k - i = (k - (i + 1)) + 1 := by intro k hk; omega
    cases x
    · simp only [whichList, Bool.false_eq_true, if_false, ih]
      constructor
      · rintro ⟨h1, h2⟩
        refine ⟨by omega, ?_⟩
        rw [key k h1]; simpa using h2
      · rintro ⟨h1, h2⟩
        rcases Nat.eq_or_lt_of_le h1 with rfl | h
        · simp at h2
        · refine ⟨h, ?_⟩
          rw [key k h] at h2; simpa using h2
    · simp only [whichList, if_true, List.mem_cons, ih]
      constructor
      · rintro (rfl | ⟨h1, h2⟩)
        · simp
        · refine ⟨by omega, ?_⟩
          rw [key k h1]; simpa using h2
      · rintro ⟨h1, h2⟩
        rcases Nat.eq_or_lt_of_le h1 with rfl | h
        · left; rfl
        · right
          refine ⟨h, ?_⟩
          rw [key k h] at h2; simpa using h2

theorem whichList_sorted (i : Nat) (b : List Bool) : (whichList i b).Pairwise (· < ·) := by
  induction b generalizing i with
  | nil => simp [whichList]
  | cons x b ih =>
    cases x
    · simpa [whichList] using ih (i + 1)
    · simp only [whichList, if_true, List.pairwise_cons]
      exact ⟨fun a ha => by have := ((whichList_mem _ _ _).1 ha).1; omega, ih _⟩

theorem transform2_eq (f : α → β → γ) (a : List α) (b : List β) (h : a.length = b.length) :
    transform2 f a b = .ok (List.zipWith f a b) := by
  induction a generalizing b with
  | nil => cases b <;> simp [transform2]
  | cons x a ih => cases b with
    | nil => simp at h
    | cons y b => simp [transform2, ih b (by simpa using h)]

theorem stdEqual_eq [DecidableEq α] (a b : List α) (h : a.length = b.length) :
    stdEqual a b = .ok (decide (a = b)) := by
  induction a generalizing b with
  | nil => cases b <;> simp_all [stdEqual]
  | cons x a ih => cases b with
    | nil => simp at h
    | cons y b =>
      simp only [stdEqual]
      by_cases e : x = y
      · simp [e, ih b (by simpa using h)]
      · simp [e]

theorem allEqual_eq [DecidableEq α] (a b : List α) : allEqual a b = .ok (decide (a = b)) := by
  unfold allEqual
  by_cases h : a.length = b.length
  · rw [if_pos h, stdEqual_eq a b h]
  · rw [if_neg h]
    have : a ≠ b := fun e => h (by rw [e])
    simp [this]

end Verif.Indices
