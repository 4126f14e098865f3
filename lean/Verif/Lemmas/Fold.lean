import Verif.Lemmas.Permute
import Verif.Model.Fold
import Mathlib.Algebra.BigOperators.Ring.Finset
import Mathlib.Algebra.BigOperators.GroupWithZero.Action
import Mathlib.Algebra.Ring.Hom.Defs
import Mathlib.Algebra.BigOperators.Group.Finset.Sigma
/-
Lemmas for contractions.
-/
namespace Verif.Tensor

open Verif Spec

variable {α : Type}

theorem pos_decomp (I J K M p : Nat) (h : p < I * J * K * M) :
    ∃ i j k m, i < I ∧ j < J ∧ k < K ∧ m < M ∧ p = i + I * (j + J * (k + K * m)) := by
  obtain ⟨idx, hi, e⟩ := colPos_surj [I, J, K, M] p (by simp; linarith [h])
  obtain ⟨i, j, k, m, rfl, h1, h2, h3, h4⟩ := inB4 hi
  exact ⟨i, j, k, m, h1, h2, h3, h4, by simpa using e.symm⟩

theorem pos_lt {I J K M i j k m : Nat} (h1 : i < I) (h2 : j < J) (h3 : k < K) (h4 : m < M) :
    i + I * (j + J * (k + K * m)) < I * J * K * M := by
  have := colPos_lt (dims := [I, J, K, M]) (idx := [i, j, k, m]) (by simp; omega)
  simp at this
  linarith

theorem pos_inj {I J K M i j k m i' j' k' m' : Nat} (h1 : i < I) (h2 : j < J) (h3 : k < K)
    (h4 : m < M) (h1' : i' < I) (h2' : j' < J) (h3' : k' < K) (h4' : m' < M)
    (e : i + I * (j + J * (k + K * m)) = i' + I * (j' + J * (k' + K * m'))) :
    i = i' ∧ j = j' ∧ k = k' ∧ m = m' := by
  have := colPos_inj (dims := [I, J, K, M]) (a := [i, j, k, m]) (b := [i', j', k', m'])
    (by simp; omega) (by simp; omega) (by simpa using e)
  simpa using this

/-- A buffer of four indices filled by writes. -/
theorem runWrites4 (I J K M N : Nat) (hN : N = I * J * K * M) (F : Nat → Nat → Nat → Nat → α)
    (ws : List (Nat × Option α))
    (h1 : ∀ w ∈ ws, ∃ i j k m, i < I ∧ j < J ∧ k < K ∧ m < M ∧
      w.1 = i + I * (j + J * (k + K * m)) ∧ w.2 = some (F i j k m))
    (h2 : ∀ i j k m, i < I → j < J → k < K → m < M →
      ∃ w ∈ ws, w.1 = i + I * (j + J * (k + K * m))) :
    ∃ c, runWrites N ws = .ok c ∧ c.length = N ∧
      ∀ i j k m, i < I → j < J → k < K → m < M →
        c[i + I * (j + J * (k + K * m))]? = some (F i j k m) := by
  have hd : ∀ p : Fin N, ∃ q : Nat × Nat × Nat × Nat, q.1 < I ∧ q.2.1 < J ∧ q.2.2.1 < K ∧
      q.2.2.2 < M ∧ p.1 = q.1 + I * (q.2.1 + J * (q.2.2.1 + K * q.2.2.2)) := by
    intro p
    obtain ⟨i, j, k, m, h⟩ := pos_decomp I J K M p (by rw [← hN]; exact p.2)
    exact ⟨(i, j, k, m), h⟩
  choose g hg using hd
  let c : List α := List.ofFn fun p : Fin N => F (g p).1 (g p).2.1 (g p).2.2.1 (g p).2.2.2
  have hl : c.length = N := by simp [c]
  have hc : ∀ i j k m, i < I → j < J → k < K → m < M →
        c[i + I * (j + J * (k + K * m))]? = some (F i j k m) := by
    intro i j k m hi hj hk hm
    have hlt : i + I * (j + J * (k + K * m)) < N := by rw [hN]; exact pos_lt hi hj hk hm
    have hq := hg ⟨_, hlt⟩
    obtain ⟨e1, e2, e3, e4⟩ := pos_inj hi hj hk hm hq.1 hq.2.1 hq.2.2.1 hq.2.2.2.1 hq.2.2.2.2
    simp only [c, List.getElem?_ofFn, hlt, dite_true, ← e1, ← e2, ← e3, ← e4]
  refine ⟨c, ?_, hl, hc⟩
  rw [← hl]
  apply Indices.runWrites_list
  · intro w hw
    obtain ⟨i, j, k, m, hi, hj, hk, hm, e, v⟩ := h1 w hw
    rw [v, e]
    exact ⟨rfl, hc i j k m hi hj hk hm⟩
  · intro p hp
    rw [hl, hN] at hp
    obtain ⟨i, j, k, m, hi, hj, hk, hm, rfl⟩ := pos_decomp I J K M p hp
    exact h2 i j k m hi hj hk hm

section

variable [CommSemiring α]

theorem mem_gemm (conj : α → α) (op1 op2 : BlasOp) (m n k : Nat) (a : List α) (offA lda : Nat)
    (b : List α) (offB ldb offC ldc : Nat)
    (h1 : max 1 (if op1 = .N then m else k) ≤ lda) (h2 : max 1 (if op2 = .N then k else n) ≤ ldb)
    (h3 : max 1 m ≤ ldc) (w : Nat × Option α) :
    w ∈ gemm conj op1 op2 m n k a offA lda b offB ldb offC ldc ↔
      ∃ i < m, ∃ j < n, w = (offC + i + ldc * j, sumO k fun l => do
        let x ← op1.entry conj a offA lda i l
        let y ← op2.entry conj b offB ldb l j
        pure (x * y)) := by
  rw [gemm, if_neg (by omega)]
  simp only [List.mem_flatMap, List.mem_map, List.mem_range]
  constructor
  · rintro ⟨j, hj, i, hi, rfl⟩
    exact ⟨i, hi, j, hj, rfl⟩
  · rintro ⟨i, hi, j, hj, rfl⟩
    exact ⟨j, hj, i, hi, rfl⟩

theorem sumO_prod (L : Nat) (f g : Nat → Option α) (x y : Nat → α)
    (h1 : ∀ l < L, f l = some (x l)) (h2 : ∀ l < L, g l = some (y l)) :
    sumO L (fun l => do
      let u ← f l
      let v ← g l
      pure (u * v)) = some (∑ l ∈ Finset.range L, x l * y l) :=
  sumO_eq L _ _ fun l hl => by simp [h1 l hl, h2 l hl]

/-- Entry of a three-index array, as a total function. -/
def ent (a : List α) (I L i l j : Nat) : α := (a[i + I * (l + L * j)]?).getD 0

theorem ent_eq (a : List α) {I L J i l j : Nat} (ha : a.length = I * L * J) (hi : i < I)
    (hl : l < L) (hj : j < J) : a[i + I * (l + L * j)]? = some (ent a I L i l j) := by
  have : i + I * (l + L * j) < a.length := by
    have := colPos_lt (dims := [I, L, J]) (idx := [i, l, j]) (by simp; omega)
    simp at this
    rw [ha]; linarith
  simp [ent, this]

/-- Value computed by a fold, with the conjugation of the first factor. -/
def foldVal (cj : α → α) (a b : List α) (I K L : Nat) (i j k m : Nat) : α :=
  ∑ l ∈ Finset.range L, cj (ent a I L i l j) * ent b K L k l m

theorem foldBody_spec (conj : α →+* α) (hc : ∀ x, conj (conj x) = x) (doConj : Bool)
    (a b : List α) (I J K L M N : Nat) (ha : a.length = I * L * J) (hb : b.length = K * L * M)
    (hL : L ≠ 0) (hN : N = I * J * K * M) (h0 : N ≠ 0) :
    ∃ c, foldBody conj doConj a b N I J K L M = .ok c ∧ c.length = N ∧
      ∀ i j k m, i < I → j < J → k < K → m < M →
        c[i + I * (j + J * (k + K * m))]? =
          some (foldVal (if doConj then (conj : α → α) else id) a b I K L i j k m) := by
  have hI : I ≠ 0 := by rintro rfl; simp at hN; omega
  have hJ : J ≠ 0 := by rintro rfl; simp at hN; omega
  have hK : K ≠ 0 := by rintro rfl; simp at hN; omega
  have hM : M ≠ 0 := by rintro rfl; simp at hN; omega
  have entA : ∀ {i l j}, i < I → l < L → j < J → a[i + I * (l + L * j)]? = some (ent a I L i l j) :=
    fun hi hl hj => ent_eq a ha hi hl hj
  have entB : ∀ {k l m}, k < K → l < L → m < M → b[k + K * (l + L * m)]? = some (ent b K L k l m) :=
    fun hi hl hj => ent_eq b hb hi hl hj
  have transa : ∀ {i l}, I = 1 → i < J → l < L →
      (if doConj then BlasOp.C else .T).entry conj a 0 L i l =
        some ((if doConj then (conj : α → α) else id) (ent a I L 0 l i)) := by
    intro i l h1 hi hl
    have h := entA (i := 0) (by omega) hl hi
    simp only [h1, Nat.zero_add, Nat.one_mul] at h ⊢
    cases doConj <;> simp [BlasOp.entry, h]
  unfold foldBody
  simp only
  split
  case isTrue h =>
    obtain ⟨h1, h3⟩ := h
    apply runWrites4 I J K M N hN
    · intro w hw
      rw [mem_gemm _ _ _ _ _ _ _ _ _ _ _ _ _ _ (by cases doConj <;> simp <;> omega)
        (by simp; omega) (by simp; omega)] at hw
      obtain ⟨j, hj, m, hm, rfl⟩ := hw
      refine ⟨0, j, 0, m, by omega, hj, by omega, hm, by rw [h1, h3]; ring, ?_⟩
      apply sumO_prod
      · intro l hl
        exact transa h1 hj hl
      · intro l hl
        have := entB (k := 0) (by omega) hl hm
        simp only [h3, Nat.zero_add, Nat.one_mul] at this ⊢
        simpa [BlasOp.entry] using this
    · intro i j k m hi hj hk hm
      refine ⟨_, (mem_gemm _ _ _ _ _ _ _ _ _ _ _ _ _ _ (by cases doConj <;> simp <;> omega)
        (by simp; omega) (by simp; omega) _).2 ⟨j, hj, m, hm, rfl⟩, ?_⟩
      obtain rfl : i = 0 := by omega
      obtain rfl : k = 0 := by omega
      rw [h1, h3]; ring
  case isFalse hn1 =>
  split
  case isTrue h =>
    obtain ⟨h1, h3⟩ := h
    apply runWrites4 I J K M N hN
    · intro w hw
      rw [mem_gemm _ _ _ _ _ _ _ _ _ _ _ _ _ _ (by cases doConj <;> simp <;> omega)
        (by simp; omega) (by simp; omega)] at hw
      obtain ⟨j, hj, k, hk, rfl⟩ := hw
      refine ⟨0, j, k, 0, by omega, hj, hk, by omega, by rw [h1]; ring, ?_⟩
      apply sumO_prod
      · intro l hl
        exact transa h1 hj hl
      · intro l hl
        have := entB (m := 0) hk hl (by omega)
        simp only [BlasOp.entry, Nat.zero_add, Nat.mul_zero, Nat.add_zero] at this ⊢
        exact this
    · intro i j k m hi hj hk hm
      refine ⟨_, (mem_gemm _ _ _ _ _ _ _ _ _ _ _ _ _ _ (by cases doConj <;> simp <;> omega)
        (by simp; omega) (by simp; omega) _).2 ⟨j, hj, k, hk, rfl⟩, ?_⟩
      obtain rfl : i = 0 := by omega
      obtain rfl : m = 0 := by omega
      rw [h1]; ring
  case isFalse hn2 =>
  split
  case isTrue h =>
    obtain ⟨-, h1, h2, h3⟩ := h
    subst h2
    apply runWrites4 I J K M N hN
    · intro w hw
      rw [mem_gemm _ _ _ _ _ _ _ _ _ _ _ _ _ _ (by simp; omega)
        (by simp; omega) (by simp; omega)] at hw
      obtain ⟨i, hi, m, hm, rfl⟩ := hw
      refine ⟨i, 0, 0, m, hi, by omega, by omega, hm, by rw [h1, h3]; ring, ?_⟩
      apply sumO_prod
      · intro l hl
        have := entA (j := 0) hi hl (by omega)
        simp only [BlasOp.entry, Nat.zero_add, Nat.mul_zero, Nat.add_zero] at this ⊢
        simpa using this
      · intro l hl
        have := entB (k := 0) (by omega) hl hm
        simp only [h3, Nat.zero_add, Nat.one_mul] at this ⊢
        simpa [BlasOp.entry] using this
    · intro i j k m hi hj hk hm
      refine ⟨_, (mem_gemm _ _ _ _ _ _ _ _ _ _ _ _ _ _ (by simp; omega)
        (by simp; omega) (by simp; omega) _).2 ⟨i, hi, m, hm, rfl⟩, ?_⟩
      obtain rfl : j = 0 := by omega
      obtain rfl : k = 0 := by omega
      rw [h1, h3]; ring
  case isFalse hn3 =>
  split
  case isTrue h =>
    obtain ⟨-, h1, h2, h3⟩ := h
    subst h2
    apply runWrites4 I J K M N hN
    · intro w hw
      rw [mem_gemm _ _ _ _ _ _ _ _ _ _ _ _ _ _ (by simp; omega)
        (by simp; omega) (by simp; omega)] at hw
      obtain ⟨i, hi, k, hk, rfl⟩ := hw
      refine ⟨i, 0, k, 0, hi, by omega, hk, by omega, by rw [h1]; ring, ?_⟩
      apply sumO_prod
      · intro l hl
        have := entA (j := 0) hi hl (by omega)
        simp only [BlasOp.entry, Nat.zero_add, Nat.mul_zero, Nat.add_zero] at this ⊢
        simpa using this
      · intro l hl
        have := entB (m := 0) hk hl (by omega)
        simp only [BlasOp.entry, Nat.zero_add, Nat.mul_zero, Nat.add_zero] at this ⊢
        exact this
    · intro i j k m hi hj hk hm
      refine ⟨_, (mem_gemm _ _ _ _ _ _ _ _ _ _ _ _ _ _ (by simp; omega)
        (by simp; omega) (by simp; omega) _).2 ⟨i, hi, k, hk, rfl⟩, ?_⟩
      obtain rfl : j = 0 := by omega
      obtain rfl : m = 0 := by omega
      rw [h1]; ring
  case isFalse hn4 =>
    have hIJ : I ≤ I * J := Nat.le_mul_of_pos_right _ (by omega)
    have hmem := fun (j m : Nat) (w : Nat × Option α) => mem_gemm conj .N
      (if doConj then BlasOp.C else .T) I K L a (I * L * j) I b (K * L * m) K
      (I * (j + J * K * m)) (I * J) (by simp; omega) (by cases doConj <;> simp <;> omega)
      (by omega) w
    obtain ⟨c, e, hl, hv⟩ := runWrites4 I J K M N hN
      (fun i j k m => ∑ l ∈ Finset.range L,
        ent a I L i l j * (if doConj then (conj : α → α) else id) (ent b K L k l m))
      ((List.range M).flatMap fun m => (List.range J).flatMap fun j =>
        gemm conj .N (if doConj then BlasOp.C else .T) I K L a (I * L * j) I b (K * L * m) K
          (I * (j + J * K * m)) (I * J))
      (by
        intro w hw
        simp only [List.mem_flatMap, List.mem_range] at hw
        obtain ⟨m, hm, j, hj, hw⟩ := hw
        rw [hmem] at hw
        obtain ⟨i, hi, k, hk, rfl⟩ := hw
        refine ⟨i, j, k, m, hi, hj, hk, hm, by ring, ?_⟩
        apply sumO_prod
        · intro l hl
          have := entA hi hl hj
          rw [← this]
          simp only [BlasOp.entry]
          congr 1; ring
        · intro l hl
          have h := entB hk hl hm
          have e : K * L * m + k + K * l = k + K * (l + L * m) := by ring
          cases doConj <;> simp [BlasOp.entry, e, h])
      (by
        intro i j k m hi hj hk hm
        refine ⟨_, List.mem_flatMap.2 ⟨m, List.mem_range.2 hm, List.mem_flatMap.2
          ⟨j, List.mem_range.2 hj, (hmem j m _).2 ⟨i, hi, k, hk, rfl⟩⟩⟩, ?_⟩
        ring)
    rw [e]
    simp only [Res.ok_bind, Res.pure_eq]
    refine ⟨_, rfl, by cases doConj <;> simp [hl], ?_⟩
    intro i j k m hi hj hk hm
    cases doConj with
    | false => simpa [foldVal] using hv i j k m hi hj hk hm
    | true =>
      have := hv i j k m hi hj hk hm
      simp only [if_true] at this ⊢
      rw [List.getElem?_map, this]
      simp [foldVal, hc]

end

end Verif.Tensor
