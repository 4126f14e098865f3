import Verif.Lemmas.Svd
import Mathlib.LinearAlgebra.FiniteDimensional.Lemmas
import Mathlib.LinearAlgebra.Dimension.Constructions
import Mathlib.LinearAlgebra.Matrix.ToLin
/-
Incomplete singular value decompositions: all have the same singular values.
-/
namespace Verif.Spec

open Finset

variable {𝕜 : Type} [RCLike 𝕜]

/-- Pythagoras for orthonormal columns. -/
theorem pythagoras {m : Nat} {S : Finset Nat} {U : Nat → Nat → 𝕜}
    (h : ∀ k ∈ S, ∀ l ∈ S, ∑ i ∈ range m, starRingEnd 𝕜 (U i k) * U i l = if k = l then 1 else 0)
    (c : Nat → 𝕜) :
    ∑ i ∈ range m, ‖∑ l ∈ S, U i l * c l‖ ^ 2 = ∑ l ∈ S, ‖c l‖ ^ 2 := by
  have e : ((∑ i ∈ range m, ‖∑ l ∈ S, U i l * c l‖ ^ 2 : ℝ) : 𝕜) = ((∑ l ∈ S, ‖c l‖ ^ 2 : ℝ) : 𝕜) := by
    push_cast
    have e1 : ∀ z : 𝕜, ((‖z‖ : 𝕜)) ^ 2 = starRingEnd 𝕜 z * z := fun z => (RCLike.conj_mul z).symm
    simp only [e1, map_sum, map_mul, sum_mul, mul_sum]
    rw [sum_comm]
    refine sum_congr rfl fun l hl => ?_
    rw [sum_comm]
    rw [sum_eq_single_of_mem l hl]
    · have := h l hl l hl
      rw [if_pos rfl] at this
      calc ∑ i ∈ range m, starRingEnd 𝕜 (U i l) * starRingEnd 𝕜 (c l) * (U i l * c l)
          = (starRingEnd 𝕜 (c l) * c l) * ∑ i ∈ range m, starRingEnd 𝕜 (U i l) * U i l := by
            rw [mul_sum]
            exact sum_congr rfl fun i _ => by ring
        _ = _ := by rw [this, mul_one]
    · intro k hk hne
      have := h k hk l hl
      rw [if_neg hne] at this
      calc ∑ i ∈ range m, starRingEnd 𝕜 (U i k) * starRingEnd 𝕜 (c k) * (U i l * c l)
          = (starRingEnd 𝕜 (c k) * c l) * ∑ i ∈ range m, starRingEnd 𝕜 (U i k) * U i l := by
            rw [mul_sum]
            exact sum_congr rfl fun i _ => by ring
        _ = _ := by rw [this, mul_zero]
  exact_mod_cast e

/-- Bessel's inequality for orthonormal rows. -/
theorem bessel {n : Nat} {S : Finset Nat} {V : Nat → Nat → 𝕜}
    (h : ∀ k ∈ S, ∀ l ∈ S, ∑ j ∈ range n, V k j * starRingEnd 𝕜 (V l j) = if k = l then 1 else 0)
    (x : Nat → 𝕜) :
    ∑ l ∈ S, ‖∑ j ∈ range n, V l j * x j‖ ^ 2 ≤ ∑ j ∈ range n, ‖x j‖ ^ 2 := by
  set d : Nat → 𝕜 := fun l => ∑ j ∈ range n, V l j * x j with hd
  set y : Nat → 𝕜 := fun j => ∑ l ∈ S, starRingEnd 𝕜 (V l j) * d l with hy
  have hyn : ∑ j ∈ range n, ‖y j‖ ^ 2 = ∑ l ∈ S, ‖d l‖ ^ 2 := by
    refine pythagoras (U := fun j l => starRingEnd 𝕜 (V l j)) (fun k hk l hl => ?_) d
    rw [← h k hk l hl]
    exact sum_congr rfl fun j _ => by simp
  have hxy : ∑ j ∈ range n, x j * starRingEnd 𝕜 (y j) = ((∑ l ∈ S, ‖d l‖ ^ 2 : ℝ) : 𝕜) := by
    push_cast
    simp only [hy, map_sum, map_mul, RCLike.conj_conj, mul_sum]
    rw [sum_comm]
    refine sum_congr rfl fun l _ => ?_
    rw [← RCLike.mul_conj, hd, sum_mul]
    exact sum_congr rfl fun j _ => by ring
  have h0 : 0 ≤ ∑ j ∈ range n, ‖x j - y j‖ ^ 2 := sum_nonneg fun j _ => sq_nonneg _
  have h1 : ∑ j ∈ range n, ‖x j - y j‖ ^ 2 = ∑ j ∈ range n, ‖x j‖ ^ 2 + ∑ j ∈ range n, ‖y j‖ ^ 2
      - 2 * RCLike.re (∑ j ∈ range n, x j * starRingEnd 𝕜 (y j)) := by
    rw [map_sum, mul_sum, ← sum_add_distrib, ← sum_sub_distrib]
    refine sum_congr rfl fun j _ => ?_
    simp only [← RCLike.normSq_eq_def']
    exact RCLike.normSq_sub _ _
  rw [hxy, RCLike.ofReal_re, hyn] at h1
  linarith

/-- The columns and rows with singular values other than 0 are orthonormal. -/
theorem IsThin.leftOrtho {m n : Nat} {A U V : Nat → Nat → 𝕜} {σ : Nat → ℝ} (h : IsThin m n A U V σ) {k l : Nat}
    (hk : k < min m n) (hl : l < min m n) (hσ : σ k ≠ 0) :
    ∑ i ∈ range m, starRingEnd 𝕜 (U i k) * U i l = if k = l then 1 else 0 := by
  split
  · rename_i e
    subst e
    exact (h.leftUnit k hk).resolve_right fun e => hσ e.1
  · rename_i e
    exact h.left k l hk hl e

theorem IsThin.rightOrtho {m n : Nat} {A U V : Nat → Nat → 𝕜} {σ : Nat → ℝ} (h : IsThin m n A U V σ) {k l : Nat}
    (hk : k < min m n) (hl : l < min m n) (hσ : σ k ≠ 0) :
    ∑ j ∈ range n, V k j * starRingEnd 𝕜 (V l j) = if k = l then 1 else 0 := by
  split
  · rename_i e
    subst e
    exact (h.rightUnit k hk).resolve_right fun e => hσ e.1
  · rename_i e
    exact h.right k l hk hl e

/-- A x with the decomposition. -/
theorem IsThin.apply {m n : Nat} {A U V : Nat → Nat → 𝕜} {σ : Nat → ℝ} (h : IsThin m n A U V σ) (x : Nat → 𝕜)
    {i : Nat} (hi : i < m) : ∑ j ∈ range n, A i j * x j
      = ∑ l ∈ range (min m n), U i l * ((σ l : 𝕜) * ∑ j ∈ range n, V l j * x j) := by
  simp only [mul_sum]
  rw [sum_comm]
  refine sum_congr rfl fun j hj => ?_
  rw [h.eq i j hi (mem_range.1 hj), sum_mul]
  exact sum_congr rfl fun l _ => by ring

/-- ‖A x‖ with the decomposition. -/
theorem IsThin.norm_apply {m n : Nat} {A U V : Nat → Nat → 𝕜} {σ : Nat → ℝ} (h : IsThin m n A U V σ)
    (x : Nat → 𝕜) : ∑ i ∈ range m, ‖∑ j ∈ range n, A i j * x j‖ ^ 2
      = ∑ l ∈ (range (min m n)).filter (fun l => σ l ≠ 0), σ l ^ 2 * ‖∑ j ∈ range n, V l j * x j‖ ^ 2 := by
  set S := (range (min m n)).filter (fun l => σ l ≠ 0) with hS
  have hp := pythagoras (m := m) (S := S) (U := U) (fun k hk l hl => by
    rw [hS, mem_filter, mem_range] at hk hl
    exact h.leftOrtho hk.1 hl.1 hk.2) fun l => (σ l : 𝕜) * ∑ j ∈ range n, V l j * x j
  have hr : ∀ l, ‖(σ l : 𝕜) * ∑ j ∈ range n, V l j * x j‖ ^ 2
      = σ l ^ 2 * ‖∑ j ∈ range n, V l j * x j‖ ^ 2 := by
    intro l
    rw [norm_mul, mul_pow, RCLike.norm_ofReal, sq_abs]
  simp only [hr] at hp
  rw [← hp]
  refine sum_congr rfl fun i hi => ?_
  rw [h.apply x (mem_range.1 hi), hS, sum_filter_of_ne]
  intro l _ hne hz
  simp [hz] at hne

/-- The singular values of one decomposition are not above those of another one. -/
theorem IsThin.le {m n : Nat} {A U V U' V' : Nat → Nat → 𝕜} {σ τ : Nat → ℝ} (h : IsThin m n A U V σ)
    (h' : IsThin m n A U' V' τ) {k : Nat} (hk : k < min m n) : σ k ≤ τ k := by
  by_contra hlt
  rw [not_le] at hlt
  have hτ := h'.nonneg k hk
  have hpos : ∀ l ≤ k, σ l ≠ 0 := fun l hl => by
    have := h.decr l k hl hk
    linarith
  -- a vector in the span of the first k + 1 rows of V, orthogonal to the first k rows of V'
  obtain ⟨c, hc0, hc⟩ : ∃ c : Fin (k + 1) → 𝕜, c ≠ 0 ∧
      Matrix.mulVec (Matrix.of fun (p : Fin k) (l : Fin (k + 1)) =>
        ∑ j ∈ range n, V' p j * starRingEnd 𝕜 (V l j)) c = 0 := by
    have := LinearMap.ker_ne_bot_of_finrank_lt (f := Matrix.mulVecLin (Matrix.of
      fun (p : Fin k) (l : Fin (k + 1)) => ∑ j ∈ range n, V' p j * starRingEnd 𝕜 (V l j))) (by simp)
    obtain ⟨c, h1, h2⟩ := Submodule.exists_mem_ne_zero_of_ne_bot this
    exact ⟨c, h2, h1⟩
  set C : Nat → 𝕜 := fun l => if hl : l < k + 1 then c ⟨l, hl⟩ else 0 with hC
  set x : Nat → 𝕜 := fun j => ∑ l ∈ range (k + 1), starRingEnd 𝕜 (V l j) * C l with hx
  have hVx : ∀ l < min m n, ∑ j ∈ range n, V l j * x j = if l < k + 1 then C l else 0 := by
    intro l hl
    simp only [hx, mul_sum]
    rw [sum_comm]
    have e : ∀ p ∈ range (k + 1), ∑ j ∈ range n, V l j * (starRingEnd 𝕜 (V p j) * C p)
        = if p = l then C p else 0 := by
      intro p hp
      rw [mem_range] at hp
      have hp' : p < min m n := by omega
      have := h.rightOrtho hp' hl (hpos p (by omega))
      have hcj := congrArg (starRingEnd 𝕜) this
      rw [map_sum] at hcj
      simp only [map_mul, RCLike.conj_conj] at hcj
      calc ∑ j ∈ range n, V l j * (starRingEnd 𝕜 (V p j) * C p)
          = (∑ j ∈ range n, starRingEnd 𝕜 (V p j) * V l j) * C p := by
            rw [sum_mul]
            exact sum_congr rfl fun j _ => by ring
        _ = _ := by
            rw [hcj]
            split <;> simp
    rw [sum_congr rfl e, sum_ite_eq' (range (k + 1)) l]
    simp only [mem_range]
  have hV'x : ∀ p < k, ∑ j ∈ range n, V' p j * x j = 0 := by
    intro p hp
    have := congrFun hc ⟨p, hp⟩
    simp only [Matrix.mulVec, dotProduct, Matrix.of_apply, Pi.zero_apply] at this
    rw [← this]
    simp only [hx, mul_sum]
    rw [sum_comm, sum_range]
    refine sum_congr rfl fun l _ => ?_
    rw [sum_mul]
    refine sum_congr rfl fun j _ => ?_
    simp only [hC, Fin.is_lt, dif_pos, Fin.eta]
    ring
  have hxn : ∑ j ∈ range n, ‖x j‖ ^ 2 = ∑ l ∈ range (k + 1), ‖C l‖ ^ 2 := by
    refine pythagoras (U := fun j l => starRingEnd 𝕜 (V l j)) (fun a ha l hl => ?_) C
    rw [mem_range] at ha hl
    rw [← h.rightOrtho (k := a) (l := l) (by omega) (by omega) (hpos a (by omega))]
    exact sum_congr rfl fun j _ => by simp
  have hCpos : 0 < ∑ l ∈ range (k + 1), ‖C l‖ ^ 2 := by
    obtain ⟨l, hl⟩ := Function.ne_iff.1 hc0
    refine sum_pos' (fun l _ => sq_nonneg _) ⟨l.1, mem_range.2 l.2, ?_⟩
    have : C l.1 = c l := by simp only [hC, Fin.is_lt, dif_pos, Fin.eta]
    rw [this]
    have : c l ≠ 0 := hl
    exact pow_pos (norm_pos_iff.2 this) 2
  have hlow : σ k ^ 2 * ∑ l ∈ range (k + 1), ‖C l‖ ^ 2 ≤ ∑ i ∈ range m, ‖∑ j ∈ range n, A i j * x j‖ ^ 2 := by
    rw [h.norm_apply x, mul_sum]
    have hsub : range (k + 1) ⊆ (range (min m n)).filter fun l => σ l ≠ 0 := by
      intro l hl
      rw [mem_range] at hl
      rw [mem_filter, mem_range]
      exact ⟨by omega, hpos l (by omega)⟩
    refine le_trans (sum_le_sum fun l hl => ?_)
      (sum_le_sum_of_subset_of_nonneg hsub fun l _ _ => mul_nonneg (sq_nonneg _) (sq_nonneg _))
    rw [mem_range] at hl
    rw [hVx l (by omega), if_pos hl]
    refine mul_le_mul_of_nonneg_right ?_ (sq_nonneg _)
    exact pow_le_pow_left₀ (h.nonneg k hk) (h.decr l k (by omega) hk) 2
  have hup : ∑ i ∈ range m, ‖∑ j ∈ range n, A i j * x j‖ ^ 2 ≤ τ k ^ 2 * ∑ l ∈ range (k + 1), ‖C l‖ ^ 2 := by
    rw [h'.norm_apply x, ← hxn]
    have hb := bessel (n := n) (S := (range (min m n)).filter fun l => τ l ≠ 0) (V := V') (fun a ha l hl => by
      rw [mem_filter, mem_range] at ha hl
      exact h'.rightOrtho ha.1 hl.1 ha.2) x
    refine le_trans ?_ (mul_le_mul_of_nonneg_left hb (sq_nonneg _))
    rw [mul_sum]
    refine sum_le_sum fun l hl => ?_
    rw [mem_filter, mem_range] at hl
    by_cases hlk : l < k
    · rw [hV'x l hlk]
      simp
    · refine mul_le_mul_of_nonneg_right ?_ (sq_nonneg _)
      exact pow_le_pow_left₀ (h'.nonneg l hl.1) (h'.decr k l (by omega) hl.1) 2
  have hsq : σ k ^ 2 ≤ τ k ^ 2 := le_of_mul_le_mul_right (hlow.trans hup) hCpos
  have := pow_lt_pow_left₀ hlt hτ (n := 2) (by norm_num)
  linarith

/-- All decompositions of a matrix have the same singular values. -/
theorem IsThin.unique {m n : Nat} {A U V U' V' : Nat → Nat → 𝕜} {σ τ : Nat → ℝ} (h : IsThin m n A U V σ)
    (h' : IsThin m n A U' V' τ) {k : Nat} (hk : k < min m n) : σ k = τ k :=
  le_antisymm (h.le h' hk) (h'.le h hk)

theorem IsSvd.thin {m n : Nat} {A U V : Nat → Nat → 𝕜} {σ : Nat → ℝ} (h : IsSvd m n A U V σ) :
    IsThin m n A U V σ where
  left k l hk hl hne := by rw [h.left.1 k l (by omega) (by omega), if_neg hne]
  right k l hk hl hne := by rw [h.right.2 k l (by omega) (by omega), if_neg hne]
  leftUnit l hl := .inl (by rw [h.left.1 l l (by omega) (by omega), if_pos rfl])
  rightUnit l hl := .inl (by rw [h.right.2 l l (by omega) (by omega), if_pos rfl])
  nonneg := h.nonneg
  decr := h.decr
  eq := h.eq

/-! ### Blocks -/

/-- The first q columns of u are orthonormal. -/
def Ortho (m q : Nat) (u : Nat → Nat → 𝕜) : Prop :=
  ∀ k l, k < q → l < q → ∑ i ∈ range m, starRingEnd 𝕜 (u i k) * u i l = if k = l then 1 else 0

theorem getD_lt {l : List Nat} {x : Nat} (h : x < l.length) : l.getD x 0 = l[x] := by
  simp [List.getD, h]

/-- A sum over the elements of a list. -/
theorem sum_list {M : Type} [AddCommMonoid M] {rs : List Nat} {m : Nat} (hn : rs.Nodup) (hb : ∀ i ∈ rs, i < m)
    (F : Nat → M) (hF : ∀ i < m, i ∉ rs → F i = 0) :
    ∑ i ∈ range m, F i = ∑ x ∈ range rs.length, F (rs.getD x 0) := by
  have e : ∑ i ∈ range m, F i = ∑ i ∈ (range m).filter (· ∈ rs), F i := by
    rw [sum_filter_of_ne]
    intro i hi hne
    by_contra h
    exact hne (hF i (mem_range.1 hi) h)
  rw [e]
  symm
  refine sum_nbij' (fun x => rs.getD x 0) (fun i => rs.idxOf i) ?_ ?_ ?_ ?_ ?_
  · intro x hx
    rw [mem_range] at hx
    rw [mem_filter, mem_range]
    have : rs.getD x 0 ∈ rs := by
      rw [getD_lt hx]
      exact List.getElem_mem hx
    exact ⟨hb _ this, this⟩
  · intro i hi
    rw [mem_filter] at hi
    rw [mem_range]
    exact List.idxOf_lt_length_of_mem hi.2
  · intro x hx
    rw [mem_range] at hx
    rw [getD_lt hx]
    exact hn.idxOf_getElem x hx
  · intro i hi
    rw [mem_filter] at hi
    rw [getD_lt (List.idxOf_lt_length_of_mem hi.2)]
    exact List.getElem_idxOf _
  · intro x _
    rfl

/-- The matrix u with the matrix w written at the rows rs and the columns from q to q + p - 1. -/
def written {α : Type} (rs : List Nat) (q p : Nat) (w u : Nat → Nat → α) (i l : Nat) : α :=
  if i ∈ rs ∧ q ≤ l ∧ l < q + p then w (rs.idxOf i) (l - q) else u i l

theorem written_old {α : Type} {rs : List Nat} {q p : Nat} {w u : Nat → Nat → α} {i l : Nat} (h : l < q) :
    written rs q p w u i l = u i l := by
  rw [written, if_neg (by omega)]

theorem written_ortho {rs : List Nat} {m q p : Nat} {w u : Nat → Nat → 𝕜} {R : Nat → Prop} (hn : rs.Nodup)
    (hb : ∀ i ∈ rs, i < m) (hR : ∀ i ∈ rs, ¬ R i) (hu : Ortho m q u) (hz : ∀ i l, q ≤ l → u i l = 0)
    (hs : ∀ i l, u i l ≠ 0 → R i) (hw : Ortho rs.length p w) : Ortho m (q + p) (written rs q p w u) := by
  have hnew : ∀ i l, q ≤ l → i ∉ rs → written rs q p w u i l = 0 := by
    intro i l hl hi
    rw [written, if_neg (by tauto), hz i l hl]
  have hold : ∀ i ∈ rs, ∀ l < q, written rs q p w u i l = 0 := by
    intro i hi l hl
    rw [written_old hl]
    by_contra h
    exact hR i hi (hs i l h)
  intro k l hk hl
  by_cases hkq : k < q
  · by_cases hlq : l < q
    · rw [← hu k l hkq hlq]
      exact sum_congr rfl fun i _ => by rw [written_old hkq, written_old hlq]
    · rw [if_neg (by omega)]
      refine sum_eq_zero fun i _ => ?_
      by_cases hi : i ∈ rs
      · rw [hold i hi k hkq]
        simp
      · rw [hnew i l (by omega) hi, mul_zero]
  · by_cases hlq : l < q
    · rw [if_neg (by omega)]
      refine sum_eq_zero fun i _ => ?_
      by_cases hi : i ∈ rs
      · rw [hold i hi l hlq, mul_zero]
      · rw [hnew i k (by omega) hi]
        simp
    · rw [sum_list hn hb _ (fun i _ hi => by rw [hnew i l (by omega) hi, mul_zero])]
      have := hw (k - q) (l - q) (by omega) (by omega)
      rw [show (if k = l then (1 : 𝕜) else 0) = if k - q = l - q then 1 else 0 from by
        by_cases e : k = l
        · rw [if_pos e, if_pos (by omega)]
        · rw [if_neg e, if_neg (by omega)], ← this]
      refine sum_congr rfl fun x hx => ?_
      rw [mem_range] at hx
      rw [getD_lt hx, written, written, if_pos ⟨List.getElem_mem hx, by omega, hk⟩,
        if_pos ⟨List.getElem_mem hx, by omega, hl⟩, hn.idxOf_getElem x hx]

/-- The decomposition of the matrix A, after q columns and rows. -/
structure Part (m n q : Nat) (R C : Nat → Prop) (A u v : Nat → Nat → 𝕜) (σ : Nat → ℝ) : Prop where
  left : Ortho m q u
  right : Ortho n q fun j l => v l j
  uzero : ∀ i l, q ≤ l → u i l = 0
  vzero : ∀ l j, q ≤ l → v l j = 0
  szero : ∀ l, q ≤ l → σ l = 0
  usupp : ∀ i l, u i l ≠ 0 → R i
  vsupp : ∀ l j, v l j ≠ 0 → C j
  nonneg : ∀ l, 0 ≤ σ l
  eq : ∀ i j, i < m → j < n → A i j = ∑ l ∈ range q, u i l * (σ l : 𝕜) * v l j

theorem Part.zero (m n : Nat) : Part m n 0 (fun _ => False) (fun _ => False) (fun _ _ => (0 : 𝕜))
    (fun _ _ => 0) (fun _ _ => 0) fun _ => 0 where
  left := fun k l hk => absurd hk (by omega)
  right := fun k l hk => absurd hk (by omega)
  uzero := by simp
  vzero := by simp
  szero := by simp
  usupp := by simp
  vsupp := by simp
  nonneg := by simp
  eq := by simp

/-- The decomposition of one more block. -/
theorem Part.step {m n q p : Nat} {R C : Nat → Prop} {A B u v w z : Nat → Nat → 𝕜} {σ τ : Nat → ℝ}
    (h : Part m n q R C A u v σ) {rs cs : List Nat} (hrn : rs.Nodup) (hcn : cs.Nodup) (hrb : ∀ i ∈ rs, i < m)
    (hcb : ∀ j ∈ cs, j < n) (hR : ∀ i ∈ rs, ¬ R i) (hC : ∀ j ∈ cs, ¬ C j) (hw : Ortho rs.length p w)
    (hz : Ortho cs.length p fun y l => z l y) (hτ : ∀ l < p, 0 ≤ τ l)
    (heq : ∀ i ∈ rs, ∀ j ∈ cs, B i j = ∑ l ∈ range p, w (rs.idxOf i) l * (τ l : 𝕜) * z l (cs.idxOf j))
    (hB : ∀ i < m, ∀ j < n, ¬ (i ∈ rs ∧ j ∈ cs) → B i j = A i j) :
    Part m n (q + p) (fun i => R i ∨ i ∈ rs) (fun j => C j ∨ j ∈ cs) B (written rs q p w u)
      (fun l j => written cs q p (fun y l => z l y) (fun j l => v l j) j l)
      (fun l => if q ≤ l ∧ l < q + p then τ (l - q) else σ l) where
  left := written_ortho hrn hrb hR h.left h.uzero h.usupp hw
  right := written_ortho hcn hcb hC h.right (fun j l hl => h.vzero l j hl) (fun j l => h.vsupp l j) hz
  uzero i l hl := by rw [written, if_neg (by omega), h.uzero i l (by omega)]
  vzero l j hl := by rw [written, if_neg (by omega), h.vzero l j (by omega)]
  szero l hl := by rw [if_neg (by omega), h.szero l (by omega)]
  usupp i l hne := by
    rw [written] at hne
    split at hne
    · rename_i hc
      exact .inr hc.1
    · exact .inl (h.usupp i l hne)
  vsupp l j hne := by
    rw [written] at hne
    split at hne
    · rename_i hc
      exact .inr hc.1
    · exact .inl (h.vsupp l j hne)
  nonneg l := by
    split
    · exact hτ _ (by omega)
    · exact h.nonneg l
  eq i j hi hj := by
    rw [sum_range_add]
    have e1 : ∑ l ∈ range q, written rs q p w u i l * ((if q ≤ l ∧ l < q + p then τ (l - q) else σ l : ℝ) : 𝕜)
        * written cs q p (fun y l => z l y) (fun j l => v l j) j l = A i j := by
      rw [h.eq i j hi hj]
      refine sum_congr rfl fun l hl => ?_
      rw [mem_range] at hl
      rw [written_old hl, written_old hl, if_neg (by omega)]
    rw [e1]
    by_cases hij : i ∈ rs ∧ j ∈ cs
    · have e2 : A i j = 0 := by
        rw [h.eq i j hi hj]
        refine sum_eq_zero fun l _ => ?_
        have : u i l = 0 := by
          by_contra hne
          exact hR i hij.1 (h.usupp i l hne)
        rw [this, zero_mul, zero_mul]
      rw [e2, zero_add, heq i hij.1 j hij.2]
      refine sum_congr rfl fun l hl => ?_
      rw [mem_range] at hl
      rw [written, written, if_pos ⟨hij.1, by omega, by omega⟩, if_pos (c := _ ∧ _) ⟨by omega, by omega⟩,
        if_pos ⟨hij.2, by omega, by omega⟩, Nat.add_sub_cancel_left]
    · rw [hB i hi j hj hij, sum_eq_zero, add_zero]
      intro l _
      rw [not_and_or] at hij
      rcases hij with hij | hij
      · rw [written, if_neg (by tauto), h.uzero i _ (by omega), zero_mul, zero_mul]
      · have : written cs q p (fun y l => z l y) (fun j l => v l j) j (q + l) = 0 := by
          rw [written, if_neg (by tauto), h.vzero _ j (by omega)]
        rw [this, mul_zero]

/-- The decomposition with the singular values in another order. -/
theorem Part.thin {m n q : Nat} {R C : Nat → Prop} {A u v : Nat → Nat → 𝕜} {σ : Nat → ℝ}
    (h : Part m n q R C A u v σ) (hq : q ≤ min m n) {o : List Nat} (ho : o.Perm (List.range (min m n)))
    (hd : ∀ k l, k ≤ l → l < min m n → σ (o.getD l 0) ≤ σ (o.getD k 0)) :
    IsThin m n A (fun i l => u i (o.getD l 0)) (fun l j => v (o.getD l 0) j) (fun l => σ (o.getD l 0)) := by
  have hlen : o.length = min m n := by rw [ho.length_eq, List.length_range]
  have hnd : o.Nodup := ho.nodup_iff.2 List.nodup_range
  have hne : ∀ k l, k < min m n → l < min m n → k ≠ l → o.getD k 0 ≠ o.getD l 0 := by
    intro k l hk hl hkl e
    rw [getD_lt (by omega), getD_lt (by omega)] at e
    exact hkl ((hnd.getElem_inj_iff).1 e)
  refine ⟨?_, ?_, ?_, ?_, fun l _ => h.nonneg _, hd, ?_⟩
  · intro k l hk hl hkl
    by_cases h1 : o.getD k 0 < q
    · by_cases h2 : o.getD l 0 < q
      · rw [h.left _ _ h1 h2, if_neg (hne k l hk hl hkl)]
      · exact sum_eq_zero fun i _ => by rw [h.uzero i (o.getD l 0) (by omega), mul_zero]
    · exact sum_eq_zero fun i _ => by rw [h.uzero i (o.getD k 0) (by omega), map_zero, zero_mul]
  · intro k l hk hl hkl
    by_cases h1 : o.getD k 0 < q
    · by_cases h2 : o.getD l 0 < q
      · have := h.right _ _ h2 h1
        rw [if_neg (hne l k hl hk (Ne.symm hkl))] at this
        rw [← this]
        exact sum_congr rfl fun j _ => mul_comm _ _
      · exact sum_eq_zero fun i _ => by rw [h.vzero (o.getD l 0) i (by omega), map_zero, mul_zero]
    · exact sum_eq_zero fun i _ => by rw [h.vzero (o.getD k 0) i (by omega), zero_mul]
  · intro l hl
    by_cases h1 : o.getD l 0 < q
    · left
      rw [h.left _ _ h1 h1, if_pos rfl]
    · right
      exact ⟨h.szero _ (by omega), fun i _ => h.uzero i _ (by omega)⟩
  · intro l hl
    by_cases h1 : o.getD l 0 < q
    · left
      have := h.right _ _ h1 h1
      rw [if_pos rfl] at this
      rw [← this]
      exact sum_congr rfl fun j _ => mul_comm _ _
    · right
      exact ⟨h.szero _ (by omega), fun i _ => h.vzero _ i (by omega)⟩
  · intro i j hi hj
    have e := sum_list (m := min m n) hnd (fun i hi => List.mem_range.1 (ho.mem_iff.1 hi))
      (fun l => u i l * (σ l : 𝕜) * v l j)
      (fun l hl hno => absurd (ho.mem_iff.2 (List.mem_range.2 hl)) hno)
    rw [hlen] at e
    rw [← e, h.eq i j hi hj]
    refine sum_subset (range_subset_range.2 hq) fun l _ hl => ?_
    rw [mem_range] at hl
    rw [h.uzero i l (by omega), zero_mul, zero_mul]

end Verif.Spec
