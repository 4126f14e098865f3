import Verif.Spec.Svd
import Mathlib.Analysis.Matrix.Spectrum
import Mathlib.Analysis.Matrix.PosDef
import Mathlib.Data.Fin.Tuple.Sort
/-
Every matrix has a singular value decomposition, so that there are routines which do what the manual of
gesvd says. It shows that the hypotheses about gesvd can be met.
-/
namespace Verif.Spec

open Finset Matrix
open scoped ComplexOrder

variable {𝕜 : Type} [RCLike 𝕜]

/-- Orthonormal bases are unitary matrices. -/
theorem basis_unitary {n : Nat} (b : OrthonormalBasis (Fin n) 𝕜 (EuclideanSpace 𝕜 (Fin n))) :
    (∀ k l, ∑ i, starRingEnd 𝕜 (b k i) * b l i = if k = l then 1 else 0) ∧
      ∀ k l, ∑ i, b i k * starRingEnd 𝕜 (b i l) = if k = l then 1 else 0 := by
  have h1 : ∀ k l, ∑ i, starRingEnd 𝕜 (b k i) * b l i = if k = l then 1 else 0 := fun k l => by
    have := orthonormal_iff_ite.1 b.orthonormal k l
    rw [PiLp.inner_apply] at this
    rw [← this]
    exact sum_congr rfl fun i _ => by simp [mul_comm]
  refine ⟨h1, fun k l => ?_⟩
  let M : Matrix (Fin n) (Fin n) 𝕜 := Matrix.of fun i j => b j i
  have e : Mᴴ * M = 1 := by
    ext k l
    rw [Matrix.mul_apply, Matrix.one_apply, ← h1 k l]
    rfl
  have e0 : M * Mᴴ = 1 := mul_eq_one_comm.1 e
  have e' := congrFun (congrFun e0 k) l
  rw [Matrix.mul_apply, Matrix.one_apply] at e'
  rw [← e']
  rfl

theorem exists_fin (m n : Nat) (M : Matrix (Fin m) (Fin n) 𝕜) :
    ∃ (u : OrthonormalBasis (Fin m) 𝕜 (EuclideanSpace 𝕜 (Fin m)))
      (v : OrthonormalBasis (Fin n) 𝕜 (EuclideanSpace 𝕜 (Fin n))) (σ : Nat → ℝ),
      (∀ l, 0 ≤ σ l) ∧ (∀ k l, k ≤ l → σ l ≤ σ k) ∧
      ∀ (j : Fin n), (∀ h : j.1 < m, M *ᵥ (v j).ofLp = (σ j : 𝕜) • (u ⟨j, h⟩).ofLp) ∧
        (m ≤ j.1 → M *ᵥ (v j).ofLp = 0) := by
  classical
  have hH : (Mᴴ * M).IsHermitian := isHermitian_conjTranspose_mul_self M
  have hpos : (Mᴴ * M).PosSemidef := posSemidef_conjTranspose_mul_self M
  let π := Tuple.sort fun j => - hH.eigenvalues j
  have hπ : Monotone ((fun j => - hH.eigenvalues j) ∘ π) := Tuple.monotone_sort _
  let v := hH.eigenvectorBasis.reindex π.symm
  let lam : Fin n → ℝ := fun j => hH.eigenvalues (π j)
  have hlam : ∀ j, 0 ≤ lam j := fun j => hpos.eigenvalues_nonneg _
  have hanti : ∀ i j, i ≤ j → lam j ≤ lam i := fun i j h => by
    have := hπ h
    simp only [Function.comp] at this
    show hH.eigenvalues (π j) ≤ hH.eigenvalues (π i)
    linarith
  have hv : ∀ j, (Mᴴ * M) *ᵥ (v j).ofLp = lam j • (v j).ofLp := fun j => by
    have := hH.mulVec_eigenvectorBasis (π j)
    simpa [v, lam] using this
  let w : Fin n → EuclideanSpace 𝕜 (Fin m) := fun j => WithLp.toLp 2 (M *ᵥ (v j).ofLp)
  have hw : ∀ i j, inner 𝕜 (w i) (w j) = if i = j then (lam i : 𝕜) else 0 := fun i j => by
    have e : inner 𝕜 (w i) (w j) = (lam j : 𝕜) * inner 𝕜 (v i) (v j) := by
      have h1 : inner 𝕜 (w i) (w j) = star (M *ᵥ (v i).ofLp) ⬝ᵥ (M *ᵥ (v j).ofLp) := by
        rw [EuclideanSpace.inner_eq_star_dotProduct, dotProduct_comm]
      have h2 : inner 𝕜 (v i) (v j) = star (v i).ofLp ⬝ᵥ (v j).ofLp := by
        rw [EuclideanSpace.inner_eq_star_dotProduct, dotProduct_comm]
      rw [h1, h2, star_mulVec, dotProduct_mulVec, vecMul_vecMul, ← dotProduct_mulVec, hv j]
      rw [show lam j • (v j).ofLp = (lam j : 𝕜) • (v j).ofLp from
        RCLike.real_smul_eq_coe_smul (K := 𝕜) _ _, dotProduct_smul, smul_eq_mul]
    rw [e, orthonormal_iff_ite.1 v.orthonormal i j]
    split_ifs with h
    · rw [h, mul_one]
    · rw [mul_zero]
  have hsm : ∀ j : Fin n, m ≤ j.1 → lam j = 0 := fun j hj => by
    by_contra hne
    have hp : 0 < lam j := lt_of_le_of_ne (hlam j) (Ne.symm hne)
    have li : LinearIndependent 𝕜 fun k : Fin (m + 1) => w ⟨k, by have := k.2; have := j.2; omega⟩ := by
      refine linearIndependent_of_ne_zero_of_inner_eq_zero (fun k h0 => ?_) fun k l hkl => ?_
      · have h1 := hw ⟨k, by have := k.2; have := j.2; omega⟩ ⟨k, by have := k.2; have := j.2; omega⟩
        rw [h0, inner_zero_left, if_pos rfl] at h1
        have h2 := hanti ⟨k, by have := k.2; have := j.2; omega⟩ j
          (show k.1 ≤ j.1 by have := k.2; omega)
        have h3 : lam ⟨k, by have := k.2; have := j.2; omega⟩ = 0 := by exact_mod_cast h1.symm
        linarith
      · beta_reduce
        rw [hw, if_neg]
        intro h
        apply hkl
        apply Fin.ext
        simpa using h
    have := li.fintype_card_le_finrank
    simp at this
  have hz : ∀ j, lam j = 0 → w j = 0 := fun j hj => by
    have := hw j j
    rw [if_pos rfl, hj, RCLike.ofReal_zero] at this
    exact inner_self_eq_zero.1 this
  let f : Fin m → EuclideanSpace 𝕜 (Fin m) := fun i =>
    if h : i.1 < n then ((Real.sqrt (lam ⟨i, h⟩))⁻¹ : 𝕜) • w ⟨i, h⟩ else 0
  let s : Set (Fin m) := {i | ∃ h : i.1 < n, lam ⟨i, h⟩ ≠ 0}
  have hs : Orthonormal 𝕜 (s.domRestrict f) := by
    rw [orthonormal_iff_ite]
    rintro ⟨i, hi, hi'⟩ ⟨j, hj, hj'⟩
    have ef : ∀ (i : Fin m) (h : i.1 < n), f i = ((Real.sqrt (lam ⟨i, h⟩))⁻¹ : 𝕜) • w ⟨i, h⟩ :=
      fun i h => dif_pos h
    show inner 𝕜 (f i) (f j) = _
    rw [ef i hi, ef j hj, inner_smul_left, inner_smul_right, hw]
    by_cases hij : i = j
    · subst hij
      rw [if_pos rfl, if_pos rfl]
      have hp : 0 < lam ⟨i, hi⟩ := lt_of_le_of_ne (hlam _) (Ne.symm hi')
      have : (Real.sqrt (lam ⟨i, hi⟩))⁻¹ * ((Real.sqrt (lam ⟨i, hi⟩))⁻¹ * lam ⟨i, hi⟩) = 1 := by
        have h2 := Real.mul_self_sqrt hp.le
        have h3 := (Real.sqrt_pos.2 hp).ne'
        field_simp
        nlinarith
      rw [map_inv₀, RCLike.conj_ofReal]
      exact_mod_cast congrArg (fun x : ℝ => (x : 𝕜)) this
    · rw [if_neg, if_neg, mul_zero, mul_zero]
      · simpa using hij
      · intro h
        apply hij
        apply Fin.ext
        simpa using h
  obtain ⟨u, hu⟩ := hs.exists_orthonormalBasis_extension_of_card_eq (by simp)
  refine ⟨u, v, fun l => if h : l < n then Real.sqrt (lam ⟨l, h⟩) else 0, fun l => ?_, fun k l hkl => ?_,
    fun j => ⟨fun h => ?_, fun h => ?_⟩⟩
  · beta_reduce
    split
    · exact Real.sqrt_nonneg _
    · exact le_refl _
  · beta_reduce
    by_cases hl : l < n
    · rw [dif_pos hl, dif_pos (by omega)]
      exact Real.sqrt_le_sqrt (hanti _ _ hkl)
    · rw [dif_neg hl]
      split
      · exact Real.sqrt_nonneg _
      · exact le_refl _
  · beta_reduce
    rw [dif_pos j.2]
    by_cases h0 : lam j = 0
    · have := hz j h0
      have h1 : M *ᵥ (v j).ofLp = 0 := by simpa [w] using congrArg WithLp.ofLp this
      rw [h1, h0]
      simp
    · have hp : 0 < lam j := lt_of_le_of_ne (hlam j) (Ne.symm h0)
      rw [hu ⟨j, h⟩ ⟨j.2, h0⟩]
      have ef : f ⟨j, h⟩ = ((Real.sqrt (lam j))⁻¹ : 𝕜) • w j := dif_pos j.2
      rw [ef]
      have h3 : ((Real.sqrt (lam j) : ℝ) : 𝕜) ≠ 0 := by exact_mod_cast (Real.sqrt_pos.2 hp).ne'
      show M *ᵥ (v j).ofLp = ((Real.sqrt (lam j) : ℝ) : 𝕜) • (((Real.sqrt (lam j) : ℝ) : 𝕜)⁻¹ • M *ᵥ (v j).ofLp)
      rw [smul_smul, mul_inv_cancel₀ h3, one_smul]
  · simpa [w] using congrArg WithLp.ofLp (hz j (hsm j h))

/-- Every matrix has a singular value decomposition. -/
theorem exists_isSvd (m n : Nat) (A : Nat → Nat → 𝕜) : ∃ U V σ, IsSvd m n A U V σ := by
  obtain ⟨u, v, σ, h1, h2, h3⟩ := exists_fin m n (Matrix.of fun i j => A i j : Matrix (Fin m) (Fin n) 𝕜)
  have hu := basis_unitary u
  have hv := basis_unitary v
  refine ⟨fun i j => if h : i < m ∧ j < m then u ⟨j, h.2⟩ ⟨i, h.1⟩ else 0,
    fun i j => if h : i < n ∧ j < n then starRingEnd 𝕜 (v ⟨i, h.1⟩ ⟨j, h.2⟩) else 0, σ,
    ⟨fun k l hk hl => ?_, fun k l hk hl => ?_⟩, ⟨fun k l hk hl => ?_, fun k l hk hl => ?_⟩,
    fun l _ => h1 l, fun k l h _ => h2 k l h, fun i j hi hj => ?_⟩
  · rw [sum_range]
    have := hu.1 ⟨k, hk⟩ ⟨l, hl⟩
    simp only [Fin.mk.injEq] at this
    rw [← this]
    exact sum_congr rfl fun i _ => by beta_reduce; rw [dif_pos ⟨i.2, hk⟩, dif_pos ⟨i.2, hl⟩]
  · rw [sum_range]
    have := hu.2 ⟨k, hk⟩ ⟨l, hl⟩
    simp only [Fin.mk.injEq] at this
    rw [← this]
    exact sum_congr rfl fun i _ => by beta_reduce; rw [dif_pos ⟨hk, i.2⟩, dif_pos ⟨hl, i.2⟩]
  · rw [sum_range]
    have := hv.2 ⟨k, hk⟩ ⟨l, hl⟩
    simp only [Fin.mk.injEq] at this
    rw [← this]
    exact sum_congr rfl fun i _ => by beta_reduce; rw [dif_pos ⟨i.2, hk⟩, dif_pos ⟨i.2, hl⟩, RCLike.conj_conj]
  · rw [sum_range]
    have := hv.1 ⟨k, hk⟩ ⟨l, hl⟩
    simp only [Fin.mk.injEq] at this
    rw [← this]
    exact sum_congr rfl fun i _ => by beta_reduce; rw [dif_pos ⟨hk, i.2⟩, dif_pos ⟨hl, i.2⟩, RCLike.conj_conj]
  · have e : ∀ l : Fin n, (∑ k : Fin n, A i k * v l k) * starRingEnd 𝕜 (v l ⟨j, hj⟩)
        = if h : l.1 < m then (u ⟨l, h⟩ ⟨i, hi⟩) * (σ l : 𝕜) * starRingEnd 𝕜 (v l ⟨j, hj⟩) else 0 := by
      intro l
      have h4 : ∑ k : Fin n, A i k * v l k
          = ((Matrix.of fun i j => A i j : Matrix (Fin m) (Fin n) 𝕜) *ᵥ (v l).ofLp) ⟨i, hi⟩ := rfl
      split_ifs with h
      · rw [h4, (h3 l).1 h]
        simp [mul_comm]
      · rw [h4, (h3 l).2 (by omega)]
        simp
    have h5 : A i j = ∑ l : Fin n, (∑ k : Fin n, A i k * v l k) * starRingEnd 𝕜 (v l ⟨j, hj⟩) := by
      simp only [sum_mul]
      rw [sum_comm]
      simp only [mul_assoc, ← mul_sum, hv.2]
      simp
    rw [h5, sum_congr rfl fun l _ => e l]
    let F : Nat → 𝕜 := fun l => if l < m then (if h : i < m ∧ l < m then u ⟨l, h.2⟩ ⟨i, h.1⟩ else 0) * (σ l : 𝕜)
      * (if h : l < n ∧ j < n then starRingEnd 𝕜 (v ⟨l, h.1⟩ ⟨j, h.2⟩) else 0) else 0
    have h6 : ∀ l : Fin n, (if h : l.1 < m then (u ⟨l, h⟩ ⟨i, hi⟩) * (σ l : 𝕜) * starRingEnd 𝕜 (v l ⟨j, hj⟩) else 0)
        = F l := by
      intro l
      by_cases h : l.1 < m
      · simp only [F]
        rw [dif_pos h, if_pos h, dif_pos ⟨hi, h⟩, dif_pos ⟨l.2, hj⟩]
      · simp only [F]
        rw [dif_neg h, if_neg h]
    rw [sum_congr rfl fun l _ => h6 l, ← sum_range F, ← sum_filter]
    refine sum_congr ?_ fun l _ => rfl
    ext l
    simp
    omega

end Verif.Spec
