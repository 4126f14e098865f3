import Mathlib.Analysis.InnerProductSpace.Symmetric
import Mathlib.LinearAlgebra.FiniteDimensional.Basic
import Mathlib.LinearAlgebra.Dimension.Finrank
import Mathlib.Tactic.LinearCombination
/-
The conjugate gradient method over a space with an inner product: residuals are orthogonal.
-/
namespace Verif.Cgs

open Submodule

variable {𝕜 E : Type*} [RCLike 𝕜] [NormedAddCommGroup E] [InnerProductSpace 𝕜 E]

local notation "⟪" x ", " y "⟫" => inner 𝕜 x y

/-- What holds before an iteration: `K` is the space of previous residuals. -/
structure Conj (L : E →ₗ[𝕜] E) (K : Submodule 𝕜 E) (r p : E) : Prop where
  orth : ∀ w ∈ K, ⟪w, r⟫ = 0
  conj : ∀ w ∈ K, ⟪w, L p⟫ = 0
  diff : p - r ∈ K
  step : ∀ w ∈ K, L w ∈ K ⊔ 𝕜 ∙ r

theorem Conj.start (L : E →ₗ[𝕜] E) (r : E) : Conj L ⊥ r r where
  orth := by intro w hw; rw [(mem_bot 𝕜).1 hw, inner_zero_left]
  conj := by intro w hw; rw [(mem_bot 𝕜).1 hw, inner_zero_left]
  diff := by simp
  step := by intro w hw; rw [(mem_bot 𝕜).1 hw, map_zero]; exact zero_mem _

theorem Conj.inner_p {L : E →ₗ[𝕜] E} {K : Submodule 𝕜 E} {r p : E} (h : Conj L K r p) :
    ⟪r, L p⟫ = ⟪p, L p⟫ := by
  have := h.conj _ h.diff
  rw [inner_sub_left, sub_eq_zero] at this
  exact this.symm

theorem Conj.norm_p {L : E →ₗ[𝕜] E} {K : Submodule 𝕜 E} {r p : E} (h : Conj L K r p) :
    ‖r‖ ≤ ‖p‖ := by
  have h1 : ⟪p - r, r⟫ = 0 := h.orth _ h.diff
  have h2 : ‖p - r + r‖ * ‖p - r + r‖ = ‖p - r‖ * ‖p - r‖ + ‖r‖ * ‖r‖ :=
    norm_add_sq_eq_norm_sq_add_norm_sq_of_inner_eq_zero _ _ h1
  rw [sub_add_cancel] at h2
  nlinarith [norm_nonneg p, norm_nonneg r, norm_nonneg (p - r)]

theorem Conj.next {L : E →ₗ[𝕜] E} (hL : L.IsSymmetric) {K : Submodule 𝕜 E} {r p : E} (h : Conj L K r p)
    {a g : 𝕜} (hp : ⟪p, L p⟫ ≠ 0) (hr : ⟪r, r⟫ ≠ 0) (ha : a = ⟪r, r⟫ / ⟪p, L p⟫)
    (hg : g = ⟪r - a • L p, r - a • L p⟫ / ⟪r, r⟫) :
    Conj L (K ⊔ 𝕜 ∙ r) (r - a • L p) (r - a • L p + g • p) := by
  have ha0 : a ≠ 0 := by rw [ha]; exact div_ne_zero hr hp
  have hpr : starRingEnd 𝕜 ⟪p, L p⟫ = ⟪p, L p⟫ := by rw [inner_conj_symm]; exact hL p p
  have hrr : starRingEnd 𝕜 ⟪r, r⟫ = ⟪r, r⟫ := inner_conj_symm _ _
  have har : starRingEnd 𝕜 a = a := by rw [ha, map_div₀, hpr, hrr]
  have hrK : r ∈ K ⊔ 𝕜 ∙ r := mem_sup_right (mem_span_singleton_self r)
  have hpK : p ∈ K ⊔ 𝕜 ∙ r := by
    have : p = (p - r) + r := by abel
    rw [this]
    exact add_mem (mem_sup_left h.diff) hrK
  -- the new residual
  have horth : ∀ w ∈ K ⊔ 𝕜 ∙ r, ⟪w, r - a • L p⟫ = 0 := by
    intro w hw
    obtain ⟨u, hu, v, hv, rfl⟩ := mem_sup.1 hw
    obtain ⟨c, rfl⟩ := mem_span_singleton.1 hv
    rw [inner_add_left, inner_sub_right, inner_smul_right, h.orth u hu, h.conj u hu, inner_smul_left,
      inner_sub_right, inner_smul_right, h.inner_p, ha, div_mul_cancel₀ _ hp]
    ring
  have hLp : L p = a⁻¹ • (r - (r - a • L p)) := by
    rw [sub_sub_cancel, smul_smul, inv_mul_cancel₀ ha0, one_smul]
  have hstep : ∀ w ∈ K ⊔ 𝕜 ∙ r, L w ∈ (K ⊔ 𝕜 ∙ r) ⊔ 𝕜 ∙ (r - a • L p) := by
    intro w hw
    obtain ⟨u, hu, v, hv, rfl⟩ := mem_sup.1 hw
    obtain ⟨c, rfl⟩ := mem_span_singleton.1 hv
    have h1 : L p ∈ (K ⊔ 𝕜 ∙ r) ⊔ 𝕜 ∙ (r - a • L p) := by
      have h2 : r - (r - a • L p) ∈ (K ⊔ 𝕜 ∙ r) ⊔ 𝕜 ∙ (r - a • L p) :=
        sub_mem (mem_sup_left hrK) (mem_sup_right (mem_span_singleton_self _))
      have h3 := smul_mem _ a⁻¹ h2
      rwa [← hLp] at h3
    have h2 : L r ∈ (K ⊔ 𝕜 ∙ r) ⊔ 𝕜 ∙ (r - a • L p) := by
      have : r = p - (p - r) := by abel
      rw [this, map_sub, ← this]
      exact sub_mem h1 (mem_sup_left (h.step _ h.diff))
    rw [map_add, map_smul]
    exact add_mem (mem_sup_left (h.step u hu)) (smul_mem _ c h2)
  refine ⟨horth, ?_, ?_, hstep⟩
  · -- the new direction
    have hK : ∀ w ∈ K, ⟪w, L (r - a • L p + g • p)⟫ = 0 := by
      intro w hw
      rw [map_add, map_smul, inner_add_right, inner_smul_right, h.conj w hw, mul_zero, add_zero, ← hL]
      exact horth _ (h.step w hw)
    have hP : ⟪p, L (r - a • L p + g • p)⟫ = 0 := by
      have e1 : ⟪p, L (r - a • L p)⟫ = ⟪L p, r - a • L p⟫ := (hL _ _).symm
      have e2 : ⟪L p, r - a • L p⟫ = - (a⁻¹ * ⟪r - a • L p, r - a • L p⟫) := by
        conv_lhs => rw [hLp]
        rw [inner_smul_left, map_inv₀, har, inner_sub_left (𝕜 := 𝕜) r]
        rw [← hLp, horth r hrK]
        ring
      rw [map_add, map_smul, inner_add_right, inner_smul_right, e1, e2, hg, ha]
      field_simp
      ring
    intro w hw
    obtain ⟨u, hu, v, hv, rfl⟩ := mem_sup.1 hw
    obtain ⟨c, rfl⟩ := mem_span_singleton.1 hv
    have : r = p - (p - r) := by abel
    rw [inner_add_left, hK u hu, zero_add, inner_smul_left]
    have h2 : ⟪r, L (r - a • L p + g • p)⟫ = 0 := by
      have h3 : ⟪p - (p - r), L (r - a • L p + g • p)⟫ = 0 := by
        rw [inner_sub_left, hP, hK _ h.diff, sub_zero]
      rwa [← this] at h3
    rw [h2, mul_zero]
  · have : r - a • L p + g • p - (r - a • L p) = g • p := by abel
    rw [this]
    exact smul_mem _ g hpK

/-- A residual which is not zero makes the space larger. -/
theorem Conj.finrank {L : E →ₗ[𝕜] E} {K : Submodule 𝕜 E} [FiniteDimensional 𝕜 K] {r p : E}
    (h : Conj L K r p) (hr : r ≠ 0) :
    Module.finrank 𝕜 (K ⊔ 𝕜 ∙ r : Submodule 𝕜 E) = Module.finrank 𝕜 K + 1 := by
  have hd : K ⊓ 𝕜 ∙ r = ⊥ := by
    rw [eq_bot_iff]
    intro w hw
    obtain ⟨h1, h2⟩ := mem_inf.1 hw
    obtain ⟨c, rfl⟩ := mem_span_singleton.1 h2
    have := h.orth _ h1
    rw [inner_smul_left, mul_eq_zero] at this
    rcases this with h3 | h3
    · rw [(map_eq_zero _).1 h3, zero_smul]; exact zero_mem _
    · exact absurd (inner_self_eq_zero.1 h3) hr
  have := finrank_sup_add_finrank_inf_eq K (𝕜 ∙ r)
  rw [hd, finrank_bot, add_zero, finrank_span_singleton hr] at this
  exact this

end Verif.Cgs
