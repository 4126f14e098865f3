import Verif.Model.Power
import Verif.Props.CgsConv
import Verif.Props.CgsMatrix
/-
C65: the power method.
-/
namespace Verif.Power

open Verif Spec Tensor Cgs

section
variable {𝕜 : Type} [RCLike 𝕜] {n : Nat} {d : List Nat}

/-- The functions over real or complex numbers. -/
noncomputable def exact (𝕜 : Type) [RCLike 𝕜] : Num 𝕜 ℝ where
  conj := starRingEnd 𝕜
  abs := fun x => ‖x‖
  re := RCLike.re
  sqrt := Real.sqrt
  up := fun x => (x : 𝕜)

/-- The vector divided by its length. -/
noncomputable def nrm (x : Fin n → 𝕜) : Fin n → 𝕜 := ((‖ev x‖ : ℝ) : 𝕜)⁻¹ • x

/-- The scalar product of a vector and its image. -/
def ray (L : (Fin n → 𝕜) →ₗ[𝕜] (Fin n → 𝕜)) (v : Fin n → 𝕜) : 𝕜 := ∑ i, v i * starRingEnd 𝕜 (L v i)

theorem ev_ne {x : Fin n → 𝕜} (hx : x ≠ 0) : ev x ≠ 0 := fun h => hx ((WithLp.toLp_eq_zero 2).1 h)

theorem ev_smul (c : 𝕜) (x : Fin n → 𝕜) : ev (c • x) = c • ev x := rfl

theorem norm_nrm {x : Fin n → 𝕜} (hx : x ≠ 0) : ‖ev (nrm x)‖ = 1 := by
  have : ‖ev x‖ ≠ 0 := norm_ne_zero_iff.2 (ev_ne hx)
  rw [nrm, ev_smul, norm_smul, norm_inv, RCLike.norm_ofReal, abs_of_nonneg (norm_nonneg _), inv_mul_cancel₀ this]

theorem nrm_ne {x : Fin n → 𝕜} (hx : x ≠ 0) : nrm x ≠ 0 := by
  intro h
  have := norm_nrm hx
  rw [h] at this
  simp at this

theorem nrm_scale {c : ℝ} (hc : 0 < c) (x : Fin n → 𝕜) : nrm ((c : 𝕜) • x) = nrm x := by
  rw [nrm, nrm, ev_smul, norm_smul, RCLike.norm_ofReal, abs_of_pos hc, smul_smul]
  congr 1
  have : (c : 𝕜) ≠ 0 := by exact_mod_cast hc.ne'
  push_cast
  rw [mul_inv, mul_right_comm, inv_mul_cancel₀ this, one_mul]

theorem nrm_map (L : (Fin n → 𝕜) →ₗ[𝕜] (Fin n → 𝕜)) {x : Fin n → 𝕜} (hx : x ≠ 0) :
    nrm (L (nrm x)) = nrm (L x) := by
  have : 0 < ‖ev x‖⁻¹ := inv_pos.2 (norm_pos_iff.2 (ev_ne hx))
  rw [nrm.eq_1 x, map_smul, ← RCLike.ofReal_inv, nrm_scale this]

theorem map_nrm_ne (L : (Fin n → 𝕜) →ₗ[𝕜] (Fin n → 𝕜)) {x : Fin n → 𝕜} (hx : L x ≠ 0) :
    L (nrm x) ≠ 0 := by
  have hx0 : x ≠ 0 := fun h => hx (by rw [h, map_zero])
  rw [nrm, map_smul]
  refine smul_ne_zero (inv_ne_zero ?_) hx
  exact_mod_cast norm_ne_zero_iff.2 (ev_ne hx0)

theorem norm2_vt (v : Fin n → 𝕜) :
    norm2 (exact 𝕜).conj (exact 𝕜).re (exact 𝕜).sqrt (vt d v) = .ok ‖ev v‖ := by
  rw [norm2, vt_scprod, Res.ok_bind]
  show Res.ok (Real.sqrt (RCLike.re (∑ i, v i * starRingEnd 𝕜 (v i)))) = _
  rw [← inner_ev, inner_self_eq_norm_sq, Real.sqrt_sq (norm_nonneg _)]

theorem unit_vt [DecidableEq 𝕜] (hd : totalSize d = n) {v : Fin n → 𝕜} (hv : v ≠ 0) :
    unit (exact 𝕜) (vt d v) = .ok (vt d (nrm v)) := by
  have h0 : (exact 𝕜).up ‖ev v‖ ≠ 0 := by
    show ((‖ev v‖ : ℝ) : 𝕜) ≠ 0
    exact_mod_cast norm_ne_zero_iff.2 (ev_ne hv)
  rw [unit, norm2_vt, Res.ok_bind, if_neg (fun h => h0 h.1), c32_inplace_number_partial _ _ (vt_wf hd v),
    binopTN, unop_ok _ _ (vt_wf hd v)]
  simp only [List.map_ofFn]
  congr 3
  funext i
  show v i / ((‖ev v‖ : ℝ) : 𝕜) = ((‖ev v‖ : ℝ) : 𝕜)⁻¹ * v i
  rw [div_eq_inv_mul]

theorem unit_zero [DecidableEq 𝕜] (hn : n ≠ 0) : unit (exact 𝕜) (vt d (0 : Fin n → 𝕜)) = .ub := by
  rw [unit, norm2_vt, Res.ok_bind, if_pos]
  constructor
  · simp [exact]
  · simp [hn]

/-- One iteration. -/
theorem loop_step [DecidableEq 𝕜] (A : Tensor 𝕜 → Res (Tensor 𝕜)) (L : (Fin n → 𝕜) →ₗ[𝕜] (Fin n → 𝕜))
    (hd : totalSize d = n) (hA : ActsAs A d L) (tol : ℝ) (k : Nat) (old : Option 𝕜) (v : Fin n → 𝕜)
    (used : Nat) (hv : L v ≠ 0) :
    loop (exact 𝕜) A tol (k + 1) old (vt d v) used =
      if norm0 (fun x : 𝕜 => ‖x‖) (vt d (L v - ray L v • v)) < tol * ‖ray L v‖ then
        .ok ⟨ray L v, vt d (nrm (L v)), used + 1⟩
      else if stopped (exact 𝕜) tol (ray L v) old then .ok ⟨ray L v, vt d (nrm (L v)), used + 1⟩
      else loop (exact 𝕜) A tol k (some (ray L v)) (vt d (nrm (L v))) (used + 1) := by
  rw [loop, hA v, Res.ok_bind, vt_scprod, Res.ok_bind, vt_scale hd, Res.ok_bind, vt_binop hd, Res.ok_bind,
    unit_vt hd hv, Res.ok_bind]
  rfl

/-- The first test. -/
theorem norm0_lt {v : Fin n → 𝕜} {x : ℝ} (h : norm0 (fun x : 𝕜 => ‖x‖) (vt d v) < x) : ∀ i, ‖v i‖ < x := by
  intro i
  refine lt_of_le_of_lt ((c33_norm0 (fun x : 𝕜 => ‖x‖) (fun _ => norm_nonneg _) (vt d v)).2.1 (v i) ?_) h
  exact List.mem_ofFn.2 ⟨i, rfl⟩

/-- All that the loop keeps. -/
theorem loop_inv [DecidableEq 𝕜] (A : Tensor 𝕜 → Res (Tensor 𝕜)) (L : (Fin n → 𝕜) →ₗ[𝕜] (Fin n → 𝕜))
    (hd : totalSize d = n) (hA : ActsAs A d L) (tol : ℝ) (x : Fin n → 𝕜) :
    ∀ (k j : Nat) (old : Option 𝕜), (∀ i, i ≤ j + k → L^[i] x ≠ 0) → 0 < j + k →
      (∀ p, j = p + 1 → old = some (ray L (nrm (L^[p] x)))) → (j = 0 → old = none) →
      ∃ q, loop (exact 𝕜) A tol k old (vt d (nrm (L^[j] x))) j =
          .ok ⟨ray L (nrm (L^[q] x)), vt d (nrm (L^[q + 1] x)), q + 1⟩ ∧ q + 1 ≤ j + k ∧
        ((∀ i, ‖(L (nrm (L^[q] x)) - ray L (nrm (L^[q] x)) • nrm (L^[q] x)) i‖ < tol * ‖ray L (nrm (L^[q] x))‖) ∨
          (∃ p, q = p + 1 ∧
            ‖ray L (nrm (L^[q] x)) - ray L (nrm (L^[p] x))‖ < tol * ‖ray L (nrm (L^[q] x))‖) ∨
          q + 1 = j + k)
  | 0, j, old, _, hj, hold, _ => by
    obtain ⟨q, rfl⟩ : ∃ q, j = q + 1 := ⟨j - 1, by omega⟩
    refine ⟨q, ?_, by omega, .inr (.inr (by omega))⟩
    rw [hold q rfl, loop]
  | k + 1, j, old, hx, hj, hold, hold0 => by
    have h1 : L (L^[j] x) ≠ 0 := by
      have := hx (j + 1) (by omega)
      rwa [Function.iterate_succ_apply'] at this
    have h2 : nrm (L (nrm (L^[j] x))) = nrm (L^[j + 1] x) := by
      rw [nrm_map L (hx j (by omega)), Function.iterate_succ_apply']
    have e := loop_step A L hd hA tol k old (nrm (L^[j] x)) j (map_nrm_ne L h1)
    rw [h2] at e
    rw [e]
    by_cases c1 : norm0 (fun x : 𝕜 => ‖x‖) (vt d (L (nrm (L^[j] x)) - ray L (nrm (L^[j] x)) • nrm (L^[j] x))) <
        tol * ‖ray L (nrm (L^[j] x))‖
    · rw [if_pos c1]
      exact ⟨j, rfl, by omega, .inl (norm0_lt c1)⟩
    rw [if_neg c1]
    by_cases c2 : stopped (exact 𝕜) tol (ray L (nrm (L^[j] x))) old
    · rw [if_pos c2]
      refine ⟨j, rfl, by omega, .inr (.inl ?_)⟩
      rcases j with _ | p
      · rw [hold0 rfl] at c2
        exact c2.elim
      · rw [hold p rfl] at c2
        exact ⟨p, rfl, c2⟩
    · rw [if_neg c2]
      obtain ⟨q, e1, e2, e3⟩ := loop_inv A L hd hA tol x k (j + 1) _ (fun i hi => hx i (by omega)) (by omega)
        (fun p hp => by
          have : p = j := by omega
          rw [this]) (fun h => by omega)
      refine ⟨q, e1, by omega, ?_⟩
      rcases e3 with e3 | e3 | e3
      · exact .inl e3
      · exact .inr (.inl e3)
      · exact .inr (.inr (by omega))

/-- The number of iterations minus one. -/
def iterations (n iter : Nat) : Nat := if iter = 0 then max 20 n else iter

theorem power_eq [DecidableEq 𝕜] (A : Tensor 𝕜 → Res (Tensor 𝕜)) (L : (Fin n → 𝕜) →ₗ[𝕜] (Fin n → 𝕜))
    (hd : totalSize d = n) (hA : ActsAs A d L) (deftol tol : ℝ) (start : Tensor 𝕜) (iter : Nat)
    (x : Fin n → 𝕜) (hx : ∀ i, i ≤ iterations n iter + 1 → L^[i] x ≠ 0) :
    ∃ q, power (exact 𝕜) deftol A n (some ⟨d, List.ofFn x⟩) start iter tol =
          .ok ⟨ray L (nrm (L^[q] x)), vt d (nrm (L^[q + 1] x)), q + 1⟩ ∧ q ≤ iterations n iter ∧
        ((∀ i, ‖(L (nrm (L^[q] x)) - ray L (nrm (L^[q] x)) • nrm (L^[q] x)) i‖ <
            (if tol ≤ 0 then deftol else tol) * ‖ray L (nrm (L^[q] x))‖) ∨
          (∃ p, q = p + 1 ∧ ‖ray L (nrm (L^[q] x)) - ray L (nrm (L^[p] x))‖ <
            (if tol ≤ 0 then deftol else tol) * ‖ray L (nrm (L^[q] x))‖) ∨
          q = iterations n iter) := by
  obtain ⟨q, e1, e2, e3⟩ := loop_inv A L hd hA (if tol ≤ 0 then deftol else tol) x (iterations n iter + 1) 0 none
    (fun i hi => hx i (by omega)) (by omega) (fun p hp => by omega) (fun _ => rfl)
  refine ⟨q, ?_, by omega, ?_⟩
  · have hsz : (vt d x).size = n := by simp [Tensor.size]
    have hx0 : x ≠ 0 := hx 0 (by omega)
    rw [power]
    simp only [Res.ok_bind, hsz, ne_eq, not_true_eq_false, if_false]
    rw [unit_vt hd hx0, Res.ok_bind]
    exact e1
  · rcases e3 with e3 | e3 | e3
    · exact .inl e3
    · exact .inr (.inl e3)
    · exact .inr (.inr (by omega))

end

section
variable {𝕜 : Type} [RCLike 𝕜] {n : Nat} {d : List Nat}

/-- `v` has length 1 and the direction of `x`. -/
def UnitAlong (x v : Fin n → 𝕜) : Prop := ∑ i, ‖v i‖ ^ 2 = 1 ∧ ∃ c : ℝ, 0 < c ∧ v = (c : 𝕜) • x

theorem unitAlong_nrm {x : Fin n → 𝕜} (hx : x ≠ 0) : UnitAlong x (nrm x) := by
  constructor
  · have := norm_nrm hx
    rw [EuclideanSpace.norm_eq, Real.sqrt_eq_one] at this
    exact this
  · exact ⟨‖ev x‖⁻¹, inv_pos.2 (norm_pos_iff.2 (ev_ne hx)), by rw [nrm, RCLike.ofReal_inv]⟩

/-- There is just one such vector. -/
theorem UnitAlong.eq {x v : Fin n → 𝕜} (h : UnitAlong x v) : v = nrm x := by
  obtain ⟨h1, c, hc, rfl⟩ := h
  have e : ‖ev ((c : 𝕜) • x)‖ = 1 := by
    rw [EuclideanSpace.norm_eq, Real.sqrt_eq_one]; exact h1
  rw [ev_smul, norm_smul, RCLike.norm_ofReal, abs_of_pos hc] at e
  rw [nrm]
  congr 1
  rw [← RCLike.ofReal_inv]
  congr 1
  exact eq_inv_of_mul_eq_one_left e

/-- C65: with a linear map which does not take the start to zero, the power method ends. The vector has
length 1 and the direction of the start after some number `k` of uses of the map; the value is the scalar
product (w, A w), w being the vector before the last use, and k is not larger than iter + 1. The last
vectors w and A w satisfy one of the tests, unless all iterations were used. Missing: rounding. -/
theorem c65_result_partial [DecidableEq 𝕜] (A : Tensor 𝕜 → Res (Tensor 𝕜))
    (L : (Fin n → 𝕜) →ₗ[𝕜] (Fin n → 𝕜)) (hd : totalSize d = n) (hA : ActsAs A d L) (deftol tol : ℝ)
    (start : Tensor 𝕜) (iter : Nat) (x : Fin n → 𝕜)
    (hx : ∀ i, i ≤ (if iter = 0 then max 20 n else iter) + 1 → L^[i] x ≠ 0) :
    ∃ out v w k, power (exact 𝕜) deftol A n (some ⟨d, List.ofFn x⟩) start iter tol = .ok out ∧
      out.used = k + 1 ∧ k ≤ (if iter = 0 then max 20 n else iter) ∧
      out.v = ⟨d, List.ofFn v⟩ ∧ UnitAlong (L^[k + 1] x) v ∧ UnitAlong (L^[k] x) w ∧
      out.eig = ∑ i, w i * starRingEnd 𝕜 (L w i) ∧
      ((∀ i, ‖L w i - out.eig * w i‖ < (if tol ≤ 0 then deftol else tol) * ‖out.eig‖) ∨
        (∃ j u, k = j + 1 ∧ UnitAlong (L^[j] x) u ∧ ‖out.eig - ∑ i, u i * starRingEnd 𝕜 (L u i)‖ <
          (if tol ≤ 0 then deftol else tol) * ‖out.eig‖) ∨
        k = (if iter = 0 then max 20 n else iter)) := by
  obtain ⟨q, e1, e2, e3⟩ := power_eq A L hd hA deftol tol start iter x hx
  refine ⟨_, nrm (L^[q + 1] x), nrm (L^[q] x), q, e1, rfl, e2, rfl,
    unitAlong_nrm (hx _ (by simp only [iterations] at e2; omega)),
    unitAlong_nrm (hx _ (by simp only [iterations] at e2; omega)), rfl, ?_⟩
  rcases e3 with e3 | ⟨p, rfl, e3⟩ | e3
  · exact .inl e3
  · exact .inr (.inl ⟨p, _, rfl, unitAlong_nrm (hx _ (by simp only [iterations] at e2; omega)), e3⟩)
  · exact .inr (.inr e3)

theorem iterate_eigen (L : (Fin n → 𝕜) →ₗ[𝕜] (Fin n → 𝕜)) {x : Fin n → 𝕜} {lam : 𝕜} (h : L x = lam • x) :
    ∀ k, L^[k] x = lam ^ k • x
  | 0 => by simp
  | k + 1 => by
    rw [Function.iterate_succ_apply', iterate_eigen L h k, map_smul, h, smul_smul, pow_succ]

theorem ray_eigen (L : (Fin n → 𝕜) →ₗ[𝕜] (Fin n → 𝕜)) {w : Fin n → 𝕜} {lam : 𝕜} (h : L w = lam • w)
    (hw : ‖ev w‖ = 1) : ray L w = starRingEnd 𝕜 lam := by
  have : ray L w = starRingEnd 𝕜 lam * inner 𝕜 (ev w) (ev w) := by
    rw [inner_ev, Finset.mul_sum, ray, h]
    refine Finset.sum_congr rfl fun i _ => ?_
    simp only [Pi.smul_apply, smul_eq_mul, map_mul]
    ring
  rw [this, inner_self_eq_norm_sq_to_K, hw]
  simp

/-- C65: if the start is an eigenvector, so is the vector at the end, but the value is the complex
conjugate of the eigenvalue. Missing: rounding. -/
theorem c65_eigenvector_partial [DecidableEq 𝕜] (A : Tensor 𝕜 → Res (Tensor 𝕜))
    (L : (Fin n → 𝕜) →ₗ[𝕜] (Fin n → 𝕜)) (hd : totalSize d = n) (hA : ActsAs A d L) (deftol tol : ℝ)
    (start : Tensor 𝕜) (iter : Nat) (x : Fin n → 𝕜) (lam : 𝕜) (hx : x ≠ 0) (hl : lam ≠ 0)
    (h : L x = lam • x) :
    ∃ out v, power (exact 𝕜) deftol A n (some ⟨d, List.ofFn x⟩) start iter tol = .ok out ∧
      out.v = ⟨d, List.ofFn v⟩ ∧ ∑ i, ‖v i‖ ^ 2 = 1 ∧ L v = lam • v ∧ out.eig = starRingEnd 𝕜 lam := by
  have hk : ∀ k, L^[k] x ≠ 0 := fun k => by
    rw [iterate_eigen L h k]; exact smul_ne_zero (pow_ne_zero _ hl) hx
  have hm : ∀ k, L (nrm (L^[k] x)) = lam • nrm (L^[k] x) := fun k => by
    rw [nrm, map_smul, ← Function.iterate_succ_apply' L k x, iterate_eigen L h, iterate_eigen L h]
    simp only [smul_smul, Nat.succ_eq_add_one, pow_succ]
    congr 1
    ring
  obtain ⟨q, e1, -, -⟩ := power_eq A L hd hA deftol tol start iter x (fun i _ => hk i)
  exact ⟨_, _, e1, rfl, (unitAlong_nrm (hk _)).1, hm _, ray_eigen L (hm q) (norm_nrm (hk q))⟩

/-- The vector of the loop in a space with an inner product. -/
theorem ev_iterate (L : (Fin n → 𝕜) →ₗ[𝕜] (Fin n → 𝕜)) (x : Fin n → 𝕜) (k : Nat) :
    ev (L^[k] x) = (eL L)^[k] (ev x) := by
  induction k with
  | zero => rfl
  | succ k ih => rw [Function.iterate_succ_apply', Function.iterate_succ_apply', ← ih]; rfl

/-- The iterations of a map with an eigenvector `u` and less effect over the orthogonal vectors. -/
theorem iterate_split {E : Type} [NormedAddCommGroup E] [InnerProductSpace 𝕜 E] (T : E →ₗ[𝕜] E)
    (hT : T.IsSymmetric) {u : E} (hu : ‖u‖ = 1) {lam : ℝ} (hTu : T u = (lam : 𝕜) • u) {mu : ℝ} (hmu : 0 ≤ mu)
    (hperp : ∀ w, inner 𝕜 u w = 0 → ‖T w‖ ≤ mu * ‖w‖) (x : E) (k : Nat) :
    ∃ w, T^[k] x = (((lam : 𝕜) ^ k) * inner 𝕜 u x) • u + w ∧ inner 𝕜 u w = 0 ∧
      ‖w‖ ≤ mu ^ k * ‖x - (inner 𝕜 u x) • u‖ := by
  have huu : inner 𝕜 u u = (1 : 𝕜) := by rw [inner_self_eq_norm_sq_to_K, hu]; simp
  induction k with
  | zero =>
    refine ⟨x - (inner 𝕜 u x) • u, by simp, ?_, by simp⟩
    rw [inner_sub_right, inner_smul_right, huu, mul_one, sub_self]
  | succ k ih =>
    obtain ⟨w, h1, h2, h3⟩ := ih
    refine ⟨T w, ?_, ?_, ?_⟩
    · rw [Function.iterate_succ_apply', h1, map_add, map_smul, hTu, smul_smul]
      congr 2
      ring
    · rw [← hT u w, hTu, inner_smul_left, h2, mul_zero]
    · refine (hperp w h2).trans ?_
      rw [pow_succ, mul_comm (mu ^ k) mu, mul_assoc]
      exact mul_le_mul_of_nonneg_left h3 hmu

/-- C65: how fast the power method converges for Hermitian maps. Let u be an eigenvector with eigenvalue λ,
and let the map make vectors orthogonal to u longer by at most a factor μ. After k uses of the map, the
part of the vector which is orthogonal to u has at most the length (μ / |λ|)^k t, where t is the tangent of
the angle between the start and u, and the value differs from λ by at most
(|λ| + μ) ((μ / |λ|)^(k-1) t)^2. Missing: rounding. -/
theorem c65_rate_partial [DecidableEq 𝕜] (A : Tensor 𝕜 → Res (Tensor 𝕜))
    (L : (Fin n → 𝕜) →ₗ[𝕜] (Fin n → 𝕜)) (hd : totalSize d = n) (hA : ActsAs A d L) (deftol tol : ℝ)
    (start : Tensor 𝕜) (iter : Nat) (x u : Fin n → 𝕜) (lam mu : ℝ) (hl : lam ≠ 0) (hmu : 0 ≤ mu)
    (hsym : ∀ v w : Fin n → 𝕜, ∑ i, L v i * starRingEnd 𝕜 (w i) = ∑ i, v i * starRingEnd 𝕜 (L w i))
    (hu : ‖ev u‖ = 1) (hLu : L u = (lam : 𝕜) • u) (hxu : inner 𝕜 (ev u) (ev x) ≠ (0 : 𝕜))
    (hperp : ∀ w : Fin n → 𝕜, inner 𝕜 (ev u) (ev w) = (0 : 𝕜) → ‖ev (L w)‖ ≤ mu * ‖ev w‖) :
    ∃ out v k, power (exact 𝕜) deftol A n (some ⟨d, List.ofFn x⟩) start iter tol = .ok out ∧
      out.v = ⟨d, List.ofFn v⟩ ∧ out.used = k + 1 ∧
      ‖ev v - (inner 𝕜 (ev u) (ev v)) • ev u‖ ≤ (mu / |lam|) ^ (k + 1) *
        (‖ev x - (inner 𝕜 (ev u) (ev x)) • ev u‖ / ‖(inner 𝕜 (ev u) (ev x) : 𝕜)‖) ∧
      ‖out.eig - (lam : 𝕜)‖ ≤ (|lam| + mu) * ((mu / |lam|) ^ k *
        (‖ev x - (inner 𝕜 (ev u) (ev x)) • ev u‖ / ‖(inner 𝕜 (ev u) (ev x) : 𝕜)‖)) ^ 2 := by
  have hT : (eL L).IsSymmetric := by
    intro v w
    have := hsym (WithLp.ofLp w) (WithLp.ofLp v)
    rw [← inner_ev, ← inner_ev] at this
    exact this.symm
  have hperp' : ∀ w : EuclideanSpace 𝕜 (Fin n), inner 𝕜 (ev u) w = (0 : 𝕜) → ‖eL L w‖ ≤ mu * ‖w‖ :=
    fun w hw => hperp (WithLp.ofLp w) hw
  have hTu : eL L (ev u) = (lam : 𝕜) • ev u := by rw [eL_ev, hLu]; rfl
  have huu : inner 𝕜 (ev u) (ev u) = (1 : 𝕜) := by rw [inner_self_eq_norm_sq_to_K, hu]; simp
  set c : 𝕜 := inner 𝕜 (ev u) (ev x) with hc
  have hc0 : 0 < ‖c‖ := norm_pos_iff.2 hxu
  have hl0 : 0 < |lam| := abs_pos.2 hl
  -- the vector of the loop
  have key : ∀ k, ∃ w : EuclideanSpace 𝕜 (Fin n), ∃ a : 𝕜, ev (nrm (L^[k] x)) = a • ev u + w ∧
      inner 𝕜 (ev u) w = (0 : 𝕜) ∧ ‖w‖ ≤ (mu / |lam|) ^ k * (‖ev x - c • ev u‖ / ‖c‖) ∧ L^[k] x ≠ 0 := by
    intro k
    obtain ⟨w, h1, h2, h3⟩ := iterate_split (eL L) hT hu hTu hmu hperp' (ev x) k
    rw [← ev_iterate] at h1
    have hin : inner 𝕜 (ev u) (ev (L^[k] x)) = (lam : 𝕜) ^ k * c := by
      rw [h1, inner_add_right, inner_smul_right, huu, h2, mul_one, add_zero]
    have hge : |lam| ^ k * ‖c‖ ≤ ‖ev (L^[k] x)‖ := by
      have := norm_inner_le_norm (𝕜 := 𝕜) (ev u) (ev (L^[k] x))
      rw [hin, hu, one_mul, norm_mul, norm_pow, RCLike.norm_ofReal] at this
      exact this
    have hpos : 0 < |lam| ^ k * ‖c‖ := by positivity
    have hne : 0 < ‖ev (L^[k] x)‖ := lt_of_lt_of_le hpos hge
    have hx0 : L^[k] x ≠ 0 := by
      intro h
      rw [h] at hne
      simp at hne
    refine ⟨((‖ev (L^[k] x)‖ : ℝ) : 𝕜)⁻¹ • w, ((‖ev (L^[k] x)‖ : ℝ) : 𝕜)⁻¹ * ((lam : 𝕜) ^ k * c), ?_, ?_, ?_, hx0⟩
    · refine (congrArg (((‖ev (L^[k] x)‖ : ℝ) : 𝕜)⁻¹ • ·) h1).trans ?_
      rw [smul_add, smul_smul]
    · rw [inner_smul_right, h2, mul_zero]
    · rw [norm_smul, norm_inv, RCLike.norm_ofReal, abs_of_pos hne, div_pow, div_mul_div_comm, inv_mul_eq_div]
      exact div_le_div₀ (by positivity) h3 hpos hge
  obtain ⟨q, e1, -, -⟩ := power_eq A L hd hA deftol tol start iter x
    (fun i _ => by obtain ⟨-, -, -, -, -, h⟩ := key i; exact h)
  refine ⟨_, _, q, e1, rfl, rfl, ?_, ?_⟩
  · obtain ⟨w, a, h1, h2, h3, -⟩ := key (q + 1)
    rw [h1, inner_add_right, inner_smul_right, huu, h2, mul_one, add_zero, add_sub_cancel_left]
    exact h3
  · obtain ⟨w, a, h1, h2, h3, h4⟩ := key q
    have hn := norm_nrm h4
    have hray : ray L (nrm (L^[q] x)) = inner 𝕜 (eL L (ev (nrm (L^[q] x)))) (ev (nrm (L^[q] x))) := by
      rw [eL_ev, inner_ev]; rfl
    simp only
    rw [hray]
    rw [h1] at hn ⊢
    have hwu : inner 𝕜 w (ev u) = (0 : 𝕜) := by rw [← inner_conj_symm, h2, map_zero]
    have h5 : inner 𝕜 (eL L w) (ev u) = (0 : 𝕜) := by rw [hT w (ev u), hTu, inner_smul_right, hwu, mul_zero]
    have h6 : inner 𝕜 (a • ev u + w) (a • ev u + w) = (1 : 𝕜) := by
      rw [inner_self_eq_norm_sq_to_K, hn]; simp
    have h7 : (inner 𝕜 (eL L (a • ev u + w)) (a • ev u + w) : 𝕜) - (lam : 𝕜)
        = inner 𝕜 (eL L w) w - (lam : 𝕜) * inner 𝕜 w w := by
      have e : (inner 𝕜 (eL L (a • ev u + w)) (a • ev u + w) : 𝕜) - (lam : 𝕜) =
          inner 𝕜 (eL L (a • ev u + w)) (a • ev u + w) - lam * inner 𝕜 (a • ev u + w) (a • ev u + w) := by
        rw [h6, mul_one]
      rw [e]
      simp only [map_add, map_smul, hTu, inner_add_left, inner_add_right, inner_smul_left, inner_smul_right, h2,
        hwu, h5, huu, RCLike.conj_ofReal]
      ring
    rw [h7]
    have hw2 : ‖w‖ ^ 2 ≤ ((mu / |lam|) ^ q * (‖ev x - c • ev u‖ / ‖c‖)) ^ 2 :=
      pow_le_pow_left₀ (norm_nonneg _) h3 2
    calc ‖(inner 𝕜 (eL L w) w : 𝕜) - (lam : 𝕜) * inner 𝕜 w w‖
        ≤ ‖(inner 𝕜 (eL L w) w : 𝕜)‖ + ‖(lam : 𝕜) * inner 𝕜 w w‖ := norm_sub_le _ _
      _ ≤ mu * ‖w‖ * ‖w‖ + |lam| * ‖w‖ ^ 2 := by
        refine add_le_add ?_ ?_
        · exact (norm_inner_le_norm _ _).trans (mul_le_mul_of_nonneg_right (hperp' w h2) (norm_nonneg _))
        · rw [norm_mul, RCLike.norm_ofReal, inner_self_eq_norm_sq_to_K]
          simp
      _ = (|lam| + mu) * ‖w‖ ^ 2 := by ring
      _ ≤ _ := mul_le_mul_of_nonneg_left hw2 (by positivity)

end

section
variable {α : Type} [Field α] {m : Nat}

/-- MatrixMap with transposition multiplies vectors from the left. -/
theorem acts_left (M : Tensor α) (f : Nat → Nat → α) (hM : IsMat M.dims M.data m m f) (hm : m ≠ 0) :
    ActsAs (n := m) (matrixMap M true) [m] (Matrix.mulVecLin (Matrix.of fun i j : Fin m => f j i)) := by
  intro v
  have wfv : (⟨[m], List.ofFn v⟩ : Tensor α).WF := by
    rw [Tensor.WF, List.length_ofFn]; simp [totalSize]
  obtain ⟨c, ec, wf, hdc, hel⟩ := doFold_elem (RingHom.id α) (fun _ => rfl) false ⟨[m], List.ofFn v⟩ M
    wfv (IsMat.wf hM) [] [] [] [m] m (-1) 0 rfl hM.1
    (by simp [Spec.norm]) (by rw [hM.1]; simp [Spec.norm]) hm
  have : c = ⟨[m], List.ofFn (Matrix.mulVecLin (Matrix.of fun i j : Fin m => f j i) v)⟩ := by
    refine ext_elem wf (by rw [Tensor.WF, List.length_ofFn]; simp [totalSize]) ?_ ?_
    · rw [hdc]; simp [outDims]
    · intro idx hidx
      rw [hdc] at hidx
      obtain ⟨i, rfl, hi⟩ : ∃ i, idx = [i] ∧ i < m := by
        match idx, hidx with
        | [], h => simp [outDims] at h; exact h.elim
        | [i], h => exact ⟨i, rfl, by simpa [outDims] using h⟩
        | _ :: _ :: _, h => simp [outDims] at h; exact h.2.elim
      have := hel [] [] [] [i] trivial trivial trivial (by simp [hi])
        (fun l => if h : l < m then v ⟨l, h⟩ else 0) (fun l => f l i)
        (fun l hl => by simp [elem, InB, hl, colPos]) (fun l hl => hM.2.2 l i hl hi)
      simp only [outIdx, List.append_nil, List.nil_append, reduceCtorEq, if_false,
        Bool.false_eq_true, id] at this
      rw [this, Finset.sum_range]
      simp only [elem, InB, hi, true_and, if_true, colPos, Nat.mul_zero, Nat.add_zero, List.getElem?_ofFn, dif_pos]
      congr 1
      simp only [Matrix.mulVecLin_apply, Matrix.mulVec, dotProduct, Matrix.of_apply]
      refine Finset.sum_congr rfl fun l _ => ?_
      rw [dif_pos l.isLt]
      exact mul_comm _ _
  rw [matrixMap, if_pos rfl, mmult]
  rw [this] at ec
  exact ec

/-- MatrixMap without transposition. -/
theorem acts_right (M : Tensor α) (f : Nat → Nat → α) (hM : IsMat M.dims M.data m m f) (hm : m ≠ 0) :
    ActsAs (n := m) (matrixMap M false) [m] (Matrix.mulVecLin (Matrix.of fun i j : Fin m => f i j)) := by
  intro v
  have wfv : (⟨[m], List.ofFn v⟩ : Tensor α).WF := by
    rw [Tensor.WF, List.length_ofFn]; simp [totalSize]
  obtain ⟨c, ec, wf, hdc, hel⟩ := doFold_elem (RingHom.id α) (fun _ => rfl) false M ⟨[m], List.ofFn v⟩
    (IsMat.wf hM) wfv [m] [] [] [] m (-1) 0 hM.1 rfl
    (by rw [hM.1]; simp [Spec.norm]) (by simp [Spec.norm]) hm
  have : c = ⟨[m], List.ofFn (Matrix.mulVecLin (Matrix.of fun i j : Fin m => f i j) v)⟩ := by
    refine ext_elem wf (by rw [Tensor.WF, List.length_ofFn]; simp [totalSize]) ?_ ?_
    · rw [hdc]; simp [outDims]
    · intro idx hidx
      rw [hdc] at hidx
      obtain ⟨i, rfl, hi⟩ : ∃ i, idx = [i] ∧ i < m := by
        match idx, hidx with
        | [], h => simp [outDims] at h; exact h.elim
        | [i], h => exact ⟨i, rfl, by simpa [outDims] using h⟩
        | _ :: _ :: _, h => simp [outDims] at h; exact h.2.elim
      have := hel [i] [] [] [] (by simp [hi]) trivial trivial trivial (fun l => f i l)
        (fun l => if h : l < m then v ⟨l, h⟩ else 0)
        (fun l hl => hM.2.2 i l hi hl) (fun l hl => by simp [elem, InB, hl, colPos])
      simp only [outIdx, List.append_nil, reduceCtorEq, if_false,
        Bool.false_eq_true, id] at this
      rw [this, Finset.sum_range]
      simp only [elem, InB, hi, true_and, if_true, colPos, Nat.mul_zero, Nat.add_zero, List.getElem?_ofFn, dif_pos]
      congr 1
      simp only [Matrix.mulVecLin_apply, Matrix.mulVec, dotProduct, Matrix.of_apply]
      refine Finset.sum_congr rfl fun l _ => ?_
      rw [dif_pos l.isLt]
  rw [matrixMap, if_neg (by simp), mmult]
  rw [this] at ec
  exact ec

end

section
variable {α β : Type} [Field α] [DecidableEq α] [Zero β] [Mul β] [LinearOrder β] {m : Nat}

/-- C65 for square matrices: eig_power_right is the power method with the linear map v -> M v, and
eig_power_left with v -> v M. -/
theorem c65_matrix (N : Num α β) (deftol : β) (left : Bool) (M : Tensor α) (f : Nat → Nat → α)
    (hM : IsMat M.dims M.data m m f) (hm : m ≠ 0) :
    ∃ (A : Tensor α → Res (Tensor α)) (L : (Fin m → α) →ₗ[α] (Fin m → α)), ActsAs A [m] L ∧
      (∀ v i, L v i = ∑ l : Fin m, (if left then f l i else f i l) * v l) ∧
      ∀ vector start iter tol, eigPower N deftol left M vector start iter tol =
        power N deftol A m vector start iter tol := by
  have h0 : M.dimension 0 = .ok m := by
    have := dimension_nat M 0 m (by rw [hM.1]; rfl)
    rwa [Nat.cast_zero] at this
  have h1 : M.dimension 1 = .ok m := by
    have := dimension_nat M 1 m (by rw [hM.1]; rfl)
    rwa [Nat.cast_one] at this
  have he : ∀ vector start iter tol, eigPower N deftol left M vector start iter tol =
      power N deftol (matrixMap M left) m vector start iter tol := by
    intro vector start iter tol
    rw [eigPower, h0, Res.ok_bind, h1, Res.ok_bind, Res.assert_bind, if_pos rfl]
  cases left
  · exact ⟨_, _, acts_right M f hM hm, fun v i => by
      simp [Matrix.mulVec, dotProduct], he⟩
  · exact ⟨_, _, acts_left M f hM hm, fun v i => by
      simp [Matrix.mulVec, dotProduct], he⟩

/-- C65: a vector of another size is replaced by the random start. -/
theorem c65_start (N : Num α β) (deftol : β) (A : Tensor α → Res (Tensor α)) (n : Nat) (v start : Tensor α)
    (hv : v.data.length ≠ n) (iter : Nat) (tol : β) :
    power N deftol A n (some v) start iter tol = power N deftol A n (some start) start iter tol := by
  have h1 : (if v.size ≠ n then start else v) = start := if_pos hv
  have h2 : (if start.size ≠ n then start else start) = start := ite_self _
  rw [power, power]
  simp only [Res.ok_bind, h1, h2]

/-- C65: what stops the program: matrices which are not square, and a null pointer. -/
theorem c65_refused (N : Num α β) (deftol : β) (left : Bool) (M : Tensor α) (r c : Nat)
    (hM : M.dims = [r, c]) (vector : Option (Tensor α)) (start : Tensor α) (iter : Nat) (tol : β)
    (h : r ≠ c ∨ vector = none) : eigPower N deftol left M vector start iter tol = .abort := by
  have h0 : M.dimension 0 = .ok r := by
    have := dimension_nat M 0 r (by rw [hM]; rfl)
    rwa [Nat.cast_zero] at this
  have h1 : M.dimension 1 = .ok c := by
    have := dimension_nat M 1 c (by rw [hM]; rfl)
    rwa [Nat.cast_one] at this
  rw [eigPower, h0, Res.ok_bind, h1, Res.ok_bind, Res.assert_bind]
  split
  · rename_i e
    rcases h with h | h
    · exact absurd e h
    · rw [h, power]; rfl
  · rfl

end

/-- C65 is false for complex matrices: the value is not the eigenvalue of the vector if that is not a real
number. For the matrix (i), eig_power_right returns -i, with any start, tolerance and number of
iterations. -/
theorem c65_conjugated [DecidableEq ℂ] (deftol tol : ℝ) (start : Tensor ℂ) (iter : Nat) (x : ℂ) (hx : x ≠ 0) :
    ∃ out v, eigPower (exact ℂ) deftol false ⟨[1, 1], [Complex.I]⟩ (some ⟨[1], [x]⟩) start iter tol = .ok out ∧
      out.v = ⟨[1], [v]⟩ ∧ ‖v‖ = 1 ∧ out.eig = -Complex.I ∧ Complex.I * v ≠ out.eig * v := by
  have hM : IsMat [1, 1] [Complex.I] 1 1 fun _ _ => Complex.I := by
    refine ⟨rfl, rfl, ?_⟩
    intro i j hi hj
    interval_cases i
    interval_cases j
    rfl
  obtain ⟨A, L, hA, hL, he⟩ := c65_matrix (exact ℂ) deftol false (⟨[1, 1], [Complex.I]⟩ : Tensor ℂ) _ hM (by omega)
  obtain ⟨out, v, h1, h2, h3, -, h5⟩ := c65_eigenvector_partial A L (d := [1]) rfl hA deftol tol start iter
    (fun _ => x) Complex.I (fun h => hx (congrFun h 0)) Complex.I_ne_zero (by
      funext i
      rw [hL]
      simp)
  have hv : ‖v 0‖ = 1 := by
    simp only [Fin.sum_univ_one] at h3
    nlinarith [norm_nonneg (v 0)]
  refine ⟨out, v 0, ?_, ?_, hv, ?_, ?_⟩
  · rw [he, ← h1]
    simp
  · rw [h2]
    simp
  · rw [h5, Complex.conj_I]
  · rw [h5, Complex.conj_I]
    intro h
    have hv0 : v 0 ≠ 0 := fun e => by rw [e, norm_zero] at hv; exact zero_ne_one hv
    have := mul_right_cancel₀ hv0 h
    have h2 := congrArg Complex.im this
    norm_num at h2

/-- Rational numbers, for the examples: the square root is that of the perfect squares. -/
def ratNum : Num ℚ ℚ := ⟨id, fun x => |x|, id, Rat.sqrt, id⟩

/-- C65 is false of the number of iterations: with iter = 1 the map is used twice. The matrix has the
rows (0, 0, 1), (1, 0, 0), (0, 1, 0) and the start is (1, 0, 0). -/
theorem c65_more_iterations :
    eigPower ratNum (1 / 10 ^ 11) false ⟨[3, 3], [0, 1, 0, 0, 0, 1, 1, 0, 0]⟩ (some ⟨[3], [1, 0, 0]⟩)
      ⟨[3], [1, 0, 0]⟩ 1 0 = .ok ⟨0, ⟨[3], [0, 0, 1]⟩, 2⟩ := by
  decide +kernel

/-- C65 is false of the result, also for symmetric matrices: if the matrix exchanges the elements and the
start is (1, 0), the value is 0 for any number of iterations and any tolerance, which is not an eigenvalue,
and the vector is not an eigenvector. -/
theorem c65_no_eigenvector (iter : Nat) (deftol tol : ℚ) :
    ∃ out, eigPower ratNum deftol false ⟨[2, 2], [0, 1, 1, 0]⟩ (some ⟨[2], [1, 0]⟩) ⟨[2], [1, 0]⟩ iter tol
        = .ok out ∧ out.eig = 0 ∧ (out.v = ⟨[2], [1, 0]⟩ ∨ out.v = ⟨[2], [0, 1]⟩) := by
  have step : ∀ (a b : ℚ), (a = 1 ∧ b = 0 ∨ a = 0 ∧ b = 1) → ∀ (t : ℚ) k old used,
      (old = none ∨ old = some 0) →
      loop ratNum (matrixMap ⟨[2, 2], [0, 1, 1, 0]⟩ false) t (k + 1) old ⟨[2], [a, b]⟩ used =
        loop ratNum (matrixMap ⟨[2, 2], [0, 1, 1, 0]⟩ false) t k (some 0) ⟨[2], [b, a]⟩ (used + 1) := by
    intro a b hab t k old used hold
    have e1 : matrixMap (⟨[2, 2], [0, 1, 1, 0]⟩ : Tensor ℚ) false ⟨[2], [a, b]⟩ = .ok ⟨[2], [b, a]⟩ := by
      rcases hab with ⟨rfl, rfl⟩ | ⟨rfl, rfl⟩ <;> decide +kernel
    have e2 : scprod ratNum.conj (⟨[2], [a, b]⟩ : Tensor ℚ) ⟨[2], [b, a]⟩ = .ok 0 := by
      rcases hab with ⟨rfl, rfl⟩ | ⟨rfl, rfl⟩ <;> decide +kernel
    have e3 : binopNT (· * ·) (0 : ℚ) (⟨[2], [a, b]⟩ : Tensor ℚ) = .ok ⟨[2], [0, 0]⟩ := by
      rcases hab with ⟨rfl, rfl⟩ | ⟨rfl, rfl⟩ <;> decide +kernel
    have e4 : binopTT (· - ·) (⟨[2], [b, a]⟩ : Tensor ℚ) (⟨[2], [0, 0]⟩ : Tensor ℚ) = .ok ⟨[2], [b, a]⟩ := by
      rcases hab with ⟨rfl, rfl⟩ | ⟨rfl, rfl⟩ <;> decide +kernel
    have e5 : unit ratNum (⟨[2], [b, a]⟩ : Tensor ℚ) = .ok ⟨[2], [b, a]⟩ := by
      rcases hab with ⟨rfl, rfl⟩ | ⟨rfl, rfl⟩ <;> decide +kernel
    have e6 : norm0 ratNum.abs (⟨[2], [b, a]⟩ : Tensor ℚ) = 1 := by
      rcases hab with ⟨rfl, rfl⟩ | ⟨rfl, rfl⟩ <;> decide +kernel
    have e7 : t * ratNum.abs 0 = 0 := by simp [ratNum]
    rw [loop, e1, Res.ok_bind, e2, Res.ok_bind, e3, Res.ok_bind, e4, Res.ok_bind, e5, Res.ok_bind, e6, e7,
      if_neg (by norm_num), if_neg]
    rcases hold with rfl | rfl
    · exact id
    · show ¬ ratNum.abs (0 - 0) < t * ratNum.abs 0
      rw [e7]
      simp [ratNum]
  have run : ∀ (t : ℚ) (k : Nat) (a b : ℚ) old used, (a = 1 ∧ b = 0 ∨ a = 0 ∧ b = 1) →
      (old = none ∧ 0 < k ∨ old = some 0) →
      ∃ out, loop ratNum (matrixMap ⟨[2, 2], [0, 1, 1, 0]⟩ false) t k old ⟨[2], [a, b]⟩ used = .ok out ∧
        out.eig = 0 ∧ (out.v = ⟨[2], [1, 0]⟩ ∨ out.v = ⟨[2], [0, 1]⟩) := by
    intro t k
    induction k with
    | zero =>
      rintro a b old used hab (⟨-, h⟩ | rfl)
      · omega
      · refine ⟨_, rfl, rfl, ?_⟩
        rcases hab with ⟨rfl, rfl⟩ | ⟨rfl, rfl⟩
        · exact .inl rfl
        · exact .inr rfl
    | succ k ih =>
      intro a b old used hab hold
      rw [step a b hab t k old used (by rcases hold with h | h <;> simp [h])]
      refine ih b a _ _ ?_ (.inr rfl)
      rcases hab with h | h
      · exact .inr ⟨h.2, h.1⟩
      · exact .inl ⟨h.2, h.1⟩
  obtain ⟨out, h1, h2⟩ := run (if tol ≤ 0 then deftol else tol) ((if iter = 0 then max 20 2 else iter) + 1) 1 0
    none 0 (.inl ⟨rfl, rfl⟩) (.inl ⟨rfl, by omega⟩)
  refine ⟨out, ?_, h2⟩
  rw [← h1]
  have e5 : unit ratNum (⟨[2], [1, 0]⟩ : Tensor ℚ) = .ok ⟨[2], [1, 0]⟩ := by decide +kernel
  have hd : ∀ k : Int, k = 0 ∨ k = 1 → (⟨[2, 2], [0, 1, 1, 0]⟩ : Tensor ℚ).dimension k = .ok 2 := by
    rintro k (rfl | rfl) <;> rfl
  rw [eigPower, hd 0 (.inl rfl), Res.ok_bind, hd 1 (.inr rfl), Res.ok_bind, Res.assert_bind, if_pos rfl, power]
  simp only [Res.ok_bind, Tensor.size, List.length_cons, List.length_nil, Nat.zero_add, Nat.reduceAdd, ne_eq,
    not_true_eq_false, if_false]
  rw [e5, Res.ok_bind]

/-- C65: if some power of the map takes the start to zero, what is not a number appears. The matrix is 0. -/
theorem c65_not_a_number (iter : Nat) (deftol tol : ℚ) :
    eigPower ratNum deftol false ⟨[1, 1], [0]⟩ (some ⟨[1], [1]⟩) ⟨[1], [1]⟩ iter tol = .ub := by
  have e5 : unit ratNum (⟨[1], [1]⟩ : Tensor ℚ) = .ok ⟨[1], [1]⟩ := by decide +kernel
  have e1 : matrixMap (⟨[1, 1], [0]⟩ : Tensor ℚ) false ⟨[1], [1]⟩ = .ok ⟨[1], [0]⟩ := by decide +kernel
  have e2 : scprod ratNum.conj (⟨[1], [1]⟩ : Tensor ℚ) ⟨[1], [0]⟩ = .ok 0 := by decide +kernel
  have e3 : binopNT (· * ·) (0 : ℚ) (⟨[1], [1]⟩ : Tensor ℚ) = .ok ⟨[1], [0]⟩ := by decide +kernel
  have e4 : binopTT (· - ·) (⟨[1], [0]⟩ : Tensor ℚ) (⟨[1], [0]⟩ : Tensor ℚ) = .ok ⟨[1], [0]⟩ := by decide +kernel
  have e6 : unit ratNum (⟨[1], [0]⟩ : Tensor ℚ) = .ub := by decide +kernel
  have hd : ∀ k : Int, k = 0 ∨ k = 1 → (⟨[1, 1], [0]⟩ : Tensor ℚ).dimension k = .ok 1 := by
    rintro k (rfl | rfl) <;> rfl
  rw [eigPower, hd 0 (.inl rfl), Res.ok_bind, hd 1 (.inr rfl), Res.ok_bind, Res.assert_bind, if_pos rfl, power]
  simp only [Res.ok_bind, Tensor.size, List.length_cons, List.length_nil, Nat.zero_add, ne_eq,
    not_true_eq_false, if_false]
  rw [e5, Res.ok_bind, loop, e1, Res.ok_bind, e2, Res.ok_bind, e3, Res.ok_bind, e4, Res.ok_bind, e6]
  rfl

/-- The hypotheses of c65_result_partial and c65_eigenvector_partial: the identity. -/
example : ActsAs (n := 2) (fun t : Tensor ℝ => .ok t) [2] LinearMap.id ∧
    ∀ i, (LinearMap.id : (Fin 2 → ℝ) →ₗ[ℝ] (Fin 2 → ℝ))^[i] (fun _ => 1) ≠ 0 := by
  refine ⟨fun v => rfl, fun i h => ?_⟩
  have : ∀ i, (LinearMap.id : (Fin 2 → ℝ) →ₗ[ℝ] (Fin 2 → ℝ))^[i] (fun _ => 1) = fun _ => 1 := by
    intro i
    induction i with
    | zero => rfl
    | succ i ih => rw [Function.iterate_succ_apply', ih]; rfl
  rw [this] at h
  have := congrFun h 0
  simp at this

/-- The hypotheses of c65_rate_partial: the map which keeps the first element and makes 0 of the second
one, with u = (1, 0), λ = 1, μ = 0 and the start (1, 1). -/
example : ∃ (L : (Fin 2 → ℝ) →ₗ[ℝ] (Fin 2 → ℝ)) (u x : Fin 2 → ℝ),
    (∀ v w : Fin 2 → ℝ, ∑ i, L v i * starRingEnd ℝ (w i) = ∑ i, v i * starRingEnd ℝ (L w i)) ∧
    ‖ev u‖ = 1 ∧ L u = ((1 : ℝ) : ℝ) • u ∧ inner ℝ (ev u) (ev x) ≠ (0 : ℝ) ∧
    ∀ w : Fin 2 → ℝ, inner ℝ (ev u) (ev w) = (0 : ℝ) → ‖ev (L w)‖ ≤ 0 * ‖ev w‖ := by
  refine ⟨Matrix.mulVecLin !![1, 0; 0, 0], ![1, 0], ![1, 1], ?_, ?_, ?_, ?_, ?_⟩
  · intro v w
    simp [Matrix.mulVec, Fin.sum_univ_two, dotProduct]
  · simp [EuclideanSpace.norm_eq, Fin.sum_univ_two]
  · funext i
    fin_cases i <;> simp [Matrix.mulVec, dotProduct]
  · rw [inner_ev]
    simp [Fin.sum_univ_two]
  · intro w hw
    rw [inner_ev] at hw
    have h0 : w 0 = 0 := by simpa [Fin.sum_univ_two] using hw
    simp [EuclideanSpace.norm_eq, Fin.sum_univ_two, dotProduct, h0]

end Verif.Power
