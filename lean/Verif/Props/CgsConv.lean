import Verif.Props.Cgs
import Verif.Props.CgsAbstract
import Mathlib.Analysis.InnerProductSpace.PiL2
/-
C57: the conjugate gradient method finds the solution of systems with a positive map.
-/
namespace Verif.Cgs

open Verif Spec Tensor

variable {𝕜 : Type} [RCLike 𝕜] {n : Nat} {d : List Nat}

/-- The functions over real or complex numbers. -/
noncomputable def exact (𝕜 : Type) [RCLike 𝕜] : Num 𝕜 ℝ where
  conj := starRingEnd 𝕜
  abs := fun x => ‖x‖
  sqrt := Real.sqrt
  tiny := fun x => 1e-15 * x

/-- The vector of a space with an inner product. -/
abbrev ev (v : Fin n → 𝕜) : EuclideanSpace 𝕜 (Fin n) := WithLp.toLp 2 v

theorem inner_ev (u v : Fin n → 𝕜) : inner 𝕜 (ev v) (ev u) = ∑ i, u i * starRingEnd 𝕜 (v i) := by
  simp [PiLp.inner_apply]

/-- The map over that space. -/
noncomputable def eL (L : (Fin n → 𝕜) →ₗ[𝕜] (Fin n → 𝕜)) :
    EuclideanSpace 𝕜 (Fin n) →ₗ[𝕜] EuclideanSpace 𝕜 (Fin n) :=
  (WithLp.linearEquiv 2 𝕜 (Fin n → 𝕜)).symm.conj L

theorem eL_ev (L : (Fin n → 𝕜) →ₗ[𝕜] (Fin n → 𝕜)) (v : Fin n → 𝕜) : eL L (ev v) = ev (L v) := rfl

theorem sqrt_ev (v : Fin n → 𝕜) : Real.sqrt ‖∑ i, v i * starRingEnd 𝕜 (v i)‖ = ‖ev v‖ := by
  rw [← inner_ev, inner_self_eq_norm_sq_to_K]
  simp

theorem loop_converges [DecidableEq 𝕜] (A : Tensor 𝕜 → Res (Tensor 𝕜))
    (L : (Fin n → 𝕜) →ₗ[𝕜] (Fin n → 𝕜)) (hd : totalSize d = n) (hA : ActsAs A d L) {tol : ℝ} (ht : 0 < tol)
    (hsym : (eL L).IsSymmetric)
    (hpos : ∀ v : Fin n → 𝕜, 1e-15 * ‖ev v‖ ^ 2 ≤ RCLike.re (inner 𝕜 (ev v) (ev (L v))))
    (C : Submodule 𝕜 (EuclideanSpace 𝕜 (Fin n))) (hC : ∀ v ∈ C, eL L v ∈ C) (b : Fin n → 𝕜) :
    ∀ (k : Nat) (K : Submodule 𝕜 (EuclideanSpace 𝕜 (Fin n))) (x r p : Fin n → 𝕜) (rs : 𝕜) (used : Nat),
      Conj (eL L) K (ev r) (ev p) → K ≤ C → ev r ∈ C → r = b - L x → r ≠ 0 →
      rs = inner 𝕜 (ev r) (ev r) → Module.finrank 𝕜 C ≤ Module.finrank 𝕜 K + k →
      ∃ out x', loop (exact 𝕜) A tol k (vt d x) (vt d r) (vt d p) rs used = .ok out ∧ out.x = vt d x' ∧
        ‖ev (b - L x')‖ < tol
  | 0, K, x, r, p, rs, used, hK, hKC, hrC, hr, hr0, hrs, hf => by
    have : K = C := Submodule.eq_of_le_of_finrank_le hKC (by omega)
    subst this
    have := hK.orth _ hrC
    rw [inner_self_eq_zero] at this
    exact absurd ((WithLp.toLp_eq_zero 2).1 this) hr0
  | k + 1, K, x, r, p, rs, used, hK, hKC, hrC, hr, hr0, hrs, hf => by
    have hr0' : ev r ≠ 0 := fun h => hr0 ((WithLp.toLp_eq_zero 2).1 h)
    have hrs0 : rs ≠ 0 := by rw [hrs]; exact inner_self_ne_zero.2 hr0'
    have hnr : 0 < ‖ev r‖ := norm_pos_iff.2 hr0'
    have hrp := hK.norm_p
    -- the denominator
    have hb : ∑ i, p i * starRingEnd 𝕜 (L p i) = inner 𝕜 (ev p) (eL L (ev p)) := by
      rw [← inner_ev, ← eL_ev]; exact hsym _ _
    have hb1 := hpos p
    rw [← eL_ev] at hb1
    have hb2 : 1e-15 * ‖ev r‖ ^ 2 ≤ ‖inner 𝕜 (ev p) (eL L (ev p))‖ := by
      refine le_trans ?_ (le_trans hb1 (RCLike.re_le_norm _))
      have : ‖ev r‖ ^ 2 ≤ ‖ev p‖ ^ 2 := pow_le_pow_left₀ hnr.le hrp 2
      linarith
    have hb0 : inner 𝕜 (ev p) (eL L (ev p)) ≠ 0 := by
      intro h
      rw [h, norm_zero] at hb2
      have : 0 < ‖ev r‖ ^ 2 := by positivity
      linarith
    have hrsn : ‖rs‖ = ‖ev r‖ ^ 2 := by
      rw [hrs, inner_self_eq_norm_sq_to_K]
      simp
    have h1 : ¬ (exact 𝕜).abs (∑ i, p i * (exact 𝕜).conj (L p i)) < (exact 𝕜).tiny ((exact 𝕜).abs rs) := by
      change ¬ ‖∑ i, p i * starRingEnd 𝕜 (L p i)‖ < 1e-15 * ‖rs‖
      rw [hb, hrsn]; exact not_lt.2 hb2
    have h2 : ¬ ∑ i, p i * (exact 𝕜).conj (L p i) = 0 := by
      change ¬ ∑ i, p i * starRingEnd 𝕜 (L p i) = 0
      rw [hb]; exact hb0
    rw [loop_step (exact 𝕜) A L hd hA]
    simp only [if_neg h1, if_neg h2]
    generalize ha : rs / ∑ i, p i * (exact 𝕜).conj (L p i) = a
    replace ha : a = rs / inner 𝕜 (ev p) (eL L (ev p)) := by rw [← ha, ← hb]; rfl
    have hr' : r - a • L p = b - L (x + a • p) := by
      rw [map_add, map_smul, hr]; abel
    have hsq : (exact 𝕜).sqrt ((exact 𝕜).abs (∑ i, (r - a • L p) i * (exact 𝕜).conj ((r - a • L p) i))) =
        ‖ev (r - a • L p)‖ := sqrt_ev _
    split
    · rename_i htol
      rw [hsq] at htol
      exact ⟨_, _, rfl, rfl, by rw [← hr']; exact htol⟩
    · rename_i htol
      rw [hsq] at htol
      have hn := hK.next hsym hb0 (by rw [← hrs]; exact hrs0) (a := a) (by rw [← hrs, ha]) rfl
      have he : ev r - a • eL L (ev p) = ev (r - a • L p) := rfl
      rw [he] at hn
      have hpC : ev p ∈ C := by
        have := C.add_mem (hKC hK.diff) hrC
        rwa [sub_add_cancel] at this
      refine loop_converges A L hd hA ht hsym hpos C hC b k (K ⊔ Submodule.span 𝕜 {ev r}) _ _ _ _ _ ?_ ?_ ?_ hr'
        ?_ ?_ ?_
      · have e2 : ∑ i, (r - a • L p) i * (exact 𝕜).conj ((r - a • L p) i) =
            inner 𝕜 (ev (r - a • L p)) (ev (r - a • L p)) := (inner_ev _ _).symm
        rw [e2, hrs]
        exact hn
      · rw [sup_le_iff, Submodule.span_singleton_le_iff_mem]
        exact ⟨hKC, hrC⟩
      · rw [← he]
        exact C.sub_mem hrC (C.smul_mem _ (hC _ hpC))
      · intro h
        apply htol
        rw [h]
        simpa using ht
      · exact (inner_ev _ _).symm
      · rw [hK.finrank hr0']
        omega

/-- C57, exact arithmetic: for a Hermitian map whose spectrum is above 1e-15, cgs does not stop the
program and its solution has a residual within the tolerance, provided that the residual of the start lies
in an invariant space whose dimension is not larger than the number of iterations. -/
theorem c57_converges_within [DecidableEq 𝕜] (deftol : ℝ) (hdef : 0 < deftol) (A : Tensor 𝕜 → Res (Tensor 𝕜))
    (L : (Fin n → 𝕜) →ₗ[𝕜] (Fin n → 𝕜)) (hd : totalSize d = n) (hA : ActsAs A d L)
    (hsym : ∀ u v, ∑ i, L u i * starRingEnd 𝕜 (v i) = ∑ i, u i * starRingEnd 𝕜 (L v i))
    (hpos : ∀ v, 1e-15 * ∑ i, ‖v i‖ ^ 2 ≤ RCLike.re (∑ i, L v i * starRingEnd 𝕜 (v i)))
    (b start : Fin n → 𝕜) (xs : Option (Fin n → 𝕜)) (m : Nat) (hm : d[0]? = some m) (maxiter : Int) (tol : ℝ)
    (C : Submodule 𝕜 (Fin n → 𝕜)) (hC : ∀ v ∈ C, L v ∈ C) (hbC : b - L (xs.getD start) ∈ C)
    (hdim : (Module.finrank 𝕜 C : Int) ≤ (if maxiter = 0 then (m : Int) else maxiter) + 1) :
    ∃ out x, solve (exact 𝕜) deftol A ⟨d, List.ofFn b⟩ (xs.map fun x => ⟨d, List.ofFn x⟩) ⟨d, List.ofFn start⟩
        maxiter tol = .ok out ∧ out.x = ⟨d, List.ofFn x⟩ ∧
      Real.sqrt (∑ i, ‖(b - L x) i‖ ^ 2) ≤ if tol ≤ 0 then deftol else tol := by
  have e := solve_start (exact 𝕜) deftol A L hd hA b start xs m hm maxiter tol
  rw [e]
  simp only
  have ht : 0 < if tol ≤ 0 then deftol else tol := by
    split
    · exact hdef
    · exact not_le.1 ‹_›
  generalize (if maxiter = 0 then (m : Int) else maxiter) = k at hdim ⊢
  generalize (if tol ≤ 0 then deftol else tol) = t at ht ⊢
  generalize xs.getD start = x at hbC ⊢
  have hnorm : ∀ v : Fin n → 𝕜, Real.sqrt (∑ i, ‖v i‖ ^ 2) = ‖ev v‖ := fun v =>
    (EuclideanSpace.norm_eq (ev v)).symm
  have hsq : (exact 𝕜).sqrt ((exact 𝕜).abs (∑ i, (b - L x) i * (exact 𝕜).conj ((b - L x) i))) =
    ‖ev (b - L x)‖ := sqrt_ev _
  split
  · rename_i htol
    rw [hsq] at htol
    let C' : Submodule 𝕜 (EuclideanSpace 𝕜 (Fin n)) := C.map (WithLp.linearEquiv 2 𝕜 (Fin n → 𝕜)).symm.toLinearMap
    have hCm : ∀ v : Fin n → 𝕜, ev v ∈ C' ↔ v ∈ C := by
      intro v
      constructor
      · rintro ⟨w, hw, he⟩
        have : w = v := (WithLp.linearEquiv 2 𝕜 (Fin n → 𝕜)).symm.injective he
        rw [← this]; exact hw
      · intro hv
        exact ⟨v, hv, rfl⟩
    have hf : Module.finrank 𝕜 C' = Module.finrank 𝕜 C := LinearEquiv.finrank_map_eq _ _
    obtain ⟨out, x', h1, h2, h3⟩ := loop_converges (d := d) A L hd hA ht
      (by intro u v
          have := hsym (WithLp.ofLp v) (WithLp.ofLp u)
          have h1 := inner_ev (WithLp.ofLp v) (L (WithLp.ofLp u))
          have h2 := inner_ev (L (WithLp.ofLp v)) (WithLp.ofLp u)
          rw [← this, ← h2] at h1
          exact h1)
      (by intro v
          have := hpos v
          rw [← inner_ev] at this
          rw [EuclideanSpace.norm_sq_eq]
          refine this.trans (le_of_eq ?_)
          rw [← inner_conj_symm, RCLike.conj_re])
      C' (by intro v hv
             have h1 : ev (WithLp.ofLp v) ∈ C' := hv
             have h2 := (hCm _).2 (hC _ ((hCm _).1 h1))
             exact h2)
      b (k + 1).toNat ⊥ x (b - L x) (b - L x) _ 1 (Conj.start _ _) bot_le ((hCm _).2 hbC) rfl
      (by intro h; rw [h] at htol; simp at htol; linarith) (inner_ev _ _).symm
      (by rw [hf, finrank_bot]; omega)
    exact ⟨out, x', h1, h2, by rw [hnorm]; exact h3.le⟩
  · rename_i htol
    rw [hsq] at htol
    exact ⟨_, _, rfl, rfl, by rw [hnorm]; exact not_lt.1 htol⟩

/-- C57, exact arithmetic: for a Hermitian map whose spectrum is above 1e-15 and vectors, cgs finds the
solution within the tolerance if it is given as many iterations as there are elements; in particular with
the default number of iterations. -/
theorem c57_converges [DecidableEq 𝕜] (deftol : ℝ) (hdef : 0 < deftol) (A : Tensor 𝕜 → Res (Tensor 𝕜))
    (L : (Fin n → 𝕜) →ₗ[𝕜] (Fin n → 𝕜)) (hA : ActsAs A [n] L)
    (hsym : ∀ u v, ∑ i, L u i * starRingEnd 𝕜 (v i) = ∑ i, u i * starRingEnd 𝕜 (L v i))
    (hpos : ∀ v, 1e-15 * ∑ i, ‖v i‖ ^ 2 ≤ RCLike.re (∑ i, L v i * starRingEnd 𝕜 (v i)))
    (b start : Fin n → 𝕜) (xs : Option (Fin n → 𝕜)) (maxiter : Int) (hmax : maxiter = 0 ∨ n ≤ maxiter + 1)
    (tol : ℝ) :
    ∃ out x, solve (exact 𝕜) deftol A ⟨[n], List.ofFn b⟩ (xs.map fun x => ⟨[n], List.ofFn x⟩)
        ⟨[n], List.ofFn start⟩ maxiter tol = .ok out ∧ out.x = ⟨[n], List.ofFn x⟩ ∧
      Real.sqrt (∑ i, ‖(b - L x) i‖ ^ 2) ≤ if tol ≤ 0 then deftol else tol :=
  c57_converges_within deftol hdef A L (by simp [totalSize]) hA hsym hpos b start xs n rfl maxiter tol ⊤
    (fun _ _ => Submodule.mem_top) Submodule.mem_top (by
      rw [finrank_top, Module.finrank_fin_fun]
      split <;> omega)

end Verif.Cgs
