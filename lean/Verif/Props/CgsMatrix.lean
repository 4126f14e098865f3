import Verif.Props.CgsConv
import Verif.Lemmas.Matrix
import Mathlib.LinearAlgebra.Matrix.Charpoly.Coeff
import Mathlib.LinearAlgebra.Matrix.Charpoly.Basic
import Mathlib.RingTheory.Polynomial.DegreeLT
import Mathlib.LinearAlgebra.Matrix.ToLin
import Mathlib.LinearAlgebra.Dimension.StrongRankCondition
import Mathlib.Data.Rat.Sqrt
import Mathlib.Tactic.IntervalCases
import Mathlib.Tactic.NormNum
/-
C57: the conjugate gradient method with matrices.
-/
namespace Verif.Cgs

open Verif Spec Tensor Polynomial

section
variable {α : Type} [Field α] {m q : Nat}

/-- A matrix times a tensor with `q` columns, over the elements of the tensor. -/
def blockL (q : Nat) (F : Matrix (Fin m) (Fin m) α) : (Fin (q * m) → α) →ₗ[α] (Fin (q * m) → α) where
  toFun v k := ∑ l, F (finProdFinEquiv.symm k).2 l * v (finProdFinEquiv ((finProdFinEquiv.symm k).1, l))
  map_add' u v := by
    funext k
    simp only [Pi.add_apply, mul_add, Finset.sum_add_distrib]
  map_smul' c v := by
    funext k
    simp only [Pi.smul_apply, smul_eq_mul, RingHom.id_apply, Finset.mul_sum]
    exact Finset.sum_congr rfl fun l _ => by ring

theorem blockL_apply (F : Matrix (Fin m) (Fin m) α) (v : Fin (q * m) → α) (j : Fin q) (i : Fin m) :
    blockL q F v (finProdFinEquiv (j, i)) = ∑ l, F i l * v (finProdFinEquiv (j, l)) := by
  change ∑ l, F (finProdFinEquiv.symm (finProdFinEquiv (j, i))).2 l * _ = _
  simp only [Equiv.symm_apply_apply]

omit [Field α] in
/-- The elements of a tensor by columns. -/
theorem ext_block {u v : Fin (q * m) → α} (h : ∀ j i, u (finProdFinEquiv (j, i)) = v (finProdFinEquiv (j, i))) :
    u = v := by
  funext k
  have := h (finProdFinEquiv.symm k).1 (finProdFinEquiv.symm k).2
  rwa [Prod.mk.eta, Equiv.apply_symm_apply] at this

theorem sum_block (u : Fin (q * m) → α) : ∑ k, u k = ∑ j : Fin q, ∑ i : Fin m, u (finProdFinEquiv (j, i)) := by
  rw [← finProdFinEquiv.sum_comp, Fintype.sum_prod_type]

/-- It is a homomorphism of algebras. -/
def blockHom (q : Nat) : Matrix (Fin m) (Fin m) α →ₐ[α] Module.End α (Fin (q * m) → α) :=
  AlgHom.ofLinearMap
    { toFun := blockL q
      map_add' := fun F G => by
        apply LinearMap.ext; intro v; refine ext_block fun j i => ?_
        simp only [LinearMap.add_apply, Pi.add_apply, blockL_apply, Matrix.add_apply, add_mul, Finset.sum_add_distrib]
      map_smul' := fun c F => by
        apply LinearMap.ext; intro v; refine ext_block fun j i => ?_
        simp only [LinearMap.smul_apply, Pi.smul_apply, blockL_apply,
          Matrix.smul_apply, smul_eq_mul, RingHom.id_apply, Finset.mul_sum, mul_assoc] }
    (by
      apply LinearMap.ext; intro v; refine ext_block fun j i => ?_
      change blockL q 1 v _ = v _
      rw [blockL_apply]
      simp [Matrix.one_apply])
    (by
      intro F G
      apply LinearMap.ext; intro v; refine ext_block fun j i => ?_
      change blockL q (F * G) v _ = blockL q F (blockL q G v) _
      rw [blockL_apply, blockL_apply]
      simp only [blockL_apply, Matrix.mul_apply, Finset.sum_mul, Finset.mul_sum, mul_assoc]
      exact Finset.sum_comm)

theorem blockHom_apply (F : Matrix (Fin m) (Fin m) α) : blockHom q F = blockL q F := rfl

/-- The space of the powers of the map over a vector. -/
noncomputable def krylov (q : Nat) (F : Matrix (Fin m) (Fin m) α) (r : Fin (q * m) → α) :
    Submodule α (Fin (q * m) → α) :=
  (degreeLT α m).map ((LinearMap.applyₗ r).comp (aeval (blockL q F)).toLinearMap)

theorem krylov_mem (F : Matrix (Fin m) (Fin m) α) (r : Fin (q * m) → α) (g : α[X]) :
    aeval (blockL q F : Module.End α (Fin (q * m) → α)) g r ∈ krylov q F r := by
  have h0 : aeval (blockL q F : Module.End α (Fin (q * m) → α)) F.charpoly = 0 := by
    have : aeval (blockHom q F) F.charpoly = blockHom q (aeval F F.charpoly) := aeval_algHom_apply _ _ _
    rw [Matrix.aeval_self_charpoly, map_zero] at this
    exact this
  refine ⟨g %ₘ F.charpoly, ?_, ?_⟩
  · change _ ∈ degreeLT α m
    rw [mem_degreeLT]
    have := degree_modByMonic_lt g (Matrix.charpoly_monic F)
    rw [Matrix.charpoly_degree_eq_dim, Fintype.card_fin] at this
    exact this
  · change aeval (blockL q F : Module.End α (Fin (q * m) → α)) (g %ₘ F.charpoly) r = _
    conv_rhs => rw [← modByMonic_add_div g F.charpoly]
    rw [map_add, map_mul, h0, zero_mul, add_zero]

theorem krylov_self (F : Matrix (Fin m) (Fin m) α) (r : Fin (q * m) → α) : r ∈ krylov q F r := by
  have := krylov_mem F r 1
  rwa [map_one] at this

theorem krylov_step (F : Matrix (Fin m) (Fin m) α) (r : Fin (q * m) → α) :
    ∀ v ∈ krylov q F r, blockL q F v ∈ krylov q F r := by
  rintro _ ⟨g, _, rfl⟩
  have := krylov_mem F r (X * g)
  rw [map_mul, aeval_X] at this
  exact this

theorem krylov_finrank (F : Matrix (Fin m) (Fin m) α) (r : Fin (q * m) → α) :
    Module.finrank α (krylov q F r) ≤ m := by
  have h1 : Module.finrank α (degreeLT α m) = m := by
    rw [(degreeLTEquiv α m).finrank_eq, Module.finrank_fin_fun]
  have : Module.Finite α (degreeLT α m) := Module.Finite.equiv (degreeLTEquiv α m).symm
  rw [krylov]
  exact (Submodule.finrank_map_le _ _).trans h1.le

/-- MatrixMap multiplies by the matrix. -/
theorem acts_mmult [DecidableEq α] (M : Tensor α) (f : Nat → Nat → α) (hM : IsMat M.dims M.data m m f) (hm : m ≠ 0)
    (e : List Nat) :
    ActsAs (n := prod e * m) (matrixMap M false) (m :: e) (blockL (prod e) (Matrix.of fun i j => f i j)) := by
  intro v
  have wfv : (⟨m :: e, List.ofFn v⟩ : Tensor α).WF := by
    rw [Tensor.WF, List.length_ofFn, totalSize_cons, Nat.mul_comm]
  obtain ⟨c, ec, wf, hdc, hel⟩ := doFold_elem (RingHom.id α) (fun _ => rfl) false M ⟨m :: e, List.ofFn v⟩
    (IsMat.wf hM) wfv [m] [] [] e m (-1) 0 hM.1 rfl
    (by rw [hM.1]; simp [Spec.norm]) (by simp [Spec.norm]) hm
  have : c = ⟨m :: e, List.ofFn (blockL (prod e) (Matrix.of fun i j => f i j) v)⟩ := by
    refine ext_elem wf (by rw [Tensor.WF, List.length_ofFn, totalSize_cons, Nat.mul_comm]) ?_ ?_
    · rw [hdc]; simp [outDims]
    · intro idx hidx
      rw [hdc] at hidx
      obtain ⟨i, s, rfl⟩ : ∃ i s, idx = i :: s := by
        cases idx with
        | nil => simp [outDims] at hidx; exact hidx.elim
        | cons i s => exact ⟨i, s, rfl⟩
      have hin : i < m ∧ InB s e := by simpa [outDims] using hidx
      have hc := colPos_lt hin.2
      have hg : ∀ (w : Fin (prod e * m) → α) (l : Nat) (hl : l < m), elem (m :: e) (List.ofFn w) (l :: s) =
          some (w (finProdFinEquiv (⟨colPos e s, hc⟩, ⟨l, hl⟩))) := by
        intro w l hl
        have hp : l + m * colPos e s < prod e * m := by
          have := (finProdFinEquiv ((⟨colPos e s, hc⟩, ⟨l, hl⟩) : Fin (prod e) × Fin m)).isLt
          simpa using this
        rw [elem, if_pos (by simpa using ⟨hl, hin.2⟩), colPos_cons, List.getElem?_ofFn, dif_pos hp]
        congr 2
      have := hel [i] [] [] s (by simp [hin.1]) trivial trivial hin.2 (fun l => f i l)
        (fun l => if h : l < m then v (finProdFinEquiv (⟨colPos e s, hc⟩, ⟨l, h⟩)) else 0)
        (fun l hl => hM.2.2 i l hin.1 hl) (fun l hl => by
          rw [dif_pos hl]; exact hg v l hl)
      simp only [outIdx, List.append_nil, List.nil_append, List.cons_append, reduceCtorEq, if_false,
        Bool.false_eq_true, id] at this
      rw [this, hg _ i hin.1, blockL_apply, Finset.sum_range]
      congr 1
      refine Finset.sum_congr rfl fun l _ => ?_
      rw [dif_pos l.isLt]; rfl
  rw [matrixMap, if_neg (by simp), mmult]
  rw [this] at ec
  exact ec

/-- C57 for matrices: `cgs(M, B)` with a square matrix is cgs with the linear map which multiplies each
column of B by the matrix. -/
theorem c57_matrix [DecidableEq α] (M : Tensor α) (f : Nat → Nat → α) (hM : IsMat M.dims M.data m m f)
    (hm : m ≠ 0) (e : List Nat) :
    ∃ L : (Fin (prod e * m) → α) →ₗ[α] (Fin (prod e * m) → α), ActsAs (matrixMap M false) (m :: e) L ∧
      ∀ v (j : Fin (prod e)) (i : Fin m),
        L v (finProdFinEquiv (j, i)) = ∑ l : Fin m, f i l * v (finProdFinEquiv (j, l)) :=
  ⟨_, acts_mmult M f hM hm e, fun v j i => blockL_apply _ v j i⟩

end

/-- C57 for matrices, exact arithmetic: if M is Hermitian with its spectrum above 1e-15, `cgs(M, B)` ends
with the default number of iterations, with any start, and ||B - M X|| is within the tolerance, also when
B has several columns. -/
theorem c57_matrix_converges {𝕜 : Type} [RCLike 𝕜] [DecidableEq 𝕜] {m : Nat} (deftol : ℝ) (hdef : 0 < deftol)
    (M : Tensor 𝕜) (f : Nat → Nat → 𝕜) (hM : IsMat M.dims M.data m m f) (hm : m ≠ 0) (e : List Nat)
    (hsym : ∀ i j : Fin m, f i j = starRingEnd 𝕜 (f j i))
    (hpos : ∀ v : Fin m → 𝕜, 1e-15 * ∑ i, ‖v i‖ ^ 2 ≤
      RCLike.re (∑ i : Fin m, (∑ l : Fin m, f i l * v l) * starRingEnd 𝕜 (v i)))
    (b start : Fin (prod e * m) → 𝕜) (xs : Option (Fin (prod e * m) → 𝕜)) (maxiter : Int)
    (hmax : maxiter = 0 ∨ m ≤ maxiter + 1) (tol : ℝ) :
    ∃ out x, solve (exact 𝕜) deftol (matrixMap M false) ⟨m :: e, List.ofFn b⟩
        (xs.map fun x => ⟨m :: e, List.ofFn x⟩) ⟨m :: e, List.ofFn start⟩ maxiter tol = .ok out ∧
      out.x = ⟨m :: e, List.ofFn x⟩ ∧
      Real.sqrt (∑ j : Fin (prod e), ∑ i : Fin m, ‖b (finProdFinEquiv (j, i)) -
        ∑ l : Fin m, f i l * x (finProdFinEquiv (j, l))‖ ^ 2) ≤ if tol ≤ 0 then deftol else tol := by
  obtain ⟨out, x, h1, h2, h3⟩ := c57_converges_within deftol hdef (matrixMap M false)
    (blockL (prod e) (Matrix.of fun i j => f i j)) (d := m :: e)
    (by rw [totalSize_cons, Nat.mul_comm]) (acts_mmult M f hM hm e)
    (by
      intro u v
      rw [sum_block, sum_block]
      refine Finset.sum_congr rfl fun j _ => ?_
      simp only [blockL_apply, Finset.sum_mul, map_sum, map_mul, Finset.mul_sum, Matrix.of_apply]
      rw [Finset.sum_comm]
      refine Finset.sum_congr rfl fun i _ => Finset.sum_congr rfl fun l _ => ?_
      rw [hsym l i]; ring)
    (by
      intro v
      rw [sum_block (fun k => blockL (prod e) (Matrix.of fun i j : Fin m => f i j) v k * starRingEnd 𝕜 (v k))]
      rw [← finProdFinEquiv.sum_comp (fun k => ‖v k‖ ^ 2), Fintype.sum_prod_type, Finset.mul_sum, map_sum]
      refine Finset.sum_le_sum fun j _ => ?_
      simp only [blockL_apply, Matrix.of_apply]
      exact hpos fun i => v (finProdFinEquiv (j, i)))
    b start xs m rfl maxiter tol _ (krylov_step _ (b - blockL (prod e) (Matrix.of fun i j => f i j) (xs.getD start)))
    (krylov_self _ _)
    (by
      have := krylov_finrank (q := prod e) (Matrix.of fun i j : Fin m => f i j)
        (b - blockL (prod e) (Matrix.of fun i j => f i j) (xs.getD start))
      split <;> omega)
  refine ⟨out, x, h1, h2, ?_⟩
  rw [← finProdFinEquiv.sum_comp, Fintype.sum_prod_type] at h3
  simp only [Pi.sub_apply, blockL_apply, Matrix.of_apply] at h3
  exact h3

/-- Rational numbers, for the examples: the square root is that of the perfect squares. -/
def ratNum : Num ℚ ℚ := ⟨id, fun x => |x|, Rat.sqrt, fun x => x / 10 ^ 15⟩

/-- C57 is false of the number of iterations: with maxiter = 1 there are two of them and the map is used
three times. The system is diag(1, 2) x = (3, 4), which is solved by the second iteration. -/
theorem c57_more_iterations :
    solve ratNum (1 / 10 ^ 10) (matrixMap ⟨[2, 2], [1, 0, 0, 2]⟩ false) ⟨[2], [3, 4]⟩ (some ⟨[2], [0, 0]⟩)
      ⟨[2], [0, 0]⟩ 1 0 = .ok ⟨⟨[2], [3, 2]⟩, ⟨[2], [0, 0]⟩, 3⟩ := by
  decide +kernel

/-- C57: a system which is not positive may stop the program although it has a solution: the map
exchanges the elements and b = (1, 0). -/
theorem c57_indefinite :
    solve ratNum (1 / 10 ^ 10) (matrixMap ⟨[2, 2], [0, 1, 1, 0]⟩ false) ⟨[2], [1, 0]⟩ (some ⟨[2], [0, 0]⟩)
      ⟨[2], [0, 0]⟩ 0 0 = .abort := by
  decide +kernel

/-- The hypotheses of c57_residual: diag(1, 2) for vectors, of which c57_more_iterations is a run. -/
example : ∃ L : (Fin (1 * 2) → ℚ) →ₗ[ℚ] (Fin (1 * 2) → ℚ),
    ActsAs (matrixMap (⟨[2, 2], [1, 0, 0, 2]⟩ : Tensor ℚ) false) [2] L := by
  have hM : IsMat [2, 2] ([1, 0, 0, 2] : List ℚ) 2 2 fun i j => if i = j then (i + 1 : ℚ) else 0 := by
    refine ⟨rfl, rfl, ?_⟩
    intro i j hi hj
    interval_cases i <;> interval_cases j <;> (simp [elem, InB, colPos]; try norm_num)
  obtain ⟨L, h, _⟩ := c57_matrix (⟨[2, 2], [1, 0, 0, 2]⟩ : Tensor ℚ) _ hM (by omega) []
  exact ⟨L, h⟩

/-- The hypotheses of c57_matrix_converges: the identity. -/
example : (∀ i j : Fin 2, (if (i : Nat) = j then (1 : ℝ) else 0) =
      starRingEnd ℝ (if (j : Nat) = i then (1 : ℝ) else 0)) ∧
    ∀ v : Fin 2 → ℝ, 1e-15 * ∑ i, ‖v i‖ ^ 2 ≤
      RCLike.re (∑ i : Fin 2, (∑ l : Fin 2, (if (i : Nat) = l then (1 : ℝ) else 0) * v l) * starRingEnd ℝ (v i)) := by
  constructor
  · intro i j
    by_cases h : (i : Nat) = j
    · simp [h]
    · rw [if_neg h, if_neg (fun e => h e.symm)]; simp
  · intro v
    simp [Fin.sum_univ_two]
    nlinarith [sq_nonneg (v 0), sq_nonneg (v 1)]

end Verif.Cgs
