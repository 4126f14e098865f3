import Verif.Model.PowerFl
import Verif.Props.FiniteResults
import Mathlib.Analysis.Matrix.Spectrum
/-
Lemmas for C132: vectors divided by their norms in doubles, residuals, and eigenvalues near to approximate ones.
-/
namespace Verif.PowerFl

open Verif Verif.Spec Fl Rounding Tensor GemmFl GemmFl.Spec Fused FiniteResults

/-- The sum of the squares of the elements. -/
noncomputable def sq2 (l : List Fl) : ℝ := (l.map fun x => x.val ^ 2).sum

theorem sq2_nonneg (l : List Fl) : 0 ≤ sq2 l :=
  List.sum_nonneg fun x hx => by
    obtain ⟨y, -, rfl⟩ := List.mem_map.1 hx
    exact sq_nonneg _

theorem le_sq2 {l : List Fl} {x : Fl} (h : x ∈ l) : x.val ^ 2 ≤ sq2 l :=
  List.single_le_sum (fun x hx => by
    obtain ⟨y, -, rfl⟩ := List.mem_map.1 hx
    exact sq_nonneg _) _ (List.mem_map.2 ⟨x, h, rfl⟩)

theorem eps_eq : eps = ((2 : ℝ) ^ 53)⁻¹ := by
  rw [eps, zpow_neg]
  norm_cast

/-- The relative error of `k` roundings. -/
theorem pow_near {k : ℕ} (hk : k ≤ 2 ^ 50) : (1 + eps) ^ k - 1 ≤ 8 / 7 * (k * eps) := by
  have he := eps_pos
  have he1 := eps_lt
  have hk' : (k : ℝ) * eps ≤ 1 / 8 := by
    have h1 : (k : ℝ) ≤ 2 ^ 50 := by exact_mod_cast hk
    rw [eps_eq, ← div_eq_mul_inv, div_le_iff₀ (by positivity)]
    norm_num at h1 ⊢
    linarith
  have h1 : 1 - k * eps ≤ (1 - eps) ^ k := by
    have := one_add_mul_le_pow (show (-2 : ℝ) ≤ -eps by linarith) k
    rw [← sub_eq_add_neg] at this
    linarith
  have h2 : (1 + eps) ^ k * (1 - eps) ^ k ≤ 1 := by
    rw [← mul_pow]
    exact pow_le_one₀ (by nlinarith) (by nlinarith)
  have h3 : 0 < (1 + eps) ^ k := by positivity
  have h4 : (1 + eps) ^ k * (1 - k * eps) ≤ 1 := le_trans (mul_le_mul_of_nonneg_left h1 h3.le) h2
  have h5 : 0 ≤ (k : ℝ) * eps := by positivity
  nlinarith

theorem square_near {e t a q : ℝ} (he : 0 < e) (he' : e ≤ 1 / 1024) (ht0 : 0 < t) (ht : t ≤ e / 64)
    (h3 : |a - q| ≤ e * |q| + t) (h4 : |q| ≤ 2) : |a ^ 2 - q ^ 2| ≤ 17 / 8 * e * q ^ 2 + e / 8 := by
  have h5 : |a + q| ≤ (2 + e) * |q| + t := by
    have : a + q = (a - q) + 2 * q := by ring
    rw [this]
    refine (abs_add_le _ _).trans ?_
    rw [abs_mul, abs_two]
    linarith
  rw [show a ^ 2 - q ^ 2 = (a - q) * (a + q) by ring, abs_mul]
  have h6 := mul_le_mul h3 h5 (abs_nonneg _) (by positivity)
  refine h6.trans ?_
  have hq2 : q ^ 2 = |q| ^ 2 := (sq_abs q).symm
  rw [hq2]
  have h7 := abs_nonneg q
  generalize |q| = p at *
  have h8 : e * p * t ≤ 2 * e * t := by
    have := mul_le_mul_of_nonneg_left h4 (mul_pos he ht0).le
    linarith
  have h9 : t * ((2 + e) * p) ≤ t * ((2 + e) * 2) := by
    apply mul_le_mul_of_nonneg_left _ ht0.le
    apply mul_le_mul_of_nonneg_left h4 (by linarith)
  have h10 : e * p * ((2 + e) * p) ≤ 17 / 8 * e * p ^ 2 := by
    have h : 0 ≤ e * p ^ 2 := by positivity
    have := mul_le_mul_of_nonneg_right (show 2 + e ≤ 17 / 8 by linarith) h
    linarith
  have h11 : t * t ≤ t * e := mul_le_mul_of_nonneg_left (by linarith) ht0.le
  have h12 : t * e ≤ t * (1 / 1024) := mul_le_mul_of_nonneg_left he' ht0.le
  linarith [mul_add (e * p + t) ((2 + e) * p) t, add_mul (e * p) t ((2 + e) * p), add_mul (e * p) t t,
    mul_comm e t]

theorem quotient_near {N s g : ℝ} (hN : 0 < N) (hs0 : 0 < s) (hg0 : 0 ≤ g) (hg2 : g ≤ 1 / 64) (hs1 : (1 - g) * N ≤ s)
    (hs2 : s ≤ (1 + g) * N) : |N ^ 2 / s ^ 2 - 1| ≤ 5 / 2 * g := by
  have hs2' : 0 < s ^ 2 := by positivity
  have hgg : g * g ≤ g * (1 / 64) := mul_le_mul_of_nonneg_left hg2 hg0
  have hggg : 0 ≤ g * g * g := by positivity
  have hgg0 : 0 ≤ g * g := by positivity
  rw [abs_le]
  constructor
  · rw [le_sub_iff_add_le, le_div_iff₀ hs2']
    have : s ^ 2 ≤ ((1 + g) * N) ^ 2 := pow_le_pow_left₀ hs0.le hs2 2
    have h3 : (-(5 / 2 * g) + 1) * s ^ 2 ≤ (-(5 / 2 * g) + 1) * ((1 + g) * N) ^ 2 :=
      mul_le_mul_of_nonneg_left this (by linarith)
    refine h3.trans ?_
    rw [mul_pow, ← mul_assoc]
    have : (-(5 / 2 * g) + 1) * (1 + g) ^ 2 ≤ 1 := by
      rw [show (-(5 / 2 * g) + 1) * (1 + g) ^ 2 = 1 - g / 2 - 4 * (g * g) - 5 / 2 * (g * g * g) by ring]
      linarith
    have := mul_le_mul_of_nonneg_right this (sq_nonneg N)
    linarith
  · rw [sub_le_iff_le_add, div_le_iff₀ hs2']
    have : ((1 - g) * N) ^ 2 ≤ s ^ 2 := pow_le_pow_left₀ (mul_nonneg (by linarith) hN.le) hs1 2
    have h3 : (5 / 2 * g + 1) * ((1 - g) * N) ^ 2 ≤ (5 / 2 * g + 1) * s ^ 2 :=
      mul_le_mul_of_nonneg_left this (by linarith)
    refine le_trans ?_ h3
    rw [mul_pow, ← mul_assoc]
    have : 1 ≤ (5 / 2 * g + 1) * (1 - g) ^ 2 := by
      rw [show (5 / 2 * g + 1) * (1 - g) ^ 2 = 1 + g / 2 - 4 * (g * g) + 5 / 2 * (g * g * g) by ring]
      linarith
    have := mul_le_mul_of_nonneg_right this (sq_nonneg N)
    linarith

theorem final_near {Q V L g e : ℝ} (hL : 0 ≤ L) (he : 0 < e) (hg : g ≤ 8 / 7 * ((L + 2) * e)) (hg2 : g ≤ 1 / 64)
    (hQ : |Q - 1| ≤ 5 / 2 * g) (hV : |V - Q| ≤ 17 / 8 * e * Q + L * (e / 8)) : |V - 1| ≤ (L + 4) * (8 * e) := by
  have hQ2 : Q ≤ 2 := by linarith [(abs_le.1 hQ).2]
  have h12 := abs_sub_le V Q 1
  have h13 : 17 / 8 * e * Q ≤ 17 / 8 * e * 2 := mul_le_mul_of_nonneg_left hQ2 (by positivity)
  have h14 : 0 ≤ L * e := by positivity
  linarith

section
variable [Rounding]

theorem rnd_lt_of {x : ℝ} (h : |x| ≤ 2 ^ 1000) : |rnd x| < 2 ^ 1024 := by
  have ht : IsTarget ((2 : ℝ) ^ 1000) := by
    have := isTarget_of (m := 2 ^ 52) (e := 948) (by norm_num) (by norm_num) (by norm_num)
    convert this using 1
    rw [show ((2 : ℝ) ^ (948 : ℤ)) = 2 ^ (948 : ℕ) from zpow_natCast 2 948]
    push_cast
    rw [show (4503599627370496 : ℝ) = 2 ^ 52 by norm_num, ← pow_add]
  have h' := abs_le.1 h
  refine lt_of_le_of_lt (abs_le.2 ⟨le_rnd ht.neg h'.1, rnd_le ht h'.2⟩) ?_
  exact pow_lt_pow_right₀ (by norm_num) (by norm_num)

theorem unit_eq (v : Tensor Fl) : ∃ s, norm2 id id Fl.sqrt v = .ok s ∧ unit v = .ok ⟨v.dims, v.data.map fun x => x / s⟩ := by
  refine ⟨_, norm2_eq v, ?_⟩
  rw [unit, norm2_eq, Res.ok_bind, inplaceTN]
  have := inplaceTNLoop_val (fun x y : Fl => x / y) (Fl.sqrt ((v.data.map fun x => x * x).foldl (· + ·) 0)) [] v.data
  simp only [List.nil_append, List.length_nil] at this
  rw [show v.size = v.data.length from rfl, this, Res.ok_bind]
  rfl

/-- A vector divided by its norm has the norm one, up to rounding. -/
theorem unit_near (v : Tensor Fl) (hf : ∀ x ∈ v.data, x.Finite) (hL : v.data.length ≤ 2 ^ 46)
    (h1 : (2 : ℝ) ^ (-969 : ℤ) ≤ sq2 v.data) (h2 : sq2 v.data ≤ 2 ^ 1000) :
    ∃ u, unit v = .ok u ∧ u.dims = v.dims ∧ u.data.length = v.data.length ∧ (∀ x ∈ u.data, x.Finite) ∧
      |sq2 u.data - 1| ≤ (v.data.length + 4) * 2 ^ (-50 : ℤ) := by
  obtain ⟨s, hs, hu⟩ := unit_eq v
  refine ⟨_, hu, rfl, by simp, ?_⟩
  have he := eps_pos
  have hk := pow_near (k := v.data.length + 2) (by
    have : (2 : ℕ) ^ 46 + 2 ≤ 2 ^ 50 := by norm_num
    omega)
  have hkn := pow_near (k := v.data.length) (by
    have : (2 : ℕ) ^ 46 ≤ 2 ^ 50 := by norm_num
    omega)
  have hLr : (v.data.length : ℝ) ≤ 2 ^ 46 := by exact_mod_cast hL
  have hLe : (v.data.length : ℝ) * eps ≤ 1 / 128 := by
    rw [eps_eq, ← div_eq_mul_inv, div_le_iff₀ (by positivity)]
    norm_num at hLr ⊢
    linarith
  have he' : eps ≤ 1 / 1024 := by
    rw [eps_eq]
    norm_num
  push_cast at hk
  have hpos : (0 : ℝ) < 2 ^ (-969 : ℤ) := two_zpow_pos _
  have hSpos : 0 < sq2 v.data := lt_of_lt_of_le hpos h1
  have hsmall : Small v.data.length (v.data.map fun x => x.val ^ 2).sum := by
    unfold Spec.Small
    have e1 : (2 : ℝ) ^ (-53 : ℤ) = eps := rfl
    rw [e1]
    have hp : (1 + eps) ^ v.data.length ≤ 2 := by nlinarith
    have hp' : (1 + eps) ^ (v.data.length - 1) ≤ 2 := le_trans (pow_eps_mono (by omega)) hp
    have ht : (2 : ℝ) ^ (-1075 : ℤ) ≤ 1 := zpow_le_one_of_nonpos₀ (by norm_num) (by norm_num)
    have a1 : (1 + eps) ^ v.data.length * sq2 v.data ≤ 2 * 2 ^ 1000 := mul_le_mul hp h2 hSpos.le (by norm_num)
    have a2 : (v.data.length : ℝ) * (1 + eps) ^ (v.data.length - 1) * 2 ^ (-1075 : ℤ) ≤ 2 ^ 46 * 2 * 1 := by
      refine mul_le_mul (mul_le_mul hLr hp' (by positivity) (by positivity)) ht (two_zpow_pos _).le (by positivity)
    have a3 : (2 : ℝ) * 2 ^ 1000 + 2 ^ 46 * 2 * 1 < 2 ^ 1024 := by
      have b1 : (2 : ℝ) ^ 46 * 2 * 1 ≤ 2 ^ 1000 := by
        rw [mul_one, ← pow_succ]
        exact pow_le_pow_right₀ (by norm_num) (by norm_num)
      have b2 : (2 : ℝ) ^ 1024 = 2 ^ 24 * 2 ^ 1000 := by rw [← pow_add]
      rw [b2]
      generalize (2 : ℝ) ^ 1000 = P at b1 ⊢
      have : 0 < P := lt_of_lt_of_le (by norm_num) b1
      nlinarith
    exact lt_of_le_of_lt (add_le_add a1 a2) a3
  obtain ⟨z, hz, fz, -, hnear⟩ := c119_norm2_error_partial v hf hsmall (.ok s)
    ⟨_, c119_plain v v, by rw [← hs, norm2]; rfl⟩
  cases hz
  replace hnear := hnear (le_trans hL (by norm_num)) h1
  have e1 : (2 : ℝ) ^ (-53 : ℤ) = eps := rfl
  rw [e1] at hnear
  change |s.val - Real.sqrt (sq2 v.data)| ≤ _ * Real.sqrt (sq2 v.data) at hnear
  have hN : 0 < Real.sqrt (sq2 v.data) := Real.sqrt_pos.2 hSpos
  have hN2 : Real.sqrt (sq2 v.data) ^ 2 = sq2 v.data := Real.sq_sqrt hSpos.le
  obtain ⟨g, hg, hg0, hg1, hg2⟩ : ∃ g, (1 + eps) ^ (v.data.length + 2) - 1 = g ∧ 0 ≤ g ∧
      g ≤ 8 / 7 * ((v.data.length + 2) * eps) ∧ g ≤ 1 / 64 := by
    refine ⟨_, rfl, ?_, hk, ?_⟩
    · have : 1 ≤ (1 + eps) ^ (v.data.length + 2) := one_le_pow₀ (by linarith)
      linarith
    · nlinarith
  rw [hg] at hnear
  generalize hNd : Real.sqrt (sq2 v.data) = N at *
  have hb := abs_le.1 hnear
  have hs1 : (1 - g) * N ≤ s.val := by linarith
  have hs2 : s.val ≤ (1 + g) * N := by linarith
  have hs0 : 0 < s.val := lt_of_lt_of_le (by nlinarith) hs1
  -- the exact quotients
  have hq : ∀ x ∈ v.data, |x.val / s.val| ≤ 2 := by
    intro x hx
    have h3 : |x.val| ≤ N := by
      rw [← Real.sqrt_sq_eq_abs, ← hNd]
      exact Real.sqrt_le_sqrt (le_sq2 hx)
    rw [abs_div, abs_of_pos hs0, div_le_iff₀ hs0]
    nlinarith
  have hdiv : ∀ x ∈ v.data, (x / s).Finite ∧ |(x / s).val - x.val / s.val| ≤ eps * |x.val / s.val| + tinyErr := by
    intro x hx
    have hr : |rnd (x.val / s.val)| < 2 ^ 1024 := rnd_lt_of (le_trans (hq x hx) (by
      calc (2 : ℝ) = 2 ^ 1 := (pow_one 2).symm
        _ ≤ 2 ^ 1000 := pow_le_pow_right₀ (by norm_num) (by norm_num)))
    obtain ⟨f1, f2⟩ := div_finite (hf x hx) fz hs0.ne' hr
    refine ⟨f1, ?_⟩
    rw [f2]
    exact rnd_err (lt_of_rnd hr)
  refine ⟨fun x hx => ?_, ?_⟩
  · obtain ⟨y, hy, rfl⟩ := List.mem_map.1 hx
    exact (hdiv y hy).1
  have htiny : tinyErr ≤ eps / 64 := by
    have : tinyErr = eps * 2 ^ (-1022 : ℤ) := by
      rw [tinyErr, eps, ← zpow_add₀ (by norm_num)]
      norm_num
    rw [this]
    have h6 : (2 : ℝ) ^ (-1022 : ℤ) ≤ 2 ^ (-6 : ℤ) := zpow_le_zpow_right₀ (by norm_num) (by norm_num)
    have h7 : (2 : ℝ) ^ (-6 : ℤ) = 1 / 64 := by norm_num
    rw [h7] at h6
    nlinarith
  have ht0 := tinyErr_pos
  -- each square
  have hsq : ∀ x ∈ v.data, |(x / s).val ^ 2 - (x.val / s.val) ^ 2| ≤ 17 / 8 * eps * (x.val / s.val) ^ 2 + eps / 8 := by
    intro x hx
    exact square_near he he' ht0 htiny (hdiv x hx).2 (hq x hx)
  -- their sum
  have hsum : ∀ l : List Fl, (∀ x ∈ l, x ∈ v.data) →
      |sq2 (l.map fun x => x / s) - sq2 l / s.val ^ 2| ≤ 17 / 8 * eps * (sq2 l / s.val ^ 2) + l.length * (eps / 8) := by
    intro l hl
    induction l with
    | nil => simp [sq2]
    | cons x l ih =>
      have h3 := ih fun y hy => hl y (by simp [hy])
      have h4 := hsq x (hl x (by simp))
      have e2 : sq2 ((x :: l).map fun x => x / s) = (x / s).val ^ 2 + sq2 (l.map fun x => x / s) := by simp [sq2]
      have e3 : sq2 (x :: l) / s.val ^ 2 = (x.val / s.val) ^ 2 + sq2 l / s.val ^ 2 := by
        simp only [sq2, List.map_cons, List.sum_cons]
        rw [add_div, div_pow]
      rw [e2, e3, List.length_cons]
      push_cast
      have := abs_add_le ((x / s).val ^ 2 - (x.val / s.val) ^ 2) (sq2 (l.map fun x => x / s) - sq2 l / s.val ^ 2)
      rw [show (x / s).val ^ 2 - (x.val / s.val) ^ 2 + (sq2 (l.map fun x => x / s) - sq2 l / s.val ^ 2) =
        (x / s).val ^ 2 + sq2 (l.map fun x => x / s) - ((x.val / s.val) ^ 2 + sq2 l / s.val ^ 2) by ring] at this
      linarith
  have hfin := hsum v.data fun x hx => hx
  -- the exact sum is near to one
  have hQ : |sq2 v.data / s.val ^ 2 - 1| ≤ 5 / 2 * g := by
    rw [← hN2]
    exact quotient_near hN hs0 hg0 hg2 hs1 hs2
  generalize sq2 v.data / s.val ^ 2 = Q at hfin hQ
  have h50 : (2 : ℝ) ^ (-50 : ℤ) = 8 * eps := by
    rw [eps, show (8 : ℝ) = 2 ^ (3 : ℤ) by norm_num, ← zpow_add₀ (by norm_num)]
    norm_num
  rw [h50]
  exact final_near (Nat.cast_nonneg _) he hg1 hg2 hQ hfin

end

/-- Near to an approximate eigenvalue of a symmetric matrix there is an eigenvalue. -/
theorem eigenvalue_near {n : ℕ} (M : Matrix (Fin n) (Fin n) ℝ) (hM : M.IsSymm) (x : Fin n → ℝ) (hx : ∃ i, x i ≠ 0) (θ : ℝ) :
    ∃ (μ : ℝ) (y : Fin n → ℝ), (∃ i, y i ≠ 0) ∧ M.mulVec y = μ • y ∧
      (μ - θ) ^ 2 * ∑ i, x i ^ 2 ≤ ∑ i, (M.mulVec x i - θ * x i) ^ 2 := by
  classical
  have hH : M.IsHermitian := by
    rw [Matrix.IsHermitian, Matrix.conjTranspose_eq_transpose_of_trivial]
    exact hM
  obtain ⟨i0, -⟩ := hx
  obtain ⟨j, -, hj⟩ := Finset.exists_min_image Finset.univ (fun j => (hH.eigenvalues j - θ) ^ 2) ⟨i0, Finset.mem_univ _⟩
  let b := hH.eigenvectorBasis
  have key : ∀ (k : Fin n) (z : Fin n → ℝ), inner ℝ (b k) (WithLp.toLp 2 z) = ∑ i, b k i * z i := by
    intro k z
    simp [PiLp.inner_apply, mul_comm]
  have nrm : ∀ z : Fin n → ℝ, ∑ k, (∑ i, b k i * z i) ^ 2 = ∑ i, z i ^ 2 := by
    intro z
    have h := b.sum_sq_norm_inner_right (WithLp.toLp 2 z)
    rw [EuclideanSpace.norm_sq_eq] at h
    simpa [key] using h
  refine ⟨hH.eigenvalues j, b j, ?_, hH.mulVec_eigenvectorBasis j, ?_⟩
  · by_contra hc
    push Not at hc
    have h1 := b.norm_eq_one j
    have : b j = 0 := by
      ext i
      exact hc i
    rw [this, norm_zero] at h1
    exact zero_ne_one h1
  · rw [← nrm x, ← nrm (fun i => M.mulVec x i - θ * x i), Finset.mul_sum]
    refine Finset.sum_le_sum fun k _ => ?_
    have h1 : ∑ i, b k i * (M.mulVec x i - θ * x i) = (hH.eigenvalues k - θ) * ∑ i, b k i * x i := by
      have h2 := hH.mulVec_eigenvectorBasis k
      have h3 : ∑ i, b k i * M.mulVec x i = ∑ i, hH.eigenvalues k * b k i * x i := by
        have h4 : dotProduct (b k : Fin n → ℝ) (M.mulVec x) = dotProduct (M.mulVec (b k)) x := by
          rw [Matrix.dotProduct_mulVec, ← Matrix.mulVec_transpose, hM.eq]
        rw [h2] at h4
        simpa [dotProduct] using h4
      rw [sub_mul, Finset.mul_sum, Finset.mul_sum, ← Finset.sum_sub_distrib]
      simp only [mul_sub, Finset.sum_sub_distrib]
      rw [h3]
      congr 1
      · exact Finset.sum_congr rfl fun i _ => by ring
      · exact Finset.sum_congr rfl fun i _ => by ring
    rw [h1, mul_pow]
    exact mul_le_mul_of_nonneg_right (hj k (Finset.mem_univ _)) (sq_nonneg _)

end Verif.PowerFl
