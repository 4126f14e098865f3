import Verif.Props.Laws
import Mathlib.Analysis.Complex.Norm
import Mathlib.Analysis.Normed.Field.Basic
/-
C123: inequalities for norm2, norm0 and matrix_norminf.
-/
namespace Verif.Tensor

open Verif Spec

variable {K : Type}

/-- The 2-norm of a tensor with entries `f`. -/
theorem norm2_complex_eq (t : Tensor ℂ) (f : Nat → ℂ) (hf : ∀ i < t.data.length, t.data[i]? = some (f i)) :
    norm2 (starRingEnd ℂ) Complex.re Real.sqrt t = .ok (Real.sqrt (∑ i ∈ Finset.range t.data.length, ‖f i‖ ^ 2)) := by
  rw [norm2, c33_scprod _ t t rfl f f hf hf]
  show Res.ok _ = _
  congr 2
  rw [Complex.re_sum]
  refine Finset.sum_congr rfl fun i _ => ?_
  rw [Complex.mul_conj, Complex.ofReal_re, Complex.normSq_eq_norm_sq]

theorem norm2_real_eq (t : Tensor ℝ) (f : Nat → ℝ) (hf : ∀ i < t.data.length, t.data[i]? = some (f i)) :
    norm2 id id Real.sqrt t = .ok (Real.sqrt (∑ i ∈ Finset.range t.data.length, ‖f i‖ ^ 2)) := by
  rw [norm2, c33_scprod _ t t rfl f f hf hf]
  show Res.ok _ = _
  congr 2
  show ∑ i ∈ _, _ = _
  refine Finset.sum_congr rfl fun i _ => ?_
  rw [Real.norm_eq_abs, sq_abs, id, sq]

/-- What the proofs use of the two versions of norm2. -/
structure IsNorm2 [NormedField K] (conj : K → K) (norm2 : Tensor K → Res ℝ) : Prop where
  conj_norm : ∀ x, ‖conj x‖ = ‖x‖
  eq : ∀ (t : Tensor K) (f : Nat → K), (∀ i < t.data.length, t.data[i]? = some (f i)) →
    norm2 t = .ok (Real.sqrt (∑ i ∈ Finset.range t.data.length, ‖f i‖ ^ 2))

theorem isNorm2_complex : IsNorm2 (starRingEnd ℂ) (norm2 (starRingEnd ℂ) Complex.re Real.sqrt) :=
  ⟨fun x => by simp, norm2_complex_eq⟩

theorem isNorm2_real : IsNorm2 (id : ℝ → ℝ) (norm2 id id Real.sqrt) := ⟨fun _ => rfl, norm2_real_eq⟩

theorem get_all [Zero K] (t : Tensor K) (i : Nat) (hi : i < t.data.length) :
    t.data[i]? = some (t.data[i]?.getD 0) := by
  rw [List.getElem?_eq_getElem hi]; rfl

theorem norm2_mat [NormedField K] {conj : K → K} {N : Tensor K → Res ℝ} (hN : IsNorm2 conj N) {t : Tensor K}
    {m n : Nat} {f : Nat → Nat → K} (h : IsMat t.dims t.data m n f) :
    N t = .ok (Real.sqrt (∑ j ∈ Finset.range n, ∑ i ∈ Finset.range m, ‖f i j‖ ^ 2)) := by
  rw [hN.eq t (fun k => f (k % m) (k / m)), h.2.1, sum_range_mul]
  · congr 2
    refine Finset.sum_congr rfl fun j _ => Finset.sum_congr rfl fun i hi => ?_
    have hi := Finset.mem_range.1 hi
    rw [Nat.add_mul_mod_self_left, Nat.mod_eq_of_lt hi, Nat.add_mul_div_left _ _ (by omega),
      Nat.div_eq_of_lt hi, Nat.zero_add]
  · intro i hi
    rw [h.2.1] at hi
    have hm : 0 < m := by
      rcases Nat.eq_zero_or_pos m with h | h
      · rw [h] at hi; simp at hi
      · exact h
    have := isMat_pos h (i := i % m) (j := i / m) (Nat.mod_lt _ hm) (Nat.div_lt_of_lt_mul hi)
    rwa [Nat.mod_add_div] at this

theorem minkowski (s : Finset Nat) (x y z : Nat → ℝ) (h : ∀ i ∈ s, 0 ≤ x i ∧ x i ≤ y i + z i) :
    Real.sqrt (∑ i ∈ s, x i ^ 2) ≤ Real.sqrt (∑ i ∈ s, y i ^ 2) + Real.sqrt (∑ i ∈ s, z i ^ 2) := by
  refine Real.sqrt_le_iff.2 ⟨by positivity, ?_⟩
  have h1 : ∑ i ∈ s, x i ^ 2 ≤ ∑ i ∈ s, (y i ^ 2 + z i ^ 2 + 2 * (y i * z i)) := by
    refine Finset.sum_le_sum fun i hi => ?_
    obtain ⟨h1, h2⟩ := h i hi
    have := mul_self_le_mul_self h1 h2
    nlinarith
  have h2 := Real.sum_mul_le_sqrt_mul_sqrt s y z
  have h3 : 0 ≤ ∑ i ∈ s, y i ^ 2 := Finset.sum_nonneg fun i _ => sq_nonneg _
  have h4 : 0 ≤ ∑ i ∈ s, z i ^ 2 := Finset.sum_nonneg fun i _ => sq_nonneg _
  rw [Finset.sum_add_distrib, Finset.sum_add_distrib, ← Finset.mul_sum] at h1
  have e : (Real.sqrt (∑ i ∈ s, y i ^ 2) + Real.sqrt (∑ i ∈ s, z i ^ 2)) ^ 2 =
      ∑ i ∈ s, y i ^ 2 + ∑ i ∈ s, z i ^ 2 + 2 * (Real.sqrt (∑ i ∈ s, y i ^ 2) * Real.sqrt (∑ i ∈ s, z i ^ 2)) := by
    rw [add_sq, Real.sq_sqrt h3, Real.sq_sqrt h4]; ring
  rw [e]
  linarith

/-- C123, norm2 of tensors: Cauchy and Schwarz, the triangle inequality and homogeneity. -/
def Norm2Laws [NormedField K] (conj : K → K) (N : Tensor K → Res ℝ) : Prop :=
  (∀ (a b : Tensor K) (k : K), a.WF → a.data.length = b.data.length → ∃ na nb nab nk s,
    N a = .ok na ∧ N b = .ok nb ∧ (do let c ← binopTT (· + ·) a b; N c) = .ok nab ∧
    (do let c ← binopTN (· * ·) a k; N c) = .ok nk ∧ scprod conj a b = .ok s ∧
    ‖s‖ ≤ na * nb ∧ nab ≤ na + nb ∧ nk = na * ‖k‖) ∧
  (∀ (a b : Tensor K) (m n p : Nat), a.WF → b.WF → a.dims = [m, n] → b.dims = [n, p] → n ≠ 0 → ∃ na nb nab,
    N a = .ok na ∧ N b = .ok nb ∧ (do let c ← mmult a b; N c) = .ok nab ∧ nab ≤ na * nb) ∧
  ∀ (a b : Tensor K) (m n p q : Nat), a.WF → b.WF → a.dims = [m, n] → b.dims = [p, q] → ∃ na nb nab,
    N a = .ok na ∧ N b = .ok nb ∧ (do let c ← kron a b; N c) = .ok nab ∧ nab = na * nb

theorem norm2Laws [NormedField K] {conj : K → K} {N : Tensor K → Res ℝ} (hN : IsNorm2 conj N) :
    Norm2Laws conj N := by
  refine ⟨fun a b k wfa hl => ?_, fun a b m n p wfa wfb ha hb hn => ?_, fun a b m n p q wfa wfb ha hb => ?_⟩
  · have hf : ∀ i < a.data.length, a.data[i]? = some (a.data[i]?.getD 0) := get_all a
    have hg : ∀ i < b.data.length, b.data[i]? = some (b.data[i]?.getD 0) := get_all b
    refine ⟨_, _, Real.sqrt (∑ i ∈ Finset.range a.data.length, ‖a.data[i]?.getD 0 + b.data[i]?.getD 0‖ ^ 2),
      Real.sqrt (∑ i ∈ Finset.range a.data.length, ‖a.data[i]?.getD 0 * k‖ ^ 2), _, hN.eq a _ hf, hN.eq b _ hg, ?_, ?_,
      c33_scprod conj a b hl _ _ hf (by rw [hl]; exact hg),
      ?_, ?_, ?_⟩
    · rw [binopTT_ok _ a b wfa hl, Res.ok_bind, hN.eq _ fun i => a.data[i]?.getD 0 + b.data[i]?.getD 0]
      · simp [hl]
      · intro i hi
        have hi : i < a.data.length := by simp at hi; omega
        have hi' : i < b.data.length := by omega
        simp [hi, hi']
    · rw [binopTN, unop_ok _ a wfa, Res.ok_bind, hN.eq _ fun i => a.data[i]?.getD 0 * k]
      · simp
      · intro i hi
        have hi : i < a.data.length := by simpa using hi
        simp [hi]
    · rw [← hl]
      refine (norm_sum_le _ _).trans ?_
      refine le_trans (le_of_eq ?_) (Real.sum_mul_le_sqrt_mul_sqrt (Finset.range a.data.length)
        (fun i => ‖a.data[i]?.getD 0‖) (fun i => ‖b.data[i]?.getD 0‖))
      exact Finset.sum_congr rfl fun i _ => by rw [norm_mul, hN.conj_norm]
    · rw [← hl]
      exact minkowski _ _ _ _ fun i _ => ⟨norm_nonneg _, norm_add_le _ _⟩
    · simp only [norm_mul, mul_pow]
      rw [← Finset.sum_mul, Real.sqrt_mul (Finset.sum_nonneg fun i _ => sq_nonneg _), Real.sqrt_sq (norm_nonneg _)]
  · obtain ⟨f, hf⟩ := exists_isMat a wfa _ _ ha
    obtain ⟨g, hg⟩ := exists_isMat b wfb _ _ hb
    obtain ⟨c, ec, hc⟩ := mmult_isMat hf hg hn
    refine ⟨_, _, _, norm2_mat hN hf, norm2_mat hN hg, by rw [ec, Res.ok_bind, norm2_mat hN hc], ?_⟩
    rw [← Real.sqrt_mul (Finset.sum_nonneg fun i _ => Finset.sum_nonneg fun j _ => sq_nonneg _)]
    refine Real.sqrt_le_sqrt ?_
    have key : ∀ i j, ‖∑ l ∈ Finset.range n, f i l * g l j‖ ^ 2 ≤
        (∑ l ∈ Finset.range n, ‖f i l‖ ^ 2) * ∑ l ∈ Finset.range n, ‖g l j‖ ^ 2 := by
      intro i j
      refine le_trans ?_ (Finset.sum_mul_sq_le_sq_mul_sq (Finset.range n) (fun l => ‖f i l‖) (fun l => ‖g l j‖))
      refine pow_le_pow_left₀ (norm_nonneg _) ((norm_sum_le _ _).trans (le_of_eq ?_)) 2
      exact Finset.sum_congr rfl fun l _ => norm_mul _ _
    calc ∑ j ∈ Finset.range p, ∑ i ∈ Finset.range m, ‖∑ l ∈ Finset.range n, f i l * g l j‖ ^ 2
        ≤ ∑ j ∈ Finset.range p, ∑ i ∈ Finset.range m,
            (∑ l ∈ Finset.range n, ‖f i l‖ ^ 2) * ∑ l ∈ Finset.range n, ‖g l j‖ ^ 2 :=
          Finset.sum_le_sum fun j _ => Finset.sum_le_sum fun i _ => key i j
      _ = _ := by
          rw [Finset.sum_comm (s := Finset.range n) (t := Finset.range m), Finset.sum_mul_sum, Finset.sum_comm]
  · obtain ⟨f, hf⟩ := exists_isMat a wfa _ _ ha
    obtain ⟨g, hg⟩ := exists_isMat b wfb _ _ hb
    obtain ⟨c, ec, hc⟩ := kron_isMat hf hg
    refine ⟨_, _, _, norm2_mat hN hf, norm2_mat hN hg, by rw [ec, Res.ok_bind, norm2_mat hN hc], ?_⟩
    rw [← Real.sqrt_mul (Finset.sum_nonneg fun i _ => Finset.sum_nonneg fun j _ => sq_nonneg _)]
    congr 1
    rw [sum_range_mul, Finset.sum_mul_sum]
    refine Finset.sum_congr rfl fun l _ => Finset.sum_congr rfl fun k hk => ?_
    rw [sum_range_mul, Finset.sum_mul_sum]
    refine Finset.sum_congr rfl fun j _ => Finset.sum_congr rfl fun i hi => ?_
    rw [kronF_pos _ _ (Finset.mem_range.1 hi) (Finset.mem_range.1 hk), norm_mul, mul_pow]

/-- C123: norm2 of real tensors. -/
theorem c123_norm2_real : Norm2Laws (id : ℝ → ℝ) (norm2 id id Real.sqrt) := norm2Laws isNorm2_real

/-- C123: norm2 of complex tensors. -/
theorem c123_norm2_complex : Norm2Laws (starRingEnd ℂ) (norm2 (starRingEnd ℂ) Complex.re Real.sqrt) :=
  norm2Laws isNorm2_complex

/-- C123: matrix_norminf: the triangle inequality, products and Kronecker products, and the largest change of the
absolute values of a matrix or vector multiplied by a. K is the field of the real or the complex numbers. -/
theorem c123_norminf [NormedField K] (a b : Tensor K) (wfa : a.WF) (wfb : b.WF) :
    (∀ m n, a.dims = [m, n] → b.dims = [m, n] → n ≠ 0 → ∃ na nb nab, matrixNormInf Norm.norm a = .ok na ∧
      matrixNormInf Norm.norm b = .ok nb ∧ (do let c ← binopTT (· + ·) a b; matrixNormInf Norm.norm c) = .ok nab ∧
      nab ≤ na + nb) ∧
    (∀ m n p, a.dims = [m, n] → b.dims = [n, p] → n ≠ 0 → p ≠ 0 → ∃ na nb nab, matrixNormInf Norm.norm a = .ok na ∧
      matrixNormInf Norm.norm b = .ok nb ∧ (do let c ← mmult a b; matrixNormInf Norm.norm c) = .ok nab ∧ nab ≤ na * nb) ∧
    (∀ m n p q, a.dims = [m, n] → b.dims = [p, q] → n ≠ 0 → q ≠ 0 → ∃ na nb, matrixNormInf Norm.norm a = .ok na ∧
      matrixNormInf Norm.norm b = .ok nb ∧ (do let c ← kron a b; matrixNormInf Norm.norm c) = .ok (na * nb)) ∧
    ∀ m n, a.dims = [m, n] → n ≠ 0 → (b.dims = [n] ∨ ∃ p, b.dims = [n, p]) → ∃ na c, matrixNormInf Norm.norm a = .ok na ∧
      mmult a b = .ok c ∧ norm0 Norm.norm c ≤ na * norm0 Norm.norm b := by
  have nn : ∀ x : K, 0 ≤ ‖x‖ := norm_nonneg
  have low : ∀ {r c : Nat} {f : Nat → Nat → K} {n : ℝ}, (∀ i < r, ∑ j ∈ Finset.range c, ‖f i j‖ ≤ n) →
      (r = 0 → n = 0) → 0 ≤ n := by
    intro r c f n h1 h2
    rcases Nat.eq_zero_or_pos r with h | h
    · exact le_of_eq (h2 h).symm
    · exact (Finset.sum_nonneg fun j _ => nn _).trans (h1 0 h)
  have bound : ∀ {r : Nat} {n x : ℝ} {s : Nat → ℝ}, (r = 0 → n = 0) → (r ≠ 0 → ∃ i < r, n = s i) → 0 ≤ x →
      (∀ i < r, s i ≤ x) → n ≤ x := by
    intro r n x s h1 h2 hx h3
    rcases Nat.eq_zero_or_pos r with h | h
    · rw [h1 h]; exact hx
    · obtain ⟨i, hi, rfl⟩ := h2 (by omega)
      exact h3 i hi
  refine ⟨fun m n ha hb hn => ?_, fun m n p ha hb hn hp => ?_, fun m n p q ha hb hn hq => ?_, fun m n ha hn hb => ?_⟩
  · obtain ⟨f, hf⟩ := exists_isMat a wfa _ _ ha
    obtain ⟨g, hg⟩ := exists_isMat b wfb _ _ hb
    obtain ⟨c, ec, hc⟩ := binop_isMat (· + ·) hf hg
    obtain ⟨na, e1, h1, z1, w1⟩ := c61_norminf_partial Norm.norm a m n f hf (.inr hn) nn
    obtain ⟨nb, e2, h2, z2, w2⟩ := c61_norminf_partial Norm.norm b m n g hg (.inr hn) nn
    obtain ⟨nc, e3, h3, z3, w3⟩ := c61_norminf_partial Norm.norm c m n _ hc (.inr hn) nn
    refine ⟨na, nb, nc, e1, e2, by simp only [ec, Res.ok_bind, e3], bound z3 w3 (add_nonneg (low h1 z1) (low h2 z2)) ?_⟩
    intro i hi
    refine le_trans (Finset.sum_le_sum fun j _ => norm_add_le _ _) ?_
    rw [Finset.sum_add_distrib]
    exact add_le_add (h1 i hi) (h2 i hi)
  · obtain ⟨f, hf⟩ := exists_isMat a wfa _ _ ha
    obtain ⟨g, hg⟩ := exists_isMat b wfb _ _ hb
    obtain ⟨c, ec, hc⟩ := mmult_isMat hf hg hn
    obtain ⟨na, e1, h1, z1, w1⟩ := c61_norminf_partial Norm.norm a m n f hf (.inr hn) nn
    obtain ⟨nb, e2, h2, z2, w2⟩ := c61_norminf_partial Norm.norm b n p g hg (.inr hp) nn
    obtain ⟨nc, e3, h3, z3, w3⟩ := c61_norminf_partial Norm.norm c m p _ hc (.inr hp) nn
    have pa := low h1 z1
    have pb := low h2 z2
    refine ⟨na, nb, nc, e1, e2, by simp only [ec, Res.ok_bind, e3], bound z3 w3 (mul_nonneg pa pb) ?_⟩
    intro i hi
    calc ∑ j ∈ Finset.range p, ‖∑ l ∈ Finset.range n, f i l * g l j‖
        ≤ ∑ j ∈ Finset.range p, ∑ l ∈ Finset.range n, ‖f i l‖ * ‖g l j‖ :=
          Finset.sum_le_sum fun j _ => (norm_sum_le _ _).trans (le_of_eq (Finset.sum_congr rfl fun l _ => norm_mul _ _))
      _ = ∑ l ∈ Finset.range n, ‖f i l‖ * ∑ j ∈ Finset.range p, ‖g l j‖ := by
          rw [Finset.sum_comm]
          exact Finset.sum_congr rfl fun l _ => (Finset.mul_sum _ _ _).symm
      _ ≤ ∑ l ∈ Finset.range n, ‖f i l‖ * nb :=
          Finset.sum_le_sum fun l hl => mul_le_mul_of_nonneg_left (h2 l (Finset.mem_range.1 hl)) (nn _)
      _ = (∑ l ∈ Finset.range n, ‖f i l‖) * nb := (Finset.sum_mul _ _ _).symm
      _ ≤ na * nb := mul_le_mul_of_nonneg_right (h1 i hi) pb
  · obtain ⟨f, hf⟩ := exists_isMat a wfa _ _ ha
    obtain ⟨g, hg⟩ := exists_isMat b wfb _ _ hb
    obtain ⟨c, ec, hc⟩ := kron_isMat hf hg
    obtain ⟨na, e1, h1, z1, w1⟩ := c61_norminf_partial Norm.norm a m n f hf (.inr hn) nn
    obtain ⟨nb, e2, h2, z2, w2⟩ := c61_norminf_partial Norm.norm b p q g hg (.inr hq) nn
    obtain ⟨nc, e3, h3, z3, w3⟩ := c61_norminf_partial Norm.norm c _ _ _ hc (.inr (Nat.mul_ne_zero hq hn)) nn
    have pa := low h1 z1
    have pb := low h2 z2
    have row : ∀ i j, i < p → ∑ y ∈ Finset.range (q * n), ‖kronF p q f g (i + p * j) y‖ =
        (∑ l ∈ Finset.range n, ‖f j l‖) * ∑ k ∈ Finset.range q, ‖g i k‖ := by
      intro i j hi
      rw [sum_range_mul, Finset.sum_mul_sum]
      refine Finset.sum_congr rfl fun l _ => Finset.sum_congr rfl fun k hk => ?_
      rw [kronF_pos _ _ hi (Finset.mem_range.1 hk), norm_mul]
    refine ⟨na, nb, e1, e2, ?_⟩
    rw [ec, Res.ok_bind, e3]
    congr 1
    apply le_antisymm
    · refine bound z3 w3 (mul_nonneg pa pb) fun x hx => ?_
      have hp : 0 < p := by
        rcases Nat.eq_zero_or_pos p with h | h
        · rw [h] at hx; simp at hx
        · exact h
      have := row (x % p) (x / p) (Nat.mod_lt _ hp)
      rw [Nat.mod_add_div] at this
      rw [this]
      exact mul_le_mul (h1 _ (Nat.div_lt_of_lt_mul hx)) (h2 _ (Nat.mod_lt _ hp)) (Finset.sum_nonneg fun j _ => nn _) pa
    · rcases Nat.eq_zero_or_pos m with hm | hm
      · rw [z1 hm, zero_mul]; exact low h3 z3
      rcases Nat.eq_zero_or_pos p with hp | hp
      · rw [z2 hp, mul_zero]; exact low h3 z3
      obtain ⟨j, hj, rfl⟩ := w1 (by omega)
      obtain ⟨i, hi, rfl⟩ := w2 (by omega)
      rw [← row i j hi]
      exact h3 _ (pos_lt' hi hj)
  · obtain ⟨f, hf⟩ := exists_isMat a wfa _ _ ha
    obtain ⟨na, e1, h1, z1, w1⟩ := c61_norminf_partial Norm.norm a m n f hf (.inr hn) nn
    have pa := low h1 z1
    obtain ⟨-, k1, k2⟩ := c33_norm0 (fun x : K => ‖x‖) nn b
    have pb : 0 ≤ norm0 Norm.norm b := by
      by_cases h : b.data = []
      · exact le_of_eq (by simp [norm0, h])
      · obtain ⟨x, -, hx⟩ := k2 h
        exact (nn x).trans (le_of_eq hx.symm)
    have entry : ∀ (i : Nat) (hi : i < m) (g : Nat → K), (∀ l < n, g l ∈ b.data) →
        ‖∑ l ∈ Finset.range n, f i l * g l‖ ≤ na * norm0 Norm.norm b := by
      intro i hi g hg
      calc ‖∑ l ∈ Finset.range n, f i l * g l‖ ≤ ∑ l ∈ Finset.range n, ‖f i l‖ * ‖g l‖ :=
            (norm_sum_le _ _).trans (le_of_eq (Finset.sum_congr rfl fun l _ => norm_mul _ _))
        _ ≤ ∑ l ∈ Finset.range n, ‖f i l‖ * norm0 Norm.norm b :=
            Finset.sum_le_sum fun l hl => mul_le_mul_of_nonneg_left (k1 _ (hg l (Finset.mem_range.1 hl))) (nn _)
        _ = (∑ l ∈ Finset.range n, ‖f i l‖) * norm0 Norm.norm b := (Finset.sum_mul _ _ _).symm
        _ ≤ na * norm0 Norm.norm b := mul_le_mul_of_nonneg_right (h1 i hi) pb
    have fin : ∀ c : Tensor K, (∀ x ∈ c.data, ‖x‖ ≤ na * norm0 Norm.norm b) → norm0 Norm.norm c ≤ na * norm0 Norm.norm b := by
      intro c hc
      obtain ⟨c0, -, c2⟩ := c33_norm0 (fun x : K => ‖x‖) nn c
      by_cases h : c.data = []
      · exact (le_of_eq (c0 h)).trans (mul_nonneg pa pb)
      · obtain ⟨x, hx, e⟩ := c2 h
        exact (le_of_eq e).trans (hc x hx)
    rcases hb with hb | ⟨p, hb⟩
    · obtain ⟨c, ec, wf, hd, hel⟩ := doFold_elem (RingHom.id K) (fun _ => rfl) false a b
        wfa wfb [m] [] [] [] n (-1) 0 ha hb (by rw [ha]; simp [Spec.norm]) (by rw [hb]; simp [Spec.norm]) hn
      refine ⟨na, c, e1, ec, fin c fun x hx => ?_⟩
      have hd : c.dims = [m] := hd
      have lb : b.data.length = n := by rw [wfb.length_eq (by simp [hb]), hb]; simp
      have lc : c.data.length = m := by rw [wf.length_eq (by simp [hd]), hd]; simp
      obtain ⟨i, hi, rfl⟩ := List.mem_iff_getElem.1 hx
      have hi' : i < m := by omega
      have hb' : ∀ l < n, elem b.dims b.data [l] = some (b.data[l]?.getD 0) := by
        intro l hl
        rw [elem, if_pos (by rw [hb]; exact ⟨hl, trivial⟩), hb]
        simpa [colPos] using get_all b l (by omega)
      have := hel [i] [] [] [] (by simp [hi']) trivial trivial trivial (fun l => f i l)
        (fun l => b.data[l]?.getD 0) (fun l hl => hf.2.2 i l hi' hl) hb'
      have e : c.data[i] = ∑ l ∈ Finset.range n, f i l * b.data[l]?.getD 0 := by
        have h2 : elem c.dims c.data [i] = some c.data[i] := by
          rw [elem, if_pos (by rw [hd]; exact ⟨hi', trivial⟩), hd]
          simp [colPos, hi]
        have h3 : outIdx ([i] ++ [] ++ ([] ++ [])) = [i] := rfl
        rw [h3, h2] at this
        simpa using this
      rw [e]
      refine entry i hi' _ fun l hl => ?_
      rw [List.getElem?_eq_getElem (by omega)]
      exact List.getElem_mem _
    · obtain ⟨g, hg⟩ := exists_isMat b wfb _ _ hb
      obtain ⟨c, ec, hc⟩ := mmult_isMat hf hg hn
      refine ⟨na, c, e1, ec, fin c fun x hx => ?_⟩
      obtain ⟨k, hk, rfl⟩ := List.mem_iff_getElem.1 hx
      have hk' := hk
      rw [hc.2.1] at hk'
      have hm : 0 < m := by
        rcases Nat.eq_zero_or_pos m with h | h
        · rw [h] at hk'; simp at hk'
        · exact h
      have hq := Nat.div_lt_of_lt_mul hk'
      have := isMat_pos hc (i := k % m) (j := k / m) (Nat.mod_lt _ hm) hq
      rw [Nat.mod_add_div, List.getElem?_eq_getElem hk] at this
      rw [Option.some.inj this]
      refine entry _ (Nat.mod_lt _ hm) _ fun l hl => ?_
      exact List.mem_of_getElem? (isMat_pos hg hl hq)

/-- Tensors that meet the hypotheses of Norm2Laws and c123_norminf. -/
example : ∃ na nb nab : ℝ, norm2 id id Real.sqrt (⟨[1, 2], [3, 4]⟩ : Tensor ℝ) = .ok na ∧
    norm2 id id Real.sqrt (⟨[2, 1], [1, -1]⟩ : Tensor ℝ) = .ok nb ∧
    (do let c ← mmult ⟨[1, 2], [3, 4]⟩ ⟨[2, 1], [1, -1]⟩; norm2 id id Real.sqrt c) = .ok nab ∧ nab ≤ na * nb :=
  c123_norm2_real.2.1 _ _ 1 2 1 rfl rfl rfl rfl (by decide)

example : ∃ (na : ℝ) (c : Tensor ℝ), matrixNormInf Norm.norm (⟨[1, 2], [3, 4]⟩ : Tensor ℝ) = .ok na ∧
    mmult ⟨[1, 2], [3, 4]⟩ ⟨[2], [1, -1]⟩ = .ok c ∧
    norm0 Norm.norm c ≤ na * norm0 Norm.norm (⟨[2], [1, -1]⟩ : Tensor ℝ) :=
  (c123_norminf ⟨[1, 2], [3, 4]⟩ ⟨[2], [1, -1]⟩ rfl rfl).2.2.2 1 2 rfl (by decide) (.inl rfl)

end Verif.Tensor
