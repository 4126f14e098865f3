import Verif.Props.ExpmFl
import Verif.Props.ExpmMatrix
import Verif.Props.GemmFloat
/-
expm with doubles (C137): the errors of the numerator and of the denominator of the approximation, and of the result.
-/
namespace Verif.ExpmFl

open Verif Verif.Spec Tensor Fl Rounding GemmFl Expm
open scoped Matrix.Norms.Operator

/-- `t` is a matrix of numbers with the values `M`. -/
def IsReal (t : Tensor Fl) {n : Nat} (M : Matrix (Fin n) (Fin n) ℝ) : Prop :=
  t.WF ∧ t.dims = [n, n] ∧ ∀ i j : Fin n, ∃ z, elem t.dims t.data [(i : Nat), (j : Nat)] = some z ∧ z.Finite ∧ z.val = M i j

section
variable {n : Nat}

/-- A bound of the norm from bounds of the elements. -/
theorem norm_le_of {E : Matrix (Fin n) (Fin n) ℝ} {F : Fin n → Fin n → ℝ} {b : ℝ} (hb : 0 ≤ b)
    (h : ∀ i j, |E i j| ≤ F i j) (hF : ∀ i, ∑ j, F i j ≤ b) : ‖E‖ ≤ b :=
  (norm_le_rows hb).2 fun i => (Finset.sum_le_sum fun j _ => h i j).trans (hF i)

theorem row_le (A : Matrix (Fin n) (Fin n) ℝ) (i : Fin n) : ∑ j, |A i j| ≤ ‖A‖ := (norm_le_rows (norm_nonneg A)).1 le_rfl i

theorem elem_le (A : Matrix (Fin n) (Fin n) ℝ) (i j : Fin n) : |A i j| ≤ ‖A‖ :=
  (Finset.single_le_sum (f := fun j => |A i j|) (fun _ _ => abs_nonneg _) (Finset.mem_univ j)).trans (row_le A i)

theorem row_mul (A B : Matrix (Fin n) (Fin n) ℝ) (i : Fin n) : ∑ j, ∑ l, |A i l * B l j| ≤ ‖A‖ * ‖B‖ := by
  rw [Finset.sum_comm]
  calc ∑ l, ∑ j, |A i l * B l j| = ∑ l, |A i l| * ∑ j, |B l j| := by
        refine Finset.sum_congr rfl fun l _ => ?_
        rw [Finset.mul_sum]
        exact Finset.sum_congr rfl fun j _ => abs_mul _ _
    _ ≤ ∑ l, |A i l| * ‖B‖ := Finset.sum_le_sum fun l _ => mul_le_mul_of_nonneg_left (row_le B l) (abs_nonneg _)
    _ = (∑ l, |A i l|) * ‖B‖ := (Finset.sum_mul ..).symm
    _ ≤ ‖A‖ * ‖B‖ := mul_le_mul_of_nonneg_right (row_le A i) (norm_nonneg _)

end

section
variable [Rounding] {n : Nat}

omit [Rounding] in
theorem big_of {x : ℝ} (h : x ≤ 2 ^ (60 : ℤ)) : x < 2 ^ 1024 := by
  refine lt_of_le_of_lt h ?_
  have e : (2 : ℝ) ^ (60 : ℤ) = 2 ^ 60 := zpow_natCast _ _
  rw [e]
  exact pow_lt_pow_right₀ (by norm_num) (by norm_num)

theorem rnd_big {x : ℝ} (h : |x| ≤ 2 ^ (60 : ℤ)) : |rnd x| < 2 ^ 1024 := by
  have dp : IsDouble ((2 : ℝ) ^ (60 : ℤ)) := isDouble_two_zpow (by norm_num) (by norm_num)
  obtain ⟨h1, h2⟩ := abs_le.1 h
  exact big_of (abs_le.2 ⟨le_rnd (.inl dp.neg) h1, rnd_le (.inl dp) h2⟩)

omit [Rounding] in
theorem real_map {t : Tensor Fl} {A B : Matrix (Fin n) (Fin n) ℝ} (h : IsReal t A) (g : Fl → Fl)
    (hg : ∀ i j z, z.Finite → z.val = A i j → (g z).Finite ∧ (g z).val = B i j) : ∃ s, unop g t = .ok s ∧ IsReal s B := by
  obtain ⟨wf, hd, he⟩ := h
  refine ⟨_, unop_ok g t wf, by simpa [Tensor.WF] using wf, hd, fun i j => ?_⟩
  obtain ⟨z, e, f, v⟩ := he i j
  exact ⟨g z, by rw [Tensor.elem_map, e]; rfl, hg i j z f v⟩

omit [Rounding] in
theorem real_zip {s t : Tensor Fl} {A B C : Matrix (Fin n) (Fin n) ℝ} (h : IsReal s A) (k : IsReal t B) (g : Fl → Fl → Fl)
    (hg : ∀ i j z w, z.Finite → z.val = A i j → w.Finite → w.val = B i j → (g z w).Finite ∧ (g z w).val = C i j) :
    ∃ r, binopTT g s t = .ok r ∧ IsReal r C := by
  obtain ⟨wf, hd, he⟩ := h
  obtain ⟨wf', hd', he'⟩ := k
  have hl : s.data.length = t.data.length := by
    rw [show s.data.length = totalSize s.dims from wf, show t.data.length = totalSize t.dims from wf', hd, hd']
  refine ⟨_, binopTT_ok g s t wf hl, ?_, hd, fun i j => ?_⟩
  · show (List.zipWith g s.data t.data).length = totalSize s.dims
    rw [List.length_zipWith, ← hl, min_self]
    exact wf
  · obtain ⟨z, e, f, v⟩ := he i j
    obtain ⟨w, e', f', v'⟩ := he' i j
    refine ⟨g z w, ?_, hg i j z w f v f' v'⟩
    rw [hd'] at e'
    show elem s.dims _ _ = _
    rw [hd] at e ⊢
    exact elem_zipWith g _ _ _ _ z w e e'

/-- The error of the product with a number. -/
theorem real_scale {t : Tensor Fl} {A : Matrix (Fin n) (Fin n) ℝ} (h : IsReal t A) {c : Fl} (hc : c.Finite)
    (hb : |c.val| * ‖A‖ ≤ 2 ^ (60 : ℤ)) :
    ∃ s C, binopNT (· * ·) c t = .ok s ∧ IsReal s (n := n) C ∧
      ‖C - c.val • A‖ ≤ 2 ^ (-53 : ℤ) * (|c.val| * ‖A‖) + n * 2 ^ (-1075 : ℤ) := by
  have small : ∀ i j, |c.val * A i j| ≤ 2 ^ (60 : ℤ) := fun i j => by
    rw [abs_mul]
    exact (mul_le_mul_of_nonneg_left (elem_le A i j) (abs_nonneg _)).trans hb
  obtain ⟨s, e, hs⟩ := real_map (B := fun i j => rnd (c.val * A i j)) h (fun x => c * x) fun i j z f v => by
    rw [← v]
    exact mul_finite hc f (by rw [v]; exact rnd_big (small i j))
  refine ⟨s, _, e, hs, norm_le_of (F := fun i j => 2 ^ (-53 : ℤ) * (|c.val| * |A i j|) + 2 ^ (-1075 : ℤ)) (by positivity)
    (fun i j => ?_) fun i => ?_⟩
  · rw [← abs_mul]
    exact rnd_err (big_of (small i j))
  · rw [Finset.sum_add_distrib, ← Finset.mul_sum, ← Finset.mul_sum, Finset.sum_const, Finset.card_univ, Fintype.card_fin,
      nsmul_eq_mul]
    have := mul_le_mul_of_nonneg_left (mul_le_mul_of_nonneg_left (row_le A i) (abs_nonneg c.val)) (two_zpow_pos (-53)).le
    linarith

/-- The error of a sum. -/
theorem real_add {s t : Tensor Fl} {A B : Matrix (Fin n) (Fin n) ℝ} (h : IsReal s A) (k : IsReal t B)
    (hb : ‖A + B‖ ≤ 2 ^ (60 : ℤ)) :
    ∃ r C, binopTT (· + ·) s t = .ok r ∧ IsReal r (n := n) C ∧ ‖C - (A + B)‖ ≤ 2 ^ (-53 : ℤ) * ‖A + B‖ := by
  have small : ∀ i j, |A i j + B i j| ≤ 2 ^ (60 : ℤ) := fun i j => (elem_le (A + B) i j).trans hb
  have dbl : ∀ i j, IsDouble (A i j) ∧ IsDouble (B i j) := fun i j => by
    obtain ⟨z, -, f, v⟩ := h.2.2 i j
    obtain ⟨w, -, f', v'⟩ := k.2.2 i j
    exact ⟨v ▸ f.val_double, v' ▸ f'.val_double⟩
  obtain ⟨r, e, hr⟩ := real_zip (C := fun i j => rnd (A i j + B i j)) h k (· + ·) fun i j z w f v f' v' => by
    show (z + w).Finite ∧ (z + w).val = _
    rw [← v, ← v']
    exact add_finite f f' (by rw [v, v']; exact rnd_big (small i j))
  refine ⟨r, _, e, hr, norm_le_of (F := fun i j => 2 ^ (-53 : ℤ) * |A i j + B i j|) (by positivity) (fun i j => ?_) fun i => ?_⟩
  · exact rnd_add (dbl i j).1 (dbl i j).2 (big_of (small i j))
  · rw [← Finset.mul_sum]
    exact mul_le_mul_of_nonneg_left (row_le (A + B) i) (two_zpow_pos (-53)).le

/-- The error of a difference. -/
theorem real_sub {s t : Tensor Fl} {A B : Matrix (Fin n) (Fin n) ℝ} (h : IsReal s A) (k : IsReal t B)
    (hb : ‖A - B‖ ≤ 2 ^ (60 : ℤ)) :
    ∃ r C, binopTT (· - ·) s t = .ok r ∧ IsReal r (n := n) C ∧ ‖C - (A - B)‖ ≤ 2 ^ (-53 : ℤ) * ‖A - B‖ := by
  have small : ∀ i j, |A i j - B i j| ≤ 2 ^ (60 : ℤ) := fun i j => (elem_le (A - B) i j).trans hb
  have dbl : ∀ i j, IsDouble (A i j) ∧ IsDouble (B i j) := fun i j => by
    obtain ⟨z, -, f, v⟩ := h.2.2 i j
    obtain ⟨w, -, f', v'⟩ := k.2.2 i j
    exact ⟨v ▸ f.val_double, v' ▸ f'.val_double⟩
  obtain ⟨r, e, hr⟩ := real_zip (C := fun i j => rnd (A i j - B i j)) h k (· - ·) fun i j z w f v f' v' => by
    show (z - w).Finite ∧ (z - w).val = _
    rw [← v, ← v']
    exact sub_finite f f' (by rw [v, v']; exact rnd_big (small i j))
  refine ⟨r, _, e, hr, norm_le_of (F := fun i j => 2 ^ (-53 : ℤ) * |A i j - B i j|) (by positivity) (fun i j => ?_) fun i => ?_⟩
  · have := rnd_add (dbl i j).1 (dbl i j).2.neg (by rw [← sub_eq_add_neg]; exact big_of (small i j))
    rw [← sub_eq_add_neg] at this
    exact this
  · rw [← Finset.mul_sum]
    exact mul_le_mul_of_nonneg_left (row_le (A - B) i) (two_zpow_pos (-53)).le

/-- The relative and the absolute error of a product of matrices. -/
noncomputable def mulRel (n : Nat) : ℝ := (1 + 2 ^ (-53 : ℤ)) ^ n - 1
noncomputable def mulAbs (n : Nat) : ℝ := n * (n * (1 + 2 ^ (-53 : ℤ)) ^ (n - 1) * 2 ^ (-1075 : ℤ))

/-- The error of a product of matrices. -/
theorem real_mul {s t : Tensor Fl} {A B : Matrix (Fin n) (Fin n) ℝ} (hn : n ≠ 0) (h : IsReal s A) (k : IsReal t B) {r : Res (Tensor Fl)}
    (hr : Mmult s t r) (hb : (1 + mulRel n) * (‖A‖ * ‖B‖) + mulAbs n < 2 ^ 1024) :
    ∃ p C, r = .ok p ∧ IsReal p (n := n) C ∧ ‖C - A * B‖ ≤ mulRel n * (‖A‖ * ‖B‖) + mulAbs n := by
  obtain ⟨c, e, wf, hd, hc⟩ := c95_mmult_partial s t h.1 k.1 n n n h.2.1 k.2.1 hn r hr
  have one : (1 : ℝ) ≤ (1 + 2 ^ (-53 : ℤ)) ^ n := one_le_pow₀ (by have := two_zpow_pos (-53); linarith)
  have rel0 : 0 ≤ mulRel n := by unfold mulRel; linarith
  have n1 : (1 : ℝ) ≤ n := by exact_mod_cast Nat.pos_of_ne_zero hn
  set η : ℝ := n * (1 + 2 ^ (-53 : ℤ)) ^ (n - 1) * 2 ^ (-1075 : ℤ) with hη
  have η0 : 0 ≤ η := by have := two_zpow_pos (-53); have := two_zpow_pos (-1075); positivity
  have ab : mulAbs n = n * η := rfl
  have key : ∀ i j : Fin n, ∃ z, elem c.dims c.data [(i : Nat), (j : Nat)] = some z ∧ z.Finite ∧
      |z.val - (A * B) i j| ≤ mulRel n * ∑ l, |A i l * B l j| + η := by
    intro i j
    choose f ef ff vf using fun l : Fin n => h.2.2 i l
    choose g eg fg vg using fun l : Fin n => k.2.2 l j
    let F : Nat → Fl := fun l => if hl : l < n then f ⟨l, hl⟩ else 0
    let G : Nat → Fl := fun l => if hl : l < n then g ⟨l, hl⟩ else 0
    have eF : ∀ l : Fin n, F l = f l := fun l => dif_pos l.2
    have eG : ∀ l : Fin n, G l = g l := fun l => dif_pos l.2
    have s1 : ∑ l ∈ Finset.range n, (F l).val * (G l).val = (A * B) i j := by
      rw [Finset.sum_range, Matrix.mul_apply]
      exact Finset.sum_congr rfl fun l _ => by rw [eF, eG, vf, vg]
    have s2 : ∑ l ∈ Finset.range n, |(F l).val * (G l).val| = ∑ l, |A i l * B l j| := by
      rw [Finset.sum_range]
      exact Finset.sum_congr rfl fun l _ => by rw [eF, eG, vf, vg]
    have le : ∑ l, |A i l * B l j| ≤ ‖A‖ * ‖B‖ :=
      (Finset.single_le_sum (f := fun j => ∑ l, |A i l * B l j|) (fun _ _ => Finset.sum_nonneg fun _ _ => abs_nonneg _)
        (Finset.mem_univ j)).trans (row_mul A B i)
    have := hc i j i.2 j.2 F G (fun l hl => by rw [eF ⟨l, hl⟩]; exact ef ⟨l, hl⟩)
      (fun l hl => by rw [eG ⟨l, hl⟩]; exact eg ⟨l, hl⟩)
      (fun l hl => by rw [eF ⟨l, hl⟩, eG ⟨l, hl⟩]; exact ⟨ff _, fg _⟩) (by
        rw [s2]
        refine lt_of_le_of_lt ?_ hb
        rw [ab]
        have : 1 + mulRel n = (1 + 2 ^ (-53 : ℤ)) ^ n := by unfold mulRel; ring
        rw [this]
        have a1 := mul_le_mul_of_nonneg_left le (zero_le_one.trans one)
        have a2 := le_mul_of_one_le_left η0 n1
        exact add_le_add a1 a2)
    rw [s1, s2] at this
    exact this
  choose z ez fz bz using key
  refine ⟨c, fun i j => (z i j).val, e, ⟨wf, hd, fun i j => ⟨z i j, ez i j, fz i j, rfl⟩⟩, norm_le_of ?_ bz fun i => ?_⟩
  · rw [ab]
    positivity
  · rw [Finset.sum_add_distrib, ← Finset.mul_sum, Finset.sum_const, Finset.card_univ, Fintype.card_fin, nsmul_eq_mul, ab]
    have := mul_le_mul_of_nonneg_left (row_mul A B i) rel0
    linarith

/-! ### The coefficients -/

omit [Rounding] in
theorem padeC_nonneg (q : Nat) : ∀ k, 0 ≤ padeC ℝ q k
  | 0 => zero_le_one
  | 1 => by rw [padeC]; norm_num
  | k + 2 => by
    have := padeC_nonneg q (k + 1)
    rw [padeC]
    positivity

omit [Rounding] in
theorem padeC_le (q k : Nat) (h : k + 1 ≤ q) : padeC ℝ q (k + 1) ≤ 1 / 2 * (1 / 4) ^ k := by
  have := norm_padeC (𝕜 := ℝ) q k h
  rwa [Real.norm_of_nonneg (padeC_nonneg q _)] at this

omit [Rounding] in
theorem num_den {q k : Nat} (hq : q ≤ 2 ^ 26) (h2 : 2 ≤ k) (hk : k ≤ q) :
    num q k = q - k + 1 ∧ den q k = k * (2 * q - k + 1) ∧ num q k < 2 ^ 53 ∧ den q k < 2 ^ 53 ∧ 1 ≤ num q k ∧
      4 * num q k ≤ den q k := by
  have en : num q k = q - k + 1 := by unfold num; omega
  have b : k * (2 * q - k + 1) < 2 ^ 53 := by
    have e : k * (2 * q - k + 1) ≤ q * (q + 1) := by
      obtain ⟨d, rfl⟩ := Nat.exists_eq_add_of_le hk
      rw [show 2 * (k + d) - k + 1 = k + 2 * d + 1 by omega]
      nlinarith
    calc k * (2 * q - k + 1) ≤ q * (q + 1) := e
      _ ≤ 2 ^ 26 * (2 ^ 26 + 1) := Nat.mul_le_mul hq (by omega)
      _ < 2 ^ 53 := by norm_num
  have ed : den q k = k * (2 * q - k + 1) := by
    unfold den
    have : (2 * q % 2 ^ 32 + 2 ^ 64 - k + 1) % 2 ^ 64 = 2 * q - k + 1 := by omega
    rw [this]
    exact Nat.mod_eq_of_lt (by omega)
  refine ⟨en, ed, by omega, by omega, by omega, ?_⟩
  rw [en, ed]
  calc 4 * (q - k + 1) ≤ 2 * (2 * q - k + 1) := by omega
    _ ≤ _ := Nat.mul_le_mul_right _ h2

omit [Rounding] in
/-- The errors of the two operations of a coefficient, where `r` is the quotient. -/
theorem coeff_alg {u σ y r a b c ε Q : ℝ} (u0 : 0 ≤ u) (u1 : u ≤ 1 / 8) (σ0 : 0 ≤ σ) (r0 : 0 ≤ r) (r1 : r ≤ 1 / 4) (c0 : 0 ≤ c)
    (hε : ε = c * (Q - 1) + σ) (hy : |y - c| ≤ ε) (ha : |a - y * r| ≤ u * (|y| * r) + σ / 8)
    (hb : |b - a| ≤ u * |a| + σ / 4) : |b - c * r| ≤ c * r * (Q * (1 + u) ^ 2 - 1) + σ := by
  have y1 : |y| ≤ c + ε := by
    have := abs_sub_abs_le_abs_sub y c
    rw [abs_of_nonneg c0] at this
    linarith
  have a1 : |a| ≤ |y| * r + (u * (|y| * r) + σ / 8) := by
    have := abs_sub_abs_le_abs_sub a (y * r)
    rw [abs_mul, abs_of_nonneg r0] at this
    linarith
  have e1 : |y * r - c * r| ≤ ε * r := by
    rw [← sub_mul, abs_mul, abs_of_nonneg r0]
    exact mul_le_mul_of_nonneg_right hy r0
  have t : |b - c * r| ≤ |b - a| + |a - y * r| + |y * r - c * r| := by
    have := abs_add_three (b - a) (a - y * r) (y * r - c * r)
    rwa [show b - a + (a - y * r) + (y * r - c * r) = b - c * r by ring] at this
  have yr : |y| * r ≤ (c + ε) * r := mul_le_mul_of_nonneg_right y1 r0
  have ua : u * |a| ≤ u * (|y| * r + (u * (|y| * r) + σ / 8)) := mul_le_mul_of_nonneg_left a1 u0
  have m1 : (2 * u + u ^ 2) * (|y| * r) ≤ (2 * u + u ^ 2) * ((c + ε) * r) := mul_le_mul_of_nonneg_left yr (by positivity)
  have m2 : r * (1 + u) ^ 2 * σ ≤ 1 / 2 * σ := by
    refine mul_le_mul_of_nonneg_right ?_ σ0
    have : (1 + u) ^ 2 ≤ 2 := by nlinarith
    nlinarith [sq_nonneg (1 + u)]
  have m3 : u * σ ≤ 1 / 8 * σ := mul_le_mul_of_nonneg_right u1 σ0
  have : |b - c * r| ≤ u * (|y| * r + (u * (|y| * r) + σ / 8)) + σ / 4 + (u * (|y| * r) + σ / 8) + ε * r := by linarith
  have e2 : u * (|y| * r + (u * (|y| * r) + σ / 8)) + σ / 4 + (u * (|y| * r) + σ / 8) + ε * r =
      (2 * u + u ^ 2) * (|y| * r) + ε * r + (u * σ / 8 + 3 / 8 * σ) := by ring
  have e3 : (2 * u + u ^ 2) * ((c + ε) * r) + ε * r = c * r * (Q * (1 + u) ^ 2 - 1) + r * (1 + u) ^ 2 * σ := by
    rw [hε]; ring
  linarith

/-- The error of the coefficients. -/
theorem coeff_err {q p : Nat} (hq : q ≤ 2 ^ 26) (hk : p + 2 ≤ q) {c : Fl} (hc : c.Finite)
    (hQ : (1 + (2 : ℝ) ^ (-53 : ℤ)) ^ (2 * (p + 1)) ≤ 2)
    (he : |c.val - padeC ℝ q (p + 1)| ≤ padeC ℝ q (p + 1) * ((1 + 2 ^ (-53 : ℤ)) ^ (2 * (p + 1)) - 1) + 2 ^ (-1073 : ℤ)) :
    (c * (num q (p + 2) : Fl) / (den q (p + 2) : Fl)).Finite ∧
      |(c * (num q (p + 2) : Fl) / (den q (p + 2) : Fl)).val - padeC ℝ q (p + 2)| ≤
        padeC ℝ q (p + 2) * ((1 + 2 ^ (-53 : ℤ)) ^ (2 * (p + 2)) - 1) + 2 ^ (-1073 : ℤ) := by
  obtain ⟨en, ed, ln, ld, n1, nd⟩ := num_den hq (by omega : 2 ≤ p + 2) hk
  have hp : padeC ℝ q (p + 2) = padeC ℝ q (p + 1) * ((num q (p + 2) : ℝ) / (den q (p + 2) : ℝ)) := by
    rw [padeC, en, ed, mul_div_assoc]
  obtain ⟨nf, nv⟩ := ofNat_exact ln
  obtain ⟨df, dv⟩ := ofNat_exact ld
  rw [hp]
  have c1 : padeC ℝ q (p + 1) ≤ 1 / 2 := (padeC_le q p (by omega)).trans
    (mul_le_of_le_one_right (by norm_num) (pow_le_one₀ (by norm_num) (by norm_num)))
  have c0 := padeC_nonneg q (p + 1)
  generalize padeC ℝ q (p + 1) = C at *
  generalize num q (p + 2) = N at *
  generalize den q (p + 2) = D at *
  have N1 : (1 : ℝ) ≤ N := by exact_mod_cast n1
  have ND : 4 * (N : ℝ) ≤ D := by exact_mod_cast nd
  have NL : (N : ℝ) ≤ 2 ^ (53 : ℤ) := by
    have : (N : ℝ) < 2 ^ 53 := by exact_mod_cast ln
    have e : (2 : ℝ) ^ (53 : ℤ) = 2 ^ 53 := zpow_natCast _ _
    linarith
  have D0 : (0 : ℝ) < D := by linarith
  have u0 := two_zpow_pos (-53)
  have u1 : (2 : ℝ) ^ (-53 : ℤ) ≤ 1 / 8 := by
    calc (2 : ℝ) ^ (-53 : ℤ) ≤ 2 ^ (-3 : ℤ) := zpow_le_zpow_right₀ (by norm_num) (by norm_num)
      _ = 1 / 8 := by norm_num
  have s0 := two_zpow_pos (-1073)
  have s1 : (2 : ℝ) ^ (-1073 : ℤ) ≤ 1 := by
    calc (2 : ℝ) ^ (-1073 : ℤ) ≤ 2 ^ (0 : ℤ) := zpow_le_zpow_right₀ (by norm_num) (by norm_num)
      _ = 1 := by norm_num
  have s4 : (2 : ℝ) ^ (-1075 : ℤ) = 2 ^ (-1073 : ℤ) / 4 := by
    rw [show (-1075 : ℤ) = -1073 - 2 by norm_num, zpow_sub₀ (by norm_num)]
    norm_num
  have eQ : (1 + (2 : ℝ) ^ (-53 : ℤ)) ^ (2 * (p + 2)) = (1 + 2 ^ (-53 : ℤ)) ^ (2 * (p + 1)) * (1 + 2 ^ (-53 : ℤ)) ^ 2 := by
    rw [← pow_add]
    rfl
  have y2 : |c.val| ≤ 2 := by
    have := abs_sub_abs_le_abs_sub c.val C
    rw [abs_of_nonneg c0] at this
    nlinarith
  have b1 : |c.val * N| ≤ 2 ^ (60 : ℤ) := by
    rw [abs_mul, abs_of_pos (by linarith : (0 : ℝ) < N)]
    calc |c.val| * N ≤ 2 * 2 ^ (53 : ℤ) := mul_le_mul y2 NL (by linarith) (by norm_num)
      _ ≤ 2 ^ (60 : ℤ) := by norm_num
  have r1 := rnd_err (big_of b1)
  obtain ⟨mf, mv⟩ := mul_finite hc nf (by rw [nv]; exact rnd_big b1)
  rw [nv] at mv
  have b2 : |rnd (c.val * N) / D| ≤ 2 ^ (60 : ℤ) := by
    have dp : IsDouble ((2 : ℝ) ^ (60 : ℤ)) := isDouble_two_zpow (by norm_num) (by norm_num)
    obtain ⟨h1, h2⟩ := abs_le.1 b1
    have := abs_le.2 ⟨le_rnd (.inl dp.neg) h1, rnd_le (.inl dp) h2⟩
    rw [abs_div, abs_of_pos D0]
    exact (div_le_self (abs_nonneg _) (by linarith)).trans this
  have r2 := rnd_err (big_of b2)
  obtain ⟨qf, qv⟩ := div_finite mf df (by rw [dv]; exact D0.ne') (by rw [mv, dv]; exact rnd_big b2)
  rw [mv, dv] at qv
  refine ⟨qf, ?_⟩
  rw [qv, eQ]
  rw [s4] at r1 r2
  refine coeff_alg (y := c.val) u0.le u1 s0.le (by positivity) ?_ c0 rfl he (a := rnd (c.val * N) / D) ?_ r2
  · rw [div_le_iff₀ D0]
    linarith
  · have e : rnd (c.val * N) / D - c.val * (N / D) = (rnd (c.val * N) - c.val * N) / D := by ring
    rw [e, abs_div, abs_of_pos D0, div_le_iff₀ D0]
    rw [abs_mul, abs_of_pos (by linarith : (0 : ℝ) < N)] at r1
    have e2 : ((2 : ℝ) ^ (-53 : ℤ) * (|c.val| * (N / D)) + 2 ^ (-1073 : ℤ) / 8) * D =
        2 ^ (-53 : ℤ) * (|c.val| * N) + 2 ^ (-1073 : ℤ) / 8 * D := by
      field_simp
    rw [e2]
    generalize (2 : ℝ) ^ (-1073 : ℤ) = σ at *
    nlinarith

/-! ### The numerator and the denominator -/

/-- How the relative error grows with each term. -/
noncomputable def grow (n : Nat) : ℝ := (1 + 2 ^ (-53 : ℤ)) ^ 4 * (1 + (mulRel n + mulAbs n))

/-- The absolute error of a term, from underflow. -/
noncomputable def tau (n : Nat) : ℝ := 2 ^ (-1072 : ℤ) + n * 2 ^ (-1075 : ℤ)

/-- The terms up to `p` for a number. -/
noncomputable def sumC (q : Nat) (β : ℝ) (p : Nat) : ℝ := ∑ i ∈ Finset.range (p + 1), padeC ℝ q i * β ^ i

/-- `M` is close to the sum of the terms up to `p`, with alternating signs if `s` is -1. -/
def Close (q : Nat) (β : ℝ) (s : ℝ) (A : Matrix (Fin n) (Fin n) ℝ) (p : Nat) (M : Matrix (Fin n) (Fin n) ℝ) : Prop :=
  ‖M - ∑ i ∈ Finset.range (p + 1), (s ^ i * padeC ℝ q i) • A ^ i‖ ≤ sumC q β p * (grow n ^ p - 1) + p * grow n ^ p * tau n

omit [Rounding] in
theorem mulRel_nonneg (n : Nat) : 0 ≤ mulRel n := by
  have : (1 : ℝ) ≤ (1 + 2 ^ (-53 : ℤ)) ^ n := one_le_pow₀ (by have := two_zpow_pos (-53); linarith)
  unfold mulRel
  linarith

omit [Rounding] in
theorem mulAbs_nonneg (n : Nat) : 0 ≤ mulAbs n := by
  have := two_zpow_pos (-53)
  have := two_zpow_pos (-1075)
  unfold mulAbs
  positivity

omit [Rounding] in
theorem tau_nonneg (n : Nat) : 0 ≤ tau n := by
  have := two_zpow_pos (-1072)
  have := two_zpow_pos (-1075)
  unfold tau
  positivity

omit [Rounding] in
theorem one_le_grow (n : Nat) : 1 + 2 ^ (-53 : ℤ) ≤ grow n ∧ 1 + (mulRel n + mulAbs n) ≤ grow n ∧ 1 ≤ grow n := by
  have u0 := two_zpow_pos (-53)
  have d0 := add_nonneg (mulRel_nonneg n) (mulAbs_nonneg n)
  unfold grow
  generalize (2 : ℝ) ^ (-53 : ℤ) = u at *
  generalize mulRel n + mulAbs n = d at *
  have h1 : 1 + u ≤ (1 + u) ^ 4 := le_self_pow₀ (by linarith) (by norm_num)
  have h2 : (1 : ℝ) ≤ (1 + u) ^ 4 := by linarith
  refine ⟨?_, ?_, ?_⟩ <;> nlinarith

omit [Rounding] in
theorem sumC_le (q : Nat) {β : ℝ} (h1 : 1 ≤ β) {p : Nat} (hp : p ≤ q) (hb : β ^ q ≤ 2) : sumC q β p ≤ 4 := by
  have s : ∀ k, k ≤ q → ∑ i ∈ Finset.range (k + 1), padeC ℝ q i ≤ 5 / 3 - 2 / 3 * (1 / 4) ^ k := by
    intro k
    induction k with
    | zero => intro _; simp [padeC]; norm_num
    | succ k ih =>
      intro hk
      rw [Finset.sum_range_succ]
      have := ih (by omega)
      have := padeC_le q k hk
      rw [pow_succ]
      linarith
  calc sumC q β p ≤ ∑ i ∈ Finset.range (p + 1), padeC ℝ q i * 2 := Finset.sum_le_sum fun i hi =>
        mul_le_mul_of_nonneg_left ((pow_le_pow_right₀ h1 (by have := Finset.mem_range.1 hi; omega)).trans hb) (padeC_nonneg q i)
    _ = (∑ i ∈ Finset.range (p + 1), padeC ℝ q i) * 2 := (Finset.sum_mul ..).symm
    _ ≤ 4 := by
      have := s p hp
      have : (0 : ℝ) ≤ (1 / 4) ^ p := by positivity
      linarith

omit [Rounding] in
theorem sumC_nonneg (q : Nat) {β : ℝ} (h1 : 1 ≤ β) (p : Nat) : 0 ≤ sumC q β p :=
  Finset.sum_nonneg fun i _ => mul_nonneg (padeC_nonneg q i) (pow_nonneg (by linarith) i)

omit [Rounding] in
theorem pow_norm {A : Matrix (Fin n) (Fin n) ℝ} {β : ℝ} (hn : n ≠ 0) (hA : ‖A‖ ≤ β) (k : Nat) : ‖A ^ k‖ ≤ β ^ k := by
  have : Nonempty (Fin n) := ⟨⟨0, by omega⟩⟩
  exact (norm_pow_le A k).trans (pow_le_pow_left₀ (norm_nonneg _) hA k)

omit [Rounding] in
theorem norm_terms {A : Matrix (Fin n) (Fin n) ℝ} {β : ℝ} (hn : n ≠ 0) (hA : ‖A‖ ≤ β) (q : Nat) {s : ℝ} (hs : |s| = 1) (p : Nat) :
    ‖∑ i ∈ Finset.range (p + 1), (s ^ i * padeC ℝ q i) • A ^ i‖ ≤ sumC q β p := by
  refine norm_sum_le_of_le _ fun i _ => ?_
  rw [norm_smul, Real.norm_eq_abs, abs_mul, abs_pow, hs, one_pow, one_mul, abs_of_nonneg (padeC_nonneg q i)]
  exact mul_le_mul_of_nonneg_left (pow_norm hn hA i) (padeC_nonneg q i)

omit [Rounding] in
theorem small_abs (hn : n ≠ 0) : n * (2 : ℝ) ^ (-1075 : ℤ) ≤ mulAbs n := by
  have n1 : (1 : ℝ) ≤ n := by exact_mod_cast Nat.pos_of_ne_zero hn
  have u0 := two_zpow_pos (-53)
  have t0 := two_zpow_pos (-1075)
  have : (1 : ℝ) ≤ n * (1 + 2 ^ (-53 : ℤ)) ^ (n - 1) := one_le_mul_of_one_le_of_one_le n1 (one_le_pow₀ (by linarith))
  unfold mulAbs
  exact mul_le_mul_of_nonneg_left (le_mul_of_one_le_left t0.le this) (by linarith)

omit [Rounding] in
/-- What follows from the condition of the theorem. -/
theorem cond {β : ℝ} (h1 : 1 ≤ β) {k : Nat} (hb : (β * grow n) ^ (k + 1) ≤ 2) :
    β ≤ 2 ∧ β ^ (k + 1) ≤ 2 ∧ grow n ^ (k + 1) ≤ 2 ∧ mulRel n + mulAbs n ≤ 1 ∧ mulAbs n ≤ 1 := by
  have g := one_le_grow n
  have bg : 1 ≤ β * grow n := one_le_mul_of_one_le_of_one_le h1 g.2.2
  have bg2 : β * grow n ≤ 2 := (le_self_pow₀ bg (by omega)).trans hb
  have β2 : β ≤ 2 := (le_mul_of_one_le_right (by linarith) g.2.2).trans bg2
  have g2 : grow n ≤ 2 := (le_mul_of_one_le_left (by linarith) h1).trans bg2
  have := mulRel_nonneg n
  refine ⟨β2, ?_, ?_, by linarith, by linarith⟩
  · exact (pow_le_pow_left₀ (by linarith) (le_mul_of_one_le_right (by linarith) g.2.2) _).trans hb
  · exact (pow_le_pow_left₀ (by linarith) (le_mul_of_one_le_left (by linarith) h1) _).trans hb

/-- The next power. -/
theorem pow_step {A X : Matrix (Fin n) (Fin n) ℝ} {β : ℝ} (hn : n ≠ 0) (h1 : 1 ≤ β) (hA : ‖A‖ ≤ β) (k : Nat)
    (hX : ‖X - A ^ k‖ ≤ β ^ k * ((1 + (mulRel n + mulAbs n)) ^ k - 1)) (hb : (β * grow n) ^ (k + 1) ≤ 2) {s t : Tensor Fl}
    (hs : IsReal s A) (ht : IsReal t X) {r : Res (Tensor Fl)} (hr : Mmult s t r) :
    ∃ p C, r = .ok p ∧ IsReal p (n := n) C ∧ ‖C - A ^ (k + 1)‖ ≤ β ^ (k + 1) * ((1 + (mulRel n + mulAbs n)) ^ (k + 1) - 1) := by
  have g := one_le_grow n
  have ra := mulRel_nonneg n
  have ab := mulAbs_nonneg n
  have bg : 1 ≤ β * grow n := one_le_mul_of_one_le_of_one_le h1 g.2.2
  have bg2 : β * grow n ≤ 2 := (le_self_pow₀ bg (by omega)).trans hb
  have nX : ‖X‖ ≤ β ^ k * (1 + (mulRel n + mulAbs n)) ^ k := by
    have := norm_le_norm_add_norm_sub' X (A ^ k)
    have := pow_norm hn hA k
    linarith
  have x2 : β ^ k * (1 + (mulRel n + mulAbs n)) ^ k ≤ 2 := by
    rw [← mul_pow]
    refine (pow_le_pow_left₀ (by positivity) (mul_le_mul_of_nonneg_left g.2.1 (by linarith)) k).trans ?_
    exact (pow_le_pow_right₀ bg (Nat.le_succ k)).trans hb
  have β2 : β ≤ 2 := (le_mul_of_one_le_right (by linarith) g.2.2).trans bg2
  have d2 : 1 + (mulRel n + mulAbs n) ≤ 2 := g.2.1.trans ((le_mul_of_one_le_left (by linarith) h1).trans bg2)
  have big : (9 : ℝ) ≤ 2 ^ (60 : ℤ) := by norm_num
  have prod : ‖A‖ * ‖X‖ ≤ β * (β ^ k * (1 + (mulRel n + mulAbs n)) ^ k) := mul_le_mul hA nX (norm_nonneg _) (by linarith)
  obtain ⟨p, C, e, hp, hC⟩ := real_mul hn hs ht hr (by
    refine big_of (le_trans ?_ big)
    have : ‖A‖ * ‖X‖ ≤ 2 * 2 := prod.trans (mul_le_mul β2 x2 (by positivity) (by norm_num))
    have : (1 + mulRel n) * (‖A‖ * ‖X‖) ≤ 2 * (2 * 2) := mul_le_mul (by linarith) this (by positivity) (by norm_num)
    linarith)
  refine ⟨p, C, e, hp, ?_⟩
  have t1 : ‖A * X - A ^ (k + 1)‖ ≤ β * (β ^ k * ((1 + (mulRel n + mulAbs n)) ^ k - 1)) := by
    rw [pow_succ', ← mul_sub]
    exact (norm_mul_le _ _).trans (mul_le_mul hA hX (norm_nonneg _) (by linarith))
  have t2 : ‖C - A ^ (k + 1)‖ ≤ ‖C - A * X‖ + ‖A * X - A ^ (k + 1)‖ := norm_sub_le_norm_sub_add_norm_sub ..
  have t3 := mul_le_mul_of_nonneg_left prod ra
  have one : 1 ≤ β * (β ^ k * (1 + (mulRel n + mulAbs n)) ^ k) :=
    one_le_mul_of_one_le_of_one_le h1 (one_le_mul_of_one_le_of_one_le (one_le_pow₀ h1) (one_le_pow₀ (by linarith)))
  have t4 := mul_le_mul_of_nonneg_left one ab
  rw [pow_succ β, pow_succ (1 + (mulRel n + mulAbs n))]
  generalize (1 + (mulRel n + mulAbs n)) ^ k = d at *
  generalize β ^ k = b at *
  have e : b * β * (d * (1 + (mulRel n + mulAbs n)) - 1) =
      mulRel n * (β * (b * d)) + mulAbs n * (β * (b * d)) + β * (b * (d - 1)) := by ring
  rw [e]
  linarith

/-- A term. -/
theorem term_step {A X : Matrix (Fin n) (Fin n) ℝ} {β : ℝ} (hn : n ≠ 0) (h1 : 1 ≤ β) (hA : ‖A‖ ≤ β) (q k : Nat) (hk : k + 1 ≤ q)
    (hX : ‖X - A ^ (k + 1)‖ ≤ β ^ (k + 1) * ((1 + (mulRel n + mulAbs n)) ^ (k + 1) - 1)) (hb : (β * grow n) ^ (k + 1) ≤ 2)
    {c : Fl} (hc : c.Finite)
    (he : |c.val - padeC ℝ q (k + 1)| ≤ padeC ℝ q (k + 1) * ((1 + 2 ^ (-53 : ℤ)) ^ (2 * (k + 1)) - 1) + 2 ^ (-1073 : ℤ))
    {t : Tensor Fl} (ht : IsReal t X) :
    ∃ p C V, binopNT (· * ·) c t = .ok p ∧ IsReal p (n := n) C ∧
      ‖C - padeC ℝ q (k + 1) • A ^ (k + 1)‖ ≤ padeC ℝ q (k + 1) * β ^ (k + 1) * (V - 1) + tau n ∧
      (1 + 2 ^ (-53 : ℤ)) * V ≤ grow n ^ (k + 1) ∧ ‖C‖ ≤ 8 := by
  have g := one_le_grow n
  have d0 := add_nonneg (mulRel_nonneg n) (mulAbs_nonneg n)
  have u0 := two_zpow_pos (-53)
  have s0 := two_zpow_pos (-1073)
  have s1 : (2 : ℝ) ^ (-1073 : ℤ) ≤ 1 := by
    calc (2 : ℝ) ^ (-1073 : ℤ) ≤ 2 ^ (0 : ℤ) := zpow_le_zpow_right₀ (by norm_num) (by norm_num)
      _ = 1 := by norm_num
  have u1 : (2 : ℝ) ^ (-53 : ℤ) ≤ 1 := by
    calc (2 : ℝ) ^ (-53 : ℤ) ≤ 2 ^ (0 : ℤ) := zpow_le_zpow_right₀ (by norm_num) (by norm_num)
      _ = 1 := by norm_num
  have sm : n * (2 : ℝ) ^ (-1075 : ℤ) ≤ 1 := (small_abs hn).trans (cond h1 hb).2.2.2.2
  have s2 : (2 : ℝ) ^ (-1072 : ℤ) = 2 * 2 ^ (-1073 : ℤ) := by
    rw [show (-1072 : ℤ) = -1073 + 1 by norm_num, zpow_add_one₀ (by norm_num), mul_comm]
  have c1 : padeC ℝ q (k + 1) ≤ 1 / 2 := (padeC_le q k hk).trans
    (mul_le_of_le_one_right (by norm_num) (pow_le_one₀ (by norm_num) (by norm_num)))
  have c0 := padeC_nonneg q (k + 1)
  have bk1 : 1 ≤ β ^ (k + 1) := one_le_pow₀ h1
  have dk1 : 1 ≤ (1 + (mulRel n + mulAbs n)) ^ (k + 1) := one_le_pow₀ (by linarith)
  have uk1 : (1 : ℝ) ≤ (1 + 2 ^ (-53 : ℤ)) ^ (2 * (k + 1)) := one_le_pow₀ (by linarith)
  have nX : ‖X‖ ≤ β ^ (k + 1) * (1 + (mulRel n + mulAbs n)) ^ (k + 1) := by
    have := norm_le_norm_add_norm_sub' X (A ^ (k + 1))
    have := pow_norm hn hA (k + 1)
    linarith
  have gk : (1 + (2 : ℝ) ^ (-53 : ℤ)) * ((1 + 2 ^ (-53 : ℤ)) * (1 + 2 ^ (-53 : ℤ)) ^ (2 * (k + 1)) *
      (1 + (mulRel n + mulAbs n)) ^ (k + 1)) ≤ grow n ^ (k + 1) := by
    unfold grow
    rw [mul_pow _ _ (k + 1), ← pow_mul, ← mul_assoc, ← mul_assoc, ← pow_two, ← pow_add]
    exact mul_le_mul_of_nonneg_right (pow_le_pow_right₀ (by linarith) (by omega)) (by linarith)
  have hb' : β ^ (k + 1) * grow n ^ (k + 1) ≤ 2 := by rw [← mul_pow]; exact hb
  have gk2 : β ^ (k + 1) * ((1 + (2 : ℝ) ^ (-53 : ℤ)) * ((1 + 2 ^ (-53 : ℤ)) * (1 + 2 ^ (-53 : ℤ)) ^ (2 * (k + 1)) *
      (1 + (mulRel n + mulAbs n)) ^ (k + 1))) ≤ 2 := (mul_le_mul_of_nonneg_left gk (by linarith)).trans hb'
  have hA' := pow_norm hn hA (k + 1)
  generalize (1 + (2 : ℝ) ^ (-53 : ℤ)) ^ (2 * (k + 1)) = Q at *
  generalize (1 + (mulRel n + mulAbs n)) ^ (k + 1) = d at *
  generalize β ^ (k + 1) = b at *
  generalize A ^ (k + 1) = P at *
  generalize padeC ℝ q (k + 1) = m at *
  set u : ℝ := (2 : ℝ) ^ (-53 : ℤ) with hu
  have bd0 : 0 ≤ b * d := by positivity
  -- the powers of the relative errors
  have x1 : (1 + u) * Q * (b * d) ≤ 2 := by
    have : (1 + u) * Q * (b * d) ≤ b * ((1 + u) * ((1 + u) * Q * d)) := by
      have e : b * ((1 + u) * ((1 + u) * Q * d)) = (1 + u) * ((1 + u) * Q * (b * d)) := by ring
      rw [e]
      exact le_mul_of_one_le_left (by positivity) (by linarith)
    exact this.trans gk2
  have x2 : (1 + u) * (b * d) ≤ 2 := by
    refine le_trans ?_ x1
    rw [mul_assoc]
    exact mul_le_mul_of_nonneg_left (le_mul_of_one_le_left bd0 uk1) (by linarith)
  have x3 : b * d ≤ 2 := (le_mul_of_one_le_left bd0 (by linarith)).trans x2
  have x4 : Q * (b * d) ≤ 2 := by
    refine le_trans ?_ x1
    rw [mul_assoc]
    exact le_mul_of_one_le_left (by positivity) (by linarith)
  set σ : ℝ := (2 : ℝ) ^ (-1073 : ℤ) with hσ
  have ca : |c.val| ≤ m * Q + σ := by
    have := abs_sub_abs_le_abs_sub c.val m
    rw [abs_of_nonneg c0] at this
    linarith
  have cx : |c.val| * ‖X‖ ≤ (m * Q + σ) * (b * d) := mul_le_mul ca nX (norm_nonneg _) (by positivity)
  have cx3 : (m * Q + σ) * (b * d) ≤ 3 := by
    have e : (m * Q + σ) * (b * d) = m * (Q * (b * d)) + σ * (b * d) := by ring
    have a1 : m * (Q * (b * d)) ≤ 1 / 2 * 2 := mul_le_mul c1 x4 (by positivity) (by norm_num)
    have a2 : σ * (b * d) ≤ 1 * 2 := mul_le_mul s1 x3 (by positivity) (by norm_num)
    linarith
  obtain ⟨p, C, e, hp, hC⟩ := real_scale ht hc ((cx.trans cx3).trans (by norm_num))
  refine ⟨p, C, (1 + u) * Q * d, e, hp, ?_, gk, ?_⟩
  · have t1 : ‖C - m • P‖ ≤ ‖C - c.val • X‖ + ‖c.val • X - m • P‖ := norm_sub_le_norm_sub_add_norm_sub ..
    have t2 : ‖c.val • X - m • P‖ ≤ |c.val - m| * ‖X‖ + m * ‖X - P‖ := by
      have e : c.val • X - m • P = (c.val - m) • X + m • (X - P) := by
        rw [sub_smul, smul_sub]
        abel
      rw [e]
      refine (norm_add_le _ _).trans (add_le_add ?_ ?_)
      · rw [norm_smul, Real.norm_eq_abs]
      · rw [norm_smul, Real.norm_eq_abs, abs_of_nonneg c0]
    have t3 : |c.val - m| * ‖X‖ ≤ (m * (Q - 1) + σ) * (b * d) := mul_le_mul he nX (norm_nonneg _) ((abs_nonneg _).trans he)
    have t4 : m * ‖X - P‖ ≤ m * (b * (d - 1)) := mul_le_mul_of_nonneg_left hX c0
    have t5 : u * (|c.val| * ‖X‖) ≤ u * ((m * Q + σ) * (b * d)) := mul_le_mul_of_nonneg_left cx u0.le
    have t6 : σ * ((1 + u) * (b * d)) ≤ σ * 2 := mul_le_mul_of_nonneg_left x2 s0.le
    have e : u * ((m * Q + σ) * (b * d)) + (m * (Q - 1) + σ) * (b * d) + m * (b * (d - 1)) =
        m * b * ((1 + u) * Q * d - 1) + σ * ((1 + u) * (b * d)) := by ring
    unfold tau
    rw [s2]
    linarith
  · have t1 := norm_le_norm_add_norm_sub' C (c.val • X)
    have t2 : ‖c.val • X‖ ≤ 3 := by
      rw [norm_smul, Real.norm_eq_abs]
      exact cx.trans cx3
    have t3 : u * (|c.val| * ‖X‖) ≤ 1 * 3 := mul_le_mul u1 (cx.trans cx3) (by positivity) zero_le_one
    linarith

omit [Rounding] in
/-- A term is added to a sum which is close, or subtracted. -/
theorem add_step {A N C S : Matrix (Fin n) (Fin n) ℝ} {β : ℝ} (hn : n ≠ 0) (h1 : 1 ≤ β) (hA : ‖A‖ ≤ β) {q p : Nat} (hq : q ≤ 2 ^ 26)
    (hp : p + 1 ≤ q) (hb : (β * grow n) ^ q ≤ 2) {s e V : ℝ} (hs : |s| = 1) (he : s ^ (p + 1) = e) (hN : Close q β s A p N)
    (hC : ‖C - padeC ℝ q (p + 1) • A ^ (p + 1)‖ ≤ padeC ℝ q (p + 1) * β ^ (p + 1) * (V - 1) + tau n)
    (hV : (1 + 2 ^ (-53 : ℤ)) * V ≤ grow n ^ (p + 1)) (hC8 : ‖C‖ ≤ 8) :
    ‖N + e • C‖ ≤ 2 ^ (60 : ℤ) ∧ (‖S - (N + e • C)‖ ≤ 2 ^ (-53 : ℤ) * ‖N + e • C‖ → Close q β s A (p + 1) S) := by
  have g := one_le_grow n
  have u0 := two_zpow_pos (-53)
  have τ0 := tau_nonneg n
  have bg : 1 ≤ β * grow n := one_le_mul_of_one_le_of_one_le h1 g.2.2
  obtain ⟨q', rfl⟩ : ∃ q', q = q' + 1 := ⟨q - 1, by omega⟩
  obtain ⟨β2, βq, gq, δ1, a1⟩ := cond h1 hb
  have e1 : |e| = 1 := by rw [← he, abs_pow, hs, one_pow]
  have T4 := sumC_le (q' + 1) h1 (by omega : p ≤ q' + 1) βq
  have T0 := sumC_nonneg (q' + 1) h1 p
  have gp : grow n ^ p ≤ 2 := (pow_le_pow_right₀ g.2.2 (by omega)).trans gq
  have gp1 : 1 ≤ grow n ^ p := one_le_pow₀ g.2.2
  have nS := norm_terms hn hA (q' + 1) hs p
  have nS' := norm_terms hn hA (q' + 1) hs (p + 1)
  have c0 := mul_nonneg (padeC_nonneg (q' + 1) (p + 1)) (pow_nonneg (by linarith : 0 ≤ β) (p + 1))
  have τ2 : tau n ≤ 2 := by
    have : (2 : ℝ) ^ (-1072 : ℤ) ≤ 2 ^ (0 : ℤ) := zpow_le_zpow_right₀ (by norm_num) (by norm_num)
    rw [zpow_zero] at this
    have := small_abs hn
    unfold tau
    linarith
  have p26 : (p : ℝ) ≤ 2 ^ 26 := by exact_mod_cast (by omega : p ≤ 2 ^ 26)
  have nC : ‖e • C‖ ≤ 8 := by rw [norm_smul, Real.norm_eq_abs, e1, one_mul]; exact hC8
  unfold Close at hN ⊢
  constructor
  · have t1 := norm_le_norm_add_norm_sub' N (∑ i ∈ Finset.range (p + 1), (s ^ i * padeC ℝ (q' + 1) i) • A ^ i)
    have t2 := norm_add_le N (e • C)
    have t3 : sumC (q' + 1) β p * (grow n ^ p - 1) ≤ 4 * 1 := mul_le_mul T4 (by linarith) (by linarith) (by norm_num)
    have t4 : p * grow n ^ p * tau n ≤ 2 ^ 26 * 2 * 2 :=
      mul_le_mul (mul_le_mul p26 gp (by linarith) (by norm_num)) τ2 τ0 (by norm_num)
    have : (2 : ℝ) ^ 26 * 2 * 2 + 4 * 1 + 4 + 8 ≤ 2 ^ (60 : ℤ) := by norm_num
    linarith
  · intro hS
    rw [Finset.sum_range_succ _ (p + 1), he]
    rw [Finset.sum_range_succ _ (p + 1), he] at nS'
    have sc : sumC (q' + 1) β (p + 1) = sumC (q' + 1) β p + padeC ℝ (q' + 1) (p + 1) * β ^ (p + 1) := Finset.sum_range_succ ..
    rw [sc] at nS' ⊢
    have hC' : ‖e • C - (e * padeC ℝ (q' + 1) (p + 1)) • A ^ (p + 1)‖ ≤
        padeC ℝ (q' + 1) (p + 1) * β ^ (p + 1) * (V - 1) + tau n := by
      rw [mul_smul, ← smul_sub, norm_smul, Real.norm_eq_abs, e1, one_mul]
      exact hC
    generalize (∑ i ∈ Finset.range (p + 1), (s ^ i * padeC ℝ (q' + 1) i) • A ^ i) = Z at *
    generalize (e * padeC ℝ (q' + 1) (p + 1)) • A ^ (p + 1) = P at *
    generalize e • C = E at *
    generalize padeC ℝ (q' + 1) (p + 1) * β ^ (p + 1) = m at *
    generalize sumC (q' + 1) β p = T at *
    rw [pow_succ] at hV
    rw [pow_succ]
    push_cast
    generalize grow n ^ p = G at *
    generalize grow n = W at *
    generalize tau n = τ at *
    generalize (2 : ℝ) ^ (-53 : ℤ) = u at *
    have d : ‖N + E - (Z + P)‖ ≤ T * (G - 1) + p * G * τ + (m * (V - 1) + τ) := by
      have e : N + E - (Z + P) = (N - Z) + (E - P) := by abel
      rw [e]
      exact (norm_add_le _ _).trans (add_le_add hN hC')
    have nE : ‖N + E‖ ≤ T + m + (T * (G - 1) + p * G * τ + (m * (V - 1) + τ)) := by
      have := norm_le_norm_add_norm_sub' (N + E) (Z + P)
      linarith
    have t : ‖S - (Z + P)‖ ≤ ‖S - (N + E)‖ + ‖N + E - (Z + P)‖ := norm_sub_le_norm_sub_add_norm_sub ..
    have uE := mul_le_mul_of_nonneg_left nE u0.le
    have a1 : T * ((1 + u) * G) ≤ T * (G * W) := by
      refine mul_le_mul_of_nonneg_left ?_ T0
      rw [mul_comm G]
      exact mul_le_mul_of_nonneg_right g.1 (by linarith)
    have a2 : m * ((1 + u) * V) ≤ m * (G * W) := mul_le_mul_of_nonneg_left hV c0
    have a3 : (1 + u) * (p * G + 1) * τ ≤ (p + 1) * (G * W) * τ := by
      refine mul_le_mul_of_nonneg_right ?_ τ0
      have e : ((p : ℝ) + 1) * (G * W) = W * (p * G + G) := by ring
      rw [e]
      have : (0 : ℝ) ≤ p := Nat.cast_nonneg p
      exact mul_le_mul g.1 (by linarith) (by positivity) (by linarith)
    have fin : u * (T + m + (T * (G - 1) + p * G * τ + (m * (V - 1) + τ))) + (T * (G - 1) + p * G * τ + (m * (V - 1) + τ)) =
        T * ((1 + u) * G) - T + (m * ((1 + u) * V) - m) + (1 + u) * (p * G + 1) * τ := by ring
    have e : (T + m) * (G * W - 1) = T * (G * W) - T + (m * (G * W) - m) := by ring
    linarith

/-- The loop: the numerator and the denominator are close to those of the approximation. -/
theorem pade_close {mm : Nat → Tensor Fl → Tensor Fl → Res (Tensor Fl)} (hm : ∀ k a b, a.WF → b.WF → Mmult a b (mm k a b))
    {A : Matrix (Fin n) (Fin n) ℝ} {a : Tensor Fl} (ha : IsReal a A) {β : ℝ} (hn : n ≠ 0) (h1 : 1 ≤ β) (hA : ‖A‖ ≤ β) {q : Nat}
    (hq : q ≤ 2 ^ 26) (hb : (β * grow n) ^ q ≤ 2) (l p : Nat) (hl : p + 1 + l = q) {c : Fl} (hc : c.Finite)
    (he : |c.val - padeC ℝ q (p + 1)| ≤ padeC ℝ q (p + 1) * ((1 + 2 ^ (-53 : ℤ)) ^ (2 * (p + 1)) - 1) + 2 ^ (-1073 : ℤ))
    {x N D : Tensor Fl} {X Nm Dm : Matrix (Fin n) (Fin n) ℝ} (hx : IsReal x X)
    (hX : ‖X - A ^ (p + 1)‖ ≤ β ^ (p + 1) * ((1 + (mulRel n + mulAbs n)) ^ (p + 1) - 1))
    (hN : IsReal N Nm) (cN : Close q β 1 A (p + 1) Nm) (hD : IsReal D Dm) (cD : Close q β (-1) A (p + 1) Dm) :
    ∃ (N' D' : Tensor Fl) (Nm' Dm' : Matrix (Fin n) (Fin n) ℝ), padeLoop mm q a l (p + 2) c x N D = .ok (N', D') ∧
      IsReal N' Nm' ∧ Close q β 1 A q Nm' ∧ IsReal D' Dm' ∧ Close q β (-1) A q Dm' := by
  induction l generalizing p c x N D X Nm Dm with
  | zero =>
    obtain rfl : p + 1 = q := by omega
    exact ⟨N, D, Nm, Dm, rfl, hN, cN, hD, cD⟩
  | succ l ih =>
    have g := one_le_grow n
    have u0 := two_zpow_pos (-53)
    have bg : 1 ≤ β * grow n := one_le_mul_of_one_le_of_one_le h1 g.2.2
    have bk : (β * grow n) ^ (p + 1 + 1) ≤ 2 := (pow_le_pow_right₀ bg (by omega)).trans hb
    have hQ : (1 + (2 : ℝ) ^ (-53 : ℤ)) ^ (2 * (p + 1)) ≤ 2 := by
      have h4 : (1 + (2 : ℝ) ^ (-53 : ℤ)) ^ 2 ≤ grow n := by
        have d0 := add_nonneg (mulRel_nonneg n) (mulAbs_nonneg n)
        unfold grow
        refine (pow_le_pow_right₀ (by linarith) (by norm_num : 2 ≤ 4)).trans ?_
        exact le_mul_of_one_le_right (by positivity) (by linarith)
      rw [pow_mul]
      refine (pow_le_pow_left₀ (by positivity) h4 _).trans ?_
      exact (pow_le_pow_right₀ g.2.2 (by omega)).trans (cond h1 bk).2.2.1
    obtain ⟨hc', he'⟩ := coeff_err hq (by omega) hc hQ he
    obtain ⟨x', X', ex, hx', hX'⟩ := pow_step hn h1 hA (p + 1) hX bk ha hx (hm (p + 2) a x ha.1 hx.1)
    obtain ⟨t, C, V, et, ht, hC, hV, hC8⟩ := term_step hn h1 hA q (p + 1) (by omega) hX' bk hc' he' hx'
    have s1 : |(1 : ℝ)| = 1 := abs_one
    have s2 : |(-1 : ℝ)| = 1 := by rw [abs_neg, abs_one]
    obtain ⟨N', Nm', eN, hN', cN'⟩ : ∃ N' Nm', binopTT (· + ·) N t = .ok N' ∧ IsReal N' (n := n) Nm' ∧
        Close q β 1 A (p + 1 + 1) Nm' := by
      have st := fun S => add_step (S := S) hn h1 hA hq (by omega) hb s1 (one_pow _) cN hC hV hC8
      simp only [one_smul] at st
      obtain ⟨r, R, e, hr, hR⟩ := real_add hN ht (st 0).1
      exact ⟨r, R, e, hr, (st R).2 hR⟩
    obtain ⟨D', Dm', eD, hD', cD'⟩ : ∃ D' Dm', Expm.altAdd (p + 2) D t = .ok D' ∧ IsReal D' (n := n) Dm' ∧
        Close q β (-1) A (p + 1 + 1) Dm' := by
      unfold Expm.altAdd
      split
      · rename_i h
        have st := fun S => add_step (S := S) hn h1 hA hq (by omega) hb s2
          (Even.neg_one_pow (Nat.even_iff.2 h) : (-1 : ℝ) ^ (p + 1 + 1) = 1) cD hC hV hC8
        simp only [one_smul] at st
        obtain ⟨r, R, e, hr, hR⟩ := real_add hD ht (st 0).1
        exact ⟨r, R, e, hr, (st R).2 hR⟩
      · rename_i h
        have st := fun S => add_step (S := S) hn h1 hA hq (by omega) hb s2
          (Odd.neg_one_pow (Nat.odd_iff.2 (by omega)) : (-1 : ℝ) ^ (p + 1 + 1) = -1) cD hC hV hC8
        simp only [neg_smul, one_smul, ← sub_eq_add_neg] at st
        obtain ⟨r, R, e, hr, hR⟩ := real_sub hD ht (st 0).1
        exact ⟨r, R, e, hr, (st R).2 hR⟩
    obtain ⟨N2, D2, Nm2, Dm2, e, r⟩ := ih (p + 1) (by omega) hc' he' hx' hX' hN' cN' hD' cD'
    refine ⟨N2, D2, Nm2, Dm2, ?_, r⟩
    simp only [padeLoop, ex, Res.ok_bind, et, eN, eD, e]

/-! ### The norm -/

/-- The sum of numbers which are not negative is not much larger than what is computed. -/
theorem add_sum {a b : Fl} (ha : NonNeg a) (hb : NonNeg b) (h : (a + b).Finite) :
    a.val + b.val ≤ (1 + 2 * 2 ^ (-53 : ℤ)) * (a + b).val := by
  have u0 := two_zpow_pos (-53)
  have u1 : (2 : ℝ) ^ (-53 : ℤ) ≤ 1 / 2 := by
    calc (2 : ℝ) ^ (-53 : ℤ) ≤ 2 ^ (-1 : ℤ) := zpow_le_zpow_right₀ (by norm_num) (by norm_num)
      _ = 1 / 2 := by norm_num
  obtain ⟨fa, fb, -, -⟩ := add_ge ha hb h
  have nn : ∀ z : Fl, NonNeg z → z.Finite → 0 ≤ z.val := by
    rintro z (rfl | hz) hf
    · exact hf.elim
    · exact hz.2
  have a0 := nn a ha fa
  have b0 := nn b hb fb
  by_cases hz : a ≠ nzero ∨ b ≠ nzero
  · have e := add_def fa fb hz
    by_cases h0 : a.val + b.val = 0
    · rw [if_pos h0] at e
      rw [e, h0]
      simp [Fl.val]
    · rw [if_neg h0] at e
      by_cases hr : |rnd (a.val + b.val)| < 2 ^ 1024
      · have lt : |a.val + b.val| < 2 ^ 1024 := by
          rw [abs_of_nonneg (by linarith)]
          by_contra hc
          rw [not_lt] at hc
          have := le_rnd (.inr (abs_of_pos (by positivity))) hc
          rw [abs_of_nonneg (rnd_nonneg (add_nonneg a0 b0))] at hr
          exact absurd (hr.trans_le this) (lt_irrefl _)
        have er := rnd_add fa.val_double fb.val_double lt
        rw [e, (round_finite hr).2]
        rw [abs_of_nonneg (by linarith : 0 ≤ a.val + b.val)] at er
        have := (abs_le.1 er).1
        have S1 := add_nonneg a0 b0
        generalize rnd (a.val + b.val) = R at *
        generalize (2 : ℝ) ^ (-53 : ℤ) = u at *
        generalize a.val + b.val = S at *
        have S0 : 0 < S := lt_of_le_of_ne S1 (Ne.symm h0)
        nlinarith [mul_nonneg u0.le S0.le, mul_nonneg (mul_nonneg u0.le S0.le) (by linarith : 0 ≤ 1 - 2 * u)]
      · exfalso
        rw [abs_of_nonneg (rnd_nonneg (by linarith)), not_lt] at hr
        rw [e, Fl.round, if_pos hr] at h
        exact h
  · rw [not_or, not_not, not_not] at hz
    obtain ⟨rfl, rfl⟩ := hz
    show (0 : ℝ) + 0 ≤ (1 + 2 * 2 ^ (-53 : ℤ)) * 0
    simp

theorem fold_sum (l : List Fl) (s : Fl) (hs : NonNeg s) (h : ∀ x ∈ l, NonNeg x) (hf : (l.foldl (· + ·) s).Finite) :
    s.val + (l.map Fl.val).sum ≤ (1 + 2 * 2 ^ (-53 : ℤ)) ^ l.length * (l.foldl (· + ·) s).val := by
  induction l generalizing s with
  | nil => simp
  | cons y l ih =>
    rw [List.foldl_cons] at hf ⊢
    have hy := h y (by simp)
    have i := ih _ (nonNeg_add hs hy) (fun x hx => h x (by simp [hx])) hf
    obtain ⟨g1, -, g3⟩ := fold_ge _ _ (nonNeg_add hs hy) (fun x hx => h x (by simp [hx])) hf
    have a := add_sum hs hy g1
    have u0 := two_zpow_pos (-53)
    have s0 : 0 ≤ (l.map Fl.val).sum := List.sum_nonneg fun x hx => by
      obtain ⟨z, hz, rfl⟩ := List.mem_map.1 hx
      rcases h z (by simp [hz]) with rfl | hz'
      · exact (g3 _ hz).1.elim
      · exact hz'.2
    rw [List.map_cons, List.sum_cons, List.length_cons, pow_succ', mul_assoc, ← add_assoc]
    refine le_trans ?_ (mul_le_mul_of_nonneg_left i (by linarith))
    rw [mul_add]
    have := le_mul_of_one_le_left s0 (by linarith : (1 : ℝ) ≤ 1 + 2 * 2 ^ (-53 : ℤ))
    linarith

/-- The exact sums of the rows. -/
theorem norm_rows {m : Tensor Fl} {r c : Nat} {f : Nat → Nat → Fl} (h : IsMat m.dims m.data r c f)
    (hf : ∀ i j, i < r → j < c → (f i j).Finite) {z : Fl} (hz : matrixNormInf Fl.abs m = .ok z) (hzf : z.Finite) (hc : c ≠ 0) :
    ∀ i < r, ∑ j ∈ Finset.range c, |(f i j).val| ≤ (1 + 2 * 2 ^ (-53 : ℤ)) ^ (c - 1) * z.val := by
  intro i hi
  obtain ⟨c, rfl⟩ : ∃ d, c = d + 1 := ⟨c - 1, by omega⟩
  rw [matrixNormInf_order Fl.abs m r c f h] at hz
  injection hz with hz
  subst hz
  have nn : ∀ i j, i < r → j < c + 1 → NonNeg (Fl.abs (f i j)) := fun i j hi hj =>
    .inr ⟨(abs_finite (hf i j hi hj)).1, by rw [(abs_finite (hf i j hi hj)).2]; exact abs_nonneg _⟩
  have row : ∀ i < r, ∀ x ∈ (List.range c).map (fun j => Fl.abs (f i (j + 1))), NonNeg x := by
    intro i hi x hx
    obtain ⟨j, hj, rfl⟩ := List.mem_map.1 hx
    exact nn i _ hi (by have := List.mem_range.1 hj; omega)
  have rows : ∀ i < r, NonNeg (((List.range c).map fun j => Fl.abs (f i (j + 1))).foldl (· + ·) (Fl.abs (f i 0))) :=
    fun i hi => nonNeg_fold _ _ (nn i 0 hi (by omega)) (row i hi)
  obtain ⟨-, -, g⟩ := max_ge _ (0 : Fl) (.inr ⟨finite_zero, le_refl _⟩) (by
    intro x hx
    obtain ⟨i, hi, rfl⟩ := List.mem_map.1 hx
    exact rows i (List.mem_range.1 hi)) hzf
  obtain ⟨g1, g2⟩ := g _ (List.mem_map.2 ⟨i, List.mem_range.2 hi, rfl⟩)
  have k := fold_sum _ _ (nn i 0 hi (by omega)) (row i hi) g1
  rw [List.length_map, List.length_range, List.map_map] at k
  have u0 := two_zpow_pos (-53)
  refine le_trans (le_of_eq ?_) (k.trans (mul_le_mul_of_nonneg_left g2 (by positivity)))
  rw [Finset.sum_range_succ', add_comm, (abs_finite (hf i 0 hi (by omega))).2]
  congr 1
  show ((List.range c).map fun k => |(f i (k + 1)).val|).sum = _
  refine congrArg List.sum (List.map_congr_left fun j hj => ?_)
  exact (abs_finite (hf i (j + 1) hi (by have := List.mem_range.1 hj; omega))).2.symm

/-- The matrix after division by a power of two. -/
noncomputable def beta (n : Nat) : ℝ := (1 + 2 * 2 ^ (-53 : ℤ)) ^ n + n * 2 ^ (-1075 : ℤ)

omit [Rounding] in
theorem one_le_beta (n : Nat) : 1 ≤ beta n := by
  have u0 := two_zpow_pos (-53)
  have t0 := two_zpow_pos (-1075)
  have : (1 : ℝ) ≤ (1 + 2 * 2 ^ (-53 : ℤ)) ^ n := one_le_pow₀ (by linarith)
  have : 0 ≤ n * (2 : ℝ) ^ (-1075 : ℤ) := by positivity
  unfold beta
  linarith

omit [Rounding] in
/-- The sizes for which the errors are small. -/
theorem sizes {n q : Nat} (hn : n ≠ 0) (hq : q ≠ 0) (h : n * q ≤ 2 ^ 40) :
    (beta n * grow n) ^ q ≤ 2 ∧ 4 * (grow n ^ q - 1) + q * grow n ^ q * tau n ≤ n * q * 2 ^ (-47 : ℤ) ∧
      beta n ≤ 1001 / 1000 ∧ mulRel n + mulAbs n ≤ n * 2 ^ (-51 : ℤ) := by
  have u0 := two_zpow_pos (-53)
  have t0 := two_zpow_pos (-1075)
  have n1 : (1 : ℝ) ≤ n := by exact_mod_cast Nat.pos_of_ne_zero hn
  have q1 : (1 : ℝ) ≤ q := by exact_mod_cast Nat.pos_of_ne_zero hq
  have n40 : n ≤ 2 ^ 40 := (Nat.le_mul_of_pos_right n (Nat.pos_of_ne_zero hq)).trans h
  have n40' : (n : ℝ) ≤ 2 ^ 40 := by exact_mod_cast n40
  have nq : (n : ℝ) * q ≤ 2 ^ 40 := by exact_mod_cast h
  have rel := c95_bound n (n40.trans (by norm_num))
  have t47 : (2 : ℝ) ^ (-47 : ℤ) = 64 * 2 ^ (-53 : ℤ) := by norm_num
  have t51 : (2 : ℝ) ^ (-51 : ℤ) = 4 * 2 ^ (-53 : ℤ) := by norm_num
  have u53 : (2 : ℝ) ^ 40 * 2 ^ (-53 : ℤ) = 1 / 8192 := by norm_num
  have t53 : (2 : ℝ) ^ (-1072 : ℤ) ≤ 2 ^ (-53 : ℤ) / 16 := by
    calc (2 : ℝ) ^ (-1072 : ℤ) ≤ 2 ^ (-57 : ℤ) := zpow_le_zpow_right₀ (by norm_num) (by norm_num)
      _ = 2 ^ (-53 : ℤ) / 16 := by norm_num
  have t75 : (2 : ℝ) ^ (-1075 : ℤ) ≤ 2 ^ (-53 : ℤ) / 2 ^ 42 := by
    calc (2 : ℝ) ^ (-1075 : ℤ) ≤ 2 ^ (-95 : ℤ) := zpow_le_zpow_right₀ (by norm_num) (by norm_num)
      _ = 2 ^ (-53 : ℤ) / 2 ^ 42 := by norm_num
  generalize hu : (2 : ℝ) ^ (-53 : ℤ) = u at *
  generalize ht : (2 : ℝ) ^ (-1075 : ℤ) = t at *
  generalize ht' : (2 : ℝ) ^ (-1072 : ℤ) = t' at *
  have pw : (1 + u) ^ (n - 1) ≤ 2 := by
    refine (pow_le_pow_right₀ (by linarith) (Nat.sub_le n 1)).trans ?_
    have := mul_le_mul_of_nonneg_right n40' u0.le
    linarith
  have ab : mulAbs n ≤ n * u := by
    unfold mulAbs
    rw [hu, ht]
    refine mul_le_mul_of_nonneg_left ?_ (by linarith)
    calc (n : ℝ) * (1 + u) ^ (n - 1) * t ≤ 2 ^ 40 * 2 * (u / 2 ^ 42) :=
          mul_le_mul (mul_le_mul n40' pw (by positivity) (by norm_num)) t75 t0.le (by norm_num)
      _ ≤ u := by linarith
  have nt : n * t ≤ n * u := by
    refine mul_le_mul_of_nonneg_left (t75.trans ?_) (by linarith)
    linarith
  have ta : tau n ≤ n * u := by
    unfold tau
    rw [ht, ht']
    have : n * t ≤ n * (u / 2 ^ 42) := mul_le_mul_of_nonneg_left t75 (by linarith)
    have : u ≤ n * u := le_mul_of_one_le_left u0.le n1
    linarith
  have τ0 := tau_nonneg n
  have gr : grow n ≤ Real.exp (7 * (n * u)) := by
    unfold grow
    rw [hu]
    have e1 : (1 + u) ^ 4 ≤ Real.exp (4 * u) := by
      rw [show (4 : ℝ) * u = (4 : ℕ) * u by norm_num, Real.exp_nat_mul]
      refine pow_le_pow_left₀ (by positivity) ?_ _
      rw [add_comm]
      exact Real.add_one_le_exp _
    have e2 : 1 + (mulRel n + mulAbs n) ≤ Real.exp (3 * (n * u)) := by
      have := Real.add_one_le_exp (3 * (n * u))
      have : mulRel n ≤ 2 * (n * u) := by unfold mulRel; rw [hu]; exact rel
      linarith
    have := mulRel_nonneg n
    have := mulAbs_nonneg n
    calc _ ≤ Real.exp (4 * u) * Real.exp (3 * (n * u)) :=
          mul_le_mul e1 e2 (by linarith) (Real.exp_pos _).le
      _ = Real.exp (4 * u + 3 * (n * u)) := (Real.exp_add _ _).symm
      _ ≤ _ := by
        refine Real.exp_le_exp.2 ?_
        have : u ≤ n * u := le_mul_of_one_le_left u0.le n1
        linarith
  have be : beta n ≤ Real.exp (3 * (n * u)) := by
    unfold beta
    rw [hu, ht]
    have e1 : (1 + 2 * u) ^ n ≤ Real.exp (n * (2 * u)) := by
      rw [Real.exp_nat_mul]
      refine pow_le_pow_left₀ (by positivity) ?_ _
      rw [add_comm]
      exact Real.add_one_le_exp _
    have e0 : 1 ≤ Real.exp (n * (2 * u)) := Real.one_le_exp (by positivity)
    have e2 := Real.add_one_le_exp (n * u)
    have e3 : 0 ≤ n * u := by positivity
    calc _ ≤ Real.exp (n * (2 * u)) * (n * u + 1) := by nlinarith
      _ ≤ Real.exp (n * (2 * u)) * Real.exp (n * u) := mul_le_mul_of_nonneg_left e2 (Real.exp_pos _).le
      _ = _ := by rw [← Real.exp_add]; ring_nf
  have g1 := (one_le_grow n).2.2
  have b1 := one_le_beta n
  have x0 : (0 : ℝ) ≤ n * q * u := by positivity
  have x1 : n * q * u ≤ 1 / 8192 := by
    rw [← u53]
    exact mul_le_mul_of_nonneg_right nq u0.le
  have small : ∀ y : ℝ, 0 ≤ y → y ≤ 1 → Real.exp y ≤ 1 + 2 * y := by
    intro y y0 y1
    have := Real.abs_exp_sub_one_le (x := y) (by rwa [abs_of_nonneg y0])
    rw [abs_of_nonneg y0] at this
    have := (abs_le.1 this).2
    linarith
  have gq : grow n ^ q ≤ 1 + 14 * (n * q * u) := by
    refine (pow_le_pow_left₀ (by linarith) gr q).trans ?_
    rw [← Real.exp_nat_mul]
    have := small (q * (7 * (n * u))) (by positivity) (by linarith)
    linarith
  have nu : n * u ≤ 1 / 8192 := by
    rw [← u53]
    exact mul_le_mul_of_nonneg_right n40' u0.le
  have nu0 : 0 ≤ n * u := by positivity
  refine ⟨?_, ?_, ?_, ?_⟩
  · have : beta n * grow n ≤ Real.exp (10 * (n * u)) := by
      calc _ ≤ Real.exp (3 * (n * u)) * Real.exp (7 * (n * u)) :=
            mul_le_mul be gr (by linarith) (Real.exp_pos _).le
        _ = _ := by rw [← Real.exp_add]; ring_nf
    refine (pow_le_pow_left₀ (by positivity) this q).trans ?_
    rw [← Real.exp_nat_mul]
    have := small (q * (10 * (n * u))) (by positivity) (by linarith)
    linarith
  · have g2 : grow n ^ q ≤ 2 := by linarith
    have : q * grow n ^ q * tau n ≤ q * 2 * (n * u) :=
      mul_le_mul (mul_le_mul_of_nonneg_left g2 (by linarith)) ta τ0 (by positivity)
    rw [t47]
    linarith
  · have := small (3 * (n * u)) (by linarith) (by linarith)
    linarith
  · rw [t51]
    have : mulRel n ≤ 2 * (n * u) := by unfold mulRel; rw [hu]; exact rel
    linarith

omit [Rounding] in
/-- The distance of a sum which is close. -/
theorem close_le {q : Nat} {s : ℝ} {A M : Matrix (Fin n) (Fin n) ℝ} (hn : n ≠ 0) (hq : q ≠ 0) (h : n * q ≤ 2 ^ 40)
    (hc : Close q (beta n) s A q M) :
    ‖M - ∑ i ∈ Finset.range (q + 1), (s ^ i * padeC ℝ q i) • A ^ i‖ ≤ n * q * 2 ^ (-47 : ℤ) := by
  obtain ⟨h1, h2, -⟩ := sizes hn hq h
  refine (show _ ≤ _ from hc).trans (le_trans ?_ h2)
  obtain ⟨q', rfl⟩ : ∃ q', q = q' + 1 := ⟨q - 1, by omega⟩
  have c := cond (one_le_beta n) h1
  have T := sumC_le (q' + 1) (one_le_beta n) le_rfl c.2.1
  have g : 1 ≤ grow n ^ (q' + 1) := one_le_pow₀ (one_le_grow n).2.2
  have := mul_le_mul_of_nonneg_right T (by linarith : 0 ≤ grow n ^ (q' + 1) - 1)
  linarith

/-- The numerator and the denominator for a matrix. -/
theorem pade_matrix {mm : Nat → Tensor Fl → Tensor Fl → Res (Tensor Fl)} (hm : ∀ k a b, a.WF → b.WF → Mmult a b (mm k a b))
    {A : Matrix (Fin n) (Fin n) ℝ} {a : Tensor Fl} (ha : IsReal a A) (hn : n ≠ 0) (hA : ‖A‖ ≤ beta n) {q : Nat}
    (hq0 : q ≠ 0) (hq : q ≤ 2 ^ 26) (hs : n * q ≤ 2 ^ 40) :
    ∃ (I cA N D N' D' : Tensor Fl) (Nm Dm : Matrix (Fin n) (Fin n) ℝ), eye n n = .ok I ∧ binopNT (· * ·) (fin (1 / 2)) a = .ok cA ∧
      binopTT (· + ·) I cA = .ok N ∧ binopTT (· - ·) I cA = .ok D ∧
      padeLoop mm q a (q - 1) 2 (fin (1 / 2)) a N D = .ok (N', D') ∧ IsReal N' Nm ∧ IsReal D' Dm ∧
      ‖Nm - pN ℝ q A‖ ≤ n * q * 2 ^ (-47 : ℤ) ∧ ‖Dm - pD ℝ q A‖ ≤ n * q * 2 ^ (-47 : ℤ) := by
  obtain ⟨hb, -⟩ := sizes hn hq0 hs
  have b1 := one_le_beta n
  have g := one_le_grow n
  have bg : 1 ≤ beta n * grow n := one_le_mul_of_one_le_of_one_le b1 g.2.2
  have d0 := add_nonneg (mulRel_nonneg n) (mulAbs_nonneg n)
  obtain ⟨I, eI, hI⟩ := eye_isMat (α := Fl) n n
  have rI : IsReal I (1 : Matrix (Fin n) (Fin n) ℝ) := ⟨IsMat.wf hI, hI.1, fun i j => ⟨_, hI.2.2 i j i.2 j.2, by
    by_cases hij : i = j
    · subst hij
      simp only [if_true, Matrix.one_apply_eq]
      exact ⟨⟨1, 0, by norm_num, by norm_num, by norm_num, by norm_num⟩, rfl⟩
    · have h' : ¬ (i : Nat) = j := fun h => hij (Fin.ext h)
      simp only [if_neg h', Matrix.one_apply_ne hij]
      exact ⟨finite_zero, rfl⟩⟩⟩
  have hc : (fin (1 / 2)).Finite := ⟨1, -1, by norm_num, by norm_num, by norm_num, by norm_num⟩
  have he : |(fin (1 / 2)).val - padeC ℝ q (0 + 1)| ≤
      padeC ℝ q (0 + 1) * ((1 + 2 ^ (-53 : ℤ)) ^ (2 * (0 + 1)) - 1) + 2 ^ (-1073 : ℤ) := by
    have u0 := two_zpow_pos (-53)
    have s0 := two_zpow_pos (-1073)
    have e : (fin (1 / 2)).val - padeC ℝ q (0 + 1) = 0 := by simp [padeC, Fl.val]
    rw [e, abs_zero]
    have : (1 : ℝ) ≤ (1 + 2 ^ (-53 : ℤ)) ^ (2 * (0 + 1)) := one_le_pow₀ (by linarith)
    have := mul_nonneg (padeC_nonneg q (0 + 1)) (by linarith : 0 ≤ (1 + (2 : ℝ) ^ (-53 : ℤ)) ^ (2 * (0 + 1)) - 1)
    linarith
  have hX : ‖A - A ^ (0 + 1)‖ ≤ beta n ^ (0 + 1) * ((1 + (mulRel n + mulAbs n)) ^ (0 + 1) - 1) := by
    rw [zero_add, pow_one, sub_self, norm_zero, pow_one, pow_one]
    exact mul_nonneg (by linarith) (by linarith)
  have b0 : (beta n * grow n) ^ (0 + 1) ≤ 2 := (pow_le_pow_right₀ bg (by omega)).trans hb
  obtain ⟨t, C, V, et, ht, hC, hV, hC8⟩ := term_step hn b1 hA q 0 (by omega) hX b0 hc he ha
  have c0 : ∀ s : ℝ, Close q (beta n) s A 0 1 := by
    intro s
    unfold Close
    simp [padeC]
  obtain ⟨N, Nm, eN, hN, cN⟩ : ∃ N Nm, binopTT (· + ·) I t = .ok N ∧ IsReal N (n := n) Nm ∧ Close q (beta n) 1 A (0 + 1) Nm := by
    have st := fun S => add_step (S := S) hn b1 hA hq (by omega) hb abs_one (one_pow _) (c0 1) hC hV hC8
    simp only [one_smul] at st
    obtain ⟨r, R, e, hr, hR⟩ := real_add rI ht (st 0).1
    exact ⟨r, R, e, hr, (st R).2 hR⟩
  obtain ⟨D, Dm, eD, hD, cD⟩ : ∃ D Dm, binopTT (· - ·) I t = .ok D ∧ IsReal D (n := n) Dm ∧ Close q (beta n) (-1) A (0 + 1) Dm := by
    have st := fun S => add_step (S := S) hn b1 hA hq (by omega) hb (by rw [abs_neg, abs_one] : |(-1 : ℝ)| = 1)
      (by norm_num : (-1 : ℝ) ^ (0 + 1) = -1) (c0 (-1)) hC hV hC8
    simp only [neg_smul, one_smul, ← sub_eq_add_neg] at st
    obtain ⟨r, R, e, hr, hR⟩ := real_sub rI ht (st 0).1
    exact ⟨r, R, e, hr, (st R).2 hR⟩
  obtain ⟨N', D', Nm', Dm', e, hN', cN', hD', cD'⟩ := pade_close hm ha hn b1 hA hq hb (q - 1) 0 (by omega) hc he ha hX hN cN hD cD
  refine ⟨I, t, N, D, N', D', Nm', Dm', eI, et, eN, eD, e, hN', hD', ?_, close_le hn hq0 hs cD'⟩
  have := close_le hn hq0 hs cN'
  simp only [one_pow, one_mul] at this
  exact this

omit [Rounding] in
theorem pN_eq {q : Nat} (hq : q ≠ 0) (A : Matrix (Fin n) (Fin n) ℝ) :
    pN ℝ q A = ∑ k ∈ Finset.range (q + 1), ((((2 * q - k).factorial * q.factorial : Nat) : ℝ) /
      (((2 * q).factorial * k.factorial * (q - k).factorial : Nat) : ℝ)) • A ^ k :=
  Finset.sum_congr rfl fun k hk => by rw [padeC_eq q k (by have := Finset.mem_range.1 hk; omega) (by omega)]

omit [Rounding] in
theorem pD_eq {q : Nat} (hq : q ≠ 0) (A : Matrix (Fin n) (Fin n) ℝ) :
    pD ℝ q A = ∑ k ∈ Finset.range (q + 1), ((((2 * q - k).factorial * q.factorial : Nat) : ℝ) /
      (((2 * q).factorial * k.factorial * (q - k).factorial : Nat) : ℝ)) • (-A) ^ k :=
  Finset.sum_congr rfl fun k hk => by
    have : (-A) ^ k = (-1 : ℝ) ^ k • A ^ k := by rw [← smul_pow, neg_one_smul]
    rw [padeC_eq q k (by have := Finset.mem_range.1 hk; omega) (by omega), this, smul_smul, mul_comm]

/-- The matrices which are given to solve. -/
theorem pade_expm (lg : Fl → Fl) (hl : IsLog2 lg) (mm : Nat → Tensor Fl → Tensor Fl → Res (Tensor Fl))
    (hm : ∀ k a b, a.WF → b.WF → Mmult a b (mm k a b)) (sol : Tensor Fl → Tensor Fl → Res (Tensor Fl)) (m : Tensor Fl)
    (n : Nat) (hn : n ≠ 0) (f : Nat → Nat → Fl) (h : IsMat m.dims m.data n n f) (hf : ∀ i j, i < n → j < n → (f i j).Finite)
    (x : ℝ) (hd : IsDouble x) (hx : matrixNormInf Fl.abs m = .ok (fin x)) (h0 : 0 < x) (h1 : x ≤ 2 ^ (1022 : ℤ)) (q : Nat)
    (hq0 : q ≠ 0) (hq : q ≤ 2 ^ 26) (hs : n * q ≤ 2 ^ 40) :
    ∃ (s : Nat) (N D : Tensor Fl) (g : Nat → Nat → Fl) (A Nm Dm : Matrix (Fin n) (Fin n) ℝ),
      expm lg mm sol m q = (do let X ← sol D N; squareLoop mm s (q + 1) X) ∧ x < 2 ^ s ∧ (0 < s → 2 ^ s ≤ 4 * x) ∧
      (∀ i j : Fin n, (g i j).Finite ∧ (g i j).val = A i j ∧ |A i j - (f i j).val / 2 ^ s| ≤ 2 ^ (-1075 : ℤ)) ∧
      IsReal N Nm ∧ IsReal D Dm ∧ ‖Nm - pN ℝ q A‖ ≤ n * q * 2 ^ (-47 : ℤ) ∧ ‖Dm - pD ℝ q A‖ ≤ n * q * 2 ^ (-47 : ℤ) ∧
      ‖A‖ ≤ beta n ∧ ‖A‖ ≤ (1 + 2 * 2 ^ (-53 : ℤ)) ^ (n - 1) * x / 2 ^ s + n * 2 ^ (-1075 : ℤ) := by
  obtain ⟨s, a, g, sc, s1, s2, s3, hA, hg⟩ := c137_scale_partial lg hl m n n f h hf x hd hx h0 h1
  have ra : IsReal a (Matrix.of fun i j : Fin n => (g i j).val) :=
    ⟨IsMat.wf hA, hA.1, fun i j => ⟨_, hA.2.2 i j i.2 j.2, (hg i j i.2 j.2).1, rfl⟩⟩
  have hr : m.rank = 2 := by rw [rank, h.1]; rfl
  have d0 : m.dimension 0 = .ok n := by simp [dimension, rank, h.1, Res.assert_bind]
  have d1 : m.dimension 1 = .ok n := by simp [dimension, rank, h.1, Res.assert_bind]
  have dA : a.dimension 0 = .ok n := by simp [dimension, rank, hA.1, Res.assert_bind]
  have p2 : (0 : ℝ) < 2 ^ s := by positivity
  have u0 := two_zpow_pos (-53)
  have bound' : ‖(Matrix.of fun i j : Fin n => (g i j).val)‖ ≤
      (1 + 2 * 2 ^ (-53 : ℤ)) ^ (n - 1) * x / 2 ^ s + n * 2 ^ (-1075 : ℤ) := by
    refine norm_le_of (F := fun i j => |(f i j).val| / 2 ^ s + 2 ^ (-1075 : ℤ)) (by positivity) (fun i j => ?_)
      fun i => ?_
    · change |(g i j).val| ≤ _
      have := abs_sub_abs_le_abs_sub (g i j).val ((f i j).val / 2 ^ s)
      rw [abs_div, abs_of_pos p2] at this
      linarith [(hg i j i.2 j.2).2.2.1]
    · rw [Finset.sum_add_distrib, ← Finset.sum_div, Finset.sum_const, Finset.card_univ, Fintype.card_fin, nsmul_eq_mul]
      refine add_le_add (div_le_div_of_nonneg_right ?_ p2.le) le_rfl
      rw [← Finset.sum_range (fun j => |(f i j).val|)]
      exact norm_rows h hf hx hd hn i i.2
  have bound : ‖(Matrix.of fun i j : Fin n => (g i j).val)‖ ≤ beta n := by
    refine bound'.trans (add_le_add ?_ le_rfl)
    rw [div_le_iff₀ p2]
    exact mul_le_mul (pow_le_pow_right₀ (by linarith) (Nat.sub_le n 1)) s2.le h0.le (by positivity)
  obtain ⟨I, cA, N, D, N', D', Nm, Dm, eI, ec, eN, eD, e, hN, hD, cN, cD⟩ := pade_matrix hm ra hn bound hq0 hq hs
  refine ⟨s, N', D', g, _, Nm, Dm, ?_, s2, s3, fun i j => ⟨(hg i j i.2 j.2).1, rfl, (hg i j i.2 j.2).2.2.1⟩, hN, hD, cN, cD, bound, bound'⟩
  simp only [expm, hr, d0, d1, sc, dA, eI, ec, eN, eD, e, Res.ok_bind, Res.assert_bind, if_true]

/-- C137: for a matrix of numbers whose norm is not zero and at most 2^1022, the numerator and the denominator which are
given to solve are close to those of the approximation of the scaled matrix. -/
theorem c137_pade_partial (lg : Fl → Fl) (hl : IsLog2 lg) (mm : Nat → Tensor Fl → Tensor Fl → Res (Tensor Fl))
    (hm : ∀ k a b, a.WF → b.WF → Mmult a b (mm k a b)) (sol : Tensor Fl → Tensor Fl → Res (Tensor Fl)) (m : Tensor Fl)
    (n : Nat) (hn : n ≠ 0) (f : Nat → Nat → Fl) (h : IsMat m.dims m.data n n f) (hf : ∀ i j, i < n → j < n → (f i j).Finite)
    (x : ℝ) (hd : IsDouble x) (hx : matrixNormInf Fl.abs m = .ok (fin x)) (h0 : 0 < x) (h1 : x ≤ 2 ^ (1022 : ℤ)) (q : Nat)
    (hq0 : q ≠ 0) (hq : q ≤ 2 ^ 26) (hs : n * q ≤ 2 ^ 40) :
    ∃ (s : Nat) (N D : Tensor Fl) (A Nm Dm : Matrix (Fin n) (Fin n) ℝ),
      expm lg mm sol m q = (do let X ← sol D N; squareLoop mm s (q + 1) X) ∧ x < 2 ^ s ∧ (0 < s → 2 ^ s ≤ 4 * x) ∧
      (∀ i j : Fin n, |A i j - (f i j).val / 2 ^ s| ≤ 2 ^ (-1075 : ℤ)) ∧ IsReal N Nm ∧ IsReal D Dm ∧
      (∀ i, ∑ j, |Nm i j - (∑ k ∈ Finset.range (q + 1), ((((2 * q - k).factorial * q.factorial : Nat) : ℝ) /
        (((2 * q).factorial * k.factorial * (q - k).factorial : Nat) : ℝ)) • A ^ k) i j| ≤ n * q * 2 ^ (-47 : ℤ)) ∧
      ∀ i, ∑ j, |Dm i j - (∑ k ∈ Finset.range (q + 1), ((((2 * q - k).factorial * q.factorial : Nat) : ℝ) /
        (((2 * q).factorial * k.factorial * (q - k).factorial : Nat) : ℝ)) • (-A) ^ k) i j| ≤ n * q * 2 ^ (-47 : ℤ) := by
  obtain ⟨s, N, D, g, A, Nm, Dm, e, s2, s3, hg, hN, hD, cN, cD, bA, bA'⟩ := pade_expm lg hl mm hm sol m n hn f h hf x hd hx h0 h1 q hq0 hq hs
  rw [pN_eq hq0] at cN
  rw [pD_eq hq0] at cD
  exact ⟨s, N, D, A, Nm, Dm, e, s2, s3, fun i j => (hg i j).2.2, hN, hD, fun i => (row_le _ i).trans cN,
    fun i => (row_le _ i).trans cD⟩

omit [Rounding] in
/-- Two numbers at a distance below the smallest one are equal. -/
theorem double_eq {x y : ℝ} (hx : IsDouble x) (hy : IsDouble y) (h : |x - y| ≤ 2 ^ (-1075 : ℤ)) : x = y := by
  obtain ⟨k, rfl⟩ := hx.grid
  obtain ⟨l, rfl⟩ := hy.grid
  have e : (2 : ℝ) ^ (-1075 : ℤ) = 1 / 2 * 2 ^ (-1074 : ℤ) := by
    rw [show (-1075 : ℤ) = -1074 - 1 by norm_num, zpow_sub_one₀ (by norm_num)]; ring
  have p := two_zpow_pos (-1074)
  rw [e, ← sub_mul, abs_mul, abs_of_pos p] at h
  have h := le_of_mul_le_mul_right h p
  have : k - l = 0 := by
    rw [← Int.abs_lt_one_iff]
    have : (|k - l| : ℝ) < 1 := lt_of_le_of_lt h (by norm_num)
    exact_mod_cast this
  rw [sub_eq_zero.1 this]

omit [Rounding] in
/-- The distance to the exponential of a matrix which almost solves the equation of the approximation. -/
theorem error_exp (hn : n ≠ 0) {A N D X : Matrix (Fin n) (Fin n) ℝ} (hA : ‖A‖ ≤ 1) {q : Nat} (hq : q ≠ 0) {e ρ : ℝ}
    (he : e ≤ 1 / 128) (hN : ‖N - pN ℝ q A‖ ≤ e) (hD : ‖D - pD ℝ q A‖ ≤ e) (hX : ‖D * X - N‖ ≤ ρ) :
    ‖X - NormedSpace.exp A‖ ≤ 4 * (4 * e + ρ + 3 * padeDelta q) := by
  have : Nonempty (Fin n) := ⟨⟨0, Nat.pos_of_ne_zero hn⟩⟩
  have : NormOneClass (Matrix (Fin n) (Fin n) ℝ) := Matrix.linfty_opNormOneClass
  have h1 := pade_residual (𝕜 := ℝ) q (Nat.pos_of_ne_zero hq) hA
  have h2 := norm_one_sub_pD (𝕜 := ℝ) q hA
  have h3 := norm_exp_le (𝕜 := ℝ) hA
  have h4 : 3 * padeDelta q * ‖A‖ ^ (2 * q + 1) ≤ 3 * padeDelta q :=
    mul_le_of_le_one_right (by have := padeDelta_nonneg q; linarith) (pow_le_one₀ (norm_nonneg _) hA)
  set E := X - NormedSpace.exp A with hE
  have eq : E = (1 - pD ℝ q A) * E - (D - pD ℝ q A) * E - (D - pD ℝ q A) * NormedSpace.exp A + (D * X - N) + (N - pN ℝ q A)
      - (pD ℝ q A * NormedSpace.exp A - pN ℝ q A) := by
    rw [hE]; noncomm_ring
  have n1 := (norm_mul_le (1 - pD ℝ q A) E).trans (mul_le_mul_of_nonneg_right h2 (norm_nonneg _))
  have n2 := (norm_mul_le (D - pD ℝ q A) E).trans (mul_le_mul_of_nonneg_right (hD.trans he) (norm_nonneg _))
  have n3 := (norm_mul_le (D - pD ℝ q A) (NormedSpace.exp A)).trans (mul_le_mul hD h3 (norm_nonneg _) ((norm_nonneg _).trans hD))
  have : ‖E‖ ≤ 2 / 3 * ‖E‖ + 1 / 128 * ‖E‖ + e * 3 + ρ + e + 3 * padeDelta q := by
    conv_lhs => rw [eq]
    refine (norm_sub_le _ _).trans (add_le_add ((norm_add_le _ _).trans (add_le_add ((norm_add_le _ _).trans (add_le_add
      ((norm_sub_le _ _).trans (add_le_add ((norm_sub_le _ _).trans (add_le_add n1 n2)) n3)) hX)) hN)) (h1.trans h4))
  have e0 := (norm_nonneg _).trans hN
  have r0 := (norm_nonneg _).trans hX
  have := padeDelta_nonneg q
  linarith

/-- C137: for a matrix of numbers whose norm is not zero and less than 1/2, if solve leaves a residual of at most `ρ` for
matrices close to the unit matrix, then the result is the exponential, but for errors of 16 n q 2^-47, the one of solve, and
the one of the approximation. -/
theorem c137_error_partial (lg : Fl → Fl) (hl : IsLog2 lg) (mm : Nat → Tensor Fl → Tensor Fl → Res (Tensor Fl))
    (hm : ∀ k a b, a.WF → b.WF → Mmult a b (mm k a b)) (sol : Tensor Fl → Tensor Fl → Res (Tensor Fl)) (n : Nat) (hn : n ≠ 0)
    (ρ : ℝ) (hsol : ∀ (D N : Tensor Fl) (Dm Nm : Matrix (Fin n) (Fin n) ℝ), IsReal D Dm → IsReal N Nm →
      (∀ i, ∑ j, |(1 : Matrix (Fin n) (Fin n) ℝ) i j - Dm i j| ≤ 3 / 4) → (∀ i, ∑ j, |Nm i j| ≤ 16) →
      ∃ X, ∃ Xm : Matrix (Fin n) (Fin n) ℝ, sol D N = .ok X ∧ IsReal X Xm ∧ ∀ i, ∑ j, |(Dm * Xm) i j - Nm i j| ≤ ρ)
    (m : Tensor Fl) (f : Nat → Nat → Fl) (h : IsMat m.dims m.data n n f) (hf : ∀ i j, i < n → j < n → (f i j).Finite)
    (x : ℝ) (hd : IsDouble x) (hx : matrixNormInf Fl.abs m = .ok (fin x)) (h0 : 0 < x) (h1 : x < 1 / 2) (q : Nat)
    (hq0 : q ≠ 0) (hq : q ≤ 2 ^ 26) (hs : n * q ≤ 2 ^ 40) :
    ∃ X, ∃ Xm : Matrix (Fin n) (Fin n) ℝ, expm lg mm sol m q = .ok X ∧ IsReal X Xm ∧
      ∀ i, ∑ j, |Xm i j - NormedSpace.exp (Matrix.of fun i j : Fin n => (f i j).val) i j| ≤
        4 * (4 * (n * q * 2 ^ (-47 : ℤ)) + ρ +
          3 * (((q.factorial * q.factorial : Nat) : ℝ) / ((2 * q).factorial * (2 * q + 1).factorial : Nat))) := by
  have x2 : x ≤ 2 ^ (1022 : ℤ) := (h1.le.trans (by norm_num)).trans (one_le_zpow₀ (by norm_num) (by norm_num) : (1 : ℝ) ≤ 2 ^ (1022 : ℤ))
  obtain ⟨s, N, D, g, A, Nm, Dm, ex, s2, s3, hg, hN, hD, cN, cD, bA, bA'⟩ := pade_expm lg hl mm hm sol m n hn f h hf x hd hx h0 x2 q hq0 hq hs
  obtain rfl : s = 0 := by
    by_contra c
    have := s3 (Nat.pos_of_ne_zero c)
    have : (2 : ℝ) ≤ 2 ^ s := le_self_pow₀ (by norm_num) c
    linarith
  have eA : A = Matrix.of fun i j : Fin n => (f i j).val := by
    ext i j
    obtain ⟨g1, g2, g3⟩ := hg i j
    rw [pow_zero, div_one] at g3
    exact double_eq (g2 ▸ Fl.Finite.val_double g1) (Fl.Finite.val_double (hf i j i.2 j.2)) g3
  have b2 : beta n ≤ 2 := by
    refine le_trans ?_ (sizes hn hq0 hs).1
    refine le_trans ?_ (le_self_pow₀ (one_le_mul_of_one_le_of_one_le (one_le_beta n) (one_le_grow n).2.2) hq0)
    exact le_mul_of_one_le_right (zero_le_one.trans (one_le_beta n)) (one_le_grow n).2.2
  have u0 := two_zpow_pos (-53)
  have nA : ‖A‖ ≤ 1 := by
    rw [eA]
    refine norm_le_of zero_le_one (fun i j => le_rfl) fun i => ?_
    change ∑ j : Fin n, |(f i j).val| ≤ 1
    rw [← Finset.sum_range (fun j => |(f i j).val|)]
    refine (norm_rows h hf hx hd hn i i.2).trans ?_
    have : (1 + 2 * (2 : ℝ) ^ (-53 : ℤ)) ^ (n - 1) ≤ 2 := by
      refine le_trans (pow_le_pow_right₀ (by linarith) (Nat.sub_le n 1)) (le_trans ?_ b2)
      rw [beta]
      exact le_add_of_nonneg_right (by positivity)
    calc _ ≤ 2 * (1 / 2 : ℝ) := mul_le_mul this h1.le h0.le (by norm_num)
      _ = 1 := by norm_num
  have he : (n : ℝ) * q * 2 ^ (-47 : ℤ) ≤ 1 / 128 := by
    have : (n : ℝ) * q ≤ 2 ^ 40 := by exact_mod_cast hs
    calc _ ≤ (2 : ℝ) ^ 40 * 2 ^ (-47 : ℤ) := mul_le_mul_of_nonneg_right this (by positivity)
      _ = 1 / 128 := by norm_num
  have : Nonempty (Fin n) := ⟨⟨0, Nat.pos_of_ne_zero hn⟩⟩
  have : NormOneClass (Matrix (Fin n) (Fin n) ℝ) := Matrix.linfty_opNormOneClass
  have r1 := norm_one_sub_pD (𝕜 := ℝ) q nA
  have n1 : ‖1 - Dm‖ ≤ 3 / 4 := by
    have e : 1 - Dm = (1 - pD ℝ q A) - (Dm - pD ℝ q A) := by noncomm_ring
    rw [e]
    have := norm_sub_le (1 - pD ℝ q A) (Dm - pD ℝ q A)
    have c := cD.trans he
    linarith only [c, this, r1]
  have n2 : ‖Nm‖ ≤ 16 := by
    have h1 := pade_residual (𝕜 := ℝ) q (Nat.pos_of_ne_zero hq0) nA
    have h3 := norm_exp_le (𝕜 := ℝ) nA
    have d1 : padeDelta q ≤ 1 := (padeDelta_le q).trans (inv_le_one_of_one_le₀ (by linarith [Nat.cast_nonneg (α := ℝ) q]))
    have h4 : 3 * padeDelta q * ‖A‖ ^ (2 * q + 1) ≤ 3 * padeDelta q :=
      mul_le_of_le_one_right (by have := padeDelta_nonneg q; linarith) (pow_le_one₀ (norm_nonneg _) nA)
    have e : Nm = (Nm - pN ℝ q A) - (pD ℝ q A * NormedSpace.exp A - pN ℝ q A) - (1 - pD ℝ q A) * NormedSpace.exp A
      + NormedSpace.exp A := by noncomm_ring
    have m1 := (norm_mul_le (1 - pD ℝ q A) (NormedSpace.exp A)).trans (mul_le_mul r1 h3 (norm_nonneg _) (by norm_num))
    have h5 : 3 * padeDelta q ≤ 3 := by linarith only [d1]
    have : ‖Nm‖ ≤ 1 / 128 + 3 + 2 / 3 * 3 + 3 := by
      conv_lhs => rw [e]
      exact (norm_add_le _ _).trans (add_le_add ((norm_sub_le _ _).trans (add_le_add ((norm_sub_le _ _).trans
        (add_le_add (cN.trans he) (h1.trans (h4.trans h5)))) m1)) h3)
    exact this.trans (by norm_num)
  obtain ⟨X, Xm, e1, e2, e3⟩ := hsol D N Dm Nm hD hN (fun i => (row_le (1 - Dm) i).trans n1) fun i => (row_le Nm i).trans n2
  have ρ0 : 0 ≤ ρ := (Finset.sum_nonneg fun j _ => abs_nonneg _).trans (e3 ⟨0, Nat.pos_of_ne_zero hn⟩)
  refine ⟨X, Xm, by rw [ex, e1]; rfl, e2, fun i => ?_⟩
  have := error_exp hn nA hq0 he cN cD ((norm_le_rows ρ0).2 e3)
  rw [eA] at this
  exact (row_le (Xm - NormedSpace.exp (Matrix.of fun i j : Fin n => (f i j).val)) i).trans this

/-! ### The squares -/

omit [Rounding] in
theorem norm_exp_real (hn : n ≠ 0) {A : Matrix (Fin n) (Fin n) ℝ} {b : ℝ} (h : ‖A‖ ≤ b) : ‖NormedSpace.exp A‖ ≤ Real.exp b := by
  have : Nonempty (Fin n) := ⟨⟨0, Nat.pos_of_ne_zero hn⟩⟩
  have : NormOneClass (Matrix (Fin n) (Fin n) ℝ) := Matrix.linfty_opNormOneClass
  have h1 := NormedSpace.exp_series_hasSum_exp' (𝕂 := ℝ) A
  have h2 := NormedSpace.exp_series_hasSum_exp' (𝕂 := ℝ) b
  rw [← Real.exp_eq_exp_ℝ] at h2
  refine h1.norm_le_of_bounded h2 fun i => ?_
  refine (norm_smul_le _ _).trans ?_
  rw [norm_inv, RCLike.norm_natCast, smul_eq_mul]
  exact mul_le_mul_of_nonneg_left ((norm_pow_le A i).trans (pow_le_pow_left₀ (norm_nonneg _) h i)) (by positivity)

omit [Rounding] in
theorem pow_sub {A B : Matrix (Fin n) (Fin n) ℝ} {b : ℝ} (hn : n ≠ 0) (hA : ‖A‖ ≤ b) (hB : ‖B‖ ≤ b) :
    ∀ k : Nat, ‖A ^ (k + 1) - B ^ (k + 1)‖ ≤ (k + 1) * b ^ k * ‖A - B‖
  | 0 => by simp
  | k + 1 => by
    have : Nonempty (Fin n) := ⟨⟨0, Nat.pos_of_ne_zero hn⟩⟩
    have : NormOneClass (Matrix (Fin n) (Fin n) ℝ) := Matrix.linfty_opNormOneClass
    have ih := pow_sub hn hA hB k
    have b0 := (norm_nonneg A).trans hA
    have e : A ^ (k + 1 + 1) - B ^ (k + 1 + 1) = (A ^ (k + 1) - B ^ (k + 1)) * A + B ^ (k + 1) * (A - B) := by
      rw [pow_succ A (k + 1), pow_succ B (k + 1)]; noncomm_ring
    rw [e]
    have n1 := (norm_mul_le (A ^ (k + 1) - B ^ (k + 1)) A).trans (mul_le_mul ih hA (norm_nonneg _) (by positivity))
    have n2 := (norm_mul_le (B ^ (k + 1)) (A - B)).trans (mul_le_mul_of_nonneg_right
      ((norm_pow_le B (k + 1)).trans (pow_le_pow_left₀ (norm_nonneg _) hB (k + 1))) (norm_nonneg _))
    refine (norm_add_le _ _).trans ((add_le_add n1 n2).trans (le_of_eq ?_))
    push_cast
    ring

omit [Rounding] in
/-- The exponentials of matrices which are close. -/
theorem exp_sub {A B : Matrix (Fin n) (Fin n) ℝ} {b : ℝ} (hn : n ≠ 0) (hA : ‖A‖ ≤ b) (hB : ‖B‖ ≤ b) :
    ‖NormedSpace.exp A - NormedSpace.exp B‖ ≤ ‖A - B‖ * Real.exp b := by
  have h1 := (NormedSpace.exp_series_hasSum_exp' (𝕂 := ℝ) A).sub (NormedSpace.exp_series_hasSum_exp' (𝕂 := ℝ) B)
  rw [← hasSum_nat_add_iff' 1] at h1
  have h2 := (NormedSpace.exp_series_hasSum_exp' (𝕂 := ℝ) b).mul_left ‖A - B‖
  rw [← Real.exp_eq_exp_ℝ] at h2
  have := h1.norm_le_of_bounded h2 fun i => by
    rw [← smul_sub]
    refine (norm_smul_le _ _).trans ?_
    rw [norm_inv, RCLike.norm_natCast, smul_eq_mul]
    calc _ ≤ ((i + 1).factorial : ℝ)⁻¹ * ((i + 1) * b ^ i * ‖A - B‖) :=
          mul_le_mul_of_nonneg_left (pow_sub hn hA hB i) (by positivity)
      _ = _ := by
        rw [Nat.factorial_succ]
        have : (i.factorial : ℝ) ≠ 0 := Nat.cast_ne_zero.2 (Nat.factorial_ne_zero i)
        push_cast
        field_simp
  rw [Finset.sum_range_one, pow_zero, pow_zero, sub_self, sub_zero] at this
  exact this

/-- The error after the squares. -/
theorem square_close {mm : Nat → Tensor Fl → Tensor Fl → Res (Tensor Fl)} (hm : ∀ k a b, a.WF → b.WF → Mmult a b (mm k a b))
    (hn : n ≠ 0) : ∀ (j i : Nat) (t : Tensor Fl) (X A : Matrix (Fin n) (Fin n) ℝ) (b G : ℝ), IsReal t X → 0 ≤ b → 1 ≤ G → ‖A‖ ≤ b →
      ‖X - NormedSpace.exp A‖ ≤ Real.exp b * (G - 1) →
      Real.exp (2 ^ j * b) * ((1 + (mulRel n + mulAbs n)) * G) ^ 2 ^ j < 2 ^ 1024 →
      ∃ r Y, squareLoop mm j i t = .ok r ∧ IsReal r (n := n) Y ∧
        ‖Y - NormedSpace.exp ((2 : ℝ) ^ j • A)‖ ≤ Real.exp (2 ^ j * b) * (((1 + (mulRel n + mulAbs n)) * G) ^ 2 ^ j - 1)
  | 0, i, t, X, A, b, G, ht, hb, hG, hA, hX, _ => by
    refine ⟨t, X, rfl, ht, ?_⟩
    rw [pow_zero, one_smul, one_mul, pow_zero, pow_one]
    refine hX.trans (mul_le_mul_of_nonneg_left ?_ (Real.exp_pos b).le)
    have := le_mul_of_one_le_left (by linarith : 0 ≤ G) (by have := mulRel_nonneg n; have := mulAbs_nonneg n; linarith :
      1 ≤ 1 + (mulRel n + mulAbs n))
    linarith
  | j + 1, i, t, X, A, b, G, ht, hb, hG, hA, hX, hbig => by
    have r0 := mulRel_nonneg n
    have a0 := mulAbs_nonneg n
    set δ := mulRel n + mulAbs n with hδ
    have δ0 : 0 ≤ δ := add_nonneg r0 a0
    have hE := norm_exp_real hn hA
    have e1 : 1 ≤ Real.exp b := Real.one_le_exp hb
    have e2 : Real.exp (2 * b) = Real.exp b * Real.exp b := by rw [two_mul, Real.exp_add]
    set M := Real.exp b with hM
    have nX : ‖X‖ ≤ M * G := by
      have := norm_add_le (X - NormedSpace.exp A) (NormedSpace.exp A)
      rw [sub_add_cancel] at this
      calc _ ≤ M * (G - 1) + M := this.trans (add_le_add hX hE)
        _ = M * G := by ring
    have MG : 1 ≤ M * G := one_le_mul_of_one_le_of_one_le e1 hG
    have nX2 : ‖X‖ * ‖X‖ ≤ M * G * (M * G) := mul_le_mul nX nX (norm_nonneg _) (by linarith)
    have MG2 : 1 ≤ M * G * (M * G) := one_le_mul_of_one_le_of_one_le MG MG
    have err : mulRel n * (‖X‖ * ‖X‖) + mulAbs n ≤ δ * (M * G * (M * G)) := by
      have h1 := mul_le_mul_of_nonneg_left nX2 r0
      have h2 := le_mul_of_one_le_right a0 MG2
      rw [hδ, add_mul]
      exact add_le_add h1 h2
    have G' : 1 ≤ (1 + δ) * (G * G) :=
      one_le_mul_of_one_le_of_one_le (by linarith) (one_le_mul_of_one_le_of_one_le hG hG)
    have H1 : 1 ≤ (1 + δ) * G := one_le_mul_of_one_le_of_one_le (by linarith) hG
    have step : M * M * ((1 + δ) * (G * G)) ≤ Real.exp (2 ^ (j + 1) * b) * ((1 + δ) * G) ^ 2 ^ (j + 1) := by
      rw [← e2]
      have p1 : (2 : ℝ) ≤ 2 ^ (j + 1) := le_self_pow₀ (by norm_num) (by omega)
      have p2 : 2 ≤ 2 ^ (j + 1) := le_self_pow₀ (by norm_num) (by omega)
      refine mul_le_mul (Real.exp_le_exp.2 (mul_le_mul_of_nonneg_right p1 hb)) ?_ (by linarith) (Real.exp_pos _).le
      refine le_trans ?_ (pow_le_pow_right₀ H1 p2)
      have := mul_le_mul_of_nonneg_right (le_mul_of_one_le_left (by linarith : 0 ≤ 1 + δ) (by linarith : 1 ≤ 1 + δ))
        (by positivity : 0 ≤ G * G)
      calc _ ≤ (1 + δ) * (1 + δ) * (G * G) := this
        _ = _ := by ring
    obtain ⟨p, C, ep, hp, hC⟩ := real_mul hn ht ht (hm i t t ht.1 ht.1) (by
      refine lt_of_le_of_lt (le_trans ?_ step) hbig
      calc _ = ‖X‖ * ‖X‖ + (mulRel n * (‖X‖ * ‖X‖) + mulAbs n) := by ring
        _ ≤ M * G * (M * G) + δ * (M * G * (M * G)) := add_le_add nX2 err
        _ = _ := by ring)
    have ex : NormedSpace.exp ((2 : ℝ) • A) = NormedSpace.exp A * NormedSpace.exp A := by
      rw [two_smul, Matrix.exp_add_of_commute A A (Commute.refl A)]
    have close : ‖C - NormedSpace.exp ((2 : ℝ) • A)‖ ≤ Real.exp (2 * b) * ((1 + δ) * (G * G) - 1) := by
      rw [ex, e2]
      set E := NormedSpace.exp A with hEE
      have eq : C - E * E = (C - X * X) + (X - E) * (X - E) + (X - E) * E + E * (X - E) := by noncomm_ring
      have m0 : 0 ≤ M * (G - 1) := mul_nonneg (by linarith) (by linarith)
      have n1 := (norm_mul_le (X - E) (X - E)).trans (mul_le_mul hX hX (norm_nonneg _) m0)
      have n2 := (norm_mul_le (X - E) E).trans (mul_le_mul hX hE (norm_nonneg _) m0)
      have n3 := (norm_mul_le E (X - E)).trans (mul_le_mul hE hX (norm_nonneg _) (by linarith))
      rw [eq]
      refine (norm_add_le _ _).trans ((add_le_add ((norm_add_le _ _).trans (add_le_add ((norm_add_le _ _).trans (add_le_add
        (hC.trans err) n1)) n2)) n3).trans (le_of_eq ?_))
      ring
    have nA : ‖(2 : ℝ) • A‖ ≤ 2 * b := by
      rw [two_smul, two_mul]
      exact (norm_add_le _ _).trans (add_le_add hA hA)
    have bj : (2 : ℝ) ^ j * (2 * b) = 2 ^ (j + 1) * b := by rw [pow_succ]; ring
    have gj : ((1 + δ) * ((1 + δ) * (G * G))) ^ 2 ^ j = ((1 + δ) * G) ^ 2 ^ (j + 1) := by
      rw [pow_succ 2 j, mul_comm (2 ^ j) 2, pow_mul]
      congr 1
      ring
    obtain ⟨r, Y, er, hr, hY⟩ := square_close hm hn j (i + 1) p C ((2 : ℝ) • A) (2 * b) ((1 + δ) * (G * G)) hp (by linarith) G' nA
      close (by rw [bj, gj]; exact hbig)
    refine ⟨r, Y, by rw [squareLoop, ep, Res.ok_bind, er], hr, ?_⟩
    rw [bj, gj, smul_smul, ← pow_succ] at hY
    exact hY

omit [Rounding] in
/-- As `norm_one_sub_pD`, `pade_residual` and `error_exp` for matrices whose norm may exceed one by the rounding errors. -/
theorem norm_one_sub (hn : n ≠ 0) (q : Nat) {A : Matrix (Fin n) (Fin n) ℝ} (hA : ‖A‖ ≤ 101 / 100) : ‖1 - pD ℝ q A‖ ≤ 7 / 10 := by
  have : Nonempty (Fin n) := ⟨⟨0, Nat.pos_of_ne_zero hn⟩⟩
  have : NormOneClass (Matrix (Fin n) (Fin n) ℝ) := Matrix.linfty_opNormOneClass
  have e : 1 - pD ℝ q A = - ∑ k ∈ Finset.range q, ((-1) ^ (k + 1) * padeC ℝ q (k + 1)) • A ^ (k + 1) := by
    rw [pD, Finset.sum_range_succ']
    simp [padeC]
  rw [e, norm_neg]
  calc ‖∑ k ∈ Finset.range q, ((-1) ^ (k + 1) * padeC ℝ q (k + 1)) • A ^ (k + 1)‖
      ≤ ∑ k ∈ Finset.range q, ‖((-1) ^ (k + 1) * padeC ℝ q (k + 1)) • A ^ (k + 1)‖ := norm_sum_le _ _
    _ ≤ ∑ k ∈ Finset.range q, 101 / 200 * (101 / 400 : ℝ) ^ k := by
      refine Finset.sum_le_sum fun k hk => ?_
      have hk := Finset.mem_range.1 hk
      refine (norm_smul_le _ _).trans ?_
      rw [norm_mul, norm_pow, norm_neg, NormOneClass.norm_one, one_pow, one_mul]
      calc _ ≤ (1 / 2 * (1 / 4 : ℝ) ^ k) * (101 / 100) ^ (k + 1) :=
            mul_le_mul (norm_padeC q k hk) ((norm_pow_le A _).trans (pow_le_pow_left₀ (norm_nonneg _) hA _)) (norm_nonneg _)
              (by positivity)
        _ = 101 / 200 * ((1 / 4) ^ k * (101 / 100 : ℝ) ^ k) := by rw [pow_succ]; ring
        _ = _ := by rw [← mul_pow]; norm_num
    _ ≤ ∑' k, 101 / 200 * (101 / 400 : ℝ) ^ k :=
      Summable.sum_le_tsum _ (fun k _ => by positivity)
        ((summable_geometric_of_lt_one (by norm_num) (by norm_num)).mul_left _)
    _ ≤ 7 / 10 := by
      rw [tsum_mul_left, tsum_geometric_of_lt_one (by norm_num) (by norm_num)]
      norm_num

omit [Rounding] in
theorem residual (hn : n ≠ 0) (q : Nat) (hq : 0 < q) {A : Matrix (Fin n) (Fin n) ℝ} :
    ‖pD ℝ q A * NormedSpace.exp A - pN ℝ q A‖ ≤ padeDelta q * ‖A‖ ^ (2 * q + 1) * Real.exp ‖A‖ := by
  have : Nonempty (Fin n) := ⟨⟨0, Nat.pos_of_ne_zero hn⟩⟩
  have : NormOneClass (Matrix (Fin n) (Fin n) ℝ) := Matrix.linfty_opNormOneClass
  have h := hasSum_pD (𝕜 := ℝ) q A
  rw [← hasSum_nat_add_iff' (2 * q + 1)] at h
  have e : ∑ i ∈ Finset.range (2 * q + 1), padeE ℝ q i • A ^ i = pN ℝ q A := by
    rw [pN, Finset.range_eq_Ico, Finset.range_eq_Ico, ← Finset.sum_Ico_consecutive _ (Nat.zero_le (q + 1))
      (by omega : q + 1 ≤ 2 * q + 1), Finset.sum_eq_zero (s := Finset.Ico (q + 1) (2 * q + 1)), add_zero]
    · refine Finset.sum_congr rfl fun i hi => ?_
      have hi := Finset.mem_Ico.1 hi
      rw [padeE_low hq (by omega), if_pos (by omega)]
    · intro i hi
      have hi := Finset.mem_Ico.1 hi
      rw [padeE_low hq (by omega), if_neg (by omega), zero_smul]
  rw [e] at h
  have hg := (NormedSpace.exp_series_hasSum_exp' (𝕂 := ℝ) ‖A‖).mul_left (padeDelta q * ‖A‖ ^ (2 * q + 1))
  rw [← Real.exp_eq_exp_ℝ] at hg
  refine h.norm_le_of_bounded hg fun i => ?_
  refine (norm_smul_le _ _).trans ?_
  rw [smul_eq_mul]
  calc ‖padeE ℝ q (i + (2 * q + 1))‖ * ‖A ^ (i + (2 * q + 1))‖
      ≤ (padeDelta q * (i.factorial : ℝ)⁻¹) * ‖A‖ ^ (i + (2 * q + 1)) :=
        mul_le_mul (norm_padeE q i hq) (norm_pow_le A _) (norm_nonneg _) (mul_nonneg (padeDelta_nonneg q) (by positivity))
    _ = _ := by rw [pow_add]; ring

omit [Rounding] in
theorem exp_small {y : ℝ} (h0 : 0 ≤ y) (h1 : y ≤ 1) : Real.exp y ≤ 1 + 2 * y := by
  have := Real.abs_exp_sub_one_le (x := y) (by rwa [abs_of_nonneg h0])
  rw [abs_of_nonneg h0] at this
  have := (abs_le.1 this).2
  linarith

omit [Rounding] in
theorem exp_three : Real.exp (101 / 100) ≤ 3 := by
  have e : (101 / 100 : ℝ) = 1 + 1 / 100 := by norm_num
  have h1 := Real.exp_one_lt_d9
  have h2 := exp_small (y := 1 / 100) (by norm_num) (by norm_num)
  rw [e, Real.exp_add]
  calc _ ≤ (2.7182818286 : ℝ) * (1 + 2 * (1 / 100)) := mul_le_mul h1.le h2 (Real.exp_pos _).le (by norm_num)
    _ ≤ 3 := by norm_num

omit [Rounding] in
theorem error_exp' (hn : n ≠ 0) {A N D X : Matrix (Fin n) (Fin n) ℝ} (hA : ‖A‖ ≤ beta n) {q : Nat} (hq : q ≠ 0)
    (hs : n * q ≤ 2 ^ 40) {e : ℝ} (he : e ≤ 1 / 128) (hN : ‖N - pN ℝ q A‖ ≤ e) (hD : ‖D - pD ℝ q A‖ ≤ e) :
    ‖1 - D‖ ≤ 3 / 4 ∧ ‖N‖ ≤ 16 ∧ ∀ ρ, ‖D * X - N‖ ≤ ρ → ‖X - NormedSpace.exp A‖ ≤ 4 * (4 * e + ρ + 15 * padeDelta q) := by
  obtain ⟨s1, -, s2, -⟩ := sizes hn hq hs
  have s2 : beta n ≤ 101 / 100 := s2.trans (by norm_num)
  have hA1 := hA.trans s2
  have h2 := norm_one_sub hn q hA1
  have h3 : ‖NormedSpace.exp A‖ ≤ 3 := (norm_exp_real hn hA1).trans exp_three
  have hδ := padeDelta_nonneg q
  have h1 : ‖pD ℝ q A * NormedSpace.exp A - pN ℝ q A‖ ≤ 15 * padeDelta q := by
    refine (residual hn q (Nat.pos_of_ne_zero hq)).trans ?_
    have b1 := one_le_beta n
    have bq : beta n ^ q ≤ 2 := by
      refine le_trans (pow_le_pow_left₀ (by linarith) ?_ q) s1
      exact le_mul_of_one_le_right (by linarith) (one_le_grow n).2.2
    have p : ‖A‖ ^ (2 * q + 1) ≤ 5 := by
      refine (pow_le_pow_left₀ (norm_nonneg _) hA _).trans ?_
      rw [pow_succ, two_mul, pow_add]
      calc _ ≤ 2 * 2 * (101 / 100 : ℝ) := mul_le_mul (mul_le_mul bq bq (by positivity) (by norm_num)) s2 (by linarith) (by norm_num)
        _ ≤ 5 := by norm_num
    calc _ ≤ padeDelta q * 5 * 3 := mul_le_mul (mul_le_mul_of_nonneg_left p hδ)
          ((Real.exp_le_exp.2 hA1).trans exp_three) (Real.exp_pos _).le (by linarith)
      _ = _ := by ring
  have e0 := (norm_nonneg _).trans hN
  refine ⟨?_, ?_, fun ρ hX => ?_⟩
  · have e : 1 - D = (1 - pD ℝ q A) - (D - pD ℝ q A) := by noncomm_ring
    rw [e]
    exact (norm_sub_le _ _).trans ((add_le_add h2 (hD.trans he)).trans (by norm_num))
  · have d1 : padeDelta q ≤ 1 / 2 := by
      refine (padeDelta_le q).trans ?_
      rw [inv_le_comm₀ (by positivity) (by norm_num)]
      have : (1 : ℝ) ≤ q := by exact_mod_cast Nat.pos_of_ne_zero hq
      linarith
    have m1 := (norm_mul_le (1 - pD ℝ q A) (NormedSpace.exp A)).trans (mul_le_mul h2 h3 (norm_nonneg _) (by norm_num))
    have e : N = (N - pN ℝ q A) - (pD ℝ q A * NormedSpace.exp A - pN ℝ q A) - (1 - pD ℝ q A) * NormedSpace.exp A
      + NormedSpace.exp A := by noncomm_ring
    have : ‖N‖ ≤ 1 / 128 + 15 * padeDelta q + 7 / 10 * 3 + 3 := by
      conv_lhs => rw [e]
      exact (norm_add_le _ _).trans (add_le_add ((norm_sub_le _ _).trans (add_le_add ((norm_sub_le _ _).trans
        (add_le_add (hN.trans he) h1)) m1)) h3)
    linarith
  · set E := X - NormedSpace.exp A with hE
    have eq : E = (1 - pD ℝ q A) * E - (D - pD ℝ q A) * E - (D - pD ℝ q A) * NormedSpace.exp A + (D * X - N) + (N - pN ℝ q A)
        - (pD ℝ q A * NormedSpace.exp A - pN ℝ q A) := by
      rw [hE]; noncomm_ring
    have n1 := (norm_mul_le (1 - pD ℝ q A) E).trans (mul_le_mul_of_nonneg_right h2 (norm_nonneg _))
    have n2 := (norm_mul_le (D - pD ℝ q A) E).trans (mul_le_mul_of_nonneg_right (hD.trans he) (norm_nonneg _))
    have n3 := (norm_mul_le (D - pD ℝ q A) (NormedSpace.exp A)).trans (mul_le_mul hD h3 (norm_nonneg _) e0)
    have : ‖E‖ ≤ 7 / 10 * ‖E‖ + 1 / 128 * ‖E‖ + e * 3 + ρ + e + 15 * padeDelta q := by
      conv_lhs => rw [eq]
      refine (norm_sub_le _ _).trans (add_le_add ((norm_add_le _ _).trans (add_le_add ((norm_add_le _ _).trans (add_le_add
        ((norm_sub_le _ _).trans (add_le_add ((norm_sub_le _ _).trans (add_le_add n1 n2)) n3)) hX)) hN)) h1)
    have r0 := (norm_nonneg _).trans hX
    linarith

/-- C137: for a matrix of numbers whose norm `x` is not zero and at most 693, if solve leaves a residual of at most `ρ` for
matrices close to the unit matrix, then the result is the exponential, but for the rounding errors, the residual and the error
of the approximation, which are multiplied by 12 K exp(1.01 x), where K is 4 x or one. -/
theorem c137_squares_partial (lg : Fl → Fl) (hl : IsLog2 lg) (mm : Nat → Tensor Fl → Tensor Fl → Res (Tensor Fl))
    (hm : ∀ k a b, a.WF → b.WF → Mmult a b (mm k a b)) (sol : Tensor Fl → Tensor Fl → Res (Tensor Fl)) (n : Nat) (hn : n ≠ 0)
    (ρ : ℝ) (hsol : ∀ (D N : Tensor Fl) (Dm Nm : Matrix (Fin n) (Fin n) ℝ), IsReal D Dm → IsReal N Nm →
      (∀ i, ∑ j, |(1 : Matrix (Fin n) (Fin n) ℝ) i j - Dm i j| ≤ 3 / 4) → (∀ i, ∑ j, |Nm i j| ≤ 16) →
      ∃ X, ∃ Xm : Matrix (Fin n) (Fin n) ℝ, sol D N = .ok X ∧ IsReal X Xm ∧ ∀ i, ∑ j, |(Dm * Xm) i j - Nm i j| ≤ ρ)
    (m : Tensor Fl) (f : Nat → Nat → Fl) (h : IsMat m.dims m.data n n f) (hf : ∀ i j, i < n → j < n → (f i j).Finite)
    (x : ℝ) (hd : IsDouble x) (hx : matrixNormInf Fl.abs m = .ok (fin x)) (h0 : 0 < x) (h1 : x ≤ 693) (q : Nat)
    (hq0 : q ≠ 0) (hq : q ≤ 2 ^ 26) (hs : n * q ≤ 2 ^ 40) (η : ℝ) (hη : η = 4 * (n * q * 2 ^ (-47 : ℤ)) + ρ +
      15 * (((q.factorial * q.factorial : Nat) : ℝ) / ((2 * q).factorial * (2 * q + 1).factorial : Nat))) (hsmall : η ≤ 1 / 16384) :
    ∃ X, ∃ Xm : Matrix (Fin n) (Fin n) ℝ, expm lg mm sol m q = .ok X ∧ IsReal X Xm ∧
      ∀ i, ∑ j, |Xm i j - NormedSpace.exp (Matrix.of fun i j : Fin n => (f i j).val) i j| ≤
        12 * max 1 (4 * x) * Real.exp (101 / 100 * x) * η := by
  have x2 : x ≤ 2 ^ (1022 : ℤ) := by
    have : (2 : ℝ) ^ (10 : ℤ) ≤ 2 ^ (1022 : ℤ) := zpow_le_zpow_right₀ (by norm_num) (by norm_num)
    exact (h1.trans (by norm_num)).trans this
  obtain ⟨s, N, D, g, A, Nm, Dm, ex, s2, s3, hg, hN, hD, cN, cD, bA, bA'⟩ :=
    pade_expm lg hl mm hm sol m n hn f h hf x hd hx h0 x2 q hq0 hq hs
  clear x2
  obtain ⟨-, -, bs, ds⟩ := sizes hn hq0 hs
  have he : (n : ℝ) * q * 2 ^ (-47 : ℤ) ≤ 1 / 128 := by
    have : (n : ℝ) * q ≤ 2 ^ 40 := by exact_mod_cast hs
    calc _ ≤ (2 : ℝ) ^ 40 * 2 ^ (-47 : ℤ) := mul_le_mul_of_nonneg_right this (by positivity)
      _ = 1 / 128 := by norm_num
  obtain ⟨n1, n2, -⟩ := error_exp' (X := 0) hn bA hq0 hs he cN cD
  obtain ⟨X, Xm, e1, e2, e3⟩ := hsol D N Dm Nm hD hN (fun i => (row_le (1 - Dm) i).trans n1) fun i => (row_le Nm i).trans n2
  have ρ0 : 0 ≤ ρ := (Finset.sum_nonneg fun j _ => abs_nonneg _).trans (e3 ⟨0, Nat.pos_of_ne_zero hn⟩)
  obtain ⟨-, -, err⟩ := error_exp' (X := Xm) hn bA hq0 hs he cN cD
  have err := err ρ ((norm_le_rows ρ0).2 e3)
  have eη : 4 * (n * q * 2 ^ (-47 : ℤ)) + ρ + 15 * padeDelta q = η := hη.symm
  rw [eη] at err
  have q1 : (1 : ℝ) ≤ q := by exact_mod_cast Nat.pos_of_ne_zero hq0
  have nn : (0 : ℝ) ≤ n := Nat.cast_nonneg n
  -- the other errors are smaller
  have n51 : (n : ℝ) * 2 ^ (-51 : ℤ) ≤ η / 64 := by
    have t : (2 : ℝ) ^ (-47 : ℤ) = 16 * 2 ^ (-51 : ℤ) := by norm_num
    have p := two_zpow_pos (-51)
    have := padeDelta_nonneg q
    rw [t] at eη
    generalize (2 : ℝ) ^ (-51 : ℤ) = v at *
    have : n * v ≤ n * q * v := by
      have := mul_le_mul_of_nonneg_right (le_mul_of_one_le_right nn q1) p.le
      exact this
    linarith only [this, eη, ρ0, padeDelta_nonneg q]
  have n75 : (n : ℝ) * 2 ^ (-1075 : ℤ) ≤ η / 64 := by
    refine le_trans (mul_le_mul_of_nonneg_left ?_ nn) n51
    exact zpow_le_zpow_right₀ (by norm_num) (by norm_num)
  have η0 : 0 ≤ η := by
    have := (norm_nonneg _).trans err
    linarith only [this]
  have r0 := mulRel_nonneg n
  have a0 := mulAbs_nonneg n
  have δs := ds.trans n51
  generalize hδ : mulRel n + mulAbs n = δ at *
  have δ0 : 0 ≤ δ := by rw [← hδ]; exact add_nonneg r0 a0
  -- the number of squares
  have sK : (2 : ℝ) ^ s ≤ max 1 (4 * x) := by
    rcases Nat.eq_zero_or_pos s with rfl | hp
    · rw [pow_zero]
      exact le_max_left _ _
    · exact (s3 hp).trans (le_max_right _ _)
  generalize hK : max 1 (4 * x) = K at *
  have K1 : 1 ≤ K := by rw [← hK]; exact le_max_left _ _
  have K3 : K ≤ 2772 := by rw [← hK]; exact max_le (by norm_num) (by linarith only [h1])
  have s0 : (0 : ℝ) < 2 ^ s := by positivity
  have pw : ((1 + δ) * (1 + 4 * η)) ^ 2 ^ s ≤ Real.exp (K * (5 * η)) := by
    have e1 : (1 + δ) * (1 + 4 * η) ≤ Real.exp (5 * η) := by
      have a := Real.add_one_le_exp δ
      have b := Real.add_one_le_exp (4 * η)
      calc _ ≤ Real.exp δ * Real.exp (4 * η) := mul_le_mul (by linarith only [a]) (by linarith only [b]) (by linarith only [η0])
            (Real.exp_pos _).le
        _ = Real.exp (δ + 4 * η) := (Real.exp_add _ _).symm
        _ ≤ _ := Real.exp_le_exp.2 (by linarith only [δs, η0])
    refine (pow_le_pow_left₀ (mul_nonneg (by linarith only [δ0]) (by linarith only [η0])) e1 _).trans ?_
    rw [← Real.exp_nat_mul]
    refine Real.exp_le_exp.2 ?_
    push_cast
    exact mul_le_mul_of_nonneg_right sK (by linarith only [η0])
  have Kη : K * (5 * η) ≤ 1 := by
    calc _ ≤ 2772 * (5 * (1 / 16384 : ℝ)) := mul_le_mul K3 (by linarith only [hsmall]) (by linarith only [η0]) (by norm_num)
      _ ≤ 1 := by norm_num
  have Kη0 : 0 ≤ K * (5 * η) := mul_nonneg (by linarith only [K1]) (by linarith only [η0])
  have pw2 := pw.trans (exp_small Kη0 Kη)
  -- the norm of the scaled matrix
  have u0 := two_zpow_pos (-53)
  have pn : (1 + 2 * (2 : ℝ) ^ (-53 : ℤ)) ^ (n - 1) ≤ 1001 / 1000 := by
    refine le_trans (pow_le_pow_right₀ (by linarith only [u0]) (Nat.sub_le n 1)) (le_trans ?_ bs)
    rw [beta]
    exact le_add_of_nonneg_right (by positivity)
  have nF : ‖(Matrix.of fun i j : Fin n => (f i j).val)‖ ≤ 101 / 100 * x := by
    refine norm_le_of (by linarith only [h0]) (fun i j => le_rfl) fun i => ?_
    change ∑ j : Fin n, |(f i j).val| ≤ _
    rw [← Finset.sum_range (fun j => |(f i j).val|)]
    refine (norm_rows h hf hx hd hn i i.2).trans ?_
    exact mul_le_mul_of_nonneg_right (pn.trans (by norm_num)) h0.le
  set b := 101 / 100 * x / 2 ^ s with hb
  have sb : 2 ^ s * b = 101 / 100 * x := by rw [hb]; field_simp
  have b0 : 0 ≤ b := by positivity
  have nA : ‖A‖ ≤ b := by
    rcases Nat.eq_zero_or_pos s with rfl | hp
    · have eA : A = Matrix.of fun i j : Fin n => (f i j).val := by
        ext i j
        obtain ⟨g1, g2, g3⟩ := hg i j
        rw [pow_zero, div_one] at g3
        exact double_eq (g2 ▸ Fl.Finite.val_double g1) (Fl.Finite.val_double (hf i j i.2 j.2)) g3
      rw [hb, pow_zero, div_one, eA]
      exact nF
    · have t : (n : ℝ) * 2 ^ (-1075 : ℤ) ≤ 1 / 1000 := n75.trans (by linarith only [hsmall])
      refine bA'.trans ?_
      rw [hb, le_div_iff₀ s0, add_mul, div_mul_cancel₀ _ s0.ne']
      have a1 := mul_le_mul_of_nonneg_right pn h0.le
      have a2 : (n : ℝ) * 2 ^ (-1075 : ℤ) * 2 ^ s ≤ 1 / 1000 * (4 * x) := mul_le_mul t (s3 hp) s0.le (by norm_num)
      exact (add_le_add a1 a2).trans (by linarith only [h0])
  have big : Real.exp (2 ^ s * b) * ((1 + (mulRel n + mulAbs n)) * (1 + 4 * η)) ^ 2 ^ s < 2 ^ 1024 := by
    rw [hδ, sb]
    have e1 : Real.exp (101 / 100 * x) ≤ 2 ^ 1015 := by
      have : Real.exp (101 / 100 * x) ≤ Real.exp ((700 : ℕ) * 1) :=
        Real.exp_le_exp.2 (by push_cast; linarith only [h1])
      rw [Real.exp_nat_mul] at this
      refine this.trans ((pow_le_pow_left₀ (Real.exp_pos _).le Real.exp_one_lt_d9.le 700).trans ?_)
      rw [show 700 = 20 * 35 by norm_num, show 1015 = 29 * 35 by norm_num, pow_mul, pow_mul]
      exact pow_le_pow_left₀ (by norm_num) (by norm_num) _
    have e2 : ((1 + δ) * (1 + 4 * η)) ^ 2 ^ s ≤ 8 := by linarith only [pw2, Kη]
    have e3 : (2 : ℝ) ^ 1018 < 2 ^ 1024 := pow_lt_pow_right₀ (by norm_num) (by norm_num)
    refine lt_of_le_of_lt ?_ e3
    rw [show 1018 = 1015 + 3 by norm_num, pow_add]
    exact mul_le_mul e1 (e2.trans (by norm_num)) (pow_nonneg (mul_nonneg (by linarith only [δ0]) (by linarith only [η0])) _) (by positivity)
  obtain ⟨r, Y, er, hr, hY⟩ := square_close hm hn s (q + 1) X Xm A b (1 + 4 * η) e2 b0 (by linarith only [η0]) nA (by
    rw [add_sub_cancel_left]
    refine err.trans ?_
    exact le_mul_of_one_le_left (by linarith only [η0]) (Real.one_le_exp b0)) big
  rw [hδ, sb] at hY
  -- the matrix which was scaled
  have nM : ‖(2 : ℝ) ^ s • A‖ ≤ 101 / 100 * x := by
    refine (norm_smul_le _ _).trans ?_
    rw [Real.norm_of_nonneg s0.le, ← sb]
    exact mul_le_mul_of_nonneg_left nA s0.le
  have dF : ‖(2 : ℝ) ^ s • A - Matrix.of fun i j : Fin n => (f i j).val‖ ≤ K * (η / 64) := by
    refine norm_le_of (F := fun _ _ => 2 ^ s * 2 ^ (-1075 : ℤ)) (mul_nonneg (by linarith only [K1]) (by linarith only [η0])) (fun i j => ?_)
      fun i => ?_
    · change |2 ^ s * A i j - (f i j).val| ≤ _
      have : 2 ^ s * A i j - (f i j).val = 2 ^ s * (A i j - (f i j).val / 2 ^ s) := by field_simp
      rw [this, abs_mul, abs_of_pos s0]
      exact mul_le_mul_of_nonneg_left (hg i j).2.2 s0.le
    · rw [Finset.sum_const, Finset.card_univ, Fintype.card_fin, nsmul_eq_mul]
      calc (n : ℝ) * (2 ^ s * 2 ^ (-1075 : ℤ)) = 2 ^ s * (n * 2 ^ (-1075 : ℤ)) := by ring
        _ ≤ K * (η / 64) := mul_le_mul sK n75 (by positivity) (by linarith only [K1])
  have hF := exp_sub hn nM nF
  refine ⟨r, Y, by rw [ex, e1, Res.ok_bind, er], hr, fun i => ?_⟩
  refine (row_le (Y - NormedSpace.exp (Matrix.of fun i j : Fin n => (f i j).val)) i).trans ?_
  have tri := norm_add_le (Y - NormedSpace.exp ((2 : ℝ) ^ s • A))
    (NormedSpace.exp ((2 : ℝ) ^ s • A) - NormedSpace.exp (Matrix.of fun i j : Fin n => (f i j).val))
  rw [sub_add_sub_cancel] at tri
  refine tri.trans ((add_le_add hY hF).trans ?_)
  have w0 := (Real.exp_pos (101 / 100 * x)).le
  have w1 : Real.exp (101 / 100 * x) * (((1 + δ) * (1 + 4 * η)) ^ 2 ^ s - 1) ≤ Real.exp (101 / 100 * x) * (2 * (K * (5 * η))) :=
    mul_le_mul_of_nonneg_left (by linarith only [pw2]) w0
  have w2 := mul_le_mul_of_nonneg_right dF w0
  refine (add_le_add w1 w2).trans ?_
  have := mul_nonneg (mul_nonneg (by linarith only [K1] : 0 ≤ K) η0) w0
  linarith only [this]

/-- Matrices of one element may be solved by a division. -/
theorem division (D N : Tensor Fl) (Dm Nm : Matrix (Fin 1) (Fin 1) ℝ) (hD : IsReal D Dm) (hN : IsReal N Nm)
    (h1 : ∀ i, ∑ j, |(1 : Matrix (Fin 1) (Fin 1) ℝ) i j - Dm i j| ≤ 3 / 4) (h2 : ∀ i, ∑ j, |Nm i j| ≤ 16) :
    ∃ X, ∃ Xm : Matrix (Fin 1) (Fin 1) ℝ, binopTT (· / ·) N D = .ok X ∧ IsReal X Xm ∧
      ∀ i, ∑ j, |(Dm * Xm) i j - Nm i j| ≤ 2 ^ (-46 : ℤ) := by
  have h1 := h1 0
  have h2 := h2 0
  rw [Fin.sum_univ_one, Matrix.one_apply_eq] at h1
  rw [Fin.sum_univ_one] at h2
  have d := abs_le.1 h1
  have d0 : 1 / 4 ≤ Dm 0 0 := by linarith
  have d1 : Dm 0 0 ≤ 7 / 4 := by linarith
  have dp : 0 < Dm 0 0 := by linarith
  have qb : |Nm 0 0 / Dm 0 0| ≤ 64 := by
    rw [abs_div, abs_of_pos dp, div_le_iff₀ dp]
    linarith
  have big : |Nm 0 0 / Dm 0 0| < 2 ^ 1024 := lt_of_le_of_lt (qb.trans (by norm_num)) (pow_lt_pow_right₀ (by norm_num) (by norm_num : 7 < 1024))
  have er := rnd_err big
  have u : (2 : ℝ) ^ (-53 : ℤ) * |Nm 0 0 / Dm 0 0| + 2 ^ (-1075 : ℤ) ≤ 65 * 2 ^ (-53 : ℤ) := by
    have := mul_le_mul_of_nonneg_left qb (two_zpow_pos (-53)).le
    have t : (2 : ℝ) ^ (-1075 : ℤ) ≤ 2 ^ (-53 : ℤ) := zpow_le_zpow_right₀ (by norm_num) (by norm_num)
    generalize (2 : ℝ) ^ (-53 : ℤ) = u at *
    generalize (2 : ℝ) ^ (-1075 : ℤ) = v at *
    linarith only [this, t]
  have er := er.trans u
  obtain ⟨X, e1, e2⟩ := real_zip hN hD (C := Matrix.of fun _ _ => rnd (Nm 0 0 / Dm 0 0)) (· / ·) (fun i j z w hz vz hw vw => by
    obtain rfl := Subsingleton.elim i 0
    obtain rfl := Subsingleton.elim j 0
    have := div_finite hz hw (by rw [vw]; exact dp.ne') (by
      rw [vz, vw]
      have := abs_sub_abs_le_abs_sub (rnd (Nm 0 0 / Dm 0 0)) (Nm 0 0 / Dm 0 0)
      have : |rnd (Nm 0 0 / Dm 0 0)| ≤ 65 := by
        have : (65 : ℝ) * 2 ^ (-53 : ℤ) ≤ 1 := by norm_num
        linarith
      exact lt_of_le_of_lt (this.trans (by norm_num)) (pow_lt_pow_right₀ (by norm_num) (by norm_num : 7 < 1024)))
    rw [vz, vw] at this
    exact this)
  refine ⟨X, _, e1, e2, fun i => ?_⟩
  obtain rfl := Subsingleton.elim i 0
  rw [Fin.sum_univ_one, Matrix.mul_apply, Fin.sum_univ_one]
  change |Dm 0 0 * rnd (Nm 0 0 / Dm 0 0) - Nm 0 0| ≤ _
  have e : Dm 0 0 * rnd (Nm 0 0 / Dm 0 0) - Nm 0 0 = Dm 0 0 * (rnd (Nm 0 0 / Dm 0 0) - Nm 0 0 / Dm 0 0) := by
    field_simp
  rw [e, abs_mul, abs_of_pos dp]
  calc _ ≤ 7 / 4 * (65 * (2 : ℝ) ^ (-53 : ℤ)) := mul_le_mul d1 er (abs_nonneg _) (by norm_num)
    _ ≤ 2 ^ (-46 : ℤ) := by norm_num

-- The exponential of 1/4 with the order of the library: less than 2^-39 from the true one.
example : ∃ (mm : Nat → Tensor Fl → Tensor Fl → Res (Tensor Fl)) (X : Tensor Fl) (z : Fl),
    expm logRound mm (fun D N => binopTT (· / ·) N D) ⟨[1, 1], [fin (1 / 4)]⟩ 7 = .ok X ∧
      elem X.dims X.data [0, 0] = some z ∧ |z.val - Real.exp (1 / 4)| ≤ 2 ^ (-39 : ℤ) := by
  have : ∀ a b : Tensor Fl, ∃ r, a.WF → b.WF → Mmult a b r := by
    intro a b
    by_cases h : a.WF ∧ b.WF
    · obtain ⟨r, hr⟩ := c95_exists a b h.1 h.2 (-1) 0
      exact ⟨r, fun _ _ => hr⟩
    · exact ⟨.ub, fun h1 h2 => absurd ⟨h1, h2⟩ h⟩
  choose mm hm using this
  have dq : IsDouble (1 / 4 : ℝ) := ⟨1, -2, by norm_num, by norm_num, by norm_num, by norm_num⟩
  obtain ⟨hM, hx⟩ := norm_one (z := fin (1 / 4)) dq (by show (1 / 4 : ℝ) ≠ 0; norm_num)
  have hx : matrixNormInf Fl.abs ⟨[1, 1], [fin (1 / 4)]⟩ = .ok (fin (1 / 4)) := by
    rw [hx]
    show Res.ok (fin |(1 / 4 : ℝ)|) = _
    rw [abs_of_pos (by norm_num)]
  obtain ⟨X, Xm, e1, e2, e3⟩ := c137_error_partial logRound isLog2_round (fun _ => mm) (fun _ a b => hm a b)
    (fun D N => binopTT (· / ·) N D) 1 one_ne_zero (2 ^ (-46 : ℤ)) division ⟨[1, 1], [fin (1 / 4)]⟩ (fun _ _ => fin (1 / 4)) hM
    (fun _ _ _ _ => dq) (1 / 4) dq hx (by norm_num) (by norm_num) 7 (by norm_num) (by norm_num) (by norm_num)
  obtain ⟨z, z1, -, z2⟩ := e2.2.2 0 0
  refine ⟨_, X, z, e1, z1, ?_⟩
  have e3 := e3 0
  have ex : NormedSpace.exp (Matrix.of fun _ _ : Fin 1 => (1 / 4 : ℝ)) 0 0 = Real.exp (1 / 4) := by
    have : (Matrix.of fun _ _ : Fin 1 => (1 / 4 : ℝ)) = Matrix.diagonal fun _ => 1 / 4 := by
      ext i j
      obtain rfl := Subsingleton.elim i j
      simp
    rw [this, Matrix.exp_diagonal, Matrix.diagonal_apply_eq, Pi.coe_exp, Real.exp_eq_exp_ℝ]
  rw [Fin.sum_univ_one, ← z2] at e3
  rw [← ex]
  refine e3.trans ?_
  norm_num [Nat.factorial]

-- The exponential of 3, after two squares.
example : ∃ (mm : Nat → Tensor Fl → Tensor Fl → Res (Tensor Fl)) (X : Tensor Fl) (z : Fl),
    expm logRound mm (fun D N => binopTT (· / ·) N D) ⟨[1, 1], [fin 3]⟩ 7 = .ok X ∧
      elem X.dims X.data [0, 0] = some z ∧ |z.val - Real.exp 3| ≤ 2 ^ (-29 : ℤ) := by
  have : ∀ a b : Tensor Fl, ∃ r, a.WF → b.WF → Mmult a b r := by
    intro a b
    by_cases h : a.WF ∧ b.WF
    · obtain ⟨r, hr⟩ := c95_exists a b h.1 h.2 (-1) 0
      exact ⟨r, fun _ _ => hr⟩
    · exact ⟨.ub, fun h1 h2 => absurd ⟨h1, h2⟩ h⟩
  choose mm hm using this
  have dq : IsDouble (3 : ℝ) := ⟨3, 0, by norm_num, by norm_num, by norm_num, by norm_num⟩
  obtain ⟨hM, hx⟩ := norm_one (z := fin 3) dq (by show (3 : ℝ) ≠ 0; norm_num)
  have hx : matrixNormInf Fl.abs ⟨[1, 1], [fin 3]⟩ = .ok (fin 3) := by
    rw [hx]
    show Res.ok (fin |(3 : ℝ)|) = _
    rw [abs_of_pos (by norm_num)]
  obtain ⟨X, Xm, e1, e2, e3⟩ := c137_squares_partial logRound isLog2_round (fun _ => mm) (fun _ a b => hm a b)
    (fun D N => binopTT (· / ·) N D) 1 one_ne_zero (2 ^ (-46 : ℤ)) division ⟨[1, 1], [fin 3]⟩ (fun _ _ => fin 3) hM
    (fun _ _ _ _ => dq) 3 dq hx (by norm_num) (by norm_num) 7 (by norm_num) (by norm_num) (by norm_num) _ rfl
    (by norm_num [Nat.factorial])
  obtain ⟨z, z1, -, z2⟩ := e2.2.2 0 0
  refine ⟨_, X, z, e1, z1, ?_⟩
  have e3 := e3 0
  have ex : NormedSpace.exp (Matrix.of fun _ _ : Fin 1 => (3 : ℝ)) 0 0 = Real.exp 3 := by
    have : (Matrix.of fun _ _ : Fin 1 => (3 : ℝ)) = Matrix.diagonal fun _ => 3 := by
      ext i j
      obtain rfl := Subsingleton.elim i j
      simp
    rw [this, Matrix.exp_diagonal, Matrix.diagonal_apply_eq, Pi.coe_exp, Real.exp_eq_exp_ℝ]
  rw [Fin.sum_univ_one, ← z2] at e3
  rw [← ex]
  refine e3.trans ?_
  rw [max_eq_right (by norm_num)]
  have h3 : Real.exp (101 / 100 * 3) ≤ 3 ^ 3 := by
    rw [show (101 / 100 * 3 : ℝ) = (3 : ℕ) * (101 / 100) by norm_num, Real.exp_nat_mul]
    exact pow_le_pow_left₀ (Real.exp_pos _).le exp_three _
  refine (mul_le_mul_of_nonneg_right (mul_le_mul_of_nonneg_left h3 (by norm_num)) (by positivity)).trans ?_
  norm_num [Nat.factorial]

end

end Verif.ExpmFl
