import Verif.Model.IndexTensor
import Verif.Lemmas.Float
import Verif.Lemmas.Arith
/-
C130: lists of indices as tensors.
-/
namespace Verif.IndexTensor

open Verif Fl Rounding

section
variable [Rounding]

theorem indexToTensor_eq (l : List Int) : indexToTensor l = .ok ⟨[l.length], l.map ofInt⟩ := by
  have := Tensor.runWrites_range (l.map ofInt) (fun i => l[i]?.map ofInt) (by simp)
  rw [List.length_map] at this
  rw [indexToTensor, this]
  rfl

omit [Rounding] in
theorem isTarget_int {n : ℤ} (h : |n| ≤ 2 ^ 53) : IsTarget (n : ℝ) := by
  have := isTarget_of (m := n) (e := 0) h (by norm_num) (by norm_num)
  simpa using this

theorem big_lt {n : ℤ} (h : |n| ≤ 2 ^ 63) : |rnd (n : ℝ)| ≤ 2 ^ 63 := by
  have ht : IsTarget ((2 : ℝ) ^ 63) := by
    have := isTarget_of (m := 1) (e := 63) (by norm_num) (by norm_num) (by norm_num)
    rw [Int.cast_one, one_mul] at this
    exact_mod_cast this
  have ht' : IsTarget (-(2 : ℝ) ^ 63) := by
    have := isTarget_of (m := -1) (e := 63) (by norm_num) (by norm_num) (by norm_num)
    rw [Int.cast_neg, Int.cast_one, neg_one_mul] at this
    exact_mod_cast this
  have h' := abs_le.1 h
  have h1 : (n : ℝ) ≤ 2 ^ 63 := by exact_mod_cast h'.2
  have h2 : -(2 : ℝ) ^ 63 ≤ n := by exact_mod_cast h'.1
  exact abs_le.2 ⟨le_rnd ht' h2, rnd_le ht h1⟩

omit [Rounding] in
theorem pow63_lt : (2 : ℝ) ^ 63 < 2 ^ 1024 := pow_lt_pow_right₀ (by norm_num) (by norm_num)

theorem ofInt_val {n : ℤ} (h : |n| ≤ 2 ^ 63) : (ofInt n).Finite ∧ (ofInt n).val = rnd n := by
  rw [ofInt]
  split
  · rename_i h0
    subst h0
    rw [Int.cast_zero, rnd_exact (Or.inl isDouble_zero)]
    exact ⟨isDouble_zero, rfl⟩
  · exact round_finite (lt_of_le_of_lt (big_lt h) pow63_lt)

/-- C130: each index is converted to a number which differs from it by at most 2^-53 of its size; indices up to 2^53 are exact. -/
theorem c130_values (l : List Int) (h : ∀ n ∈ l, |n| ≤ 2 ^ 63) :
    ∃ t, indexToTensor l = .ok t ∧ t.dims = [l.length] ∧ t.data.length = l.length ∧
      ∀ (i : Nat) n, l[i]? = some n → ∃ x, t.data[i]? = some x ∧ x.Finite ∧ |x.val - n| ≤ 2 ^ (-53 : ℤ) * |(n : ℝ)| ∧
        (|n| ≤ 2 ^ 53 → x.val = n) := by
  refine ⟨_, indexToTensor_eq l, rfl, by simp, fun i n hn => ⟨ofInt n, by simp [hn], ?_⟩⟩
  have hb := h n (List.mem_of_getElem? hn)
  obtain ⟨h1, h2⟩ := ofInt_val hb
  refine ⟨h1, ?_, fun h53 => by rw [h2, rnd_exact (isTarget_int h53)]⟩
  rw [h2]
  by_cases h0 : n = 0
  · subst h0
    rw [Int.cast_zero, rnd_exact (Or.inl isDouble_zero)]
    simp
  · have hone : (1 : ℝ) ≤ |(n : ℝ)| := by
      have := Int.one_le_abs h0
      exact_mod_cast this
    have hlt : |(n : ℝ)| < 2 ^ 1024 := by
      refine lt_of_le_of_lt ?_ pow63_lt
      exact_mod_cast hb
    refine rnd_rel (le_trans ?_ hone) hlt
    exact zpow_le_one_of_nonpos₀ (by norm_num) (by norm_num)

/-- C130: the order of indices is kept. -/
theorem c130_order (n m : Int) (hn : |n| ≤ 2 ^ 63) (hm : |m| ≤ 2 ^ 63) (h : n ≤ m) :
    ∃ x y : Fl, indexToTensor [n, m] = .ok ⟨[2], [x, y]⟩ ∧ x ≤ y := by
  refine ⟨ofInt n, ofInt m, indexToTensor_eq _, ?_⟩
  obtain ⟨h1, h2⟩ := ofInt_val hn
  obtain ⟨h3, h4⟩ := ofInt_val hm
  rw [le_finite h1 h3, h2, h4]
  exact rnd_mono (by exact_mod_cast h)

/-- C130: different lists of indices up to 2^53 are different tensors. -/
theorem c130_injective_partial (l l' : List Int) (h : ∀ n ∈ l, |n| ≤ 2 ^ 53) (h' : ∀ n ∈ l', |n| ≤ 2 ^ 53)
    (e : indexToTensor l = indexToTensor l') : l = l' := by
  rw [indexToTensor_eq, indexToTensor_eq] at e
  injection e with e
  injection e with e' e
  clear e'
  have key : ∀ n : Int, |n| ≤ 2 ^ 53 → (ofInt n).val = n := fun n hn => by
    rw [(ofInt_val (hn.trans (by norm_num))).2, rnd_exact (isTarget_int hn)]
  induction l generalizing l' with
  | nil => cases l' with
    | nil => rfl
    | cons => cases e
  | cons x xs ih => cases l' with
    | nil => cases e
    | cons y ys =>
      simp only [List.map_cons, List.cons.injEq] at e
      have hxy : (x : ℝ) = y := by
        rw [← key x (h x (by simp)), ← key y (h' y (by simp)), e.1]
      have : x = y := by exact_mod_cast hxy
      rw [this, ih ys (fun n hn => h n (by simp [hn])) (fun n hn => h' n (by simp [hn])) e.2]

/-- C130, **negation** (different lists are different tensors): 2^53 + 1 becomes the same number as one of its neighbours. -/
theorem c130_negation_injective :
    indexToTensor [2 ^ 53 + 1] = indexToTensor [2 ^ 53] ∨ indexToTensor [2 ^ 53 + 1] = indexToTensor [2 ^ 53 + 2] := by
  have t0 : IsTarget ((2 : ℝ) ^ 53) := by
    have := isTarget_int (n := 2 ^ 53) (by norm_num)
    exact_mod_cast this
  have t2 : IsTarget ((2 : ℝ) ^ 53 + 2) := by
    have := isTarget_of (m := 2 ^ 52 + 1) (e := 1) (by norm_num) (by norm_num) (by norm_num)
    convert this using 1
    push_cast
    norm_num
  have a := nearest ((2 : ℝ) ^ 53 + 1) _ t0
  have lo := le_rnd t0 (show (2 : ℝ) ^ 53 ≤ 2 ^ 53 + 1 by linarith)
  have hi := rnd_le t2 (show (2 : ℝ) ^ 53 + 1 ≤ 2 ^ 53 + 2 by linarith)
  rw [abs_le] at a
  have hv : ∀ n : Int, n ≠ 0 → |rnd (n : ℝ)| < 2 ^ 1024 → rnd (n : ℝ) ≠ 0 → ofInt n = fin (rnd n) := by
    intro n h0 h1 h2
    rw [abs_lt] at h1
    rw [ofInt, if_neg h0, Fl.round, if_neg (by linarith [h1.2]), if_neg (by linarith [h1.1]), if_neg h2]
  have hr : rnd ((2 : ℝ) ^ 53 + 1) = 2 ^ 53 ∨ rnd ((2 : ℝ) ^ 53 + 1) = 2 ^ 53 + 2 := by
    rcases Rounding.target ((2 : ℝ) ^ 53 + 1) with ht | ht
    · -- a number of the format between 2^53 and 2^53 + 2
      by_contra hc
      rw [not_or] at hc
      have hlt1 := lt_of_le_of_ne lo (Ne.symm hc.1)
      have hlt2 := lt_of_le_of_ne hi hc.2
      generalize rnd ((2 : ℝ) ^ 53 + 1) = z at *
      obtain ⟨m, e, h1, h2, h3, rfl⟩ := ht
      have hm : |(m : ℝ)| < 2 ^ 53 := by exact_mod_cast h1
      by_cases he : e ≤ 0
      · have : (m : ℝ) * 2 ^ e ≤ |(m : ℝ)| * 1 := by
          refine mul_le_mul (le_abs_self _) (zpow_le_one_of_nonpos₀ (by norm_num) he) (two_zpow_pos e).le (abs_nonneg _)
        linarith
      · obtain ⟨k, rfl⟩ : ∃ k : ℕ, e = (k : ℤ) + 1 := ⟨(e - 1).toNat, by omega⟩
        have hz : (m : ℝ) * 2 ^ ((k : ℤ) + 1) = ((m * 2 ^ k * 2 : ℤ) : ℝ) := by
          rw [zpow_add₀ (by norm_num), zpow_natCast, zpow_one]
          push_cast
          ring
        rw [hz] at hlt1 hlt2
        have g1 : (2 : ℤ) ^ 53 < m * 2 ^ k * 2 := by exact_mod_cast hlt1
        have g2 : m * 2 ^ k * 2 < (2 : ℤ) ^ 53 + 2 := by exact_mod_cast hlt2
        generalize m * 2 ^ k = q at g1 g2
        norm_num at g1 g2
        omega
    · exfalso
      have hb : |rnd ((2 : ℝ) ^ 53 + 1)| ≤ 2 ^ 53 + 2 := by
        rw [abs_of_nonneg (le_trans (by positivity) lo)]
        exact hi
      rw [ht] at hb
      have : (2 : ℝ) ^ 54 ≤ 2 ^ 1024 := pow_le_pow_right₀ (by norm_num) (by norm_num)
      have h54 : (2 : ℝ) ^ 53 + 2 < 2 ^ 54 := by norm_num
      exact absurd (this.trans hb) (not_le.2 h54)
  have hs : |rnd (((2 ^ 53 + 1 : ℤ) : ℝ))| < 2 ^ 1024 := lt_of_le_of_lt (big_lt (by norm_num)) pow63_lt
  have c1 : (((2 ^ 53 + 1 : ℤ) : ℝ)) = 2 ^ 53 + 1 := by norm_num
  have c0 : (((2 ^ 53 : ℤ) : ℝ)) = 2 ^ 53 := by norm_num
  have c2 : (((2 ^ 53 + 2 : ℤ) : ℝ)) = 2 ^ 53 + 2 := by norm_num
  have p53 : (0 : ℝ) < 2 ^ 53 := by positivity
  have v1 := hv (2 ^ 53 + 1) (by norm_num) hs (by rw [c1]; intro h; rw [h] at lo; linarith)
  rcases hr with hr | hr
  · left
    have v0 := hv (2 ^ 53) (by norm_num) (lt_of_le_of_lt (big_lt (by norm_num)) pow63_lt)
      (by rw [c0, rnd_exact t0]; exact p53.ne')
    rw [indexToTensor_eq, indexToTensor_eq, List.map_cons, List.map_cons, v0, v1, c0, c1, hr, rnd_exact t0]
    rfl
  · right
    have v2 := hv (2 ^ 53 + 2) (by norm_num) (lt_of_le_of_lt (big_lt (by norm_num)) pow63_lt)
      (by rw [c2, rnd_exact t2]; linarith)
    rw [indexToTensor_eq, indexToTensor_eq, List.map_cons, List.map_cons, v2, v1, c2, c1, hr, rnd_exact t2]
    rfl

/-- The hypotheses can be met. -/
example : ∀ n ∈ [3, -7, 2 ^ 53, 2 ^ 62], |(n : Int)| ≤ 2 ^ 63 := by decide

end

end Verif.IndexTensor
