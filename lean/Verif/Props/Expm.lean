import Verif.Model.Expm
import Verif.Lemmas.Square
import Verif.Props.Pade
import Verif.Props.Reduce
import Mathlib.Algebra.Polynomial.AlgebraMap
/-
C58: the function expm is a Pade approximant with scaling and squaring.
-/
namespace Verif.Expm

open Verif Spec Tensor Polynomial

variable {α : Type} [Field α] {m : Nat}

theorem aeval_padeN (B : Matrix (Fin m) (Fin m) α) (q : Nat) :
    aeval B (padeN α q) = ∑ k ∈ Finset.range (q + 1), padeC α q k • B ^ k := by
  rw [padeN, map_sum]
  refine Finset.sum_congr rfl fun k _ => ?_
  rw [map_mul, aeval_C, map_pow, aeval_X, Algebra.smul_def]

theorem aeval_padeD (B : Matrix (Fin m) (Fin m) α) (q : Nat) :
    aeval B (padeD α q) = ∑ k ∈ Finset.range (q + 1), ((-1) ^ k * padeC α q k) • B ^ k := by
  rw [padeD, map_sum]
  refine Finset.sum_congr rfl fun k _ => ?_
  rw [map_mul, aeval_C, map_pow, aeval_X, Algebra.smul_def]

/-- The loop adds the terms of the polynomials. -/
theorem padeLoop_spec (q : Nat) (A : Tensor α) (B : Matrix (Fin m) (Fin m) α) (hA : IsSq A B) (hm : m ≠ 0) :
    ∀ (n k : Nat) (X N D : Tensor α), k + 1 + n = q → IsSq X (B ^ (k + 1)) →
      IsSq N (∑ i ∈ Finset.range (k + 2), padeC α q i • B ^ i) →
      IsSq D (∑ i ∈ Finset.range (k + 2), ((-1) ^ i * padeC α q i) • B ^ i) →
      ∃ N' D', padeLoop q A n (k + 2) (padeC α q (k + 1)) X N D = .ok (N', D') ∧
        IsSq N' (aeval B (padeN α q)) ∧ IsSq D' (aeval B (padeD α q))
  | 0, k, X, N, D, hk, hX, hN, hD => by
    refine ⟨N, D, rfl, ?_, ?_⟩
    · rw [aeval_padeN, ← hk]; rw [← hk] at hN; exact hN
    · rw [aeval_padeD, ← hk]; rw [← hk] at hD; exact hD
  | n + 1, k, X, N, D, hk, hX, hN, hD => by
    obtain ⟨X', eX, hX'⟩ := mmult_isSq hA hX hm
    rw [← pow_succ'] at hX'
    obtain ⟨cX, ec, hc⟩ := smul_isSq (padeC α q (k + 2)) hX'
    obtain ⟨N', eN, hN'⟩ := add_isSq hN hc
    rw [← Finset.sum_range_succ] at hN'
    have hDD : ∃ D', altAdd (k + 2) D cX = .ok D' ∧
        IsSq D' (∑ i ∈ Finset.range (k + 3), ((-1) ^ i * padeC α q i) • B ^ i) := by
      rw [Finset.sum_range_succ, altAdd]
      by_cases hp : (k + 2) % 2 = 0
      · rw [if_pos hp, (Nat.even_iff.2 hp).neg_one_pow, one_mul]
        exact add_isSq hD hc
      · rw [if_neg hp, (Nat.not_even_iff_odd.1 fun h => hp (Nat.even_iff.1 h)).neg_one_pow, neg_one_mul, neg_smul,
          ← sub_eq_add_neg]
        exact sub_isSq hD hc
    obtain ⟨D', eD, hD'⟩ := hDD
    obtain ⟨N'', D'', e, h1, h2⟩ := padeLoop_spec q A B hA hm n (k + 1) X' N' D' (by omega) hX' hN' hD'
    refine ⟨N'', D'', ?_, h1, h2⟩
    rw [padeLoop, eX]
    show (binopNT (· * ·) (padeC α q (k + 2)) X' >>= _) = _
    rw [ec, Res.ok_bind, eN, Res.ok_bind, eD, Res.ok_bind]
    exact e

theorem squareLoop_spec (hm : m ≠ 0) : ∀ (n : Nat) (X : Tensor α) (Y : Matrix (Fin m) (Fin m) α), IsSq X Y →
    ∃ x, squareLoop n X = .ok x ∧ IsSq x (Y ^ 2 ^ n)
  | 0, X, Y, h => ⟨X, rfl, by simpa using h⟩
  | n + 1, X, Y, h => by
    obtain ⟨X', e, h'⟩ := mmult_isSq h h hm
    obtain ⟨x, e2, h2⟩ := squareLoop_spec hm n X' _ h'
    refine ⟨x, by rw [squareLoop, e]; exact e2, ?_⟩
    rwa [← pow_two, ← pow_mul, ← pow_succ'] at h2

/-- The result of expm, if the logarithm is defined. -/
theorem expm_eq {β : Type} [AddCommMonoid β] [LinearOrder β] [IsOrderedAddMonoid β] (abs : α → β)
    (habs : ∀ x, 0 ≤ abs x) (ilog : β → Option Int) (sol : Tensor α → Tensor α → Res (Tensor α)) (hsol : Solves sol)
    (A : Tensor α) (F : Matrix (Fin m) (Fin m) α) (hA : IsSq A F) (hm : m ≠ 0) (order : Nat) :
    ∃ n, (∀ i, ∑ j, abs (F i j) ≤ n) ∧ (∃ i, n = ∑ j, abs (F i j)) ∧
      (ilog n = none → expm abs ilog sol A order = .ub) ∧
      ∀ e, ilog n = some e → ∀ B, B = ((2 : α) ^ (max 0 (e + 1)).toNat)⁻¹ • F →
        (¬ IsUnit (aeval B (padeD α (max 1 order))) → expm abs ilog sol A order = .abort) ∧
        (IsUnit (aeval B (padeD α (max 1 order))) → ∃ x Y, expm abs ilog sol A order = .ok x ∧
          IsSq x (Y ^ 2 ^ (max 0 (e + 1)).toNat) ∧
          aeval B (padeD α (max 1 order)) * Y = aeval B (padeN α (max 1 order))) := by
  obtain ⟨n, en, h1, -, h2⟩ := c61_norminf_partial abs A m m (ext F) hA.isMat (.inr hm) habs
  have hs : ∀ i : Fin m, ∑ j ∈ Finset.range m, abs (ext F i j) = ∑ j, abs (F i j) := fun i => by
    rw [Finset.sum_range]
    exact Finset.sum_congr rfl fun j _ => by rw [ext_fin]
  have a0 := dimension_nat A 0 m (by rw [hA.1]; rfl)
  have a1 := dimension_nat A 1 m (by rw [hA.1]; rfl)
  simp only [Nat.cast_zero, Nat.cast_one] at a0 a1
  have hr : A.rank = 2 := by simp [rank, hA.1]
  refine ⟨n, fun i => by rw [← hs]; exact h1 i i.2, ?_, ?_, ?_⟩
  · obtain ⟨i, hi, e⟩ := h2 hm
    exact ⟨⟨i, hi⟩, e.trans (hs ⟨i, hi⟩)⟩
  · intro hn
    rw [expm, Res.assert_pos hr, Res.ok_bind, a0, Res.ok_bind, a1, Res.ok_bind, Res.assert_pos rfl, Res.ok_bind, en,
      Res.ok_bind, hn]
    rfl
  intro e he B hB
  generalize hj : (max 0 (e + 1)).toNat = j at hB ⊢
  obtain ⟨A', eA, hA'⟩ := div_isSq ((2 : α) ^ j) hA
  rw [← hB] at hA'
  have a0' := dimension_nat A' 0 m (by rw [hA'.1]; rfl)
  simp only [Nat.cast_zero] at a0'
  obtain ⟨I, eI, hI⟩ := eye_isSq (α := α) (m := m)
  obtain ⟨cA, ec, hc⟩ := smul_isSq (1 / 2 : α) hA'
  obtain ⟨N, eN, hN⟩ := add_isSq hI hc
  obtain ⟨D, eD, hD⟩ := sub_isSq hI hc
  obtain ⟨N', D', eL, hN', hD'⟩ : ∃ N' D', padeLoop order A' (order - 1) 2 (1 / 2) A' N D = .ok (N', D') ∧
        IsSq N' (aeval B (padeN α (max 1 order))) ∧ IsSq D' (aeval B (padeD α (max 1 order))) := by
    by_cases h0 : order = 0
    · subst h0
      refine ⟨N, D, rfl, ?_, ?_⟩
      · rw [aeval_padeN]
        simpa [Finset.sum_range_succ, padeC] using hN
      · rw [aeval_padeD]
        simpa [Finset.sum_range_succ, padeC, sub_eq_add_neg] using hD
    · rw [show max 1 order = order by omega]
      refine padeLoop_spec order A' B hA' hm (order - 1) 0 A' N D (by omega) (by simpa using hA') ?_ ?_
      · simpa [Finset.sum_range_succ, padeC] using hN
      · simpa [Finset.sum_range_succ, padeC, sub_eq_add_neg] using hD
  have hx : expm abs ilog sol A order = (sol D' N' >>= squareLoop j) := by
    rw [expm, Res.assert_pos hr, Res.ok_bind, a0, Res.ok_bind, a1, Res.ok_bind, Res.assert_pos rfl, Res.ok_bind, en,
      Res.ok_bind, he, Res.ofOption_some, Res.ok_bind]
    simp only [hj]
    rw [eA, Res.ok_bind, a0', Res.ok_bind, eI, Res.ok_bind, ec, Res.ok_bind, eN, Res.ok_bind, eD, Res.ok_bind, eL,
      Res.ok_bind]
  obtain ⟨s1, s2⟩ := hsol m D' N' _ _ hD' hN'
  refine ⟨fun hu => by rw [hx, s2 hu]; rfl, fun hu => ?_⟩
  obtain ⟨y, Y, ey, hy, hY⟩ := s1 hu
  obtain ⟨x, ex, hx'⟩ := squareLoop_spec hm j y Y hy
  exact ⟨x, Y, by rw [hx, ey]; exact ex, hx', hY⟩

end Verif.Expm
