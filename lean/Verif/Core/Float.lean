import Mathlib.Analysis.Real.Sqrt
import Mathlib.Data.Set.Finite.Lemmas
import Mathlib.Algebra.Order.Field.Power
import Mathlib.Algebra.Order.Floor.Ring
import Mathlib.Tactic.Linarith
import Mathlib.Tactic.Positivity
import Mathlib.Tactic.Ring
/-
The numbers `double` of C++: binary64 of IEEE 754-2019, and the operations of section 5.4.1 with
rounding to nearest. Which of two equally near numbers is taken is left open, so that what is proved
holds for roundTiesToEven in particular. Exceptions, and the sign and payload of NaN, are not modelled.
-/
namespace Verif

/-- The finite numbers of the format, IEEE 754-2019, 3.3: 53 digits, exponents from -1074 to 971. -/
def IsDouble (x : ℝ) : Prop := ∃ m e : ℤ, |m| < 2 ^ 53 ∧ -1074 ≤ e ∧ e ≤ 971 ∧ x = m * (2 : ℝ) ^ e

/-- The numbers among which a result is rounded: the format, and the next power of two on each side, which
stands for the infinity (IEEE 754-2019, 4.3.1). -/
def IsTarget (x : ℝ) : Prop := IsDouble x ∨ |x| = 2 ^ 1024

/-- Rounding to nearest, IEEE 754-2019, 4.3.1. -/
class Rounding where
  rnd : ℝ → ℝ
  target : ∀ x, IsTarget (rnd x)
  nearest : ∀ x y, IsTarget y → |x - rnd x| ≤ |x - y|

/-- A `double`. The number zero is positive; `nzero` is the negative one. -/
inductive Fl
  | nan
  | pinf
  | ninf
  | nzero
  | fin (x : ℝ)

namespace Fl

open Classical in
noncomputable instance : DecidableEq Fl := fun _ _ => inferInstance

/-- The sign bit. -/
noncomputable def neg : Fl → Bool
  | nan => false
  | pinf => false
  | ninf => true
  | nzero => true
  | fin x => decide (x < 0)

/-- The value of finite numbers. -/
noncomputable def val : Fl → ℝ
  | fin x => x
  | _ => 0

/-- Infinity or zero with a sign. -/
def infS (s : Bool) : Fl := if s then ninf else pinf
noncomputable def zeroS (s : Bool) : Fl := if s then nzero else fin 0

/-- The same number with the other sign. -/
noncomputable def negate : Fl → Fl
  | nan => nan
  | pinf => ninf
  | ninf => pinf
  | nzero => fin 0
  | fin x => if x = 0 then nzero else fin (-x)

def isInf : Fl → Bool
  | pinf => true
  | ninf => true
  | _ => false

noncomputable instance : Zero Fl := ⟨fin 0⟩
noncomputable instance : One Fl := ⟨fin 1⟩
noncomputable instance : Neg Fl := ⟨negate⟩

section
variable [Rounding]

/-- The result of an operation whose exact value is `x`, not zero. -/
noncomputable def round (x : ℝ) : Fl :=
  if 2 ^ 1024 ≤ Rounding.rnd x then pinf
  else if Rounding.rnd x ≤ -2 ^ 1024 then ninf
  else if Rounding.rnd x = 0 then zeroS (decide (x < 0))
  else fin (Rounding.rnd x)

/-- addition, IEEE 754-2019, 5.4.1, 6.1, 6.3, 7.2. -/
noncomputable def add : Fl → Fl → Fl
  | nan, _ => nan
  | _, nan => nan
  | pinf, ninf => nan
  | ninf, pinf => nan
  | pinf, _ => pinf
  | _, pinf => pinf
  | ninf, _ => ninf
  | _, ninf => ninf
  | nzero, nzero => nzero
  | a, b => if a.val + b.val = 0 then fin 0 else round (a.val + b.val)

/-- multiplication. -/
noncomputable def mul (a b : Fl) : Fl :=
  if a = nan ∨ b = nan then nan
  else if a.isInf ∨ b.isInf then
    if (a.isInf = false ∧ a.val = 0) ∨ (b.isInf = false ∧ b.val = 0) then nan else infS (a.neg ^^ b.neg)
  else if a.val * b.val = 0 then zeroS (a.neg ^^ b.neg)
  else round (a.val * b.val)

/-- division. -/
noncomputable def div (a b : Fl) : Fl :=
  if a = nan ∨ b = nan then nan
  else if a.isInf then if b.isInf then nan else infS (a.neg ^^ b.neg)
  else if b.isInf then zeroS (a.neg ^^ b.neg)
  else if b.val = 0 then if a.val = 0 then nan else infS (a.neg ^^ b.neg)
  else if a.val = 0 then zeroS (a.neg ^^ b.neg)
  else round (a.val / b.val)

/-- squareRoot. -/
noncomputable def sqrt : Fl → Fl
  | nan => nan
  | pinf => pinf
  | ninf => nan
  | nzero => nzero
  | fin x => if x < 0 then nan else if x = 0 then fin 0 else round (Real.sqrt x)

/-- The conversion of an integer. -/
noncomputable def ofInt (n : ℤ) : Fl := if n = 0 then fin 0 else round n

noncomputable instance : Add Fl := ⟨add⟩
noncomputable instance : Mul Fl := ⟨mul⟩
noncomputable instance : Div Fl := ⟨div⟩
noncomputable instance : Sub Fl := ⟨fun a b => add a (negate b)⟩
noncomputable instance : NatCast Fl := ⟨fun n => ofInt n⟩

end

/-- abs. -/
noncomputable def abs : Fl → Fl
  | nan => nan
  | pinf => pinf
  | ninf => pinf
  | nzero => fin 0
  | fin x => fin |x|

/-- compareQuietLess, IEEE 754-2019, 5.11: NaN is not ordered. -/
def lt : Fl → Fl → Prop
  | nan, _ => False
  | _, nan => False
  | pinf, _ => False
  | _, ninf => False
  | ninf, _ => True
  | _, pinf => True
  | a, b => a.val < b.val

instance : LT Fl := ⟨lt⟩

/-- compareQuietLessEqual. -/
def le (a b : Fl) : Prop := a ≠ nan ∧ b ≠ nan ∧ ¬ b < a

instance : LE Fl := ⟨le⟩

open Classical in
noncomputable instance : DecidableLE Fl := fun _ _ => inferInstance

/-- A finite number of the format. -/
def Finite : Fl → Prop
  | nzero => True
  | fin x => IsDouble x
  | _ => False

/-- Any number of the format, NaN or infinite. -/
def WF : Fl → Prop
  | fin x => IsDouble x
  | _ => True

open Classical in
noncomputable instance : DecidableLT Fl := fun _ _ => inferInstance

end Fl

/-! ### Rounding -/

theorem isDouble_zero : IsDouble 0 := ⟨0, 0, by norm_num, by norm_num, by norm_num, by norm_num⟩

theorem IsDouble.neg {x : ℝ} (h : IsDouble x) : IsDouble (-x) := by
  obtain ⟨m, e, h1, h2, h3, rfl⟩ := h
  exact ⟨-m, e, by simpa using h1, h2, h3, by push_cast; ring⟩

theorem isDouble_int {n : ℤ} (h : |n| < 2 ^ 53) : IsDouble n :=
  ⟨n, 0, h, by norm_num, by norm_num, by simp⟩

theorem IsDouble.lt {x : ℝ} (h : IsDouble x) : |x| < 2 ^ 1024 := by
  obtain ⟨m, e, h1, h2, h3, rfl⟩ := h
  have h2 : (0 : ℝ) < 2 ^ e := by positivity
  rw [abs_mul, abs_of_pos h2]
  have hm : |(m : ℝ)| < 2 ^ 53 := by exact_mod_cast h1
  have he : (2 : ℝ) ^ e ≤ 2 ^ (971 : ℤ) := zpow_le_zpow_right₀ (by norm_num) h3
  calc |(m : ℝ)| * 2 ^ e < 2 ^ 53 * 2 ^ e := by
        exact mul_lt_mul_of_pos_right hm h2
    _ ≤ 2 ^ 53 * 2 ^ (971 : ℤ) := by
        exact mul_le_mul_of_nonneg_left he (by positivity)
    _ = 2 ^ 1024 := by
        rw [show ((2 : ℝ) ^ (971 : ℤ)) = 2 ^ (971 : ℕ) from zpow_natCast 2 971, ← pow_add]

theorem isDouble_finite : {x : ℝ | IsDouble x}.Finite := by
  have : {x : ℝ | IsDouble x} ⊆ (fun p : ℤ × ℤ => (p.1 : ℝ) * (2 : ℝ) ^ p.2) ''
      (Set.Icc (-2 ^ 53 : ℤ) (2 ^ 53) ×ˢ Set.Icc (-1074 : ℤ) 971) := by
    rintro x ⟨m, e, h1, h2, h3, rfl⟩
    refine ⟨(m, e), ⟨?_, h2, h3⟩, rfl⟩
    rw [abs_lt] at h1
    exact ⟨le_of_lt h1.1, le_of_lt h1.2⟩
  exact Set.Finite.subset (((Set.finite_Icc _ _).prod (Set.finite_Icc _ _)).image _) this

theorem isTarget_finite : {x : ℝ | IsTarget x}.Finite := by
  have : {x : ℝ | IsTarget x} ⊆ {x : ℝ | IsDouble x} ∪ {(2 : ℝ) ^ 1024, -(2 : ℝ) ^ 1024} := by
    rintro x (h | h)
    · exact Or.inl h
    · right
      have hp : (0 : ℝ) ≤ 2 ^ 1024 := by positivity
      rcases (abs_eq hp).1 h with h | h
      · exact Or.inl h
      · exact Or.inr h
  exact (isDouble_finite.union (Set.toFinite _)).subset this

/-- There is a rounding to nearest. -/
theorem exists_rounding : Nonempty Rounding := by
  have h : ∀ x : ℝ, ∃ y, IsTarget y ∧ ∀ z, IsTarget z → |x - y| ≤ |x - z| := by
    intro x
    obtain ⟨y, hy, hm⟩ := Set.exists_min_image {x : ℝ | IsTarget x} (fun y => |x - y|) isTarget_finite
      ⟨0, Or.inl isDouble_zero⟩
    exact ⟨y, hy, fun z hz => hm z hz⟩
  choose r h1 h2 using h
  exact ⟨⟨r, h1, h2⟩⟩

theorem IsTarget.double {x : ℝ} (h : IsTarget x) (hx : |x| < 2 ^ 1024) : IsDouble x :=
  h.resolve_right (ne_of_lt hx)

theorem IsTarget.neg {x : ℝ} (h : IsTarget x) : IsTarget (-x) :=
  h.imp IsDouble.neg (fun h => by rwa [abs_neg])

theorem IsTarget.le {x : ℝ} (h : IsTarget x) : |x| ≤ 2 ^ 1024 :=
  h.elim (fun h => le_of_lt h.lt) le_of_eq

section
variable [Rounding]
open Rounding

theorem rnd_exact {x : ℝ} (h : IsTarget x) : rnd x = x := by
  have := nearest x x h
  rw [sub_self, abs_zero] at this
  have := abs_eq_zero.1 (le_antisymm this (abs_nonneg _))
  linarith

theorem rnd_zero : rnd (0 : ℝ) = 0 := rnd_exact (Or.inl isDouble_zero)

theorem rnd_mono {x y : ℝ} (h : x ≤ y) : rnd x ≤ rnd y := by
  rcases eq_or_lt_of_le h with rfl | h
  · exact le_refl _
  by_contra hc
  rw [not_le] at hc
  have h1 := nearest x (rnd y) (target y)
  have h2 := nearest y (rnd x) (target x)
  have h3 := sq_le_sq.2 h1
  have h4 := sq_le_sq.2 h2
  nlinarith

theorem le_rnd {x y : ℝ} (hx : IsTarget x) (h : x ≤ y) : x ≤ rnd y := by
  rw [← rnd_exact hx]
  exact rnd_mono h

theorem rnd_le {x y : ℝ} (hy : IsTarget y) (h : x ≤ y) : rnd x ≤ y := by
  rw [← rnd_exact hy]
  exact rnd_mono h

theorem rnd_nonneg {x : ℝ} (h : 0 ≤ x) : 0 ≤ rnd x := le_rnd (Or.inl isDouble_zero) h

theorem rnd_nonpos {x : ℝ} (h : x ≤ 0) : rnd x ≤ 0 := rnd_le (Or.inl isDouble_zero) h

/-- A number which is nearer to `y` than any other double can be. -/
theorem rnd_eq {x y d : ℝ} (hy : IsTarget y) (hd : ∀ z, IsTarget z → z ≠ y → d ≤ |z - y|)
    (h : |x - y| < d / 2) : rnd x = y := by
  by_contra hc
  have h1 := hd _ (target x) hc
  have h2 := nearest x y hy
  have h3 : |rnd x - y| ≤ |rnd x - x| + |x - y| := abs_sub_le _ _ _
  rw [abs_sub_comm] at h2
  linarith

end

end Verif
