import Verif.Core.Res
import Verif.Model.Tensor
import Verif.Spec.Fold
import Mathlib.RingTheory.PowerSeries.Exp
import Mathlib.Algebra.Algebra.Rat
import Mathlib.Data.Real.Basic
import Mathlib.LinearAlgebra.Matrix.NonsingularInverse
/-
Specification of the matrix exponential: tensors as matrices, Pade approximants and systems of equations.
-/
namespace Verif.Spec

/-- The tensor `t` is the square matrix `F`. -/
def IsSq {α : Type} {m : Nat} (t : Tensor α) (F : Matrix (Fin m) (Fin m) α) : Prop :=
  t.dims = [m, m] ∧ t.data.length = m * m ∧
    ∀ i j : Fin m, elem t.dims t.data [(i : Nat), (j : Nat)] = some (F i j)

/-- N / D is the diagonal Pade approximant of degree q of the exponential: both have degrees up to q and
D exp - N has no terms up to the degree 2 q. -/
def IsPade {α : Type} [Field α] [CharZero α] (q : Nat) (N D : Polynomial α) : Prop :=
  N.natDegree ≤ q ∧ D.natDegree ≤ q ∧ D.coeff 0 = 1 ∧
    ∀ n ≤ 2 * q, PowerSeries.coeff n ((D : PowerSeries α) * PowerSeries.exp α) = N.coeff n

/-- A function which solves systems of equations: the solution if the matrix is regular, a stop
otherwise. -/
def Solves {α : Type} [Field α] (sol : Tensor α → Tensor α → Res (Tensor α)) : Prop :=
  ∀ (m : Nat) (a b : Tensor α) (A B : Matrix (Fin m) (Fin m) α), IsSq a A → IsSq b B →
    (IsUnit A → ∃ x X, sol a b = .ok x ∧ IsSq x X ∧ A * X = B) ∧ (¬ IsUnit A → sol a b = .abort)

/-- The integer part of the logarithm in base 2, only defined for positive numbers. -/
def IsLog2 (ilog : ℝ → Option Int) : Prop :=
  ∀ x, (x ≤ 0 → ilog x = none) ∧ (0 < x → ∃ e, ilog x = some e ∧ (2 : ℝ) ^ e ≤ x ∧ x < (2 : ℝ) ^ (e + 1))

end Verif.Spec
