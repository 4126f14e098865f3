import Verif.Core.Float
import Verif.Model.Tensor
import Mathlib.LinearAlgebra.Matrix.Defs
/-
Specification for C133: elements, bounds and multiplication with a matrix up to rounding.
-/
namespace Verif.CgsFl.Spec

open Verif

/-- The value of an element. -/
noncomputable def elt (v : Tensor Fl) (i : Nat) : ℝ := (v.data.getD i 0).val

/-- All elements are finite, and at most `B`. -/
def Bounded (v : Tensor Fl) (B : ℝ) : Prop := ∀ x ∈ v.data, x.Finite ∧ |x.val| ≤ B

/-- All elements are finite. -/
def AllFinite (v : Tensor Fl) : Prop := ∀ x ∈ v.data, x.Finite

/-- A map from vectors of `n` doubles to vectors of `n` doubles. -/
def IsMap (n : Nat) (A : Tensor Fl → Res (Tensor Fl)) : Prop :=
  ∀ v : Tensor Fl, v.WF → v.data.length = n → (∀ x ∈ v.data, x.WF) →
    ∃ w, A v = .ok w ∧ w.WF ∧ w.data.length = n ∧ ∀ x ∈ w.data, x.WF

/-- The map multiplies with a matrix, and the errors of the elements are at most `γ` times the product of the absolute
values. -/
def Multiplies {n : Nat} (A : Tensor Fl → Res (Tensor Fl)) (M : Fin n → Fin n → ℝ) (γ : ℝ) : Prop :=
  ∀ v w : Tensor Fl, A v = .ok w → AllFinite v → AllFinite w → ∀ i : Fin n,
    |elt w i - ∑ j : Fin n, M i j * elt v j| ≤ γ * ∑ j : Fin n, |M i j| * |elt v j|

/-- How much the true residual and the one which is updated may move apart in one iteration: `m` is the largest sum of the
absolute values of a row, `γ` the relative error of the product, `X` and `R` the largest elements of x and r. -/
noncomputable def drift (m γ X R : ℝ) : ℝ :=
  m * (((2 : ℝ) ^ (-51 : ℤ) + 3 * γ) * X + (1 + γ) * (2 : ℝ) ^ (-1074 : ℤ)) + (2 : ℝ) ^ (-51 : ℤ) * R + (2 : ℝ) ^ (-1074 : ℤ)

end Verif.CgsFl.Spec
