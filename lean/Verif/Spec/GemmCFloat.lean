import Verif.Core.CFloat
import Mathlib.Data.Complex.Basic
/-
How far results with complex doubles are from the exact ones.
-/
namespace Verif.GemmFl.Spec

open Verif

/-- The complex number which is meant by a finite one. -/
noncomputable def toC (z : CFl) : ℂ := ⟨z.re.val, z.im.val⟩

/-- A sum of `n` products whose absolute values add up to `A` is far enough from overflow. -/
def Small (n : ℕ) (A : ℝ) : Prop :=
  (1 + 2 ^ (-53 : ℤ)) ^ n * A + n * (1 + 2 ^ (-53 : ℤ)) ^ (n - 1) * 2 ^ (-1075 : ℤ) < (2 : ℝ) ^ 1024

/-- `z` is finite, and it is the number `x` up to `n` roundings of `A` and `n` underflows. -/
def Near (n : ℕ) (A x : ℝ) (z : Fl) : Prop :=
  z.Finite ∧ |z.val - x| ≤ ((1 + 2 ^ (-53 : ℤ)) ^ n - 1) * A + n * (1 + 2 ^ (-53 : ℤ)) ^ (n - 1) * 2 ^ (-1075 : ℤ)

/-- Absolute values of the products in the real and in the imaginary part of the product of two numbers. -/
noncomputable def reAbs (x y : CFl) : ℝ := |x.re.val * y.re.val| + |x.im.val * y.im.val|
noncomputable def imAbs (x y : CFl) : ℝ := |x.re.val * y.im.val| + |x.im.val * y.re.val|

end Verif.GemmFl.Spec
