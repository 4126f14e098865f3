import Verif.Core.CFloat
import Verif.Spec.Index
import Verif.Model.Tensor
/-
What it means that a double is exactly a given integer, or a multiple of a power of two.
-/
namespace Verif.Exact.Spec

open Verif Fl

/-- `z` is the number k 2^u; for u = 0, it is the integer k. (Zero may have any sign.) -/
def IsMult (u : ℤ) (z : Fl) (k : ℤ) : Prop := z.Finite ∧ z.val = k * (2 : ℝ) ^ u

/-- `z` is the complex number (k + m i) 2^u. -/
def CIsMult (u : ℤ) (z : CFl) (k m : ℤ) : Prop := IsMult u z.re k ∧ IsMult u z.im m

/-- `m` is the matrix of the multiples `A i j` of 2^u. -/
def IsMatrix (u : ℤ) (m : Tensor Fl) (r c : Nat) (A : Nat → Nat → ℤ) : Prop :=
  m.WF ∧ m.dims = [r, c] ∧ ∀ i j, i < r → j < c → ∃ z, Verif.Spec.elem m.dims m.data [i, j] = some z ∧ IsMult u z (A i j)

/-- `m` is the matrix of the complex numbers (A i j + i B i j) 2^u. -/
def CIsMatrix (u : ℤ) (m : Tensor CFl) (r c : Nat) (A B : Nat → Nat → ℤ) : Prop :=
  m.WF ∧ m.dims = [r, c] ∧
    ∀ i j, i < r → j < c → ∃ z, Verif.Spec.elem m.dims m.data [i, j] = some z ∧ CIsMult u z (A i j) (B i j)

end Verif.Exact.Spec
