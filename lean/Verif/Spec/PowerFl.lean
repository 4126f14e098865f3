import Verif.Core.Float
import Verif.Model.Tensor
/-
Specification for C132: vectors of doubles which have a norm, and unit vectors up to rounding.
-/
namespace Verif.PowerFl.Spec

open Verif

/-- `n` finite elements, whose squares neither overflow nor underflow together. -/
def InRange (n : Nat) (v : Tensor Fl) : Prop :=
  v.data.length = n ∧ (∀ x ∈ v.data, x.Finite) ∧ (2 : ℝ) ^ (-969 : ℤ) ≤ (v.data.map fun x => x.val ^ 2).sum ∧
    (v.data.map fun x => x.val ^ 2).sum ≤ 2 ^ 1000

/-- A unit vector of `n` elements, up to rounding. -/
def IsUnit (n : Nat) (v : Tensor Fl) : Prop :=
  v.data.length = n ∧ (∀ x ∈ v.data, x.Finite) ∧ |(v.data.map fun x => x.val ^ 2).sum - 1| ≤
    ((n : ℝ) + 4) * (2 : ℝ) ^ (-50 : ℤ)

/-- The value of an element. -/
noncomputable def elt (v : Tensor Fl) (i : Nat) : ℝ := (v.data.getD i 0).val

/-- How often the manual lets the map be used, without the one use more of C65. -/
def iterations (n iter : Nat) : Nat := if iter = 0 then max 20 n else iter

end Verif.PowerFl.Spec
