import Verif.Spec.Index
/-
Specification of contractions.
-/
namespace Verif.Spec

/-- Dimensions of a contraction, given the remaining dimensions: a number is a vector with one
element. -/
def outDims (ds : List Nat) : List Nat := if ds = [] then [1] else ds

/-- Index tuple of a contraction, given the remaining indices. -/
def outIdx (idx : List Nat) : List Nat := if idx = [] then [0] else idx

/-- `t` (dimensions and data) is the r x c matrix with entries f(i,j). -/
def IsMat {α : Type} (dims : List Nat) (data : List α) (r c : Nat) (f : Nat → Nat → α) : Prop :=
  dims = [r, c] ∧ data.length = r * c ∧ ∀ i j, i < r → j < c → elem dims data [i, j] = some (f i j)

end Verif.Spec
