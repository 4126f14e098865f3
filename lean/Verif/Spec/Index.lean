/-
Specification of multi-indices and column-major storage, independent of the library model.
-/
namespace Verif.Spec

/-- Product of a list of dimensions (1 for the empty list). -/
def prod : List Nat → Nat
  | [] => 1
  | d :: ds => d * prod ds

/-- `idx` is a valid index tuple for dimensions `dims`: same length and each entry in range. -/
def InB : (idx dims : List Nat) → Prop
  | [], [] => True
  | i :: is, d :: ds => i < d ∧ InB is ds
  | _, _ => False

instance decInB : (idx dims : List Nat) → Decidable (InB idx dims)
  | [], [] => isTrue trivial
  | i :: is, d :: ds =>
    have := decInB is ds
    inferInstanceAs (Decidable (i < d ∧ InB is ds))
  | [], _ :: _ => isFalse id
  | _ :: _, [] => isFalse id

/-- Column-major position: `i1 + d1 * (i2 + d2 * (i3 + ...))`. -/
def colPos : (dims idx : List Nat) → Nat
  | d :: ds, i :: is => i + d * colPos ds is
  | _, _ => 0

/-- The element of a tensor with given dimensions and data at an index tuple, if it exists. -/
def elem {α : Type} (dims : List Nat) (data : List α) (idx : List Nat) : Option α :=
  if InB idx dims then data[colPos dims idx]? else none

/-- Meaning of an integer index for a dimension `d`: from the end if it is negative. -/
def norm (d : Nat) (i : Int) : Option Nat :=
  if 0 ≤ i ∧ i < d then some i.toNat
  else if -(d : Int) ≤ i ∧ i < 0 then some (i + d).toNat
  else none

/-- Meaning of a tuple of integer indices. -/
def normAll : (dims : List Nat) → (idx : List Int) → Option (List Nat)
  | [], [] => some []
  | d :: ds, i :: is => do
    let j ← norm d i
    let js ← normAll ds is
    some (j :: js)
  | _, _ => none

end Verif.Spec
