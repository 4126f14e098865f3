import Verif.Model.View
import Verif.Spec.Index
/-
Specification of slices: which indices a range selects in a dimension of length `d`, and how tuples
of positions pick index tuples.  Only the user-level type `View.Spec` is used from the model.
-/
namespace Verif.Spec

open View (Spec)

/-- The indices selected by a range in a dimension of length `d`. -/
def sel : View.Spec → Nat → List Int
  | .all, d => (List.range d).map Int.ofNat
  | .single i, _ => [i]
  | .step a b s, _ => (List.range (if a ≤ b then ((b - a) / s + 1).toNat else 0)).map
      fun k : Nat => a + k * s
  | .list l, _ => l

/-- The range lies within a dimension of length `d`. A start above the end by one step (or less
than two steps) is an empty range. -/
def Valid : View.Spec → Nat → Prop
  | .all, _ => True
  | .single i, d => 0 ≤ i ∧ i < d
  | .step a b s, d => 0 ≤ a ∧ 0 < s ∧ b < d ∧ (a ≤ b ∨ (s ≤ a - b ∧ a - b < 2 * s))
  | .list l, d => ∀ x ∈ l, 0 ≤ x ∧ x < d

/-- The same for a list of ranges and dimensions, which must have the same length. -/
def ValidAll : List View.Spec → List Nat → Prop
  | [], [] => True
  | r :: rs, d :: ds => Valid r d ∧ ValidAll rs ds
  | _, _ => False

/-- Selected indices for each dimension. -/
def selAll : List View.Spec → List Nat → List (List Int)
  | r :: rs, d :: ds => sel r d :: selAll rs ds
  | _, _ => []

/-- The tuple of positions `j` in the lists `sels` picks the index tuple `i`. -/
def Picks : (sels : List (List Int)) → (j i : List Nat) → Prop
  | [], [], [] => True
  | s :: ss, j :: js, i :: is => s[j]? = some (i : Int) ∧ Picks ss js is
  | _, _, _ => False

/-- The dimensions which a list of ranges refers to: a single range sees the tensor as a vector. -/
def limits (dims : List Nat) (size : Nat) (rs : List View.Spec) : List Nat :=
  if rs.length = 1 then [size] else dims

end Verif.Spec
