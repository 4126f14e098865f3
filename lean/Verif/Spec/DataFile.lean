import Verif.Model.DataFile
/-
Specification of data files: which variables and names can be stored, and what must be read back.
-/
namespace Verif.Sdf

/-- A usable name: 1 to 63 characters, none of them null. -/
def NameOk (name : List Byte) : Prop := name.length ≤ 63 ∧ ∀ b ∈ name, b ≠ 0

/-- A tensor which fits in memory. -/
def TensorOk {ε : Type} (t : Tensor ε) : Prop :=
  t.WF ∧ t.data.length < 2 ^ 63 ∧ t.dims.length < 2 ^ 63 ∧ ∀ d ∈ t.dims, d < 2 ^ 63

/-- Variables which are stored without loss: `size_t` values only up to 2^53. -/
def ValueOk : Value → Prop
  | .real t => TensorOk t
  | .complex t => TensorOk t
  | .reals m => m.length < 2 ^ 63 ∧ ∀ t ∈ m, TensorOk t
  | .complexes m => m.length < 2 ^ 63 ∧ ∀ t ∈ m, TensorOk t
  | .double _ => True
  | .cdouble _ => True
  | .int v => -2 ^ 31 ≤ v ∧ v < 2 ^ 31
  | .size v => v ≤ 2 ^ 53

/-- A tensor read back in full. -/
def sameT {ε : Type} (t : Tensor ε) : GotT ε := ⟨t.dims.map fun d : Nat => (d : Int), t.data.map some⟩

/-- A variable read back in full. -/
def same : Value → Got
  | .real t => .real (sameT t)
  | .complex t => .complex (sameT t)
  | .reals m => .reals (m.map sameT)
  | .complexes m => .complexes (m.map sameT)
  | .double v => .double v
  | .cdouble v => .cdouble v
  | .int v => .int v
  | .size v => .size v

/-- The tag of a type of variable: numbers are stored as tensors. -/
def Kind.tag : Kind → Int
  | .real | .double | .int | .size => 0
  | .complex | .cdouble => 1
  | .reals => 2
  | .complexes => 3

/-- The number of bytes of a record of a tensor before its elements. -/
def headSize (rank : Nat) : Nat := 64 + 8 + (8 + 8 * rank) + 8

end Verif.Sdf
