import Verif.Spec.Python
/-
Specification of data files read with Matlab: which variables can be read, and as what.
-/
namespace Verif.Mat

open Sdf

/-- The dimensions of a variable; none for vectors of tensors. -/
def shape : Value → Option (List Nat)
  | .real t => some t.dims
  | .complex t => some t.dims
  | .reals _ => none
  | .complexes _ => none
  | .double _ => some [1]
  | .cdouble _ => some [1]
  | .int _ => some [1]
  | .size _ => some [1]

/-- The elements of a variable, as complex numbers. -/
def numbers : Value → List (Word × Word)
  | .real t => t.data.map fun w => (w, 0)
  | .complex t => t.data
  | .reals _ => []
  | .complexes _ => []
  | .double v => [(v, 0)]
  | .cdouble v => [v]
  | .int v => [(doubleBits v, 0)]
  | .size v => [(doubleBits v, 0)]

/-- `s` is what `size` gives for an array with dimensions `d`: at least two, those of `d` followed by ones,
and without ones at the end after the second. -/
def IsSize (s d : List Nat) : Prop :=
  2 ≤ s.length ∧ (∀ i : Nat, s.getD i 1 = d.getD i 1) ∧ (2 < s.length → s.getLast? ≠ some 1)

/-- A tensor has elements or at least two indices. -/
def Sized {ε : Type} (t : Tensor ε) : Prop := t.data ≠ [] ∨ 2 ≤ t.dims.length

/-- Variables which can be read: tensors with elements, or with at least two indices if Matlab does not take
their size for that of `[]`; those of vectors with elements or with at least two indices. -/
def Readable : Value → Prop
  | .real t => TensorOk t ∧ Sized t ∧ ¬IsSize [0, 0] t.dims
  | .complex t => TensorOk t ∧ Sized t ∧ ¬IsSize [0, 0] t.dims
  | .reals m => m.length < 2 ^ 63 ∧ ∀ t ∈ m, TensorOk t ∧ Sized t
  | .complexes m => m.length < 2 ^ 63 ∧ ∀ t ∈ m, TensorOk t ∧ Sized t
  | .double _ => True
  | .cdouble _ => True
  | .int _ => True
  | .size _ => True

/-- Names which can be read. -/
def ReadableName (valid : List Byte → Bool) (name : List Byte) : Prop :=
  NameOk name ∧ name ≠ [] ∧ valid name = true ∧ ¬Py.sdf <+: name

/-- The variables with a name, in their order. -/
def named (rs : List (Value × List Byte)) (n : List Byte) : List Value :=
  (rs.filter fun r => r.2 = n).map Prod.fst

/-- The dimensions of `k` variables with dimensions `d`, one after the other: a new last index, or a column if
they are numbers. -/
def stackDims (d : List Nat) (k : Nat) : List Nat := if d = [1] then [k] else d ++ [k]

end Verif.Mat
