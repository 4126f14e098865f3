import Verif.Model.Python
import Verif.Spec.DataFile
import Verif.Spec.Index
/-
Specification of data files read with Python: which variables can be read, and as what.
-/
namespace Verif.Py

open Sdf

/-- A tensor which numpy can hold; `width` is the number of bytes of an element. -/
def Holds {ε : Type} (maxdims width : Nat) (t : Tensor ε) : Prop :=
  TensorOk t ∧ t.dims ≠ [] ∧ t.dims.length ≤ maxdims ∧
    width * Spec.prod (t.dims.filter (· ≠ 0)) < 2 ^ 63

/-- Variables which can be read. -/
def Readable (maxdims : Nat) : Value → Prop
  | .real t => Holds maxdims 8 t
  | .complex t => Holds maxdims 16 t
  | .reals m => m.length < 2 ^ 63 ∧ ∀ t ∈ m, Holds maxdims 8 t
  | .complexes m => m.length < 2 ^ 63 ∧ ∀ t ∈ m, Holds maxdims 16 t
  | .double _ => True
  | .cdouble _ => True
  | .int _ => True
  | .size _ => True

/-- The characters "sdf", with which the header begins. -/
def sdf : List Byte := [115, 100, 102]

/-- The code points of characters: those of Unicode without surrogates. -/
def Scalar (c : Nat) : Prop := c < 55296 ∨ 57344 ≤ c ∧ c < 1114112

/-- The bytes of a character in UTF-8, RFC 3629, section 3. -/
def enc (c : Nat) : List Byte :=
  if c < 128 then [BitVec.ofNat 8 c]
  else if c < 2048 then [BitVec.ofNat 8 (192 + c / 64), BitVec.ofNat 8 (128 + c % 64)]
  else if c < 65536 then
    [BitVec.ofNat 8 (224 + c / 4096), BitVec.ofNat 8 (128 + c / 64 % 64), BitVec.ofNat 8 (128 + c % 64)]
  else
    [BitVec.ofNat 8 (240 + c / 262144), BitVec.ofNat 8 (128 + c / 4096 % 64), BitVec.ofNat 8 (128 + c / 64 % 64),
      BitVec.ofNat 8 (128 + c % 64)]

/-- Bytes which are characters in UTF-8. -/
def IsUtf8 (l : List Byte) : Prop := ∃ cs : List Nat, (∀ c ∈ cs, Scalar c) ∧ l = cs.flatMap enc

/-- Names which can be read: at most 63 characters in UTF-8, none of them null, which do not begin
with "sdf". -/
def ReadableName (name : List Byte) : Prop := NameOk name ∧ IsUtf8 name ∧ ¬sdf <+: name

/-- The array with the elements of a tensor. -/
def asArr {ε : Type} (t : Tensor ε) : Arr ε := ⟨t.dims, t.data.map some⟩

/-- What a variable is read as: numbers are arrays with one element, vectors of tensors are not
returned. -/
def asObj : Value → Obj
  | .real t => .real (asArr t)
  | .complex t => .complex (asArr t)
  | .reals _ => .list
  | .complexes _ => .list
  | .double v => .real ⟨[1], [some v]⟩
  | .cdouble v => .complex ⟨[1], [some v]⟩
  | .int v => .real ⟨[1], [some (doubleBits v)]⟩
  | .size v => .real ⟨[1], [some (doubleBits v)]⟩

/-- The last of the variables with a name. -/
def lastNamed : List (Value × List Byte) → List Byte → Option Value
  | [], _ => none
  | r :: rs, n => (lastNamed rs n).or (if r.2 = n then some r.1 else none)

/-! Datasets -/

/-- An array has as many elements as its dimensions say. -/
def Arr.WF {ε : Type} (t : Arr ε) : Prop := t.data.length = Spec.prod t.dims

def Obj.WF : Obj → Prop
  | .real t => t.WF
  | .complex t => t.WF
  | .list => True

/-- An element of an array, as a complex number. -/
def Obj.value : Obj → List Nat → Option (Option (Word × Word))
  | .real t, idx => (Spec.elem t.dims t.data idx).map fun x => x.map fun w => (w, 0)
  | .complex t, idx => Spec.elem t.dims t.data idx
  | .list, _ => none

/-- An element of a combined variable. -/
def Comb.value : Comb → List Nat → Option (Option (Word × Word))
  | .real t, idx => (Spec.elem t.dims t.data idx).map fun x => x.map fun w => (w, 0)
  | .complex t, idx => Spec.elem t.dims t.data idx
  | .objs _, _ => none

/-- The dimensions of a combined variable, if it is an array. -/
def Comb.shape : Comb → Option (List Nat)
  | .real t => some t.dims
  | .complex t => some t.dims
  | .objs _ => none

/-- Whether the elements are complex numbers. -/
def Comb.isComplex : Comb → Bool
  | .complex _ => true
  | _ => false

/-- The combined variable with a name. -/
def named : List (List Byte × Comb) → List Byte → Option Comb
  | [], _ => none
  | e :: l, n => if e.1 = n then some e.2 else named l n

end Verif.Py
