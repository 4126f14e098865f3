import Verif.Model.Machines
import Verif.Spec.DataFile
/-
Specification for data files of different machines.
-/
namespace Verif.SdfM

open Verif Sdf

/-- A machine as there are: sizes with one digit, and no object has more bytes than half of the addresses. -/
def Machine.Ok (m : Machine) : Prop :=
  1 ≤ m.int ∧ m.int ≤ 9 ∧ 1 ≤ m.long ∧ m.long ≤ 9 ∧ 1 ≤ m.size ∧ 2 * m.memory < 256 ^ m.size

/-- A tensor which fits in the memory of a machine. -/
def TensorOk (m : Machine) (c : Bool) (t : Tensor Word) : Prop :=
  t.data.length = parts c * Tensor.totalSize t.dims ∧ 8 * t.data.length ≤ m.memory ∧
    m.long * t.dims.length ≤ m.memory ∧ ∀ d ∈ t.dims, 2 * d < 256 ^ m.long

/-- A variable which fits in the memory of a machine. -/
def ValueOk (m : Machine) : Value → Prop
  | .one c t => TensorOk m c t
  | .many c v => v.length ≤ m.memory ∧ ∀ t ∈ v, TensorOk m c t

/-- A tensor read back in full. -/
def sameT (t : Tensor Word) : GotT Word := ⟨t.dims.map fun d : Nat => (d : Int), t.data.map some⟩

def same : Value → Got
  | .one _ t => .one (sameT t)
  | .many _ v => .many (v.map sameT)

/-- Machines which write and read the same bytes: the sizes in the header and the order of bytes agree, and lengths
of tensors are read with the size with which they are written. -/
def Agree (W R : Machine) : Prop := W.int = R.int ∧ W.long = R.long ∧ W.big = R.big ∧ R.size = W.long

/-- Machines as they are: 64-bit and 32-bit Linux, 64-bit Windows (where `long` has 4 bytes and `size_t` has 8),
and a 64-bit machine with the other order of bytes. -/
def linux64 (memory : Nat) : Machine := ⟨4, 8, 8, false, memory⟩
def linux32 (memory : Nat) : Machine := ⟨4, 4, 4, false, memory⟩
def windows64 (memory : Nat) : Machine := ⟨4, 4, 8, false, memory⟩
def s390x (memory : Nat) : Machine := ⟨4, 8, 8, true, memory⟩

end Verif.SdfM
