import Verif.Core.Res
/-
Model of class Tensor: constructors, dimensions, element access, reshaping.
/repo/include/tensor/detail/tensor_base.hpp, /repo/include/tensor/detail/common.h,
/repo/src/indices/indices.cc, /repo/src/tensor/tensor_reshape_d.cc (and _z),
/repo/src/tensor/tensor_flatten_d.cc (and _z), /repo/include/tensor/detail/tensor_matrix.hpp.

Simplifications: a tensor is a value (dimensions and elements); sharing of the data between
tensors is the subject of `Verif.Model.RefCount`.  Dimensions are natural numbers (a list
with negative dimensions gives no elements, see `totalSizeI`; Tensor(-1, -2) is in `Verif.Model.TensorFail`).
-/
namespace Verif

/-- Class Tensor: `dims_` and `data_` (tensor.h). -/
structure Tensor (α : Type) where
  dims : List Nat
  data : List α
deriving Repr, DecidableEq

namespace Tensor

variable {α : Type}

/-- Indices::total_size for possibly negative entries, indices.cc:38-55 (the loop returns `false`,
that is 0, when it meets a negative entry; the empty list has size 0). -/
def totalSizeI (d : List Int) : Int :=
  if d.length ≠ 0 then
    (d.foldl (fun (aux : Option Int) x => aux.bind fun a => if x < 0 then none else some (a * x))
      (some 1)).getD 0        -- `none`: the early `return false`
  else 0

/-- Indices::total_size for natural numbers, indices.cc:38-55. -/
def totalSize (d : List Nat) : Nat := if d.length ≠ 0 then d.foldl (· * ·) 1 else 0

/-- What all constructors establish: the buffer has `total_size()` elements
(tensor_base.hpp:36-51, 62-118). -/
def WF (t : Tensor α) : Prop := t.data.length = totalSize t.dims

instance (t : Tensor α) : Decidable t.WF := inferInstanceAs (Decidable (_ = _))

def rank (t : Tensor α) : Nat := t.dims.length
def size (t : Tensor α) : Nat := t.data.length

/-- normalize_index, common.h:25-30. -/
def normalizeIndex (i : Int) (dimension : Int) : Res Int := do
  let i := if i < 0 then i + dimension else i
  Res.assert (i < dimension ∧ i ≥ 0)
  pure i

/-- Tensor::dimension, tensor_base.hpp:142-147. -/
def dimension (t : Tensor α) (which : Int) : Res Nat := do
  Res.assert ((t.rank : Int) > which)
  Res.assert (which ≥ 0)
  Res.ofOption t.dims[which.toNat]?

/-- Unchecked read `data_[i]`, vector.h:60-62. -/
def dataAt (t : Tensor α) (i : Int) : Res α :=
  if i < 0 then .ub else Res.ofOption t.data[i.toNat]?

/-- `operator()(i)`, tensor_base.hpp:219-225 (get_dimensions :149-153 checks the rank). -/
def get1 (t : Tensor α) (i : Int) : Res α :=
  match t.dims with
  | [d0] => do
    let i ← normalizeIndex i d0
    t.dataAt i
  | _ => .abort

/-- `operator()(row, col)`, tensor_base.hpp:227-234. -/
def get2 (t : Tensor α) (row col : Int) : Res α :=
  match t.dims with
  | [rows, cols] => do
    let row ← normalizeIndex row rows
    let col ← normalizeIndex col cols
    t.dataAt (col * rows + row)
  | _ => .abort

/-- `operator()(i1, i2, i3)`, tensor_base.hpp:236-244. -/
def get3 (t : Tensor α) (i1 i2 i3 : Int) : Res α :=
  match t.dims with
  | [d1, d2, d3] => do
    let i1 ← normalizeIndex i1 d1
    let i2 ← normalizeIndex i2 d2
    let i3 ← normalizeIndex i3 d3
    t.dataAt (((i3 * d2) + i2) * d1 + i1)
  | _ => .abort

/-- `operator()(i1, ..., i4)`, tensor_base.hpp:246-256. -/
def get4 (t : Tensor α) (i1 i2 i3 i4 : Int) : Res α :=
  match t.dims with
  | [d1, d2, d3, d4] => do
    let i1 ← normalizeIndex i1 d1
    let i2 ← normalizeIndex i2 d2
    let i3 ← normalizeIndex i3 d3
    let i4 ← normalizeIndex i4 d4
    t.dataAt ((((i4 * d3 + i3) * d2) + i2) * d1 + i1)
  | _ => .abort

/-- `operator()(i1, ..., i5)`, tensor_base.hpp:258-269. -/
def get5 (t : Tensor α) (i1 i2 i3 i4 i5 : Int) : Res α :=
  match t.dims with
  | [d1, d2, d3, d4, d5] => do
    let i1 ← normalizeIndex i1 d1
    let i2 ← normalizeIndex i2 d2
    let i3 ← normalizeIndex i3 d3
    let i4 ← normalizeIndex i4 d4
    let i5 ← normalizeIndex i5 d5
    t.dataAt (((((i5 * d4 + i4) * d3 + i3) * d2) + i2) * d1 + i1)
  | _ => .abort

/-- `operator()(i1, ..., i6)`, tensor_base.hpp:271-283. -/
def get6 (t : Tensor α) (i1 i2 i3 i4 i5 i6 : Int) : Res α :=
  match t.dims with
  | [d1, d2, d3, d4, d5, d6] => do
    let i1 ← normalizeIndex i1 d1
    let i2 ← normalizeIndex i2 d2
    let i3 ← normalizeIndex i3 d3
    let i4 ← normalizeIndex i4 d4
    let i5 ← normalizeIndex i5 d5
    let i6 ← normalizeIndex i6 d6
    t.dataAt ((((((i6 * d5 + i5) * d4 + i4) * d3 + i3) * d2) + i2) * d1 + i1)
  | _ => .abort

/-- Unchecked write `data_.at(i) = v`, vector.h:63-65. -/
def dataSet (t : Tensor α) (i : Int) (v : α) : Res (Tensor α) :=
  if i < 0 then .ub
  else if i.toNat < t.data.length then .ok { t with data := t.data.set i.toNat v }
  else .ub

/-- `at(i) = v`, tensor_base.hpp:294-298: no check of the rank, normalised by the size. -/
def set1 (t : Tensor α) (i : Int) (v : α) : Res (Tensor α) := do
  let i ← normalizeIndex i t.size
  t.dataSet i v

/-- `at(row, col) = v`, tensor_base.hpp:300-307. -/
def set2 (t : Tensor α) (row col : Int) (v : α) : Res (Tensor α) :=
  match t.dims with
  | [d0, d1] => do
    let row ← normalizeIndex row d0
    let col ← normalizeIndex col d1
    t.dataSet (col * d0 + row) v
  | _ => .abort

/-- `at(i1, i2, i3) = v`, tensor_base.hpp:309-317. -/
def set3 (t : Tensor α) (i1 i2 i3 : Int) (v : α) : Res (Tensor α) :=
  match t.dims with
  | [d1, d2, d3] => do
    let i1 ← normalizeIndex i1 d1
    let i2 ← normalizeIndex i2 d2
    let i3 ← normalizeIndex i3 d3
    t.dataSet (((i3 * d2) + i2) * d1 + i1) v
  | _ => .abort

/-- `at(i1, ..., i4) = v`, tensor_base.hpp:319-328. -/
def set4 (t : Tensor α) (i1 i2 i3 i4 : Int) (v : α) : Res (Tensor α) :=
  match t.dims with
  | [d1, d2, d3, d4] => do
    let i1 ← normalizeIndex i1 d1
    let i2 ← normalizeIndex i2 d2
    let i3 ← normalizeIndex i3 d3
    let i4 ← normalizeIndex i4 d4
    t.dataSet ((((i4 * d3 + i3) * d2) + i2) * d1 + i1) v
  | _ => .abort

/-- `at(i1, ..., i5) = v`, tensor_base.hpp:330-340. -/
def set5 (t : Tensor α) (i1 i2 i3 i4 i5 : Int) (v : α) : Res (Tensor α) :=
  match t.dims with
  | [d1, d2, d3, d4, d5] => do
    let i1 ← normalizeIndex i1 d1
    let i2 ← normalizeIndex i2 d2
    let i3 ← normalizeIndex i3 d3
    let i4 ← normalizeIndex i4 d4
    let i5 ← normalizeIndex i5 d5
    t.dataSet (((((i5 * d4 + i4) * d3 + i3) * d2) + i2) * d1 + i1) v
  | _ => .abort

/-- `at(i1, ..., i6) = v`, tensor_base.hpp:342-354. -/
def set6 (t : Tensor α) (i1 i2 i3 i4 i5 i6 : Int) (v : α) : Res (Tensor α) :=
  match t.dims with
  | [d1, d2, d3, d4, d5, d6] => do
    let i1 ← normalizeIndex i1 d1
    let i2 ← normalizeIndex i2 d2
    let i3 ← normalizeIndex i3 d3
    let i4 ← normalizeIndex i4 d4
    let i5 ← normalizeIndex i5 d5
    let i6 ← normalizeIndex i6 d6
    t.dataSet ((((((i6 * d5 + i5) * d4 + i4) * d3 + i3) * d2) + i2) * d1 + i1) v
  | _ => .abort

/-- The overload chosen for `t(idx...)`. There is none for zero or more than six indices; such
programs do not compile, which is represented by `abort`. -/
def get (t : Tensor α) : List Int → Res α
  | [i1] => t.get1 i1
  | [i1, i2] => t.get2 i1 i2
  | [i1, i2, i3] => t.get3 i1 i2 i3
  | [i1, i2, i3, i4] => t.get4 i1 i2 i3 i4
  | [i1, i2, i3, i4, i5] => t.get5 i1 i2 i3 i4 i5
  | [i1, i2, i3, i4, i5, i6] => t.get6 i1 i2 i3 i4 i5 i6
  | _ => .abort

/-- The overload chosen for `t.at(idx...) = v`. -/
def set (t : Tensor α) (idx : List Int) (v : α) : Res (Tensor α) :=
  match idx with
  | [i1] => t.set1 i1 v
  | [i1, i2] => t.set2 i1 i2 v
  | [i1, i2, i3] => t.set3 i1 i2 i3 v
  | [i1, i2, i3, i4] => t.set4 i1 i2 i3 i4 v
  | [i1, i2, i3, i4, i5] => t.set5 i1 i2 i3 i4 i5 v
  | [i1, i2, i3, i4, i5, i6] => t.set6 i1 i2 i3 i4 i5 i6 v
  | _ => .abort

/-- Tensor(dims, other), tensor_base.hpp:46-51; also reshape(t, dims), tensor_reshape_d.cc:25-28,
and the method reshape, tensor_base.hpp:203-208. -/
def reshape (t : Tensor α) (dims : List Nat) : Res (Tensor α) := do
  Res.assert (totalSize dims = t.size)
  pure ⟨dims, t.data⟩

/-- flatten, tensor_flatten_d.cc:25-28, through reshape(t, length), tensor_reshape_d.cc:31-36. -/
def flatten (t : Tensor α) : Res (Tensor α) := t.reshape [t.size]

/-- fill_with on a new tensor, tensor_base.hpp:361-364; zeros(dims) and ones(dims),
tensor_matrix.hpp:44-49, 87-92. -/
def fill (dims : List Nat) (v : α) : Tensor α := ⟨dims, List.replicate (totalSize dims) v⟩

/-- The loop of `eye`, tensor_matrix.hpp:31-33, from index `i` for `n` more steps. -/
def eyeLoop [One α] (t : Tensor α) : Nat → Nat → Res (Tensor α)
  | _, 0 => .ok t
  | i, n + 1 => do
    let t1 ← t.set2 i i 1
    eyeLoop t1 (i + 1) n

/-- eye(rows, cols), tensor_matrix.hpp:27-35. -/
def eye [Zero α] [One α] (rows cols : Nat) : Res (Tensor α) :=
  eyeLoop (fill [rows, cols] 0) 0 (min rows cols)

/-- surrounding_dimensions, surrounding_dimensions.cc:34-46; reading `d[ndx]` out of bounds is
undefined. -/
def surrounding (d : List Nat) (ndx : Nat) : Res (Nat × Nat × Nat) := do
  let d2 ← Res.ofOption d[ndx]?
  pure ((d.take ndx).foldl (· * ·) 1, d2, (d.drop (ndx + 1)).foldl (· * ·) 1)

end Tensor
end Verif
