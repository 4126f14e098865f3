import Verif.Model.Tensor
import Verif.Model.Dataset
/-
Model of the text of vectors, tensors and matrices, /repo/include/tensor/detail/io.hpp and
/repo/src/views/matrix_form.cc (io.h). The text of one element, which std::ostream makes, is a
parameter; that of an index is its decimal representation.
-/
namespace Verif.Text

open Verif Sdf

variable {α : Type}

/-- write_to_stream, io.hpp:28-36. -/
def writeLoop (pr : α → List Byte) : Bool → List α → List Byte
  | _, [] => []
  | first, x :: l => (if first then [] else [44, 32]) ++ pr x ++ writeLoop pr false l

/-- operator<< of Vector, io.hpp:38-44. -/
def vector (pr : α → List Byte) (l : List α) : List Byte := [91] ++ writeLoop pr true l ++ [93]

/-- operator<< of Indices: Vector<index>. -/
def indices (l : List Int) : List Byte := vector Dataset.numberToString l

/-- operator<< of Tensor, io.hpp:46-52. -/
def tensor (pr : α → List Byte) (t : Tensor α) : List Byte :=
  [40] ++ indices (t.dims.map fun (d : Nat) => (d : Int)) ++ [41, 47, 91] ++ writeLoop pr true t.data ++ [93]

/-- One row, matrix_form.cc:39-42: columns from `j`, `n` of them. -/
def rowLoop (pr : α → List Byte) (t : Tensor α) (i : Nat) (j : Nat) : Nat → Res (List Byte)
  | 0 => .ok []
  | n + 1 => do
    let x ← t.get2 i j
    let rest ← rowLoop pr t i (j + 1) n
    pure ((if j ≠ 0 then [44, 32] else []) ++ pr x ++ rest)

/-- The rows, matrix_form.cc:34-43: rows from `i`, `n` of them. -/
def matLoop (pr : α → List Byte) (t : Tensor α) (cols : Nat) (i : Nat) : Nat → Res (List Byte)
  | 0 => .ok []
  | n + 1 => do
    let row ← rowLoop pr t i 0 cols
    let rest ← matLoop pr t cols (i + 1) n
    pure ((if i = 0 then [91] else [10, 32]) ++ row ++ rest)

/-- The elements of a vector, matrix_form.cc:46-52: from `i`, `n` of them. -/
def vecLoop (pr : α → List Byte) (t : Tensor α) (i : Nat) : Nat → Res (List Byte)
  | 0 => .ok []
  | n + 1 => do
    let x ← t.dataAt i
    let rest ← vecLoop pr t (i + 1) n
    pure ((if i ≠ 0 then [44, 32] else [91]) ++ pr x ++ rest)

/-- MatrixForm::display, matrix_form.cc:24-56. -/
def matrixForm (pr : α → List Byte) (t : Tensor α) : Res (List Byte) :=
  if t.rank > 2 then .abort
  else if t.rank = 2 then do
    let rows ← t.dimension 0
    let cols ← t.dimension 1
    let s ← matLoop pr t cols 0 rows
    pure (s ++ [93])
  else if t.rank = 1 then do
    let s ← vecLoop pr t 0 t.size
    pure (s ++ [93])
  else .ok []

end Verif.Text
