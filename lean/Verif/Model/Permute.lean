import Verif.Core.Loop
import Verif.Model.Tensor
/-
Model of permute, transpose and adjoint.
/repo/src/tensor/tensor_permute.cc, matrix_transpose.cc, matrix_adjoint.cc.
-/
namespace Verif.Tensor

open Verif

variable {α : Type}

/-- Output positions visited by permute_12, tensor_permute.cc:34-45, in order. -/
def permute12 (a1 a2 a3 : Nat) : List Nat :=
  loop a3 (a1 * a2) 0 fun k_b =>
    loop a2 1 k_b fun jk_b =>
      loop a1 a2 jk_b fun ijk_b => [ijk_b]

/-- Output positions visited by permute_23, tensor_permute.cc:58-74. -/
def permute23 (a1 a2 a3 a4 : Nat) : List Nat :=
  let a13 := a1 * a3
  let a132 := a13 * a2
  loop a4 a132 0 fun l_b =>
    loop a3 a1 l_b fun kl_b =>
      loop a2 a13 kl_b fun kjl_b =>
        loop a1 1 kjl_b fun ikjl_b => [ikjl_b]

/-- Output positions visited by permute_24, tensor_permute.cc:88-108. -/
def permute24 (a1 a2 a3 a4 a5 : Nat) : List Nat :=
  let a14 := a1 * a4
  let a143 := a14 * a3
  let a1432 := a143 * a2
  loop a5 a1432 0 fun m_b =>
    loop a4 a1 m_b fun lm_b =>
      loop a3 a14 lm_b fun lkm_b =>
        loop a2 a143 lkm_b fun lkjm_b =>
          loop a1 1 lkjm_b fun ilkjm_b => [ilkjm_b]

/-- Output positions visited by permute_13, tensor_permute.cc:122-138. -/
def permute13 (a1 a2 a3 a4 : Nat) : List Nat :=
  let a32 := a3 * a2
  let a321 := a32 * a1
  loop a4 a321 0 fun l_b =>
    loop a3 1 l_b fun kl_b =>
      loop a2 a3 kl_b fun kjl_b =>
        loop a1 a32 kjl_b fun kjil_b => [kjil_b]

/-- `Tensor<n> output(dims); ...; return output`, filled from `src` in the order of the positions. -/
def filled (dims : List Nat) (src : List α) (ps : List Nat) : Res (Tensor α) := do
  let data ← runWrites (totalSize dims) (copyTo src ps 0)
  pure ⟨dims, data⟩

/-- The part of do_permute after the label NO_A3, tensor_permute.cc:181-193. -/
def permuteNoA3 (a : Tensor α) (newDims : List Nat) (a1 a2 a4 a5 : Nat) : Res (Tensor α) :=
  if a4 > 1 ∨ a2 > 1 then
    if a1 > 1 then filled newDims a.data (permute23 a1 a2 a4 a5)
    else filled newDims a.data (permute12 a2 a4 a5)
  else a.reshape newDims

/-- do_permute after the test for equal indices, with `n1 < n2`, tensor_permute.cc:151-193. -/
def permuteSorted (a : Tensor α) (n1 n2 : Nat) : Res (Tensor α) := do
  let a1 := (a.dims.take n1).foldl (· * ·) 1
  let a2 ← Res.ofOption a.dims[n1]?
  let a3 := ((a.dims.take n2).drop (n1 + 1)).foldl (· * ·) 1
  let a4 ← Res.ofOption a.dims[n2]?
  let a5 := (a.dims.drop (n2 + 1)).foldl (· * ·) 1
  let newDims := (a.dims.set n1 a4).set n2 a2
  if a.size ≠ 0 then
    if a2 = 1 then permuteNoA3 a newDims a1 a3 a4 a5
    else if a4 = 1 then permuteNoA3 a newDims a1 a2 a3 a5
    else if a3 > 1 then
      if a1 > 1 then filled newDims a.data (permute24 a1 a2 a3 a4 a5)
      else filled newDims a.data (permute13 a2 a3 a4 a5)
    else permuteNoA3 a newDims a1 a2 a4 a5
  else a.reshape newDims

/-- permute(a, ndx1, ndx2), tensor_permute.cc:141-150. -/
def permute (a : Tensor α) (ndx1 ndx2 : Int) : Res (Tensor α) := do
  let n1 ← normalizeIndex ndx1 a.rank
  let n2 ← normalizeIndex ndx2 a.rank
  if n2 < n1 then permuteSorted a n2.toNat n1.toNat
  else if n2 = n1 then pure a
  else permuteSorted a n1.toNat n2.toNat

/-- transpose, matrix_transpose.cc:25-35. -/
def transpose (a : Tensor α) : Res (Tensor α) :=
  match a.dims with
  | [rows, cols] =>
    if cols ≠ 0 ∧ rows ≠ 0 then filled [cols, rows] a.data (permute12 rows cols 1)
    else filled [cols, rows] a.data []
  | _ => .abort

/-- Output positions visited by do_adjoint, matrix_adjoint.cc:34-42. -/
def adjointPositions (rows cols : Nat) : List Nat :=
  loop cols 1 0 fun j_b =>
    loop rows cols j_b fun ji_b => [ji_b]

/-- adjoint, matrix_adjoint.cc:25-45; `conj` is the conjugation of numbers (the identity for real
ones). -/
def adjoint (conj : α → α) (a : Tensor α) : Res (Tensor α) :=
  match a.dims with
  | [rows, cols] =>
    if cols ≠ 0 ∧ rows ≠ 0 then filled [cols, rows] (a.data.map conj) (adjointPositions rows cols)
    else filled [cols, rows] (a.data.map conj) []
  | _ => .abort

end Verif.Tensor
