import Verif.Model.Sparse
import Verif.Model.FloatCompare
import Verif.Core.CFloat
/-
Model of the sparse matrices of doubles and complex doubles, where the comparison with zero is that of the
numbers: the negative zero is equal to zero, NaN is not. /repo/include/tensor/detail/sparse_base.hpp,
/repo/src/sparse/sparse_binop.hpp. The functions are those of Model/Sparse.lean with the comparison
`isz v` in place of `v = 0`.
-/
namespace Verif.SparseFl

open Verif Verif.Sparse

variable {α : Type}

/-- Inner loop of the conversion, sparse_base.hpp:191-197, with `!(v == number_zero<elt_t>())` as `!isz v`. -/
def ofTensorRow (isz : α → Bool) (t : Tensor α) (r c : Nat) : Nat → Res (List (Nat × α))
  | 0 => .ok []
  | n + 1 => do
    let v ← t.get2 r c
    let rest ← ofTensorRow isz t r (c + 1) n
    pure (if isz v then rest else (c, v) :: rest)

/-- Sparse(const Tensor &), sparse_base.hpp:174-200, with number_of_nonzero, :160-172. -/
def ofTensor (isz : α → Bool) (t : Tensor α) : Res (Sparse α) :=
  match t.dims with
  | [] => .abort
  | [_] => .ub
  | [nrows, ncols] => do
    let nonzero := t.data.countP fun x => !isz x
    let rows ← collect (fun r => ofTensorRow isz t r 0 ncols) 0 nrows
    let stored := rows.flatten
    let data ← runWrites nonzero (seqFrom 0 (stored.map fun p => some p.2))
    let column ← runWrites nonzero (seqFrom 0 (stored.map fun p => some p.1))
    let rowStart ← runWrites (nrows + 1) (seqFrom 0 ((0 :: rowEnds 0 rows).map some))
    pure ⟨nrows, ncols, rowStart, column, data⟩
  | _ => .abort

/-- `if (!(value == number_zero<T3>())) { *(out_data++) = value; *(out_column++) = c; }`,
sparse_binop.hpp:102-105. -/
def push (isz : α → Bool) (cap : Nat) (out : List (Nat × α)) (c : Nat) (value : α) :
    Res (List (Nat × α)) :=
  if !isz value then (if out.length < cap then .ok (out ++ [(c, value)]) else .ub) else .ok out

/-- The passes of the loop of sparse_binop for one row, sparse_binop.hpp:68-105. -/
def mergeRow [Zero α] (isz : α → Bool) (op : α → α → α) (cols cap : Nat) :
    (n l1 l2 : Nat) → (m1 m2 : List Nat × List α) → (out : List (Nat × α)) →
    Res ((List Nat × List α) × (List Nat × List α) × List (Nat × α))
  | 0, _, _, _, _, _ => .ub
  | n + 1, l1, l2, m1, m2, out => do
    let c1 ← if l1 ≠ 0 then Res.ofOption m1.1.head? else .ok cols
    let c2 ← if l2 ≠ 0 then Res.ofOption m2.1.head? else .ok cols
    if (c1 < c2 ∧ l1 = 0) ∨ (c2 < c1 ∧ l2 = 0) then .ub
    else if c1 < c2 then do
      let x ← Res.ofOption m1.2.head?
      let out ← push isz cap out c1 (op x 0)
      mergeRow isz op cols cap n (l1 - 1) l2 (m1.1.tail, m1.2.tail) m2 out
    else if c2 < c1 then do
      let y ← Res.ofOption m2.2.head?
      let out ← push isz cap out c2 (op 0 y)
      mergeRow isz op cols cap n l1 (l2 - 1) m1 (m2.1.tail, m2.2.tail) out
    else if c2 < cols then do
      let x ← Res.ofOption m1.2.head?
      let y ← Res.ofOption m2.2.head?
      let out ← push isz cap out c1 (op x y)
      mergeRow isz op cols cap n (l1 - 1) (l2 - 1) (m1.1.tail, m1.2.tail) (m2.1.tail, m2.2.tail) out
    else .ok (m1, m2, out)

/-- The loop of sparse_binop, sparse_binop.hpp:59-106, as in Model/Sparse.lean. -/
def mergeLoop [Zero α] (isz : α → Bool) (op : α → α → α) (cols cap : Nat) (rs1 rs2 : List Nat)
    (i : Nat) : Nat → (m1 m2 : List Nat × List α) → (out : List (Nat × α)) →
    Res (List Nat × List (Nat × α))
  | 0, _, _, out => .ok ([], out)
  | n + 1, m1, m2, out => do
    let a1 ← Res.ofOption rs1[i]?
    let b1 ← Res.ofOption rs1[i + 1]?
    let a2 ← Res.ofOption rs2[i]?
    let b2 ← Res.ofOption rs2[i + 1]?
    if b1 < a1 ∨ b2 < a2 then .ub
    else do
      let x ← mergeRow isz op cols cap (b1 - a1 + (b2 - a2) + 1) (b1 - a1) (b2 - a2) m1 m2 out
      let y ← mergeLoop isz op cols cap rs1 rs2 (i + 1) n x.1 x.2.1 x.2.2
      pure (x.2.2.length :: y.1, y.2)

/-- sparse_binop, sparse_binop.hpp:27-113. -/
def binop [Zero α] (isz : α → Bool) (op : α → α → α) (m1 m2 : Sparse α) : Res (Sparse α) := do
  Res.assert (m1.rows = m2.rows ∧ m1.cols = m2.cols)
  if m1.rows = 0 ∨ m1.cols = 0 then pure (zeros m1.rows m1.cols)
  else do
    let maxSize := m1.data.length + m2.data.length
    let x ← mergeLoop isz op m1.cols maxSize m1.rowStart m2.rowStart 0 m1.rows
      (m1.column, m1.data) (m2.column, m2.data) []
    let rowStart ← runWrites (m1.rows + 1) (seqFrom 0 ((0 :: x.1).map some))
    make m1.rows m1.cols rowStart (x.2.map (·.1)) (x.2.map (·.2))

/-- `v == 0.0`. -/
noncomputable def isZero (v : Fl) : Bool := FlCmp.ev .eq v 0

/-- `z == std::complex<double>(0)`: both parts are compared. -/
noncomputable def isZeroC (z : CFl) : Bool := FlCmp.ev .eq z.re 0 && FlCmp.ev .eq z.im 0

/-! ### One real and one complex matrix -/

section
variable [Rounding]

/-- The operators of `std::complex<double>` with one argument of type `double`, as tensor_ops.hpp:49-83 applies them to
tensors of both types: complex plus real. -/
noncomputable def plusTR (x : CFl) (y : Fl) : CFl := ⟨x.re + y, x.im⟩
/-- Real plus complex. -/
noncomputable def plusRT (x : Fl) (y : CFl) : CFl := ⟨y.re + x, y.im⟩
/-- Complex minus real. -/
noncomputable def minusTR (x : CFl) (y : Fl) : CFl := ⟨x.re - y, x.im⟩
/-- Real minus complex. -/
noncomputable def minusRT (x : Fl) (y : CFl) : CFl := ⟨x - y.re, -y.im⟩
/-- Complex times real. -/
noncomputable def timesTR (x : CFl) (y : Fl) : CFl := ⟨x.re * y, x.im * y⟩
/-- Real times complex. -/
noncomputable def timesRT (x : Fl) (y : CFl) : CFl := ⟨y.re * x, y.im * x⟩

/-- The difference of complex numbers. -/
noncomputable def minusC (x y : CFl) : CFl := ⟨x.re - y.re, x.im - y.im⟩

/-- Conversion of the elements of the real matrix, sparse.h:60-64 (which has no assertions; those of `make` hold for every matrix in valid
form). -/
noncomputable def toC (x : Fl) : CFl := ⟨x, 0⟩

/-- The complex matrix comes first, sparse_{plus,minus,times}_tr_cdouble.cc:24-25. -/
noncomputable def binopTR (op : CFl → CFl → CFl) (a : Sparse CFl) (b : Sparse Fl) : Res (Sparse CFl) := do
  let b' ← mapData toC b
  binop isZeroC op a b'

/-- The real matrix comes first, sparse_{plus,minus,times}_tr_cdouble.cc:26-27. -/
noncomputable def binopRT (op : CFl → CFl → CFl) (a : Sparse Fl) (b : Sparse CFl) : Res (Sparse CFl) := do
  let a' ← mapData toC a
  binop isZeroC op a' b

end

end Verif.SparseFl
