import Verif.Core.Modify
import Verif.Model.Tensor
import Verif.Model.Indices
import Verif.Model.Sort
/-
Model of sparse matrices.  /repo/include/tensor/sparse.h, detail/sparse_base.hpp,
/repo/src/sparse/*.

Simplifications: the two dimensions, the row pointers and the columns are natural numbers (negative
coordinates are not modelled); the tensor of stored values is represented by the list of its
elements, because nothing but its size and its elements is used.  Comparison of numbers with zero is
exact.  Elementwise functions on the stored values are those of C32.
-/
namespace Verif

/-- class Sparse, sparse.h:35-104 (fields :97-103). -/
structure Sparse (α : Type) where
  rows : Nat
  cols : Nat
  rowStart : List Nat
  column : List Nat
  data : List α
deriving Repr, DecidableEq

/-- `for (k = i; k < i + n; k++) out.push(f(k))`. -/
def collect {β : Type} (f : Nat → Res β) (i : Nat) : Nat → Res (List β)
  | 0 => .ok []
  | n + 1 => do
    let x ← f i
    let xs ← collect f (i + 1) n
    pure (x :: xs)

/-- Values of `out_column - out_begin` after each row, when `k` elements were stored before. -/
def rowEnds {β : Type} (k : Nat) : List (List β) → List Nat
  | [] => []
  | r :: rs => (k + r.length) :: rowEnds (k + r.length) rs

namespace Sparse

variable {α β : Type}

/-- Sparse(dims, row_start, column, data), sparse_base.hpp:79-85. -/
def make (rows cols : Nat) (rowStart column : List Nat) (data : List α) : Res (Sparse α) := do
  Res.assert (rowStart.length = rows + 1)
  pure ⟨rows, cols, rowStart, column, data⟩

/-- Sparse(rows, cols), the constructor of sparse_base.hpp:54-62 with nonzero = 0. -/
def zeros (rows cols : Nat) : Sparse α := ⟨rows, cols, List.replicate (rows + 1) 0, [], []⟩

/-- safe_size, sparse_base.hpp:33-42. -/
def safeSize (nonzero rows cols : Nat) : Res Nat :=
  if rows = 0 ∨ cols = 0 then .ok 0
  else do
    Res.assert (nonzero / rows ≤ cols)
    pure nonzero

/-- Sparse(rows, cols, nonzero), sparse_base.hpp:54-62: the columns and the values are not
initialised; `column` and `data` are what the memory contains. -/
def Preallocated (rows cols nonzero : Nat) (s : Sparse α) : Prop :=
  safeSize nonzero rows cols = .ok s.column.length ∧ s.data.length = s.column.length ∧
  s.rows = rows ∧ s.cols = cols ∧ s.rowStart = List.replicate (rows + 1) 0

/-- length(), sparse.h:80. -/
def length (s : Sparse α) : Res Nat :=
  if s.rows ≠ 0 then Res.ofOption s.rowStart[s.rows]? else .ok 0

/-- Inner loop of the conversion, sparse_base.hpp:191-197: the stored elements of row r. -/
def ofTensorRow [Zero α] [DecidableEq α] (t : Tensor α) (r c : Nat) : Nat → Res (List (Nat × α))
  | 0 => .ok []
  | n + 1 => do
    let v ← t.get2 r c
    let rest ← ofTensorRow t r (c + 1) n
    pure (if v = 0 then rest else (c, v) :: rest)

/-- Sparse(const Tensor &), sparse_base.hpp:174-200 (number_of_nonzero :160-172).  A vector makes
columns() read beyond the end of the dimensions.  (Empty tensors of rank 3 and more do not stop the
program; this is not modelled.) -/
def ofTensor [Zero α] [DecidableEq α] (t : Tensor α) : Res (Sparse α) :=
  match t.dims with
  | [] => .abort
  | [_] => .ub
  | [nrows, ncols] => do
    let nonzero := t.data.countP fun x => !decide (x = 0)
    let rows ← collect (fun r => ofTensorRow t r 0 ncols) 0 nrows
    let stored := rows.flatten
    let data ← runWrites nonzero (seqFrom 0 (stored.map fun p => some p.2))
    let column ← runWrites nonzero (seqFrom 0 (stored.map fun p => some p.1))
    let rowStart ← runWrites (nrows + 1) (seqFrom 0 ((0 :: rowEnds 0 rows).map some))
    pure ⟨nrows, ncols, rowStart, column, data⟩
  | _ => .abort

/-- Inner loop of full, sparse_base.hpp:218-220, with `column` and `data` as lists of what remains. -/
def fullRow (i : Nat) : Nat → List Nat → List α → Tensor α → Res (List Nat × List α × Tensor α)
  | 0, cs, ds, out => .ok (cs, ds, out)
  | l + 1, c :: cs, d :: ds, out => do
    let out ← out.set2 i c d
    fullRow i l cs ds out
  | _ + 1, _, _, _ => .ub

/-- Outer loop of full, sparse_base.hpp:217-221.  (A negative number of elements makes the inner loop
run away.) -/
def fullLoop (rs : List Nat) (i : Nat) : Nat → List Nat → List α → Tensor α → Res (Tensor α)
  | 0, _, _, out => .ok out
  | n + 1, cs, ds, out => do
    let a ← Res.ofOption rs[i]?
    let b ← Res.ofOption rs[i + 1]?
    if b < a then .ub
    else do
      let x ← fullRow i (b - a) cs ds out
      fullLoop rs (i + 1) n x.1 x.2.1 x.2.2

/-- full, sparse_base.hpp:204-224. -/
def full [Zero α] (s : Sparse α) : Res (Tensor α) :=
  if s.rows ≠ 0 ∧ s.cols ≠ 0 then
    fullLoop s.rowStart 0 s.rows s.column s.data (Tensor.fill [s.rows, s.cols] 0)
  else .ok (Tensor.fill [s.rows, s.cols] 0)

/-- Loop of operator(), sparse_base.hpp:280-289; `n` is the number of remaining elements. -/
def getLoop [Zero α] (s : Sparse α) (col : Int) (ndx : Nat) : Nat → Res α
  | 0 => .ok 0
  | n + 1 => do
    let c ← Res.ofOption s.column[ndx]?
    if (c : Int) = col then Res.ofOption s.data[ndx]?
    else if (c : Int) > col then .ok 0
    else getLoop s col (ndx + 1) n

/-- operator()(row, col), sparse_base.hpp:275-291. -/
def get [Zero α] (s : Sparse α) (row col : Int) : Res α := do
  let row ← Tensor.normalizeIndex row s.rows
  let col ← Tensor.normalizeIndex col s.cols
  let a ← Res.ofOption s.rowStart[row.toNat]?
  let b ← Res.ofOption s.rowStart[(row + 1).toNat]?
  getLoop s col a (b - a)

/-- eye, sparse_base.hpp:238-252. -/
def eye [One α] (rows cols : Nat) : Res (Sparse α) := do
  let nel := min rows cols
  let data := List.replicate nel 1
  let rowStart := (List.range (rows + 1)).map fun i => min i nel
  let column ← Indices.range 0 ((nel : Int) - 1) 1
  make rows cols rowStart (column.map Int.toNat) data

/-- Elementwise functions of the stored values which keep the structure: negation, product and
division by a number (src/generated/sparse_{minus_t1,times,divide}_*.cc), conj, real, imag
(src/sparse/sparse_{conj,real,imag}.cc), to_complex (src/sparse/sparse_d_to_z.cc). -/
def mapData (f : α → β) (s : Sparse α) : Res (Sparse β) :=
  make s.rows s.cols s.rowStart s.column (s.data.map f)

/-- `*(out_data++) = value; *(out_column++) = c` if value is not zero, sparse_binop.hpp:102-105; the
buffers have `cap` elements. -/
def push [Zero α] [DecidableEq α] (cap : Nat) (out : List (Nat × α)) (c : Nat) (value : α) :
    Res (List (Nat × α)) :=
  if ¬ value = 0 then (if out.length < cap then .ok (out ++ [(c, value)]) else .ub) else .ok out

/-- The passes of the loop of sparse_binop for one row, sparse_binop.hpp:68-105.  `l1` and `l2` are the
numbers of unprocessed elements of the row; `m1`, `m2` the columns and values which the iterators
point to. `l1 + l2 < n`. (If a column is out of range, the counters l1 and l2 may become negative:
this is modelled as undefined behaviour, because the loop then runs out of the arrays.) -/
def mergeRow [Zero α] [DecidableEq α] (op : α → α → α) (cols cap : Nat) :
    (n l1 l2 : Nat) → (m1 m2 : List Nat × List α) → (out : List (Nat × α)) →
    Res ((List Nat × List α) × (List Nat × List α) × List (Nat × α))
  | 0, _, _, _, _, _ => .ub
  | n + 1, l1, l2, m1, m2, out => do
    let c1 ← if l1 ≠ 0 then Res.ofOption m1.1.head? else .ok cols
    let c2 ← if l2 ≠ 0 then Res.ofOption m2.1.head? else .ok cols
    if (c1 < c2 ∧ l1 = 0) ∨ (c2 < c1 ∧ l2 = 0) then .ub
    else if c1 < c2 then do
      let x ← Res.ofOption m1.2.head?
      let out ← push cap out c1 (op x 0)
      mergeRow op cols cap n (l1 - 1) l2 (m1.1.tail, m1.2.tail) m2 out
    else if c2 < c1 then do
      let y ← Res.ofOption m2.2.head?
      let out ← push cap out c2 (op 0 y)
      mergeRow op cols cap n l1 (l2 - 1) m1 (m2.1.tail, m2.2.tail) out
    else if c2 < cols then do
      let x ← Res.ofOption m1.2.head?
      let y ← Res.ofOption m2.2.head?
      let out ← push cap out c1 (op x y)
      mergeRow op cols cap n (l1 - 1) (l2 - 1) (m1.1.tail, m1.2.tail) (m2.1.tail, m2.2.tail) out
    else .ok (m1, m2, out)

/-- The loop of sparse_binop, sparse_binop.hpp:59-106, written as a loop over the rows with a loop over
the elements of each row. Returns the stored elements and the row pointers after the first one. -/
def mergeLoop [Zero α] [DecidableEq α] (op : α → α → α) (cols cap : Nat) (rs1 rs2 : List Nat)
    (i : Nat) : Nat → (m1 m2 : List Nat × List α) → (out : List (Nat × α)) →
    Res (List Nat × List (Nat × α))
  | 0, _, _, out => .ok ([], out)
  | n + 1, m1, m2, out => do
    let a1 ← Res.ofOption rs1[i]?
    let b1 ← Res.ofOption rs1[i + 1]?
    let a2 ← Res.ofOption rs2[i]?
    let b2 ← Res.ofOption rs2[i + 1]?
    if b1 < a1 ∨ b2 < a2 then .ub
    else do
      let x ← mergeRow op cols cap (b1 - a1 + (b2 - a2) + 1) (b1 - a1) (b2 - a2) m1 m2 out
      let y ← mergeLoop op cols cap rs1 rs2 (i + 1) n x.1 x.2.1 x.2.2
      pure (x.2.2.length :: y.1, y.2)

/-- sparse_binop, sparse_binop.hpp:27-113 (the same text is in sparse_ops.hpp). -/
def binop [Zero α] [DecidableEq α] (op : α → α → α) (m1 m2 : Sparse α) : Res (Sparse α) := do
  Res.assert (m1.rows = m2.rows ∧ m1.cols = m2.cols)
  if m1.rows = 0 ∨ m1.cols = 0 then pure (zeros m1.rows m1.cols)
  else do
    let maxSize := m1.data.length + m2.data.length
    let x ← mergeLoop op m1.cols maxSize m1.rowStart m2.rowStart 0 m1.rows
      (m1.column, m1.data) (m2.column, m2.data) []
    let rowStart ← runWrites (m1.rows + 1) (seqFrom 0 ((0 :: x.1).map some))
    make m1.rows m1.cols rowStart (x.2.map (·.1)) (x.2.map (·.2))

/-- Loops over j and i of do_kron for fixed l and k, sparse_kron.hpp:54-59. -/
def kronRow [Mul α] (s2 s1 : Sparse α) (l k : Nat) : Res (List (Option (Nat × α))) := do
  let a2 ← Res.ofOption s2.rowStart[l]?
  let b2 ← Res.ofOption s2.rowStart[l + 1]?
  let a1 ← Res.ofOption s1.rowStart[k]?
  let b1 ← Res.ofOption s1.rowStart[k + 1]?
  pure ((List.range' a2 (b2 - a2)).flatMap fun j => (List.range' a1 (b1 - a1)).map fun i =>
    match s1.data[i]?, s2.data[j]?, s1.column[i]?, s2.column[j]? with
    | some x, some y, some c, some d => some (c + s1.cols * d, x * y)
    | _, _, _, _ => none)

/-- do_kron, sparse_kron.hpp:26-64; also kron, sparse_kron_d.cc:26-29, sparse_kron_z.cc:26-29. -/
def kron [Mul α] (s2 s1 : Sparse α) : Res (Sparse α) := do
  let n1 ← s1.length
  let n2 ← s2.length
  let nonzero := n1 * n2
  let totalRows := s1.rows * s2.rows
  let totalCols := s1.cols * s2.cols
  if nonzero = 0 then pure (zeros totalRows totalCols)
  else do
    let rows ← collect (fun l => collect (kronRow s2 s1 l) 0 s1.rows) 0 s2.rows
    let rows := rows.flatten
    let data ← runWrites nonzero (seqFrom 0 (rows.flatten.map fun p => p.map (·.2)))
    let column ← runWrites nonzero (seqFrom 0 (rows.flatten.map fun p => p.map (·.1)))
    let rowStart ← runWrites (totalRows + 1) (seqFrom 0 ((0 :: rowEnds 0 rows).map some))
    make totalRows totalCols rowStart column data

/-- kron2, sparse_kron_d.cc:31-34, sparse_kron_z.cc:31-34. -/
def kron2 [Mul α] (s1 s2 : Sparse α) : Res (Sparse α) := kron s2 s1

/-- kron2_sum, sparse_kron_d.cc:36-40, sparse_kron_z.cc:36-40. -/
def kron2Sum [Zero α] [One α] [Add α] [Mul α] [DecidableEq α] (s2 s1 : Sparse α) :
    Res (Sparse α) := do
  let n2 ← s2.length
  let e2 ← eye n2 n2
  let x ← kron s1 e2
  let n1 ← s1.length
  let e1 ← eye n1 n1
  let y ← kron e1 s2
  binop (· + ·) x y

/-- sparse_rows, sparse_rows.cc:24-34: the rows of the stored elements. -/
def sparseRows (rowStart column : List Nat) : Res (List Nat) := do
  let n := rowStart.length - 1
  let rows ← collect (fun i => do
    let a ← Res.ofOption rowStart[i]?
    let b ← Res.ofOption rowStart[i + 1]?
    pure (List.replicate (b - a) i)) 0 n
  runWrites column.length (seqFrom 0 (rows.flatten.map some))

/-- sparse_triplet, sparse_base.hpp:64-77. -/
structure Triplet (α : Type) where
  row : Nat
  col : Nat
  value : α
deriving Repr, DecidableEq

/-- sparse_triplet::operator<, sparse_base.hpp:70-76. -/
def Triplet.less (a b : Triplet α) : Prop :=
  if a.row < b.row then True else if a.row = b.row then a.col < b.col else False

/-- First loop of the constructor from coordinates, sparse_base.hpp:101-109. -/
def gather [Zero α] [DecidableEq α] : List Nat → List Nat → List α → (nrows ncols : Nat) →
    Res (Nat × Nat × List (Triplet α))
  | [], _, _, nrows, ncols => .ok (nrows, ncols, [])
  | r :: rs, c :: cs, d :: ds, nrows, ncols => do
    let x ← gather rs cs ds (max nrows r) (max ncols c)
    pure (x.1, x.2.1, if ¬ d = 0 then ⟨r, c, d⟩ :: x.2.2 else x.2.2)
  | _ :: _, _, _, _, _ => .ub

/-- Second loop, sparse_base.hpp:120-133, which returns the row pointers and the stored elements.
`next` is last_row + 1; last_col is always 0; `j` is the number of stored elements. -/
def place : List (Triplet α) → (next j nrows : Nat) → List Nat × List (Nat × α)
  | [], next, j, nrows => (List.replicate (nrows + 1 - next) j, [])
  | d :: ds, next, j, nrows =>
    if d.row + 1 = next then
      if d.col = 0 then place ds next j nrows
      else
        let x := place ds next (j + 1) nrows
        (x.1, (d.col, d.value) :: x.2)
    else
      let x := place ds (max next (d.row + 1)) (j + 1) nrows
      (List.replicate (d.row + 1 - next) j ++ x.1, (d.col, d.value) :: x.2)

/-- The constructor from coordinates after sorting, sparse_base.hpp:111-136. If elements are dropped,
the end of the columns and values is not initialised. -/
def ofSorted (sorted : List (Triplet α)) (nrows ncols : Nat) : Res (Sparse α) := do
  let x := place sorted 0 0 nrows
  let rowStart ← updWrites (List.replicate (nrows + 1) 0) (seqFrom 0 (x.1.map some))
  let column ← runWrites sorted.length (seqFrom 0 (x.2.map fun p => some p.1))
  let data ← runWrites sorted.length (seqFrom 0 (x.2.map fun p => some p.2))
  pure ⟨nrows, ncols, rowStart, column, data⟩

/-- Sparse(rows, cols, data, nrows, ncols), sparse_base.hpp:87-137: the possible results, because
std::sort does not determine the order of equal coordinates. -/
def FromCoordinates [Zero α] [DecidableEq α] (rows cols : List Nat) (data : List α)
    (nrows ncols : Nat) (out : Res (Sparse α)) : Prop :=
  if cols.length = rows.length ∧ data.length = rows.length then
    match gather rows cols data nrows ncols with
    | .ok x => ∃ sorted, Tensor.StdSort Triplet.less x.2.2 sorted ∧ out = ofSorted sorted x.1 x.2.1
    | .abort => out = .abort
    | .ub => out = .ub
  else out = .abort

/-- transpose, sparse_transpose_d.cc:26-34, sparse_transpose_z.cc; adjoint, sparse_adjoint_d.cc:24-28,
sparse_adjoint_z.cc:26-34 with `conj`. -/
def Adjoint [Zero α] [DecidableEq α] (conj : α → α) (s : Sparse α) (out : Res (Sparse α)) : Prop :=
  match sparseRows s.rowStart s.column with
  | .ok rows => FromCoordinates s.column rows (s.data.map conj) s.cols s.rows out
  | .abort => out = .abort
  | .ub => out = .ub

/-- transpose, sparse_transpose_d.cc:26-34, sparse_transpose_z.cc. -/
def Transpose [Zero α] [DecidableEq α] (s : Sparse α) (out : Res (Sparse α)) : Prop :=
  Adjoint id s out

/-- `for (j = count; j; j--) accum += *(m++) * vector[*(c++)]`, mmult_sparse_tensor.h:52-54. -/
def rowDot [Add α] [Mul α] (vec : List α) (off : Nat) : Nat → List Nat → List α → α →
    Res (α × List Nat × List α)
  | 0, cs, ds, acc => .ok (acc, cs, ds)
  | n + 1, c :: cs, d :: ds, acc => do
    let v ← Res.ofOption vec[off + c]?
    rowDot vec off n cs ds (acc + d * v)
  | _ + 1, _, _, _ => .ub

/-- Loop over i of mult_sp_t with k_len == 1, mmult_sparse_tensor.h:50-56. -/
def mmultRows [Add α] [Mul α] (rs : List Nat) (vec : List α) (off i : Nat) : Nat → List Nat → List α →
    (p : Nat) → (dest : List α) → Res (List α)
  | 0, _, _, _, dest => .ok dest
  | n + 1, cs, ds, p, dest => do
    let acc ← Res.ofOption dest[p]?
    let a ← Res.ofOption rs[i]?
    let b ← Res.ofOption rs[i + 1]?
    if b < a then .ub
    else do
      let x ← rowDot vec off (b - a) cs ds acc
      mmultRows rs vec off (i + 1) n x.2.1 x.2.2 (p + 1) (dest.set p x.1)

/-- Loop over l of mult_sp_t with k_len == 1, mmult_sparse_tensor.h:47-57. -/
def mmultLoop [Add α] [Mul α] (s : Sparse α) (vec : List α) (jLen l : Nat) : Nat → (dest : List α) →
    Res (List α)
  | 0, dest => .ok dest
  | n + 1, dest => do
    let dest ← mmultRows s.rowStart vec (l * jLen) 0 s.rows s.column s.data (l * s.rows) dest
    mmultLoop s vec jLen (l + 1) n dest

/-- mmult(Sparse, Tensor), mmult_sparse_tensor.h:80-109 (do_mmult). -/
def mmultST [Zero α] [Add α] [Mul α] (m1 : Sparse α) (m2 : Tensor α) : Res (Tensor α) := do
  let jLen ← m2.dimension 0
  let dims := m1.rows :: m2.dims.tail
  let lLen := m2.dims.tail.foldl (· * ·) 1
  Res.assert (jLen = m1.cols)
  let out := Tensor.fill dims (0 : α)
  let data ← mmultLoop m1 m2.data jLen 0 lLen out.data
  pure ⟨dims, data⟩

/-- mult_t_sp with k_len == 1, mmult_tensor_sparse.h:27-49: steps (destination, source, stored element)
of the loops over j, x and i. -/
def multTSSteps (rs column : List Nat) (iLen jLen : Nat) : Res (List (Nat × Nat × Nat)) := do
  let js ← collect (fun j => do
    let a ← Res.ofOption rs[j]?
    let b ← Res.ofOption rs[j + 1]?
    let xs ← collect (fun x => do
      let l ← Res.ofOption column[x]?
      pure ((List.range iLen).map fun i => (l * iLen + i, j * iLen + i, x))) a (b - a)
    pure xs.flatten) 0 jLen
  pure js.flatten

/-- mult_t_sp with k_len == 1, mmult_tensor_sparse.h:27-49: `*d += *(v++) * m` for each step. -/
def multTSRun [Add α] [Mul α] (vec matrix : List α) : List (Nat × Nat × Nat) → List α → Res (List α)
  | [], dest => .ok dest
  | (d, v, x) :: ss, dest => do
    let y ← Res.ofOption dest[d]?
    let u ← Res.ofOption vec[v]?
    let m ← Res.ofOption matrix[x]?
    multTSRun vec matrix ss (dest.set d (y + u * m))

/-- mmult(Tensor, Sparse), mmult_tensor_sparse.h:55-85 (do_mmult). -/
def mmultTS [Zero α] [Add α] [Mul α] (m1 : Tensor α) (m2 : Sparse α) : Res (Tensor α) := do
  let iLen := m1.dims.dropLast.foldl (· * ·) 1
  let jLen ← m1.dimension (-1)
  let dims := m1.dims.dropLast ++ [m2.cols]
  Res.assert (jLen = m2.rows)
  let out := Tensor.fill dims (0 : α)
  let steps ← multTSSteps m2.rowStart m2.column iLen jLen
  let data ← multTSRun m1.data m2.data steps out.data
  pure ⟨dims, data⟩

/-- all_equal(Sparse, Sparse), sparse.h:115-121. -/
def allEqual [DecidableEq α] (s1 s2 : Sparse α) : Bool :=
  decide (s1.rows = s2.rows) && decide (s1.cols = s2.cols) && decide (s1.rowStart = s2.rowStart) &&
    decide (s1.column = s2.column) && decide (s1.data = s2.data)

end Sparse

end Verif
