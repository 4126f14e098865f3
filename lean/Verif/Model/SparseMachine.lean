import Verif.Model.Machine
import Verif.Model.Sparse
/-
Model of the sizes and columns of sparse matrices in machine words: kron, full and the product of a
sparse matrix and a tensor.  The constructors of sparse matrices, sums, transposes and elementwise
functions never multiply sizes; `safe_size` is in Model/Machine.lean.
/repo/src/sparse/sparse_kron.hpp, /repo/include/tensor/detail/sparse_base.hpp,
/repo/src/sparse/mmult_sparse_tensor.h.

What an overflow does is the parameter `ov` of Model/Machine.lean; the kind of the elements is
the parameter `alloc`, which is newReal or newComplex.  Simplification: negative sizes and columns,
which appear only if overflows wrap, are undefined behaviour.
-/
namespace Verif.SparseMachine

open Verif Verif.Machine

variable {α : Type}

/-- A size or column which is not negative. -/
def nat (x : Int) : Res Nat := if 0 ≤ x then .ok x.toNat else .ub

/-- Indices(n), vector.h:43: elements of type `index`, which are as large as a double. -/
def newIndices (n : Int) : Res Nat := do
  let b ← newReal n
  pure b.2

/-- `s1.priv_column()[i] + cols1 * s2.priv_column()[j]`, sparse_kron.hpp:57. -/
def kronColumn (ov : Int → Res Int) (cols1 c d : Nat) : Res Nat := do
  let p ← word ov ((cols1 : Int) * d)
  let q ← word ov ((c : Int) + p)
  nat q

/-- Loops over j and i of do_kron for fixed l and k, sparse_kron.hpp:54-59. -/
def kronRow [Mul α] (ov : Int → Res Int) (s2 s1 : Sparse α) (l k : Nat) :
    Res (List (Option (Nat × α))) := do
  let a2 ← Res.ofOption s2.rowStart[l]?
  let b2 ← Res.ofOption s2.rowStart[l + 1]?
  let a1 ← Res.ofOption s1.rowStart[k]?
  let b1 ← Res.ofOption s1.rowStart[k + 1]?
  let js ← collect (fun j => collect (fun i => do
    let x ← Res.ofOption s1.data[i]?
    let y ← Res.ofOption s2.data[j]?
    let c ← Res.ofOption s1.column[i]?
    let d ← Res.ofOption s2.column[j]?
    let q ← kronColumn ov s1.cols c d
    pure (some (q, x * y))) a1 (b1 - a1)) a2 (b2 - a2)
  pure js.flatten

/-- do_kron, sparse_kron.hpp:26-64, with the constructor Sparse(rows, cols), sparse_base.hpp:54-62. -/
def kron [Mul α] (ov : Int → Res Int) (alloc : Int → Res (Nat × Nat)) (s2 s1 : Sparse α) :
    Res (Sparse α) := do
  let n1 ← s1.length
  let n2 ← s2.length
  let nonzero ← word ov ((n1 : Int) * n2)
  let totalRows ← word ov ((s1.rows : Int) * s2.rows)
  let totalCols ← word ov ((s1.cols : Int) * s2.cols)
  let rows ← nat totalRows
  let cols ← nat totalCols
  if nonzero = 0 then do
    let r ← word ov (totalRows + 1)
    let _ ← newIndices r
    pure (Sparse.zeros rows cols)
  else do
    let d ← alloc nonzero
    let c ← newIndices nonzero
    let r ← word ov (totalRows + 1)
    let r ← newIndices r
    let x ← collect (fun l => collect (kronRow ov s2 s1 l) 0 s1.rows) 0 s2.rows
    let x := x.flatten
    let data ← runWrites d.2 (seqFrom 0 (x.flatten.map fun p => p.map (·.2)))
    let column ← runWrites c (seqFrom 0 (x.flatten.map fun p => p.map (·.1)))
    let rowStart ← runWrites r (seqFrom 0 ((0 :: rowEnds 0 x).map some))
    Sparse.make rows cols rowStart column data

/-- Inner loop of full, sparse_base.hpp:218-220. -/
def fullRow (ov : Int → Res Int) (i : Nat) : Nat → List Nat → List α → Tensor α →
    Res (List Nat × List α × Tensor α)
  | 0, cs, ds, out => .ok (cs, ds, out)
  | l + 1, c :: cs, d :: ds, out => do
    let out ← Machine.set ov out [(i : Int), (c : Int)] d
    fullRow ov i l cs ds out
  | _ + 1, _, _, _ => .ub

/-- Outer loop of full, sparse_base.hpp:217-221. -/
def fullLoop (ov : Int → Res Int) (rs : List Nat) (i : Nat) : Nat → List Nat → List α → Tensor α →
    Res (Tensor α)
  | 0, _, _, out => .ok out
  | n + 1, cs, ds, out => do
    let a ← Res.ofOption rs[i]?
    let b ← Res.ofOption rs[i + 1]?
    if b < a then .ub
    else do
      let x ← fullRow ov i (b - a) cs ds out
      fullLoop ov rs (i + 1) n x.1 x.2.1 x.2.2

/-- full, sparse_base.hpp:204-224. -/
def full [Zero α] (ov : Int → Res Int) (alloc : Int → Res (Nat × Nat)) (s : Sparse α) :
    Res (Tensor α) := do
  let o ← makeArgs ov alloc [(s.rows : Int), (s.cols : Int)]
  if o.cells < o.size then .ub
  else if s.rows ≠ 0 ∧ s.cols ≠ 0 then
    fullLoop ov s.rowStart 0 s.rows s.column s.data ⟨[s.rows, s.cols], List.replicate o.size 0⟩
  else pure ⟨[s.rows, s.cols], List.replicate o.size 0⟩

/-- mmult(Sparse, Tensor), mmult_sparse_tensor.h:80-109 (do_mmult).  mult_sp_t, :28-73, moves
pointers and multiplies no sizes. -/
def mmultST [Zero α] [Add α] [Mul α] (ov : Int → Res Int) (alloc : Int → Res (Nat × Nat))
    (m1 : Sparse α) (m2 : Tensor α) : Res (Tensor α) := do
  let lLen ← mulLoop ov 1 (m2.dims.tail.map Int.ofNat)
  let jLen ← m2.dimension 0
  Res.assert (jLen = m1.cols)
  let o ← makeDims ov alloc ((m1.rows :: m2.dims.tail).map Int.ofNat)
  if o.cells < o.size then .ub
  else do
    let l ← nat lLen
    let data ← Sparse.mmultLoop m1 m2.data jLen 0 l (List.replicate o.size 0)
    pure ⟨m1.rows :: m2.dims.tail, data⟩

end Verif.SparseMachine
