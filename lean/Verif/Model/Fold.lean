import Verif.Core.Loop
import Verif.Model.Tensor
/-
Model of tensor contractions.
/repo/src/tensor/tensor_fold.cc, tensor_fold_d.cc, tensor_fold_z.cc, tensor_fold_dz.cc,
tensor_foldin.cc, tensor_foldin_d.cc, tensor_foldin_z.cc.

The BLAS routine gemm (gemm.cc:30-80) is represented by its specification.
-/
namespace Verif.Tensor

open Verif

variable {α : Type}

/-- BLAS transposition arguments 'N', 'T', 'C'. -/
inductive BlasOp where
  | N | T | C
deriving DecidableEq, Repr

/-- Element (i, j) of op(A), for a matrix with leading dimension `ld` which starts at position
`off` of an array. -/
def BlasOp.entry (conj : α → α) (op : BlasOp) (a : List α) (off ld i j : Nat) : Option α :=
  match op with
  | .N => a[off + i + ld * j]?
  | .T => a[off + j + ld * i]?
  | .C => (a[off + j + ld * i]?).map conj

/-- Specification of gemm with alpha = 1 and beta = 0: it stores op1(A)*op2(B), of size m x n, with
inner dimension k, at the position offC with leading dimension ldc. A leading dimension which is too
small is rejected by BLAS; this is represented by an invalid action. -/
def gemm [Zero α] [Add α] [Mul α] (conj : α → α) (op1 op2 : BlasOp) (m n k : Nat)
    (a : List α) (offA lda : Nat) (b : List α) (offB ldb : Nat) (offC ldc : Nat) :
    List (Nat × Option α) :=
  if lda < max 1 (if op1 = .N then m else k) ∨ ldb < max 1 (if op2 = .N then k else n) ∨
      ldc < max 1 m then [(0, none)]
  else
    (List.range n).flatMap fun j => (List.range m).map fun i =>
      (offC + i + ldc * j, sumO k fun l => do
        let x ← op1.entry conj a offA lda i l
        let y ← op2.entry conj b offB ldb l j
        pure (x * y))

/-- do_fold from the selection of the BLAS pattern on, tensor_fold.cc:101-160; `size` is the number of
elements of the output. -/
def foldBody [Zero α] [Add α] [Mul α] (conj : α → α) (doConj : Bool) (a b : List α)
    (size i_len j_len k_len l_len m_len : Nat) : Res (List α) :=
  let transa : BlasOp := if doConj then .C else .T
  if i_len = 1 ∧ k_len = 1 then
    runWrites size (gemm conj transa .N j_len m_len l_len a 0 l_len b 0 l_len 0 j_len)
  else if i_len = 1 ∧ m_len = 1 then
    runWrites size (gemm conj transa .T j_len k_len l_len a 0 l_len b 0 k_len 0 j_len)
  else if i_len ≠ 1 ∧ j_len = 1 ∧ doConj = false ∧ k_len = 1 then
    runWrites size (gemm conj .N .N i_len m_len l_len a 0 i_len b 0 l_len 0 i_len)
  else if i_len ≠ 1 ∧ j_len = 1 ∧ doConj = false ∧ m_len = 1 then
    runWrites size (gemm conj .N .T i_len k_len l_len a 0 i_len b 0 k_len 0 i_len)
  else do
    let op2 : BlasOp := if doConj then .C else .T
    let ij_len := i_len * j_len
    let il_len := i_len * l_len
    let kl_len := k_len * l_len
    let jk_len := j_len * k_len
    let c ← runWrites size ((List.range m_len).flatMap fun m => (List.range j_len).flatMap fun j =>
      gemm conj .N op2 i_len k_len l_len a (il_len * j) i_len b (kl_len * m) k_len
        (i_len * (j + jk_len * m)) ij_len)
    pure (if doConj then c.map conj else c)

/-- do_fold, tensor_fold.cc:31-161. `aliasA` and `aliasB` tell whether `output` is the same variable
as `a` or `b`: after the assignment in :97 the elements of that argument are the ones of the new
tensor, none of which is initialised. Elements which are not initialised are represented by
an empty array, so that each access to them is invalid. -/
def doFoldInto [Zero α] [Add α] [Mul α] (conj : α → α) (doConj aliasA aliasB : Bool) (a : Tensor α)
    (ndx1 : Int) (b : Tensor α) (ndx2 : Int) : Res (Tensor α) := do
  let n1 ← normalizeIndex ndx1 a.rank
  let n2 ← normalizeIndex ndx2 b.rank
  let n1 := n1.toNat
  let n2 := n2.toNat
  let i_len := (a.dims.take n1).foldl (· * ·) 1
  let l_len ← Res.ofOption a.dims[n1]?
  Res.assert (l_len ≠ 0)                                        -- :59-66
  let j_len := (a.dims.drop (n1 + 1)).foldl (· * ·) 1
  let k_len := (b.dims.take n2).foldl (· * ·) 1
  let l_len' ← Res.ofOption b.dims[n2]?
  Res.assert (l_len = l_len')                                   -- :77-84
  let m_len := (b.dims.drop (n2 + 1)).foldl (· * ·) 1
  let rest := a.dims.take n1 ++ a.dims.drop (n1 + 1) ++ (b.dims.take n2 ++ b.dims.drop (n2 + 1))
  let newDims := if rest.length = 0 then [1] else rest          -- :42, :93-96
  if totalSize newDims = 0 then pure ⟨newDims, []⟩              -- :98-99
  else do
    let pA := if aliasA then [] else a.data                     -- :105-106
    let pB := if aliasB then [] else b.data
    let c ← foldBody conj doConj pA pB (totalSize newDims) i_len j_len k_len l_len m_len
    pure ⟨newDims, c⟩

/-- do_fold with a new variable as output, as it is called by fold() and foldc(),
tensor_fold_d.cc:43-44, tensor_fold_z.cc:43-44. -/
def doFold [Zero α] [Add α] [Mul α] (conj : α → α) (doConj : Bool) (a : Tensor α) (ndx1 : Int)
    (b : Tensor α) (ndx2 : Int) : Res (Tensor α) := doFoldInto conj doConj false false a ndx1 b ndx2

/-- fold for two real or two complex tensors, tensor_fold_d.cc:40-46, tensor_fold_z.cc:40-46.  The
versions for real and complex arguments (tensor_fold_dz.cc) convert the real argument first. -/
def fold [Zero α] [Add α] [Mul α] (a : Tensor α) (ndx1 : Int) (b : Tensor α) (ndx2 : Int) :
    Res (Tensor α) := doFold id false a ndx1 b ndx2

/-- foldc for two complex tensors, tensor_fold_z.cc:65-71. -/
def foldc [Zero α] [Add α] [Mul α] (conj : α → α) (a : Tensor α) (ndx1 : Int) (b : Tensor α)
    (ndx2 : Int) : Res (Tensor α) := doFold conj true a ndx1 b ndx2

/-- foldc for two real tensors, tensor_fold_d.cc:54-60. -/
def foldcRR [Zero α] [Add α] [Mul α] (a : Tensor α) (ndx1 : Int) (b : Tensor α) (ndx2 : Int) :
    Res (Tensor α) := doFold id false a ndx1 b ndx2

/-- fold_into, tensor_fold_d.cc:62-66, tensor_fold_z.cc:73-77, in a program whose variables hold the
tensors `st`; `c`, `a` and `b` are the variables used as arguments. -/
def foldInto [Zero α] [Add α] [Mul α] (st : Nat → Tensor α) (c a : Nat) (ndx1 : Int) (b : Nat)
    (ndx2 : Int) : Res (Nat → Tensor α) := do
  let t ← doFoldInto id false (c = a) (c = b) (st a) ndx1 (st b) ndx2
  pure fun v => if v = c then t else st v

/-- mmult, tensor_fold_d.cc:69-72, tensor_fold_z.cc:80-83. -/
def mmult [Zero α] [Add α] [Mul α] (m1 m2 : Tensor α) : Res (Tensor α) := fold m1 (-1) m2 0

/-- to_complex, tensor_to_complex.cc: the embedding of real numbers applied to each element. -/
def toComplex {β : Type} (emb : α → β) (a : Tensor α) : Tensor β := ⟨a.dims, a.data.map emb⟩

/-- foldc(real, complex), tensor_fold_dz.cc:31-35: it calls fold, not foldc. -/
def foldcRC {β : Type} [Zero β] [Add β] [Mul β] (emb : α → β) (a : Tensor α) (ndx1 : Int)
    (b : Tensor β) (ndx2 : Int) : Res (Tensor β) := fold (toComplex emb a) ndx1 b ndx2

/-- foldc(complex, real), tensor_fold_dz.cc:48-52. -/
def foldcCR {β : Type} [Zero β] [Add β] [Mul β] (emb : α → β) (conj : β → β) (a : Tensor β)
    (ndx1 : Int) (b : Tensor α) (ndx2 : Int) : Res (Tensor β) :=
  foldc conj a ndx1 (toComplex emb b) ndx2

/-- do_foldin_into, tensor_foldin.cc:31-110, with the same convention for aliases as `doFoldInto`. For two tensors of rank one `new_dims` has no elements,
and the write `new_dims.at(0) = 1` (:85-88) is out of bounds. -/
def doFoldinInto [Zero α] [Add α] [Mul α] (aliasA aliasB : Bool) (a : Tensor α) (ndx1 : Int)
    (b : Tensor α) (ndx2 : Int) : Res (Tensor α) := do
  let n1 ← normalizeIndex ndx1 a.rank
  let n2 ← normalizeIndex ndx2 b.rank
  let n1 := n1.toNat
  let n2 := n2.toNat
  let k_len := (b.dims.take n2).foldl (· * ·) 1
  let l_len ← Res.ofOption b.dims[n2]?
  let i_len := (a.dims.take n1).foldl (· * ·) 1
  let l_len' ← Res.ofOption a.dims[n1]?
  Res.assert (l_len = l_len')                                   -- :64-71
  let j_len := (a.dims.drop (n1 + 1)).foldl (· * ·) 1
  let m_len := (b.dims.drop (n2 + 1)).foldl (· * ·) 1
  let newDims := b.dims.take n2 ++ (a.dims.take n1 ++ (a.dims.drop (n1 + 1) ++
    b.dims.drop (n2 + 1)))
  if newDims.length = 0 then .ub                                -- :85-88
  else if totalSize newDims = 0 then pure ⟨newDims, []⟩         -- :90-91
  else do
    let il_len := i_len * l_len
    let kl_len := k_len * l_len
    let ki_len := k_len * i_len
    let pA := if aliasA then [] else a.data
    let pB := if aliasB then [] else b.data
    let c ← runWrites (totalSize newDims) ((List.range m_len).flatMap fun m =>
      (List.range j_len).flatMap fun j =>
        gemm id .N .T k_len i_len l_len pB (kl_len * m) k_len pA (il_len * j) i_len
          (ki_len * (j + j_len * m)) k_len)
    pure ⟨newDims, c⟩

/-- foldin, tensor_foldin_d.cc:35-41, tensor_foldin_z.cc:34-40. -/
def foldin [Zero α] [Add α] [Mul α] (a : Tensor α) (ndx1 : Int) (b : Tensor α) (ndx2 : Int) :
    Res (Tensor α) := doFoldinInto false false a ndx1 b ndx2

/-- foldin_into, tensor_foldin_d.cc:47-52, tensor_foldin_z.cc:46-51. -/
def foldinInto [Zero α] [Add α] [Mul α] (st : Nat → Tensor α) (c a : Nat) (ndx1 : Int) (b : Nat)
    (ndx2 : Int) : Res (Nat → Tensor α) := do
  let t ← doFoldinInto (c = a) (c = b) (st a) ndx1 (st b) ndx2
  pure fun v => if v = c then t else st v

end Verif.Tensor
