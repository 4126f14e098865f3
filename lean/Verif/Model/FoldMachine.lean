import Verif.Model.Fold
import Verif.Model.Machine
/-
Model of the contractions of tensors in machine words: `index` has 64 bits (Model/Machine.lean), and the sizes
and leading dimensions which are given to gemm are converted to `blas::integer`, which has 32 bits in most of
the libraries (tensor_blas.h:86-125) and 64 in some.
/repo/src/tensor/tensor_fold.cc, tensor_foldin.cc, gemm.cc, /repo/include/tensor/tensor_blas.h.
-/
namespace Verif.Machine

open Verif Tensor

variable {α : Type}

/-- Conversion of `index` to an integer type of `w` bits, in the calls of gemm, gemm.cc:30-32, 46-49: the
value modulo 2^w. -/
def conv (w : Nat) (x : Int) : Int := Int.bmod x (2 ^ w)

/-- A call of gemm. Negative sizes and leading dimensions are rejected by BLAS, and pointers to before an array
are invalid; both are represented by an invalid action, as in `Tensor.gemm`. -/
def gemm [Zero α] [Add α] [Mul α] (w : Nat) (conj : α → α) (op1 op2 : BlasOp) (m n k : Int)
    (a : List α) (offA lda : Int) (b : List α) (offB ldb : Int) (offC ldc : Int) : List (Nat × Option α) :=
  if conv w m < 0 ∨ conv w n < 0 ∨ conv w k < 0 ∨ conv w lda < 0 ∨ conv w ldb < 0 ∨ conv w ldc < 0 ∨
      offA < 0 ∨ offB < 0 ∨ offC < 0 then [(0, none)]
  else Tensor.gemm conj op1 op2 (conv w m).toNat (conv w n).toNat (conv w k).toNat a offA.toNat (conv w lda).toNat
    b offB.toNat (conv w ldb).toNat offC.toNat (conv w ldc).toNat

/-- The actions of a loop, each of which may fail. -/
def collect {β : Type} : List (Res (List β)) → Res (List β)
  | [] => .ok []
  | r :: rs => do
    let x ← r
    let y ← collect rs
    pure (x ++ y)

/-- The calls in the loops of do_fold, tensor_fold.cc:148-154. -/
def foldCalls [Zero α] [Add α] [Mul α] (ov : Int → Res Int) (w : Nat) (conj : α → α) (op2 : BlasOp) (a b : List α)
    (i_len j_len k_len l_len m_len : Int) : Res (List (Nat × Option α)) := do
  let ij_len ← word ov (i_len * j_len)
  let il_len ← word ov (i_len * l_len)
  let kl_len ← word ov (k_len * l_len)
  let jk_len ← word ov (j_len * k_len)
  collect ((List.range m_len.toNat).flatMap fun (m : Nat) => (List.range j_len.toNat).map fun (j : Nat) => do
    let offA ← word ov (il_len * j)
    let offB ← word ov (kl_len * m)
    let x ← word ov (jk_len * m)
    let x ← word ov (j + x)
    let offC ← word ov (i_len * x)
    pure (gemm w conj .N op2 i_len k_len l_len a offA i_len b offB k_len offC ij_len))

/-- do_fold from the selection of the BLAS pattern on, tensor_fold.cc:101-160. -/
def foldBody [Zero α] [Add α] [Mul α] (ov : Int → Res Int) (w : Nat) (conj : α → α) (doConj : Bool) (a b : List α)
    (size : Nat) (i_len j_len k_len l_len m_len : Int) : Res (List α) :=
  let transa : BlasOp := if doConj then .C else .T
  if i_len = 1 ∧ k_len = 1 then
    runWrites size (gemm w conj transa .N j_len m_len l_len a 0 l_len b 0 l_len 0 j_len)
  else if i_len = 1 ∧ m_len = 1 then
    runWrites size (gemm w conj transa .T j_len k_len l_len a 0 l_len b 0 k_len 0 j_len)
  else if i_len ≠ 1 ∧ j_len = 1 ∧ doConj = false ∧ k_len = 1 then
    runWrites size (gemm w conj .N .N i_len m_len l_len a 0 i_len b 0 l_len 0 i_len)
  else if i_len ≠ 1 ∧ j_len = 1 ∧ doConj = false ∧ m_len = 1 then
    runWrites size (gemm w conj .N .T i_len k_len l_len a 0 i_len b 0 k_len 0 i_len)
  else do
    let ws ← foldCalls ov w conj (if doConj then .C else .T) a b i_len j_len k_len l_len m_len
    let c ← runWrites size ws
    pure (if doConj then c.map conj else c)

/-- do_fold, tensor_fold.cc:31-161, into a new variable. `alloc` is the allocation of the elements. -/
def doFold [Zero α] [Add α] [Mul α] (ov : Int → Res Int) (w : Nat) (alloc : Int → Res (Nat × Nat)) (conj : α → α)
    (doConj : Bool) (a : Tensor α) (ndx1 : Int) (b : Tensor α) (ndx2 : Int) : Res (Tensor α) := do
  let n1 ← normalizeIndex ov ndx1 a.rank
  let n2 ← normalizeIndex ov ndx2 b.rank
  let n1 := n1.toNat
  let n2 := n2.toNat
  let i_len ← mulLoop ov 1 ((a.dims.take n1).map Int.ofNat)
  let l_len ← Res.ofOption a.dims[n1]?
  Res.assert (l_len ≠ 0)                                        -- :59-66
  let j_len ← mulLoop ov 1 ((a.dims.drop (n1 + 1)).map Int.ofNat)
  let k_len ← mulLoop ov 1 ((b.dims.take n2).map Int.ofNat)
  let l_len' ← Res.ofOption b.dims[n2]?
  Res.assert (l_len = l_len')                                   -- :77-84
  let m_len ← mulLoop ov 1 ((b.dims.drop (n2 + 1)).map Int.ofNat)
  let rest := a.dims.take n1 ++ a.dims.drop (n1 + 1) ++ (b.dims.take n2 ++ b.dims.drop (n2 + 1))
  let newDims := if rest.length = 0 then [1] else rest          -- :42, :93-96
  let o ← makeDims ov alloc (newDims.map Int.ofNat)             -- :97
  if o.size = 0 then pure ⟨newDims, []⟩                         -- :98-99
  else do
    let c ← foldBody ov w conj doConj a.data b.data o.cells i_len j_len k_len l_len m_len
    pure ⟨newDims, c⟩

/-- The calls in the loops of do_foldin_into, tensor_foldin.cc:100-109. -/
def foldinCalls [Zero α] [Add α] [Mul α] (ov : Int → Res Int) (w : Nat) (a b : List α)
    (i_len j_len k_len l_len m_len : Int) : Res (List (Nat × Option α)) := do
  let il_len ← word ov (i_len * l_len)
  let kl_len ← word ov (k_len * l_len)
  let ki_len ← word ov (k_len * i_len)
  collect ((List.range m_len.toNat).flatMap fun (m : Nat) => (List.range j_len.toNat).map fun (j : Nat) => do
    let offB ← word ov (kl_len * m)
    let offA ← word ov (il_len * j)
    let x ← word ov (j_len * m)
    let x ← word ov (j + x)
    let offC ← word ov (ki_len * x)
    pure (gemm w id .N .T k_len i_len l_len b offB k_len a offA i_len offC k_len))

/-- do_foldin_into, tensor_foldin.cc:31-110, into a new variable. -/
def foldin [Zero α] [Add α] [Mul α] (ov : Int → Res Int) (w : Nat) (alloc : Int → Res (Nat × Nat))
    (a : Tensor α) (ndx1 : Int) (b : Tensor α) (ndx2 : Int) : Res (Tensor α) := do
  let n1 ← normalizeIndex ov ndx1 a.rank
  let n2 ← normalizeIndex ov ndx2 b.rank
  let n1 := n1.toNat
  let n2 := n2.toNat
  let k_len ← mulLoop ov 1 ((b.dims.take n2).map Int.ofNat)
  let l_len ← Res.ofOption b.dims[n2]?
  let i_len ← mulLoop ov 1 ((a.dims.take n1).map Int.ofNat)
  let l_len' ← Res.ofOption a.dims[n1]?
  Res.assert (l_len = l_len')                                   -- :64-71
  let j_len ← mulLoop ov 1 ((a.dims.drop (n1 + 1)).map Int.ofNat)
  let m_len ← mulLoop ov 1 ((b.dims.drop (n2 + 1)).map Int.ofNat)
  let newDims := b.dims.take n2 ++ (a.dims.take n1 ++ (a.dims.drop (n1 + 1) ++ b.dims.drop (n2 + 1)))
  if newDims.length = 0 then .ub                                -- :85-88
  else do
    let o ← makeDims ov alloc (newDims.map Int.ofNat)           -- :89
    if o.size = 0 then pure ⟨newDims, []⟩                       -- :90-91
    else do
      let ws ← foldinCalls ov w a.data b.data i_len j_len k_len l_len m_len
      let c ← runWrites o.cells ws
      pure ⟨newDims, c⟩

/-- fold, tensor_fold_d.cc:40-46, tensor_fold_z.cc:40-46. -/
def fold [Zero α] [Add α] [Mul α] (ov : Int → Res Int) (w : Nat) (alloc : Int → Res (Nat × Nat)) (a : Tensor α)
    (ndx1 : Int) (b : Tensor α) (ndx2 : Int) : Res (Tensor α) := doFold ov w alloc id false a ndx1 b ndx2

/-- mmult, tensor_fold_d.cc:69-72. -/
def mmult [Zero α] [Add α] [Mul α] (ov : Int → Res Int) (w : Nat) (alloc : Int → Res (Nat × Nat))
    (m1 m2 : Tensor α) : Res (Tensor α) := fold ov w alloc m1 (-1) m2 0

end Verif.Machine
