import Verif.Core.Loop
import Verif.Core.Modify
import Verif.Model.Tensor
import Verif.Model.Arith
/-
Model of scale, trace, take_diag, diag, kron, change_dimension, mean over an index and squeeze.
/repo/src/tensor/tensor_scale.cc (and _d, _z, _zd), tensor_trace.cc, matrix_trace.cc,
tensor_take_diag.cc, matrix_diag.cc, matrix_diag_d.cc, tensor_kron.hpp, tensor_kron_d.cc,
tensor_kron2_sum_d.cc, tensor_change_dimension.cc, tensor_mean_ndx.cc, tensor_squeeze.cc.

Simplification: loops over counters with explicit index arithmetic are lists of the pairs of
positions which they visit, in the order of the code.
-/
namespace Verif.Tensor

open Verif

variable {α β γ : Type}

/-- Positions of the vector read by the two versions of doscale, tensor_scale.cc:30-50 and 70-92, in
order; the pointers to the tensors advance by one each time. -/
def scaleVec (d1 d2 d3 : Nat) : List Nat :=
  if d1 = 1 then
    loop d3 0 0 fun _ => loop d2 1 0 fun p3 => [p3]
  else
    loop d3 0 0 fun _ => loop d2 1 0 fun p3 => loop d1 0 p3 fun r => [r]

/-- scale, tensor_scale_d.cc:31-46 (and _z, _zd). `mul` is the product of an element of the tensor
and an element of the vector. -/
def scale (mul : α → β → γ) (t : Tensor α) (ndx : Int) (v : Tensor β) : Res (Tensor γ) := do
  let n ← normalizeIndex ndx t.rank
  let (d1, d2, d3) ← surrounding t.dims n.toNat
  Res.assert (d2 = v.size)
  let vals := (scaleVec d1 d2 d3).zipIdx.map fun (q, k) => do
    let x ← t.data[k]?
    let y ← v.data[q]?
    pure (mul x y)
  let data ← runWrites (totalSize t.dims) (seqFrom 0 vals)
  pure ⟨t.dims, data⟩

/-- scale_inplace, tensor_scale_d.cc:48-60 (and _z, _zd), for a vector `v` different from `t`. (If
both share their data, t.begin() makes a copy first.) -/
def scaleInplace (mul : α → β → α) (t : Tensor α) (ndx : Int) (v : Tensor β) :
    Res (Tensor α) := do
  let n ← normalizeIndex ndx t.rank
  let (d1, d2, d3) ← surrounding t.dims n.toNat
  Res.assert (d2 = v.size)
  let data ← modLoop mul (fun _ => v.data)
    ((scaleVec d1 d2 d3).zipIdx.map fun (q, k) => (k, q)) t.data
  pure ⟨t.dims, data⟩

/-- scale_inplace(t, ndx, t), the same code when the vector is the tensor itself. -/
def scaleInplaceSelf (mul : α → α → α) (t : Tensor α) (ndx : Int) : Res (Tensor α) := do
  let n ← normalizeIndex ndx t.rank
  let (d1, d2, d3) ← surrounding t.dims n.toNat
  Res.assert (d2 = t.size)
  let data ← modLoop mul (fun buf => buf)
    ((scaleVec d1 d2 d3).zipIdx.map fun (q, k) => (k, q)) t.data
  pure ⟨t.dims, data⟩

/-- Positions `(C, D)` of the sums of trace_loop, tensor_trace.cc:24-51. -/
def traceSteps (a1 a2 a3 a4 a5 : Nat) : List (Nat × Nat) :=
  let a2b := min a2 a4
  if a1 = 1 then
    (List.range a5).flatMap fun m => (List.range a2b).flatMap fun l =>
      (List.range a3).map fun k => (k + a3 * m, l + a2 * (k + a3 * (l + a4 * m)))
  else
    (List.range a5).flatMap fun m => (List.range a2b).flatMap fun l =>
      (List.range a3).flatMap fun k => (List.range a1).map fun i =>
        (i + a1 * (k + a3 * m), i + a1 * (l + a2 * (k + a3 * (l + a4 * m))))

/-- do_trace after the indices have been ordered, tensor_trace.cc:69-84. The loops over
`dimensions` are products of sublists. -/
def traceOrdered [Zero α] [Add α] (D : Tensor α) (i1 i2 : Nat) : Res (Tensor α) := do
  let p := D.dims.take i1
  let q := (D.dims.take i2).drop (i1 + 1)
  let r := D.dims.drop (i2 + 1)
  let dims ← runWrites (max (D.rank - 2) 1)
    ((0, some 1) :: seqFrom 0 ((p ++ q ++ r).map some))
  let a2 ← D.dimension i1
  let a4 ← D.dimension i2
  let data ← modLoop (· + ·) (fun _ => D.data)
    (traceSteps (p.foldl (· * ·) 1) a2 (q.foldl (· * ·) 1) a4 (r.foldl (· * ·) 1))
    (fill dims (0 : α)).data
  pure ⟨dims, data⟩

/-- do_trace(D, i1, i2), tensor_trace.cc:53-85. -/
def trace2 [Zero α] [Add α] (D : Tensor α) (i1 i2 : Int) : Res (Tensor α) := do
  Res.assert (i1 < D.rank ∧ i1 > -(D.rank : Int))
  Res.assert (i2 < D.rank ∧ i2 > -(D.rank : Int))
  let i1 := if i1 < 0 then i1 + D.rank else i1
  let i2 := if i2 < 0 then i2 + D.rank else i2
  if i1 > i2 then traceOrdered D i2.toNat i1.toNat
  else if i2 = i1 then .abort
  else traceOrdered D i1.toNat i2.toNat

/-- do_trace(matrix), matrix_trace.cc:24-36. -/
def trace [Zero α] [Add α] (m : Tensor α) : Res α := do
  Res.assert (m.rank = 2)
  let r ← m.dimension 0
  let c ← m.dimension 1
  Res.ofOption (accum 0 ((loop (min r c) (r + 1) 0 fun it => [it]).map fun it => m.data[it]?))

/-- Positions `(output, input)` of do_diag, tensor_take_diag.cc:23-48. -/
def diagSteps (a1 a2 a2b a3 a4 a5 : Nat) (which : Int) : List (Nat × Nat) :=
  let o2 := if which < 0 then (-which).toNat else 0
  let o1 := if which < 0 then 0 else which.toNat
  (List.range a5).flatMap fun m => (List.range a2b).flatMap fun l =>
    (List.range a3).flatMap fun k => (List.range a1).map fun i =>
      (i + a1 * (l + a2b * (k + a3 * m)), i + a1 * ((o1 + l) + a2 * (k + a3 * ((o2 + l) + a4 * m))))

/-- do_take_diag after the indices have been ordered, tensor_take_diag.cc:68-104. The second index is
looked for after the first one, also when both are equal. -/
def takeDiagOrdered (a : Tensor α) (which : Int) (ndx1 ndx2 : Nat) : Res (Tensor α) := do
  let p := a.dims.take ndx1
  let a2 ← a.dimension ndx1
  let i2 := max (ndx1 + 1) ndx2
  let q := (a.dims.take i2).drop (ndx1 + 1)
  let a4 ← a.dimension i2
  let r := a.dims.drop (i2 + 1)
  let newDims ← runWrites (max (a.rank - 1) 1) (seqFrom 0 ((p ++ a2 :: q ++ r).map some))
  let a1 := p.foldl (· * ·) 1
  let a3 := q.foldl (· * ·) 1
  let a5 := r.foldl (· * ·) 1
  if which ≤ -(a2 : Int) ∨ which ≥ a4 then .abort
  else if a2 = 1 ∧ a4 = 1 then a.reshape newDims
  else do
    let a2b : Nat :=
      (if which < 0 then max 0 (min (a2 + which) a4) else max 0 (min (a2 : Int) (a4 - which))).toNat
    let newDims ← updWrites newDims [(ndx1, some a2b)]
    let which := -which
    let data ← runWrites (totalSize newDims)
      (if a2b ≠ 0 then (diagSteps a1 a2 a2b a3 a3 a5 which).map fun (o, i) => (o, a.data[i]?)
       else [])
    pure ⟨newDims, data⟩

/-- do_take_diag, tensor_take_diag.cc:50-105. -/
def takeDiag (a : Tensor α) (which ndx1 ndx2 : Int) : Res (Tensor α) := do
  let ndx1 := if ndx1 < 0 then ndx1 + a.rank else ndx1
  Res.assert (ndx1 < a.rank ∧ ndx1 ≥ 0)
  let ndx2 := if ndx2 < 0 then ndx2 + a.rank else ndx2
  Res.assert (ndx2 < a.rank ∧ ndx2 ≥ 0)
  if ndx1 > ndx2 then takeDiagOrdered a (-which) ndx2.toNat ndx1.toNat
  else takeDiagOrdered a which ndx1.toNat ndx2.toNat

/-- The loop of do_diag, matrix_diag.cc:49-51, from `i` for `n` more steps. -/
def diagLoop (a : Tensor α) (r0 c0 : Nat) (t : Tensor α) (i : Nat) : Nat → Res (Tensor α)
  | 0 => .ok t
  | n + 1 => do
    let v ← a.dataAt i
    let t1 ← t.set2 (r0 + i : Nat) (c0 + i : Nat) v
    diagLoop a r0 c0 t1 (i + 1) n

/-- diag(a, which, rows, cols), matrix_diag.cc:25-53. -/
def diag [Zero α] (a : Tensor α) (which : Int) (rows cols : Nat) : Res (Tensor α) := do
  let r0 := if which < 0 then (-which).toNat else 0
  let c0 := if which < 0 then 0 else which.toNat
  let l := min ((rows : Int) - r0) ((cols : Int) - c0)
  if l < 0 then .abort
  else if l ≠ a.size then .abort
  else diagLoop a r0 c0 (fill [rows, cols] 0) 0 l.toNat

/-- diag(a, which), matrix_diag_d.cc:29-33. -/
def diagSquare [Zero α] (a : Tensor α) (which : Int) : Res (Tensor α) :=
  diag a which (a.size + which.natAbs) (a.size + which.natAbs)

/-- Positions `(b, a)` read by the loops of do_kron, tensor_kron.hpp:58-78, in order; the output
pointer advances by one each time. -/
def kronSteps (iLen jLen kLen lLen : Nat) : List (Nat × Nat) :=
  loop lLen jLen 0 fun pb => loop kLen iLen 0 fun pa =>
    loop jLen 1 pb fun pb2 => loop iLen 1 pa fun pa2 => [(pb2, pa2)]

/-- do_kron for two matrices, tensor_kron.hpp:47-79 (the version without CBLAS). -/
def kronMat [Mul α] (b a : Tensor α) : Res (Tensor α) := do
  let iLen ← a.dimension 0
  let jLen ← b.dimension 0
  let kLen ← a.dimension 1
  let lLen ← b.dimension 1
  if iLen * jLen = 0 ∨ kLen * lLen = 0 then
    let data ← runWrites (totalSize [iLen * jLen, kLen * lLen]) []
    pure ⟨[iLen * jLen, kLen * lLen], data⟩
  else
    let vals := (kronSteps iLen jLen kLen lLen).map fun (pb2, pa2) => do
      let v ← b.data[pb2]?
      let x ← a.data[pa2]?
      pure (v * x)
    let data ← runWrites (totalSize [iLen * jLen, kLen * lLen]) (seqFrom 0 vals)
    pure ⟨[iLen * jLen, kLen * lLen], data⟩

/-- kron(b, a) = do_kron(b, a), tensor_kron.hpp:34-80 and tensor_kron_d.cc:41-44. -/
def kron [Mul α] (b a : Tensor α) : Res (Tensor α) := do
  Res.assert (b.rank = a.rank)
  Res.assert (b.rank ≤ 2)
  if a.rank = 1 then do
    let b' ← b.reshape [b.size, 1]
    let a' ← a.reshape [a.size, 1]
    let c ← kronMat b' a'
    c.reshape [a.size * b.size]
  else kronMat b a

/-- kron2, tensor_kron_d.cc:46-49. -/
def kron2 [Mul α] (s1 s2 : Tensor α) : Res (Tensor α) := kron s2 s1

/-- do_kron2_sum, tensor_kron.hpp:82-101. (get_dimensions stops the program when the rank is not 2.) -/
def doKron2Sum [Zero α] [One α] [Mul α] [Add α] (a b : Tensor α) : Res (Tensor α) := do
  Res.assert (a.rank = b.rank)
  Res.assert (a.rank ≤ 2)
  if a.rank = 1 then do
    let a' ← a.reshape [a.size, 1]
    let x ← kron2 a' (fill [b.size, 1] 1)
    let b' ← b.reshape [b.size, 1]
    let y ← kron2 (fill [a.size, 1] 1) b'
    let s ← binopTT (· + ·) x y
    s.reshape [a.size * b.size]
  else
    match a.dims, b.dims with
    | [a1, a2], [b1, b2] => do
      let e1 ← eye b1 b2
      let x ← kron e1 a
      let e2 ← eye a1 a2
      let y ← kron b e2
      binopTT (· + ·) x y
    | _, _ => .abort

/-- kron2_sum, tensor_kron2_sum_d.cc:25-28. -/
def kron2Sum [Zero α] [One α] [Mul α] [Add α] (s1 s2 : Tensor α) : Res (Tensor α) :=
  doKron2Sum s2 s1

/-- The memcpy loop of change_dimension_inner, tensor_change_dimension.cc:46-53. -/
def changeWrites (src : List α) (dpNew dpOld kLen : Nat) : List (Nat × Option α) :=
  (List.range kLen).flatMap fun k =>
    (List.range (min dpNew dpOld)).map fun x => (k * dpNew + x, src[k * dpOld + x]?)

/-- change_dimension_inner, tensor_change_dimension.cc:25-55. -/
def changeDimension [Zero α] (a : Tensor α) (dim : Int) (newSize : Nat) : Res (Tensor α) := do
  let n ← normalizeIndex dim a.rank
  let oldSize ← Res.ofOption a.dims[n.toNat]?
  if oldSize = newSize then pure a
  else do
    let d := a.dims.set n.toNat newSize
    let (iLen, newSize, kLen) ← surrounding d n.toNat
    let ws := changeWrites a.data (newSize * iLen) (oldSize * iLen) kLen
    let data ← if newSize > oldSize then updWrites (fill d (0 : α)).data ws
               else runWrites (totalSize d) ws
    pure ⟨d, data⟩

/-- The writes in `dimensions` of do_mean, tensor_mean_ndx.cc:38-49: the dimension `ndx` is written
too, and overwritten in the next iteration (if there is one). -/
def meanDims (ndx : Nat) : (i j : Nat) → List Nat → List (Nat × Option Nat)
  | _, _, [] => []
  | i, j, d :: ds => (j, some d) :: meanDims ndx (i + 1) (if i = ndx then j else j + 1) ds

/-- Positions of `output.at(l,r) += aux(l,m,r)`, tensor_mean_ndx.cc:52-55. (The loop bounds are the
dimensions, so that the checks of the accessors succeed.) -/
def meanSteps (left middle right : Nat) : List (Nat × Nat) :=
  (List.range right).flatMap fun r => (List.range middle).flatMap fun m =>
    (List.range left).map fun l => (l + left * r, l + left * (m + middle * r))

/-- do_mean, tensor_mean_ndx.cc:26-58; `div x n` is the division of an element by `n` converted to the
type of elements, and mean(t) is in tensor_mean_d.cc:23-26, tensor_sum_d.cc:24-27. -/
def meanNdx [Zero α] [Add α] (div : α → Nat → α) (t : Tensor α) (ndx : Int) : Res (Tensor α) := do
  if t.rank = 1 then
    let s ← Res.ofOption (accum 0 (t.data.map some))
    pure ⟨[1], [div s t.size]⟩
  else
    let n ← normalizeIndex ndx t.rank
    let dims ← runWrites (t.rank - 1) (meanDims n.toNat 0 0 t.dims)
    let left := (t.dims.take n.toNat).foldl (· * ·) 1
    let middle ← t.dimension n
    let right := (t.dims.drop (n.toNat + 1)).foldl (· * ·) 1
    let aux ← t.reshape [left, middle, right]
    let data ← modLoop (· + ·) (fun _ => aux.data) (meanSteps left middle right)
      (fill [left, right] (0 : α)).data
    let o ← reshape ⟨[left, right], data⟩ dims
    unop (fun x => div x middle) o

/-- squeeze_dimensions, tensor_squeeze.cc:25-34: there is room for the dimensions different from 1,
but only those larger than 1 are copied. -/
def squeezeDims (d : List Nat) : Res (List Nat) :=
  runWrites (d.length - d.count 1)
    ((seqFrom 0 ((d.filter (· > 1)).map some)).take (d.length - d.count 1))

/-- squeeze, tensor_squeeze_d.cc:27-30. -/
def squeeze (t : Tensor α) : Res (Tensor α) := do
  let d ← squeezeDims t.dims
  t.reshape d

end Verif.Tensor
