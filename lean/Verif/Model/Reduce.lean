import Verif.Core.Modify
import Verif.Model.Tensor
/-
Model of the functions that reduce a tensor to a number.
/repo/src/tensor/tensor_sum_d.cc, tensor_mean_d.cc, tensor_max_d.cc, tensor_min_d.cc,
tensor_norm0_d.cc, tensor_norm0_z.cc, tensor_norm2_d.cc, tensor_norm2_z.cc, matrix_norminf_d.cc,
matrix_norminf_z.cc.

Numbers are the elements of any type with the operations: of a ring or of an ordered set, without rounding,
or those of type double (Core/Float.lean).
-/
namespace Verif.Tensor

open Verif

variable {α β : Type}

/-- sum, tensor_sum_d.cc:24-27 (std::accumulate from zero). -/
def sumAll [Zero α] [Add α] (t : Tensor α) : α := t.data.foldl (· + ·) 0

/-- mean, tensor_mean_d.cc:23-26. -/
def meanAll [Zero α] [Add α] (div : α → Nat → α) (t : Tensor α) : α := div (sumAll t) t.size

/-- std::max_element from the element `best` on: the first of the largest elements. -/
def maxFrom [LT α] [DecidableLT α] (best : α) : List α → α
  | [] => best
  | x :: xs => maxFrom (if best < x then x else best) xs

/-- max, tensor_max_d.cc:24-28. -/
def maxAll [LT α] [DecidableLT α] (t : Tensor α) : Res α :=
  match t.data with
  | [] => .abort
  | x :: xs => .ok (maxFrom x xs)

/-- std::min_element from the element `best` on. -/
def minFrom [LT α] [DecidableLT α] (best : α) : List α → α
  | [] => best
  | x :: xs => minFrom (if x < best then x else best) xs

/-- min, tensor_min_d.cc:24-28. -/
def minAll [LT α] [DecidableLT α] (t : Tensor α) : Res α :=
  match t.data with
  | [] => .abort
  | x :: xs => .ok (minFrom x xs)

/-- norm0, tensor_norm0_d.cc:24-31, tensor_norm0_z.cc:24-31; std::max(a, b) is `a < b ? b : a`. -/
def norm0 [Zero β] [LT β] [DecidableLT β] (abs : α → β) (t : Tensor α) : β :=
  t.data.foldl (fun o x => if o < abs x then abs x else o) 0

/-- scprod, tensor_norm2_d.cc:29-36 (with the identity as `conj`), tensor_norm2_z.cc:29-36. The
iterator over `b` moves along with that over `a`, and is not compared with the end of `b`. -/
def scprod [Zero α] [Add α] [Mul α] (conj : α → α) (a b : Tensor α) : Res α :=
  Res.ofOption (accum 0 (a.data.zipIdx.map fun (x, i) => do
    let y ← b.data[i]?
    pure (x * conj y)))

/-- norm2, tensor_norm2_d.cc:24-27, tensor_norm2_z.cc:24-27: the square root of the scalar product,
or of its real part `re`. -/
def norm2 [Zero α] [Add α] [Mul α] (conj : α → α) (re : α → β) (sqrt : β → β) (t : Tensor α) :
    Res β := do
  let s ← scprod conj t t
  pure (sqrt (re s))

/-- matrix_norminf, matrix_norminf_d.cc:23-53, matrix_norminf_z.cc:23-53. The first column is copied to
`aux`, and the others are added. -/
def matrixNormInf [Zero β] [Add β] [LT β] [DecidableLT β] (abs : α → β) (m : Tensor α) : Res β := do
  Res.assert (m.rank = 2)
  let r ← m.dimension 0
  let c ← m.dimension 1
  let aux ← runWrites r ((List.range r).map fun i => (i, (m.data[i]?).map abs))
  let aux ← modLoop (fun s x => s + abs x) (fun _ => m.data)
    ((List.range (c - 1)).flatMap fun j => (List.range r).map fun i => (i, r + i + r * j)) aux
  pure (aux.foldl (fun o x => if o < x then x else o) 0)

end Verif.Tensor
