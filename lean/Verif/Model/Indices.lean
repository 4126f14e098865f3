import Verif.Model.Tensor
import Mathlib.Order.Defs.LinearOrder
/-
Model of index lists, static generators, boolean vectors and comparisons.
/repo/src/indices/*.cc, /repo/src/compare/*.cc, /repo/include/tensor/indices.h,
/repo/include/tensor/gen.h, /repo/include/tensor/tensor.h:437-456.
-/
namespace Verif.Indices

open Verif

variable {α β γ : Type}

/-- The loop of Indices::range, indices.cc:63-66: `*it = min; min += step`. -/
def rangeLoop (step : Int) : Nat → Int → List Int
  | 0, _ => []
  | n + 1, min => min :: rangeLoop step n (min + step)

/-- Indices::range, indices.cc:57-69.  A zero step divides by zero; a negative size makes the
allocation of the output throw, which nobody catches. -/
def range (min max step : Int) : Res (List Int) :=
  if max < min then .ok []
  else if step = 0 then .ub
  else
    let size := (max - min).tdiv step + 1
    if size < 0 then .abort else .ok (rangeLoop step size.toNat min)

/-- The copy loops of `operator<<` (concat.cc:37-43): `i` runs over a list, `j` is the output
position. -/
def copyWrites (j : Nat) : List α → List (Nat × Option α)
  | [] => []
  | x :: xs => (j, some x) :: copyWrites (j + 1) xs

/-- operator<<(Indices, Indices), concat.cc:34-44. -/
def concat (a b : List α) : Res (List α) :=
  runWrites (a.length + b.length) (copyWrites 0 a ++ copyWrites a.length b)

/-- StaticVector<elt_t, n>, gen.h:77-119. -/
inductive StaticVector (α : Type) where
  | one (extra : α)
  | more (inner : StaticVector α) (extra : α)

/-- The template parameter `n`, gen.h:77, 101. -/
def StaticVector.n : StaticVector α → Nat
  | .one _ => 1
  | .more inner _ => inner.n + 1

/-- StaticVector::push, gen.h:88-91 and 111-113. -/
def StaticVector.push : StaticVector α → List (Nat × Option α)
  | .one extra => [(0, some extra)]
  | .more inner extra => inner.push ++ [((StaticVector.more inner extra).n - 1, some extra)]

/-- StaticVector::operator Vector, gen.h:83-87 and 106-110. -/
def StaticVector.toVector (s : StaticVector α) : Res (List α) := runWrites s.n s.push

/-- The expression `igen << x << xs[0] << xs[1] ...`, gen.h:121-134. -/
def StaticVector.chain (x : α) (xs : List α) : StaticVector α :=
  xs.foldl (fun g y => .more g y) (.one x)

/-- The loop of `which`, which.cc:31-36: `i` counts elements, `o` is the output position. -/
def whichWrites (i o : Nat) : List Bool → List (Nat × Option Nat)
  | [] => []
  | b :: bs => if b then (o, some i) :: whichWrites (i + 1) (o + 1) bs else whichWrites (i + 1) o bs

/-- which, which.cc:25-38. -/
def which (b : List Bool) : Res (List Nat) := runWrites (b.count true) (whichWrites 0 0 b)

/-- all_of, booleans.cc:30-33. -/
def allOf (b : List Bool) : Bool := b.count true == b.length

/-- any_of, booleans.cc:35-38 (std::find). -/
def anyOf (b : List Bool) : Bool := b.findIdx (· == true) != b.length

/-- none_of, indices.h:69. -/
def noneOf (b : List Bool) : Bool := !anyOf b

/-- std::transform with two inputs (also the loops of src/compare): the second input is read for
each element of the first one. -/
def transform2 (f : α → β → γ) : List α → List β → Res (List γ)
  | [], _ => .ok []
  | _ :: _, [] => .ub
  | a :: as, b :: bs => do
    let r ← transform2 f as bs
    pure (f a b :: r)

/-- operator&&, booleans_and.cc:27-34. -/
def and (a b : List Bool) : Res (List Bool) := do
  Res.assert (a.length = b.length)
  transform2 (fun x y => x && y) a b

/-- operator||, booleans_or.cc:27-34. -/
def or (a b : List Bool) : Res (List Bool) := do
  Res.assert (a.length = b.length)
  transform2 (fun x y => x || y) a b

/-- operator!, booleans_not.cc:26-32. -/
def not (a : List Bool) : List Bool := a.map fun x => !x

/-- The six comparison operators. -/
inductive Op where
  | eq | lt | gt | le | ge | ne
deriving DecidableEq, Repr

/-- The C++ comparison of two numbers (doubles: without NaN). -/
def Op.eval [LinearOrder α] : Op → α → α → Bool
  | .eq, a, b => a == b
  | .lt, a, b => decide (a < b)
  | .gt, a, b => decide (a > b)
  | .le, a, b => decide (a ≤ b)
  | .ge, a, b => decide (a ≥ b)
  | .ne, a, b => a != b

/-- container op container, indices_indices_*.cc:25-35, rtensor_rtensor_*.cc:25-35 (sizes are
checked, dimensions are not). -/
def cmpCC [LinearOrder α] (op : Op) (a b : List α) : Res (List Bool) := do
  Res.assert (a.length = b.length)
  transform2 op.eval a b

/-- container op number, indices_index_*.cc:25-32, rtensor_double_*.cc:25-32. -/
def cmpCN [LinearOrder α] (op : Op) (a : List α) (b : α) : List Bool :=
  a.map fun x => op.eval x b

/-- number op container, indices.h:87-92 and tensor.h:451-456. -/
def cmpNC [LinearOrder α] (op : Op) (a : α) (b : List α) : List Bool :=
  match op with
  | .eq => cmpCN .eq b a
  | .lt => cmpCN .ge b a
  | .gt => cmpCN .le b a
  | .le => cmpCN .gt b a
  | .ge => cmpCN .lt b a
  | .ne => cmpCN .ne b a

/-- std::equal(a.begin(), a.end(), b.begin()). -/
def stdEqual [DecidableEq α] : List α → List α → Res Bool
  | [], _ => .ok true
  | _ :: _, [] => .ub
  | a :: as, b :: bs => if a = b then stdEqual as bs else .ok false

/-- all_equal(Indices, Indices), indices.cc:33-36. -/
def allEqual [DecidableEq α] (a b : List α) : Res Bool :=
  if a.length = b.length then stdEqual a b else .ok false

/-- all_equal(RTensor, RTensor), rtensor_rtensor_all_equal.cc:25-31, with
verify_tensor_dimensions_match, tensor_common.cc:26-35. -/
def allEqualT [DecidableEq α] (a b : Tensor α) : Res Bool := do
  let e ← allEqual a.dims b.dims
  if a.dims.length ≠ b.dims.length ∨ !e then pure false
  else
    let e ← stdEqual a.data b.data
    if e then pure true else pure false

/-- all_equal(RTensor, double), rtensor_double_all_equal.cc:25-31. -/
def allEqualN [DecidableEq α] (a : Tensor α) (b : α) : Bool :=
  match a.data.find? (fun x => !(x == b)) with
  | some _ => false
  | none => true

end Verif.Indices
