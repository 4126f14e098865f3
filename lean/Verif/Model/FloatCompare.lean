import Verif.Core.Float
import Verif.Model.Sort
/-
Model of comparisons and sorting of real tensors with NaN, infinities and both zeros:
/repo/src/compare/rtensor_*.cc, /repo/include/tensor/tensor.h:431-456, /repo/src/tensor/tensor_sort_d.cc.
-/
namespace Verif.FlCmp

open Verif

/-- The operators of C++ on `double`: == and != are compareQuietEqual and its negation, the others as in
Core/Float.lean. -/
noncomputable def ev : Indices.Op → Fl → Fl → Bool
  | .eq, a, b => decide (a ≤ b ∧ b ≤ a)
  | .lt, a, b => decide (a < b)
  | .gt, a, b => decide (b < a)
  | .le, a, b => decide (a ≤ b)
  | .ge, a, b => decide (b ≤ a)
  | .ne, a, b => !decide (a ≤ b ∧ b ≤ a)

/-- RTensor op RTensor, rtensor_rtensor_*.cc:25-35. -/
noncomputable def cmpTT (op : Indices.Op) (a b : Tensor Fl) : Res (List Bool) := do
  Res.assert (a.data.length = b.data.length)
  Indices.transform2 (ev op) a.data b.data

/-- RTensor op double, rtensor_double_*.cc:25-32. -/
noncomputable def cmpTN (op : Indices.Op) (a : Tensor Fl) (b : Fl) : List Bool :=
  a.data.map fun x => ev op x b

/-- double op RTensor, tensor.h:451-456. -/
noncomputable def cmpNT (op : Indices.Op) (a : Fl) (b : Tensor Fl) : List Bool :=
  match op with
  | .eq => cmpTN .eq b a
  | .lt => cmpTN .ge b a
  | .gt => cmpTN .le b a
  | .le => cmpTN .gt b a
  | .ge => cmpTN .lt b a
  | .ne => cmpTN .ne b a

/-- std::equal(a.begin(), a.end(), b.begin()) with == of doubles. -/
noncomputable def stdEqual : List Fl → List Fl → Res Bool
  | [], _ => .ok true
  | _ :: _, [] => .ub
  | a :: as, b :: bs => if ev .eq a b then stdEqual as bs else .ok false

/-- all_equal(RTensor, RTensor), rtensor_rtensor_all_equal.cc:25-31, with
verify_tensor_dimensions_match, tensor_common.cc:26-35. -/
noncomputable def allEqualT (a b : Tensor Fl) : Res Bool := do
  let e ← Indices.allEqual a.dims b.dims
  if a.dims.length ≠ b.dims.length ∨ !e then pure false
  else
    let e ← stdEqual a.data b.data
    if e then pure true else pure false

/-- all_equal(RTensor, double), rtensor_double_all_equal.cc:25-31. -/
noncomputable def allEqualN (a : Tensor Fl) (b : Fl) : Bool :=
  match a.data.find? (fun x => !ev .eq x b) with
  | some _ => false
  | none => true

/-- The requirement of std::sort, [alg.sorting]: the comparison is a strict weak ordering on the values
which are sorted. -/
structure StrictWeakOn {α : Type} (less : α → α → Prop) (l : List α) : Prop where
  irrefl : ∀ a ∈ l, ¬ less a a
  trans : ∀ a ∈ l, ∀ b ∈ l, ∀ c ∈ l, less a b → less b c → less a c
  incomp : ∀ a ∈ l, ∀ b ∈ l, ∀ c ∈ l, ¬ less a b → ¬ less b a → ¬ less b c → ¬ less c b →
    ¬ less a c ∧ ¬ less c a

/-- std::less<double> and std::greater<double>, Compare and CompareInv. -/
def before (reverse : Bool) (a b : Fl) : Prop := if reverse then b < a else a < b

/-- Possible results of sort(v, reverse), tensor_sort_d.cc:26-36: without the requirement of std::sort the
behaviour is not defined. -/
def SortRes (v : Tensor Fl) (reverse : Bool) (r : Res (Tensor Fl)) : Prop :=
  (StrictWeakOn (before reverse) v.data ∧ ∃ out, r = .ok out ∧ Tensor.SortD v reverse out) ∨
  (¬ StrictWeakOn (before reverse) v.data ∧ r = .ub)

/-- Possible results of sort_indices(v, reverse), tensor_sort_d.cc:58-74. -/
def SortIndicesRes (v : List Fl) (reverse : Bool) (r : Res (List Int)) : Prop :=
  if v.length ≠ 0 then
    ∃ iota, Indices.range 0 ((v.length : Int) - 1) 1 = .ok iota ∧
      ((StrictWeakOn (Tensor.comparePos reverse v) iota ∧
          ∃ out, r = .ok out ∧ Tensor.StdSort (Tensor.comparePos reverse v) iota out) ∨
       (¬ StrictWeakOn (Tensor.comparePos reverse v) iota ∧ r = .ub))
  else r = .ok []

end Verif.FlCmp
