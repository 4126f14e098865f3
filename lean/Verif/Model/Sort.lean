import Verif.Core.Double
import Verif.Model.Tensor
import Verif.Model.Indices
/-
Model of sorting.  /repo/src/tensor/tensor_sort_d.cc, tensor_sort_i.cc.

std::sort is represented by what the C++ standard promises: the elements are rearranged so that no
element is `less` than a previous one, provided `less` is a strict weak ordering.  Which one of
several such rearrangements is chosen is not known, so that the model is a relation between argument
and result.  Comparisons of floating point numbers are those of an ordered set: NaN is not modelled.
-/
namespace Verif.Tensor

open Verif

variable {α : Type}

/-- Strict weak ordering, the requirement of std::sort. -/
structure StrictWeak (less : α → α → Prop) : Prop where
  irrefl : ∀ a, ¬ less a a
  trans : ∀ a b c, less a b → less b c → less a c
  incomp : ∀ a b c, ¬ less a b → ¬ less b a → ¬ less b c → ¬ less c b → ¬ less a c ∧ ¬ less c a

/-- Possible results `l'` of std::sort(l.begin(), l.end(), less). -/
def StdSort (less : α → α → Prop) (l l' : List α) : Prop :=
  l'.Perm l ∧ l'.Pairwise fun a b => ¬ less b a

/-- sort(v, reverse) for real tensors, tensor_sort_d.cc:26-36. -/
def SortD [LT α] (v : Tensor α) (reverse : Bool) (out : Tensor α) : Prop :=
  out.dims = v.dims ∧
    if reverse then StdSort (fun a b => a > b) v.data out.data
    else StdSort (fun a b => a < b) v.data out.data

/-- sort(v, reverse) for indices, tensor_sort_i.cc:26-36: std::less<double> and std::greater<double>
convert their arguments to floating point numbers. -/
def SortI (v : List Int) (reverse : Bool) (out : List Int) : Prop :=
  if reverse then StdSort (fun a b => toDouble a > toDouble b) v out
  else StdSort (fun a b => toDouble a < toDouble b) v out

/-- Compare and CompareInv, tensor_sort_d.cc:38-56, tensor_sort_i.cc:38-56: comparison of the elements
at two positions. (Positions are always in range, because they are those of iota(0, size-1).) -/
def comparePos [LT α] (reverse : Bool) (v : List α) (i1 i2 : Int) : Prop :=
  match v[i1.toNat]?, v[i2.toNat]? with
  | some a, some b => if reverse then a > b else a < b
  | _, _ => False

/-- sort_indices(v, reverse), tensor_sort_d.cc:58-74, tensor_sort_i.cc:58-74. -/
def SortIndices [LT α] (v : List α) (reverse : Bool) (out : List Int) : Prop :=
  if v.length ≠ 0 then
    ∃ iota, Indices.range 0 ((v.length : Int) - 1) 1 = .ok iota ∧
      StdSort (comparePos reverse v) iota out
  else out = []

end Verif.Tensor
