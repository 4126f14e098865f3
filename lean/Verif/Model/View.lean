import Verif.Core.Run
import Verif.Model.Tensor
/-
Model of ranges and tensor views.
/repo/src/views/range.cc, /repo/include/tensor/indices.h:105-206,
/repo/src/tensor/tensor_view.hpp, /repo/include/tensor/detail/tensor_slice.hpp.

Simplifications: in the six overloads of operator() and at() the first factor of a ProductRange is
always a simple range, so only such products are represented; the overloads for 1 to 6 ranges,
which only differ in their number, are one function on the list of ranges.  The deletion of the
range objects is not modelled here but in Model/ViewHeap.lean.
-/
namespace Verif.View

open Verif

/-- Range::nomore, indices.h:114. -/
def nomore : Int := -1

/-- FullRange, SingleRange, StepRange and IndexRange (indices.h:123-170), with the members
`limit_` and `factor_` of Range. -/
inductive Leaf where
  | full (limit factor counter counterEnd : Int)
  | single (limit factor ndx counter : Int)
  | step (limit factor ndx start stop step : Int)
  | list (limit factor : Int) (indices : List Int) (counter : Nat)

/-- How the user asks for a range: `range()`, `range(i)`, `range(start, stop, step)`,
`range(Indices)`; indices.h:197-206. -/
inductive Spec where
  | all
  | single (ndx : Int)
  | step (start stop step : Int)
  | list (indices : List Int)

/-- The constructors, range.cc:26-29, 69-72, 117-120, 162-165, 211-214. -/
def Spec.new : Spec → Leaf
  | .all => .full 0 1 0 0
  | .single ndx => .single 0 1 ndx ndx
  | .step start stop stp => .step 0 1 0 start stop stp
  | .list indices => .list 0 1 indices 0

/-- Range::get_limit, indices.h:116. -/
def Leaf.limit : Leaf → Int
  | .full l _ _ _ => l
  | .single l _ _ _ => l
  | .step l _ _ _ _ _ => l
  | .list l _ _ _ => l

/-- Range::get_factor, indices.h:117. -/
def Leaf.factor : Leaf → Int
  | .full _ f _ _ => f
  | .single _ f _ _ => f
  | .step _ f _ _ _ _ => f
  | .list _ f _ _ => f

/-- pop: range.cc:74-84, 122-129, 167-177, 216-222. -/
def Leaf.pop : Leaf → Int × Leaf
  | .full l f counter counterEnd =>
    if counter ≥ counterEnd then (nomore, .full l f counter counterEnd)
    else (counter, .full l f (counter + f) counterEnd)
  | .single l f ndx counter =>
    if counter ≠ 0 then (nomore, .single l f ndx counter)
    else (ndx, .single l f ndx (counter + 1))
  | .step l f ndx start stop stp =>
    if ndx > stop then (nomore, .step l f ndx start stop stp)
    else (ndx, .step l f (ndx + stp) start stop stp)
  | .list l f indices counter =>
    match indices[counter]? with
    | none => (nomore, .list l f indices counter)
    | some x => (x, .list l f indices (counter + 1))

/-- set_factor: range.cc:86-93, 131-137, 179-187, 224-233.  Integer division truncates; dividing
by an old factor 0 is undefined (with an IndexRange, if it has elements). -/
def Leaf.setFactor : Leaf → Int → Res Leaf
  | .full l _ _ _, factor => .ok (.full l factor 0 (l * factor))
  | .single l old ndx counter, factor =>
    if old = 0 then .ub else .ok (.single l factor (ndx.tdiv old * factor) counter)
  | .step l old _ start stop stp, factor =>
    if old = 0 then .ub
    else
      let start := start.tdiv old * factor
      .ok (.step l factor start start (stop.tdiv old * factor) (stp.tdiv old * factor))
  | .list l old indices _, factor =>
    if old = 0 ∧ indices ≠ [] then .ub
    else .ok (.list l factor (indices.map fun x => x.tdiv old * factor) 0)

/-- set_limit: range.cc:47-52, 95-100, 139-144, 189-194, 235-244. -/
def Leaf.setLimit : Leaf → Int → Res Leaf
  | .full _ f counter _, limit => do
    Res.assert (limit ≥ 0)
    pure (.full limit f counter (limit * f))
  | .single _ f ndx counter, limit => do
    Res.assert (limit > ndx)
    Res.assert (limit ≥ 0)
    pure (.single limit f ndx counter)
  | .step _ f ndx start stop stp, limit => do
    Res.assert (limit > stop)
    Res.assert (limit ≥ 0)
    pure (.step limit f ndx start stop stp)
  | .list _ f indices counter, limit => do
    Res.assert (∀ x ∈ indices, x ≤ limit)
    Res.assert (limit ≥ 0)
    pure (.list limit f indices counter)

/-- size: range.cc:102-106, 146-150, 196-200, 246-250. -/
def Leaf.size : Leaf → Res Int
  | .full l _ _ _ => .ok l
  | .single _ _ _ _ => .ok 1
  | .step _ _ _ start stop stp => if stp = 0 then .ub else .ok ((stop - start).tdiv stp + 1)
  | .list _ _ indices _ => .ok indices.length

/-- reset: range.cc:108-112, 152-156, 202-206, 252-256. -/
def Leaf.reset : Leaf → Leaf
  | .full l f _ counterEnd => .full l f 0 counterEnd
  | .single l f ndx _ => .single l f ndx 0
  | .step l f _ start stop stp => .step l f start start stop stp
  | .list l f indices _ => .list l f indices 0

/-- A simple range or a ProductRange (indices.h:172-184); `base = none` while `base_` is not
initialised. -/
inductive Range where
  | leaf (r : Leaf)
  | product (r1 : Leaf) (r2 : Range) (base : Option Int)

/-- set_factor of a ProductRange, range.cc:295-300. -/
def Range.setFactor : Range → Int → Res Range
  | .leaf r, factor => do
    let r ← r.setFactor factor
    pure (.leaf r)
  | .product r1 r2 base, factor => do
    let r1 ← r1.setFactor factor
    let r2 ← r2.setFactor (factor * r1.limit)
    pure (.product r1 r2 base)

/-- product(r1, r2) with the constructor of ProductRange, range.cc:261-264, 314-317. -/
def mkProduct (r1 : Leaf) (r2 : Range) : Res Range := do
  let r2 ← r2.setFactor (r1.factor * r1.limit)
  pure (.product r1 r2 none)

/-- product(r1, product(r2, ...)), tensor_view.hpp:66, 81, 98, 117, 139. -/
def build (r : Leaf) : List Leaf → Res Range
  | [] => .ok (.leaf r)
  | r' :: rs => do
    let r2 ← build r' rs
    mkProduct r r2

/-- ProductRange::pop, range.cc:272-285.  A repetition of the loop is the same as calling pop
again, because `out == base_`. -/
def Range.pop : Nat → Range → Run (Int × Range)
  | 0, _ => .out
  | _ + 1, .leaf r => .done (.ok (r.pop.1, .leaf r.pop.2))
  | n + 1, .product r1 r2 base =>
    match base with
    | none => .done .ub
    | some out =>
      if out = nomore then .done (.ok (out, .product r1 r2 base))
      else
        if r1.pop.1 ≠ nomore then .done (.ok (r1.pop.1 + out, .product r1.pop.2 r2 base))
        else do
          let x ← Range.pop n r2
          Range.pop n (.product r1.pop.2.reset x.2 (some x.1))

/-- ProductRange::reset, range.cc:287-293. -/
def Range.reset (n : Nat) : Range → Run Range
  | .leaf r => .done (.ok (.leaf r.reset))
  | .product r1 r2 _ => do
    let r2 ← Range.reset n r2
    let x ← Range.pop n r2
    pure (.product r1.reset x.2 (some x.1))

/-- `set_limit` for all ranges, in order; tensor_view.hpp:52, 62-63, 75-77 ... -/
def setLimits : List Leaf → List Nat → Res (List Leaf)
  | [], [] => .ok []
  | r :: rs, d :: ds => do
    let r ← r.setLimit d
    let rs ← setLimits rs ds
    pure (r :: rs)
  | _, _ => .abort

/-- `size()` of all ranges, in order; tensor_view.hpp:53, 64-65, 78-80 ... -/
def sizes : List Leaf → Res (List Int)
  | [] => .ok []
  | r :: rs => do
    let s ← r.size
    let ss ← sizes rs
    pure (s :: ss)

/-- The overloads operator()(PRange, ...) and at(PRange, ...), tensor_view.hpp:46-141, 147-242:
dimensions of the view and the range which runs over its elements. One range applies to the tensor
seen as a vector. -/
def mkView {α : Type} (t : Tensor α) (specs : List Spec) : Res (List Int × Range) :=
  match specs.map Spec.new with
  | [] => .abort
  | r :: rs => do
    let limits := if rs = [] then [t.size] else t.dims
    Res.assert (limits.length = specs.length)
    let ls ← setLimits (r :: rs) limits
    let dims ← sizes ls
    match ls with
    | [] => .abort
    | l :: ls => do
      let range ← build l ls
      pure (dims, range)

variable {α : Type}

/-- Unchecked read `data_[j]`. -/
def readAt (data : List α) (j : Int) : Option α := if j < 0 then none else data[j.toNat]?

/-- The loop of view::operator Tensor, tensor_view.hpp:36-38: `k` is the position of `it`. -/
def readLoop (data : List α) : Nat → Range → Nat → List (Option α) → Run (List (Option α))
  | 0, _, _, _ => .out
  | n + 1, r, k, buf => do
    let x ← Range.pop n r
    if x.1 = nomore then pure buf
    else do
      let buf ← Run.done (writeAll buf [(k, readAt data x.1)])
      readLoop data n x.2 (k + 1) buf

/-- `Tensor s = t(r1, ..., rn)`, tensor_view.hpp:30-40: dimensions and elements of the result. The
dimensions may be negative. -/
def slice (n : Nat) (t : Tensor α) (specs : List Spec) : Run (List Int × List α) := do
  let v ← Run.done (mkView t specs)
  let buf := List.replicate (Tensor.totalSizeI v.1).toNat none
  let r ← Range.reset n v.2
  let buf ← readLoop t.data n r 0 buf
  let data ← Run.done (finish buf)
  pure (v.1, data)

/-- A write `data_.at(j) = x`; a negative position is out of bounds. -/
def writeAt (data : List α) (j : Int) (x : Option α) : Res (List α) :=
  if j < 0 then .ub else updWrites data [(j.toNat, x)]

/-- The loop of mutable_view::operator=(Tensor), tensor_view.hpp:270-272, when the right-hand side
`src` is not the tensor being assigned to. -/
def assignLoop (src : List α) : Nat → Range → Nat → List α → Run (List α)
  | 0, _, _, _ => .out
  | n + 1, r, i, data => do
    let x ← Range.pop n r
    if x.1 = nomore then pure data
    else do
      let data ← Run.done (writeAt data x.1 src[i]?)
      assignLoop src n x.2 (i + 1) data

/-- `t.at(r1, ..., rn) = s`, tensor_view.hpp:264-273, for different tensors. -/
def assign (n : Nat) (t : Tensor α) (specs : List Spec) (s : Tensor α) : Run (Tensor α) := do
  let v ← Run.done (mkView t specs)
  let _ ← Run.done (Res.assert (Tensor.totalSizeI v.1 = Tensor.totalSize s.dims))
  let r ← Range.reset n v.2
  let data ← assignLoop s.data n r 0 t.data
  pure ⟨t.dims, data⟩

/-- The same loop when the right-hand side is the tensor being assigned to: it is read while it is
modified. -/
def assignSelfLoop : Nat → Range → Nat → List α → Run (List α)
  | 0, _, _, _ => .out
  | n + 1, r, i, data => do
    let x ← Range.pop n r
    if x.1 = nomore then pure data
    else do
      let data ← Run.done (writeAt data x.1 data[i]?)
      assignSelfLoop n x.2 (i + 1) data

/-- `t.at(r1, ..., rn) = t`, tensor_view.hpp:264-273. -/
def assignSelf (n : Nat) (t : Tensor α) (specs : List Spec) : Run (Tensor α) := do
  let v ← Run.done (mkView t specs)
  let _ ← Run.done (Res.assert (Tensor.totalSizeI v.1 = Tensor.totalSize t.dims))
  let r ← Range.reset n v.2
  let data ← assignSelfLoop n r 0 t.data
  pure ⟨t.dims, data⟩

/-- The loop of mutable_view::operator=(elt_t), tensor_view.hpp:279-281. -/
def fillLoop (v : α) : Nat → Range → List α → Run (List α)
  | 0, _, _ => .out
  | n + 1, r, data => do
    let x ← Range.pop n r
    if x.1 = nomore then pure data
    else do
      let data ← Run.done (writeAt data x.1 (some v))
      fillLoop v n x.2 data

/-- `t.at(r1, ..., rn) = v`, tensor_view.hpp:275-282. -/
def assignNumber (n : Nat) (t : Tensor α) (specs : List Spec) (v : α) : Run (Tensor α) := do
  let w ← Run.done (mkView t specs)
  let r ← Range.reset n w.2
  let data ← fillLoop v n r t.data
  pure ⟨t.dims, data⟩

/-- The loop of mutable_view::operator=(view), tensor_view.hpp:258-261.  The view keeps its own
reference to the data it reads (tensor_slice.hpp:37), which is not changed by the writes. -/
def viewLoop (src : List α) : Nat → Range → Range → List α → Run (List α)
  | 0, _, _, _ => .out
  | n + 1, r1, r2, data => do
    let x ← Range.pop n r1
    let y ← Range.pop n r2
    if x.1 ≠ nomore ∧ y.1 ≠ nomore then do
      let data ← Run.done (writeAt data x.1 (readAt src y.1))
      viewLoop src n x.2 y.2 data
    else pure data

/-- `t.at(r1, ..., rn) = s(q1, ..., qm)`, tensor_view.hpp:248-262. `s` may be `t`. -/
def assignView (n : Nat) (t : Tensor α) (specs : List Spec) (s : Tensor α) (specs' : List Spec) :
    Run (Tensor α) := do
  let v ← Run.done (mkView t specs)
  let w ← Run.done (mkView s specs')
  let _ ← Run.done (Res.assert (Tensor.totalSizeI v.1 = Tensor.totalSizeI w.1))
  let r1 ← Range.reset n v.2
  let r2 ← Range.reset n w.2
  let data ← viewLoop s.data n r1 r2 t.data
  pure ⟨t.dims, data⟩

end Verif.View
