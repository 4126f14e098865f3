import Verif.Model.View
import Verif.Model.Machine
/-
Model of ranges and tensor views in machine words: the functions of Model/View.lean with every
operation on `index` of 64 bits checked, as in Model/Machine.lean; `ov` says what an overflow does.
/repo/src/views/range.cc, /repo/src/tensor/tensor_view.hpp.

Simplifications: those of Model/View.lean; the positions in lists of indices and in the tensor which
is read or written (`it++`, `i++`, `counter_++`) are not larger than the number of elements, which
are in memory, and stay natural numbers.
-/
namespace Verif.ViewMachine

open Verif Verif.View Verif.Machine

variable {α : Type}

/-- pop: range.cc:74-84, 122-129, 167-177, 216-222. -/
def popLeaf (ov : Int → Res Int) : Leaf → Res (Int × Leaf)
  | .full l f counter counterEnd =>
    if counter ≥ counterEnd then .ok (nomore, .full l f counter counterEnd)
    else do
      let next ← word ov (counter + f)
      pure (counter, .full l f next counterEnd)
  | .single l f ndx counter =>
    if counter ≠ 0 then .ok (nomore, .single l f ndx counter)
    else do
      let next ← word ov (counter + 1)
      pure (ndx, .single l f ndx next)
  | .step l f ndx start stop stp =>
    if ndx > stop then .ok (nomore, .step l f ndx start stop stp)
    else do
      let next ← word ov (ndx + stp)
      pure (ndx, .step l f next start stop stp)
  | .list l f indices counter =>
    match indices[counter]? with
    | none => .ok (nomore, .list l f indices counter)
    | some x => .ok (x, .list l f indices (counter + 1))

/-- `(x / old) * factor`: the division overflows for the least number and -1. -/
def rescale (ov : Int → Res Int) (old factor x : Int) : Res Int := do
  let q ← word ov (x.tdiv old)
  word ov (q * factor)

/-- The loop of IndexRange::set_factor, range.cc:228-230. -/
def rescaleAll (ov : Int → Res Int) (old factor : Int) : List Int → Res (List Int)
  | [] => .ok []
  | x :: xs => do
    let y ← rescale ov old factor x
    let ys ← rescaleAll ov old factor xs
    pure (y :: ys)

/-- set_factor: range.cc:86-93, 131-137, 179-187, 224-233. -/
def setFactorLeaf (ov : Int → Res Int) : Leaf → Int → Res Leaf
  | .full l _ _ _, factor => do
    let e ← word ov (l * factor)
    pure (.full l factor 0 e)
  | .single l old ndx counter, factor =>
    if old = 0 then .ub
    else do
      let ndx ← rescale ov old factor ndx
      pure (.single l factor ndx counter)
  | .step l old _ start stop stp, factor =>
    if old = 0 then .ub
    else do
      let stop ← rescale ov old factor stop
      let stp ← rescale ov old factor stp
      let start ← rescale ov old factor start
      pure (.step l factor start start stop stp)
  | .list l old indices _, factor =>
    if old = 0 ∧ indices ≠ [] then .ub
    else do
      let indices ← rescaleAll ov old factor indices
      pure (.list l factor indices 0)

/-- set_limit: range.cc:47-52, 95-100, 139-144, 189-194, 235-244. -/
def setLimitLeaf (ov : Int → Res Int) : Leaf → Int → Res Leaf
  | .full _ f counter _, limit => do
    let e ← word ov (limit * f)
    Res.assert (limit ≥ 0)
    pure (.full limit f counter e)
  | r, limit => r.setLimit limit

/-- size: range.cc:102-106, 146-150, 196-200, 246-250. -/
def sizeLeaf (ov : Int → Res Int) : Leaf → Res Int
  | .step _ _ _ start stop stp => do
    let x ← word ov (stop - start)
    if stp = 0 then .ub
    else do
      let q ← word ov (x.tdiv stp)
      word ov (q + 1)
  | r => r.size

/-- set_factor of a ProductRange, range.cc:295-300. -/
def setFactor (ov : Int → Res Int) : Range → Int → Res Range
  | .leaf r, factor => do
    let r ← setFactorLeaf ov r factor
    pure (.leaf r)
  | .product r1 r2 base, factor => do
    let r1 ← setFactorLeaf ov r1 factor
    let g ← word ov (factor * r1.limit)
    let r2 ← setFactor ov r2 g
    pure (.product r1 r2 base)

/-- product(r1, r2) with the constructor of ProductRange, range.cc:261-264, 314-317. -/
def mkProduct (ov : Int → Res Int) (r1 : Leaf) (r2 : Range) : Res Range := do
  let g ← word ov (r1.factor * r1.limit)
  let r2 ← setFactor ov r2 g
  pure (.product r1 r2 none)

/-- product(r1, product(r2, ...)), tensor_view.hpp:66, 81, 98, 117, 139. -/
def build (ov : Int → Res Int) (r : Leaf) : List Leaf → Res Range
  | [] => .ok (.leaf r)
  | r' :: rs => do
    let r2 ← build ov r' rs
    mkProduct ov r r2

/-- ProductRange::pop, range.cc:272-285. -/
def pop (ov : Int → Res Int) : Nat → Range → Run (Int × Range)
  | 0, _ => .out
  | _ + 1, .leaf r => do
    let x ← Run.done (popLeaf ov r)
    pure (x.1, .leaf x.2)
  | n + 1, .product r1 r2 base =>
    match base with
    | none => .done .ub
    | some out =>
      if out = nomore then .done (.ok (out, .product r1 r2 base))
      else do
        let x ← Run.done (popLeaf ov r1)
        if x.1 ≠ nomore then do
          let v ← Run.done (word ov (x.1 + out))
          pure (v, .product x.2 r2 base)
        else do
          let y ← pop ov n r2
          pop ov n (.product x.2.reset y.2 (some y.1))

/-- ProductRange::reset, range.cc:287-293. -/
def reset (ov : Int → Res Int) (n : Nat) : Range → Run Range
  | .leaf r => .done (.ok (.leaf r.reset))
  | .product r1 r2 _ => do
    let r2 ← reset ov n r2
    let x ← pop ov n r2
    pure (.product r1.reset x.2 (some x.1))

/-- `set_limit` for all ranges, in order; tensor_view.hpp:52, 62-63, 75-77 ... -/
def setLimits (ov : Int → Res Int) : List Leaf → List Nat → Res (List Leaf)
  | [], [] => .ok []
  | r :: rs, d :: ds => do
    let r ← setLimitLeaf ov r d
    let rs ← setLimits ov rs ds
    pure (r :: rs)
  | _, _ => .abort

/-- `size()` of all ranges, in order; tensor_view.hpp:53, 64-65, 78-80 ... -/
def sizes (ov : Int → Res Int) : List Leaf → Res (List Int)
  | [] => .ok []
  | r :: rs => do
    let s ← sizeLeaf ov r
    let ss ← sizes ov rs
    pure (s :: ss)

/-- The overloads operator()(PRange, ...) and at(PRange, ...), tensor_view.hpp:46-141, 147-242. -/
def mkView (ov : Int → Res Int) (t : Tensor α) (specs : List View.Spec) : Res (List Int × Range) :=
  match specs.map Spec.new with
  | [] => .abort
  | r :: rs => do
    let limits := if rs = [] then [t.size] else t.dims
    Res.assert (limits.length = specs.length)
    let ls ← setLimits ov (r :: rs) limits
    let dims ← sizes ov ls
    match ls with
    | [] => .abort
    | l :: ls => do
      let range ← build ov l ls
      pure (dims, range)

/-- The loop of view::operator Tensor, tensor_view.hpp:36-38. -/
def readLoop (ov : Int → Res Int) (data : List α) :
    Nat → Range → Nat → List (Option α) → Run (List (Option α))
  | 0, _, _, _ => .out
  | n + 1, r, k, buf => do
    let x ← pop ov n r
    if x.1 = nomore then pure buf
    else do
      let buf ← Run.done (writeAll buf [(k, readAt data x.1)])
      readLoop ov data n x.2 (k + 1) buf

/-- `Tensor s = t(r1, ..., rn)`, tensor_view.hpp:30-40; `alloc` is the allocation for the kind of
elements, `newReal` or `newComplex`. -/
def slice (ov : Int → Res Int) (alloc : Int → Res (Nat × Nat)) (n : Nat) (t : Tensor α)
    (specs : List View.Spec) : Run (List Int × List α) := do
  let v ← Run.done (mkView ov t specs)
  let o ← Run.done (makeDims ov alloc v.1)
  let buf := List.replicate o.cells none
  let r ← reset ov n v.2
  let buf ← readLoop ov t.data n r 0 buf
  let data ← Run.done (finish buf)
  pure (v.1, data)

/-- The loop of mutable_view::operator=(Tensor), tensor_view.hpp:270-272, for different tensors. -/
def assignLoop (ov : Int → Res Int) (src : List α) : Nat → Range → Nat → List α → Run (List α)
  | 0, _, _, _ => .out
  | n + 1, r, i, data => do
    let x ← pop ov n r
    if x.1 = nomore then pure data
    else do
      let data ← Run.done (writeAt data x.1 src[i]?)
      assignLoop ov src n x.2 (i + 1) data

/-- `t.at(r1, ..., rn) = s`, tensor_view.hpp:264-273, for different tensors. -/
def assign (ov : Int → Res Int) (n : Nat) (t : Tensor α) (specs : List View.Spec) (s : Tensor α) :
    Run (Tensor α) := do
  let v ← Run.done (mkView ov t specs)
  let a ← Run.done (totalSize ov v.1)
  let b ← Run.done (totalSize ov (s.dims.map Int.ofNat))
  let _ ← Run.done (Res.assert (a = b))
  let r ← reset ov n v.2
  let data ← assignLoop ov s.data n r 0 t.data
  pure ⟨t.dims, data⟩

/-- The loop of mutable_view::operator=(elt_t), tensor_view.hpp:279-281. -/
def fillLoop (ov : Int → Res Int) (v : α) : Nat → Range → List α → Run (List α)
  | 0, _, _ => .out
  | n + 1, r, data => do
    let x ← pop ov n r
    if x.1 = nomore then pure data
    else do
      let data ← Run.done (writeAt data x.1 (some v))
      fillLoop ov v n x.2 data

/-- `t.at(r1, ..., rn) = v`, tensor_view.hpp:275-282. -/
def assignNumber (ov : Int → Res Int) (n : Nat) (t : Tensor α) (specs : List View.Spec) (v : α) :
    Run (Tensor α) := do
  let w ← Run.done (mkView ov t specs)
  let r ← reset ov n w.2
  let data ← fillLoop ov v n r t.data
  pure ⟨t.dims, data⟩

/-- The loop of mutable_view::operator=(view), tensor_view.hpp:258-261. -/
def viewLoop (ov : Int → Res Int) (src : List α) : Nat → Range → Range → List α → Run (List α)
  | 0, _, _, _ => .out
  | n + 1, r1, r2, data => do
    let x ← pop ov n r1
    let y ← pop ov n r2
    if x.1 ≠ nomore ∧ y.1 ≠ nomore then do
      let data ← Run.done (writeAt data x.1 (readAt src y.1))
      viewLoop ov src n x.2 y.2 data
    else pure data

/-- `t.at(r1, ..., rn) = s(q1, ..., qm)`, tensor_view.hpp:248-262. -/
def assignView (ov : Int → Res Int) (n : Nat) (t : Tensor α) (specs : List View.Spec) (s : Tensor α)
    (specs' : List View.Spec) : Run (Tensor α) := do
  let v ← Run.done (mkView ov t specs)
  let w ← Run.done (mkView ov s specs')
  let a ← Run.done (totalSize ov v.1)
  let b ← Run.done (totalSize ov w.1)
  let _ ← Run.done (Res.assert (a = b))
  let r1 ← reset ov n v.2
  let r2 ← reset ov n w.2
  let data ← viewLoop ov s.data n r1 r2 t.data
  pure ⟨t.dims, data⟩

end Verif.ViewMachine
