import Verif.Model.RefCount
/-
Model of what the copy-on-write buffers do if memory is exhausted: `new` throws std::bad_alloc (or
std::bad_array_new_length for negative and very large sizes) and the operation is left at that point.
/repo/include/tensor/detail/refcount.hpp:49-53, :76-104, :128-141, /repo/include/tensor/vector.h:33-79. The heap is
that of Model/RefCount.lean. An operation has at most two uses of `new`: first that of the data, then that of the
`pointer` object which describes it.
-/
namespace Verif.AllocFail

open RefCount

variable {α : Type}

/-- Which `new` of an operation throws an exception, if it is reached. -/
inductive Fail where
  | no
  | data                               -- `new elt_t[n]`
  | ptr                                -- `new pointer(...)`
deriving DecidableEq, Repr

/-- RefPointer::appropriate, refcount.hpp:128-135: if clone() (:49-53, :91-97) throws then `ref_` is still the old
one. When `new pointer` fails the data which clone() has allocated is lost. `none`: an exception. -/
def appropriate (s : St α) (h : Nat) : Fail → Res (St α × Option Nat)
  | .no => do
    let x ← RefCount.appropriate s h
    pure (x.1, some x.2)
  | f => do
    let p ← handle s h
    let P ← getPtr s p
    if P.refs > 1 then
      let c ← getBlk s P.blk
      pure (if f = .ptr then (newBlk s (c.take P.size)).1 else s, none)
    else pure (s, some p)

/-- One operation; `none` in place of the observation: an exception. -/
def step (s : St α) : Op α → Fail → Res (St α × Option (Out α))
  | .newEmpty, .ptr => pure (s, none)                                -- refcount.hpp:76-79
  | .newSize _, .data => pure (s, none)                              -- refcount.hpp:81-84
  | .newSize n, .ptr => pure ((newBlk s (List.replicate n none)).1, none)
  | .wrap _ _, .ptr => pure (s, none)                                -- refcount.hpp:101-104
  | .write h i v, f => do                                            -- vector.h:63-65
    let x ← appropriate s h f
    match x.2 with
    | none => pure (x.1, none)
    | some p =>
      let P ← getPtr x.1 p
      let c ← getBlk x.1 P.blk
      if i < c.length then
        pure ({ x.1 with blks := upd x.1.blks P.blk (some (c.set i (some v))) }, some .unit)
      else .ub
  | .touch h, f => do                                                -- vector.h:67
    let x ← appropriate s h f
    pure (x.1, x.2.map fun _ => .unit)
  | .resize h _, .data => do                                         -- refcount.hpp:137-141: `ref_` is not changed
    let p ← handle s h
    let s1 ← dereference s p
    pure (s1, none)
  | .resize h n, .ptr => do
    let p ← handle s h
    let s1 ← dereference s p
    pure ((newBlk s1 (List.replicate n none)).1, none)
  | o, _ => do
    let x ← RefCount.step s o
    pure (x.1, some x.2)

/-- A history: operations with the failures, which the program notices as exceptions and survives. -/
def run (s : St α) : List (Op α × Fail) → Res (St α × List (Option (Out α)))
  | [] => .ok (s, [])
  | (o, f) :: ops => do
    let x ← step s o f
    let y ← run x.1 ops
    pure (y.1, x.2 :: y.2)

end Verif.AllocFail
