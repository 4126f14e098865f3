import Verif.Model.RefCount
/-
The counter of references is of type `int` (/repo/include/tensor/detail/refcount.hpp:55-57, :68), while
Model/RefCount.lean has unbounded counters. Only RefPointer::reference adds to the counter, which is undefined
for 2^31 - 1.
-/
namespace Verif.Counter

open Verif RefCount

variable {α : Type}

/-- RefPointer::reference, refcount.hpp:116-120, and pointer::reference, :55, with a counter of type `int`. -/
def reference (s : St α) (p : Nat) : Res (St α) := do
  let P ← getPtr s p
  if P.refs + 1 < 2 ^ 31 then pure { s with ptrs := upd s.ptrs p (some { P with refs := P.refs + 1 }) } else .ub

/-- One operation. -/
def step (s : St α) : Op α → Res (St α × Out α)
  | .copy h => do                                       -- refcount.hpp:106-109
    let p ← handle s h
    let s1 ← reference s p
    pure ({ s1 with hs := s1.hs ++ [some p] }, .unit)
  | .assign h g => do                                   -- refcount.hpp:143-150
    let p ← handle s h
    let q ← handle s g
    if q ≠ p then
      let s1 ← dereference s p
      let s2 ← reference s1 q
      pure ({ s2 with hs := s2.hs.set h (some q) }, .unit)
    else pure (s, .unit)
  | op => RefCount.step s op

/-- A history. -/
def run (s : St α) : List (Op α) → Res (St α × List (Out α))
  | [] => .ok (s, [])
  | op :: ops => do
    let (s1, o) ← step s op
    let (s2, os) ← run s1 ops
    pure (s2, o :: os)

/-- RefPointer::ref_count, refcount.h:86, and Vector::ref_count, vector.h:75: the counter converted to `size_t` and to
`int`. -/
def refCount (s : St α) (h : Nat) : Res Int := do
  let p ← handle s h
  let P ← getPtr s p
  pure P.refs

end Verif.Counter
