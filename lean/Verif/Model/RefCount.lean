import Verif.Core.Res
/-
Model of the copy-on-write buffers: /repo/include/tensor/refcount.h:48-101,
/repo/include/tensor/detail/refcount.hpp:29-150 (class RefPointer and its inner class pointer) and
the operations of /repo/include/tensor/vector.h:33-79 (class Vector) that forward to them.

Simplifications:
* A block of data and the `pointer` object which describes it live in two separate heaps,
  addresses are natural numbers which are never reused.
* The null data of an empty `pointer()` (refcount.hpp:33-35) is a block of length 0.
* Elements which were allocated but not written are `none`; reading them is allowed (the read
  returns an indeterminate value, here `none`), as clone() copies them, too.
* Handles (variables of type RefPointer/Vector) are numbered in the order of their creation.
-/
namespace Verif.RefCount

variable {α : Type}

/-- Class RefPointer::pointer, refcount.hpp:62-70. -/
structure Ptr where
  blk : Nat          -- data_
  size : Nat         -- size_
  refs : Int         -- references_
  owned : Bool       -- owned_
deriving Repr, DecidableEq

/-- Data of a block: `none` is an element which was not initialised. -/
abbrev Cells (α : Type) := List (Option α)

structure St (α : Type) where
  ptrs : Nat → Option Ptr            -- heap of `pointer` objects, `none`: not allocated or deleted
  nptr : Nat                         -- next fresh address of a `pointer`
  blks : Nat → Option (Cells α)      -- heap of data, `none`: not allocated or deleted
  nblk : Nat                         -- next fresh data address
  hs : List (Option Nat)             -- RefPointer::ref_ of each handle, `none`: destroyed handle

def upd {β : Type} (f : Nat → β) (k : Nat) (v : β) : Nat → β := fun x => if x = k then v else f x

/-- The program starts with external memory blocks (arrays owned by the caller) and no handles. -/
def init (ext : List (Cells α)) : St α :=
  { ptrs := fun _ => none, nptr := 0, blks := fun b => ext[b]?, nblk := ext.length, hs := [] }

/-- `ref_` of a handle; using a destroyed or non existing handle is undefined behaviour. -/
def handle (s : St α) (h : Nat) : Res Nat := Res.ofOption (s.hs[h]?.join)

/-- Follow a `pointer *`; undefined after it has been deleted. -/
def getPtr (s : St α) (p : Nat) : Res Ptr := Res.ofOption (s.ptrs p)

/-- Data behind a `pointer`; undefined after the data has been deleted. -/
def getBlk (s : St α) (b : Nat) : Res (Cells α) := Res.ofOption (s.blks b)

/-- `new pointer(data, size, owned)` for existing data, refcount.hpp:38-40. -/
def newPtr (s : St α) (b size : Nat) (owned : Bool) : St α × Nat :=
  ({ s with ptrs := upd s.ptrs s.nptr (some ⟨b, size, 1, owned⟩), nptr := s.nptr + 1 }, s.nptr)

/-- `new elt_t[n]` with given initial contents (uninitialised or copied). -/
def newBlk (s : St α) (c : Cells α) : St α × Nat :=
  ({ s with blks := upd s.blks s.nblk (some c), nblk := s.nblk + 1 }, s.nblk)

/-- `new pointer(new elt_t[n], n)`, refcount.hpp:83. -/
def newBoth (s : St α) (c : Cells α) : St α × Nat :=
  let (s1, b) := newBlk s c
  newPtr s1 b c.length true

/-- `delete ref_`: destructor `~pointer`, refcount.hpp:43-46, then the object itself. -/
def deletePtr (s : St α) (p : Nat) : Res (St α) := do
  let P ← getPtr s p
  if P.owned then
    let _ ← getBlk s P.blk                        -- deleting deleted data is undefined
    pure { s with blks := upd s.blks P.blk none, ptrs := upd s.ptrs p none }
  else
    pure { s with ptrs := upd s.ptrs p none }

/-- RefPointer::dereference, refcount.hpp:122-126, and pointer::dereference, :56. -/
def dereference (s : St α) (p : Nat) : Res (St α) := do
  let P ← getPtr s p
  let s1 := { s with ptrs := upd s.ptrs p (some { P with refs := P.refs - 1 }) }
  if P.refs - 1 ≤ 0 then deletePtr s1 p else pure s1

/-- RefPointer::reference, refcount.hpp:116-120, and pointer::reference, :55. -/
def reference (s : St α) (p : Nat) : Res (St α) := do
  let P ← getPtr s p
  pure { s with ptrs := upd s.ptrs p (some { P with refs := P.refs + 1 }) }

/-- RefPointer::appropriate, refcount.hpp:128-135, with pointer::clone, :49-53.
Returns the new `ref_` of handle `h`, which is stored in the handle. -/
def appropriate (s : St α) (h : Nat) : Res (St α × Nat) := do
  let p ← handle s h
  let P ← getPtr s p
  if P.refs > 1 then
    let c ← getBlk s P.blk
    let (s1, q) := newBoth s (c.take P.size)
    let s2 ← dereference s1 p
    pure ({ s2 with hs := s2.hs.set h (some q) }, q)
  else
    pure (s, p)

/-- Operations on handles available to the user of a Vector. -/
inductive Op (α : Type) where
  | newEmpty                       -- Vector(), RefPointer()
  | newSize (n : Nat)              -- Vector(n), RefPointer(n)
  | wrap (b : Nat) (n : Nat)       -- Vector(n, data): external memory, not owned
  | copy (h : Nat)                 -- Vector(const Vector &)
  | destroy (h : Nat)              -- ~Vector()
  | assign (h g : Nat)             -- h = g
  | write (h i : Nat) (v : α)      -- h.at(i) = v
  | read (h i : Nat)               -- h[i]
  | size (h : Nat)                 -- h.size()
  | resize (h n : Nat)             -- h.resize(n)
  | touch (h : Nat)                -- h.begin(), non const
deriving Repr, DecidableEq

/-- What the user observes of an operation. -/
inductive Out (α : Type) where
  | unit
  | val (v : Option α)             -- element read (none: it was never initialised)
  | num (n : Nat)
deriving Repr, DecidableEq

/-- One operation. -/
def step (s : St α) : Op α → Res (St α × Out α)
  | .newEmpty =>                                        -- refcount.hpp:76-79
    let (s1, p) := newBoth s []
    pure ({ s1 with hs := s1.hs ++ [some p] }, .unit)
  | .newSize n =>                                       -- refcount.hpp:81-84
    let (s1, p) := newBoth s (List.replicate n none)
    pure ({ s1 with hs := s1.hs ++ [some p] }, .unit)
  | .wrap b n => do                                     -- refcount.hpp:101-104, vector.h:51
    let (s1, p) := newPtr s b n false
    pure ({ s1 with hs := s1.hs ++ [some p] }, .unit)
  | .copy h => do                                       -- refcount.hpp:106-109
    let p ← handle s h
    let s1 ← reference s p
    pure ({ s1 with hs := s1.hs ++ [some p] }, .unit)
  | .destroy h => do                                    -- refcount.hpp:111-114
    let p ← handle s h
    let s1 ← dereference s p
    pure ({ s1 with hs := s1.hs.set h none }, .unit)
  | .assign h g => do                                   -- refcount.hpp:143-150
    let p ← handle s h
    let q ← handle s g
    if q ≠ p then
      let s1 ← dereference s p
      let s2 ← reference s1 q
      pure ({ s2 with hs := s2.hs.set h (some q) }, .unit)
    else pure (s, .unit)
  | .write h i v => do                                  -- vector.h:63-65, refcount.h:70
    let (s1, p) ← appropriate s h
    let P ← getPtr s1 p
    let c ← getBlk s1 P.blk
    if i < c.length then
      pure ({ s1 with blks := upd s1.blks P.blk (some (c.set i (some v))) }, .unit)
    else .ub
  | .read h i => do                                     -- vector.h:60-62, refcount.h:74
    let p ← handle s h
    let P ← getPtr s p
    let c ← getBlk s P.blk
    let v ← Res.ofOption c[i]?
    pure (s, .val v)
  | .size h => do                                       -- vector.h:53-55
    let p ← handle s h
    let P ← getPtr s p
    pure (s, .num P.size)
  | .resize h n => do                                   -- refcount.hpp:137-141, vector.h:56-58
    let p ← handle s h
    let s1 ← dereference s p
    let (s2, q) := newBoth s1 (List.replicate n none)
    pure ({ s2 with hs := s2.hs.set h (some q) }, .unit)
  | .touch h => do                                      -- refcount.h:70
    let (s1, _) ← appropriate s h
    pure (s1, .unit)

/-- A history: operations in order, collecting the observations. -/
def run (s : St α) : List (Op α) → Res (St α × List (Out α))
  | [] => .ok (s, [])
  | op :: ops => do
    let (s1, o) ← step s op
    let (s2, os) ← run s1 ops
    pure (s2, o :: os)

end Verif.RefCount
