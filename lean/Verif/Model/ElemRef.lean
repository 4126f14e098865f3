import Verif.Model.RefCount
/-
Model of pointers, references and iterators to elements kept in variables, for the vectors of Model/RefCount.lean:
`elt_t *r = &v.at(i)` or `iterator r = v.begin() + i`, `const elt_t *r = &v[i]` or `const_iterator r = v.begin() + i`
of a constant vector. /repo/include/tensor/vector.h:60-72, /repo/include/tensor/refcount.h:69-80.

A variable of this kind is an address: a block of memory and a position in it. It is not counted as a reference
to the block. Simplification: addresses of elements only; the address after the last one (`end()`) is left out.
-/
namespace Verif.ElemRef

open Verif RefCount

variable {α : Type}

/-- Statements. -/
inductive Stmt (α : Type) where
  | op (o : Op α)                  -- operations on vectors
  | at (r h i : Nat)               -- elt_t *r = &h.at(i)
  | cat (r h i : Nat)              -- const elt_t *r = &h[i]
  | get (r : Nat)                  -- *r, which is observed
  | set (r : Nat) (v : α)          -- *r = v

/-- The state: the memory, and for each variable the address and whether it is a pointer to constants. -/
structure St (α : Type) where
  mem : RefCount.St α
  refs : Nat → Option (Nat × Nat × Bool)

/-- The address of an element. -/
def addr (s : RefCount.St α) (p i : Nat) : Res (Nat × Nat) := do
  let P ← getPtr s p
  let c ← getBlk s P.blk
  if i < c.length then pure (P.blk, i) else .ub

def step (s : St α) : Stmt α → Res (St α × Out α)
  | .op o => do
    let x ← RefCount.step s.mem o
    pure (⟨x.1, s.refs⟩, x.2)
  | .at r h i => do                                    -- vector.h:63-65, refcount.h:70
    let x ← appropriate s.mem h
    let a ← addr x.1 x.2 i
    pure (⟨x.1, upd s.refs r (some (a.1, a.2, false))⟩, .unit)
  | .cat r h i => do                                   -- vector.h:60-62, refcount.h:74
    let p ← handle s.mem h
    let a ← addr s.mem p i
    pure (⟨s.mem, upd s.refs r (some (a.1, a.2, true))⟩, .unit)
  | .get r => do
    let x ← Res.ofOption (s.refs r)
    let c ← getBlk s.mem x.1
    let v ← Res.ofOption c[x.2.1]?
    pure (s, .val v)
  | .set r v => do
    let x ← Res.ofOption (s.refs r)
    if x.2.2 then .abort                               -- does not compile
    else do
      let c ← getBlk s.mem x.1
      if x.2.1 < c.length then
        pure (⟨{ s.mem with blks := upd s.mem.blks x.1 (some (c.set x.2.1 (some v))) }, s.refs⟩, .unit)
      else .ub

def run (s : St α) : List (Stmt α) → Res (St α × List (Out α))
  | [] => .ok (s, [])
  | c :: cs => do
    let x ← step s c
    let y ← run x.1 cs
    pure (y.1, x.2 :: y.2)

/-- The state at the start. -/
def init (ext : List (Cells α)) : St α := ⟨RefCount.init ext, fun _ => none⟩

end Verif.ElemRef
