import Verif.Model.RefCount
/-
Model of vectors over arrays of the caller which the caller goes on using: `Vector(n, data)`,
/repo/include/tensor/vector.h:48-51, `RefPointer(data, n, false)`, /repo/include/tensor/detail/refcount.hpp:101-104.
The library itself uses them in ARPACK::get_x and get_y, /repo/src/arpack/arpack_t.cc:293-301.

The vectors are those of Model/RefCount.lean; the arrays of the caller are its first blocks, and any number of
vectors can be created over each of them. New here: the caller writes, reads and releases the arrays.
Simplification: a vector begins at the start of an array.
-/
namespace Verif.ExtMem

open Verif RefCount

variable {α : Type}

inductive Stmt (α : Type) where
  | op (o : Op α)                     -- operations on vectors
  | poke (b i : Nat) (v : α)          -- data[i] = v
  | peek (b i : Nat)                  -- data[i], which is observed
  | free (b : Nat)                    -- delete[] data

def step (s : St α) : Stmt α → Res (St α × Out α)
  | .op o => RefCount.step s o
  | .poke b i v => do
    let c ← getBlk s b
    if i < c.length then pure ({ s with blks := upd s.blks b (some (c.set i (some v))) }, .unit) else .ub
  | .peek b i => do
    let c ← getBlk s b
    let v ← Res.ofOption c[i]?
    pure (s, .val v)
  | .free b => do
    let _ ← getBlk s b
    pure ({ s with blks := upd s.blks b none }, .unit)

def run (s : St α) : List (Stmt α) → Res (St α × List (Out α))
  | [] => .ok (s, [])
  | c :: cs => do
    let x ← step s c
    let y ← run x.1 cs
    pure (y.1, x.2 :: y.2)

end Verif.ExtMem
