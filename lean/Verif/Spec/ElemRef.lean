import Verif.Spec.RefCount
import Verif.Model.ElemRef
/-
Meaning of pointers to elements without memory: a pointer is the name of an element of a variable, and vectors are
independent values as in Spec/RefCount.lean.

The rules say how long a pointer can be used:
* it ends when its vector is destroyed, resized or another one is assigned to it;
* a pointer from `at` can be used for reading and writing until its vector is copied, and then only for reading;
* a pointer which can only be used for reading ends when its vector is written to with `at`, or `begin` is used.
-/
namespace Verif.ElemRef.Spec

open Verif RefCount

variable {α : Type}

/-- For each pointer: the vector, the position, and whether it can be used for writing. -/
abbrev Names := Nat → Option (Nat × Nat × Bool)

structure ASt (α : Type) where
  vecs : RefCount.Spec.ASt α
  refs : Names

/-- The pointers to elements of `h` end. -/
def kill (f : Names) (h : Nat) : Names := fun r => (f r).bind fun x => if x.1 = h then none else some x

/-- The pointers to elements of `h` are only for reading. -/
def demote (f : Names) (h : Nat) : Names :=
  fun r => (f r).map fun x => if x.1 = h then (x.1, x.2.1, false) else x

/-- Of the pointers to elements of `h` those only for reading end. -/
def killRead (f : Names) (h : Nat) : Names :=
  fun r => (f r).bind fun x => if x.1 = h ∧ x.2.2 = false then none else some x

/-- What an operation on vectors does to the pointers. -/
def effect (f : Names) : Op α → Names
  | .copy h => demote f h
  | .destroy h => kill f h
  | .resize h _ => kill f h
  | .assign h g => if h = g then f else demote (kill f h) g
  | .write h _ _ => killRead f h
  | .touch h => killRead f h
  | _ => f

def step (s : ASt α) : Stmt α → Option (ASt α × Out α)
  | .op o => do
    let x ← RefCount.Spec.step s.vecs o
    some (⟨x.1, effect s.refs o⟩, x.2)
  | .at r h i => do
    let c ← s.vecs.vals[h]?.join
    if i < c.length then some (⟨s.vecs, RefCount.upd (killRead s.refs h) r (some (h, i, true))⟩, .unit) else none
  | .cat r h i => do
    let c ← s.vecs.vals[h]?.join
    if i < c.length then some (⟨s.vecs, RefCount.upd s.refs r (some (h, i, false))⟩, .unit) else none
  | .get r => do
    let x ← s.refs r
    let c ← s.vecs.vals[x.1]?.join
    let v ← c[x.2.1]?
    some (s, .val v)
  | .set r v => do
    let x ← s.refs r
    if x.2.2 then do
      let c ← s.vecs.vals[x.1]?.join
      some (⟨{ s.vecs with vals := s.vecs.vals.set x.1 (some (c.set x.2.1 (some v))) }, s.refs⟩, .unit)
    else none

def run (s : ASt α) : List (Stmt α) → Option (ASt α × List (Out α))
  | [] => some (s, [])
  | c :: cs => do
    let x ← step s c
    let y ← run x.1 cs
    some (y.1, x.2 :: y.2)

def init (ext : List (List (Option α))) : ASt α := ⟨RefCount.Spec.init ext, fun _ => none⟩

end Verif.ElemRef.Spec
