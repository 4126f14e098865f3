import Verif.Model.ExtMem
/-
Meaning of vectors over arrays of the caller, without memory addresses and reference counts.

A vector is either a value of its own, or a view of the first elements of an array. Each use of `Vector(n, data)`
makes a new group of views; copies of a view belong to the same group. A view which is alone in its group writes to
the array. A view which is not alone becomes a value of its own when it is written to, or when `begin` is used.
-/
namespace Verif.ExtMem.Spec

open Verif RefCount

variable {α : Type}

inductive Val (α : Type) where
  | own (l : List (Option α))
  | view (g : Nat)

/-- Whether a variable is a view of group `g`. -/
def isView (g : Nat) : Option (Val α) → Bool
  | some (.view g') => g' = g
  | _ => false

structure ASt (α : Type) where
  vals : List (Option (Val α))                -- variables, `none`: destroyed
  grps : List (Nat × Nat)                     -- array and number of elements of each group
  ext : List (Option (List (Option α)))       -- arrays of the caller, `none`: released

def init (ext : List (List (Option α))) : ASt α := ⟨[], [], ext.map some⟩

/-- The elements of a vector; none if the array has been released. -/
def elems (s : ASt α) : Val α → Option (List (Option α))
  | .own l => some l
  | .view g => do
    let x ← s.grps[g]?
    let c ← s.ext[x.1]?.join
    some (c.take x.2)

/-- Number of elements of a vector. -/
def length (s : ASt α) : Val α → Option Nat
  | .own l => some l.length
  | .view g => do
    let x ← s.grps[g]?
    some x.2

/-- A vector is alone: a value of its own, or the only view of its group. -/
def alone (s : ASt α) : Val α → Bool
  | .own _ => true
  | .view g => s.vals.countP (isView g) = 1

def setVal (s : ASt α) (h : Nat) (v : Option (Val α)) : ASt α := { s with vals := s.vals.set h v }

def step (s : ASt α) : Stmt α → Option (ASt α × Out α)
  | .op .newEmpty => some ({ s with vals := s.vals ++ [some (.own [])] }, .unit)
  | .op (.newSize n) => some ({ s with vals := s.vals ++ [some (.own (List.replicate n none))] }, .unit)
  | .op (.wrap b n) => do
    let c ← s.ext[b]?.join
    if n ≤ c.length then
      some ({ s with vals := s.vals ++ [some (.view s.grps.length)], grps := s.grps ++ [(b, n)] }, .unit)
    else none
  | .op (.copy h) => do
    let v ← s.vals[h]?.join
    some ({ s with vals := s.vals ++ [some v] }, .unit)
  | .op (.destroy h) => do
    let _ ← s.vals[h]?.join
    some (setVal s h none, .unit)
  | .op (.assign h g) => do
    let _ ← s.vals[h]?.join
    let v ← s.vals[g]?.join
    some (setVal s h (some v), .unit)
  | .op (.write h i x) => do
    let v ← s.vals[h]?.join
    let l ← elems s v
    if i < l.length then
      match v with
      | .own _ => some (setVal s h (some (.own (l.set i (some x)))), .unit)
      | .view g =>
        if alone s v then do
          let y ← s.grps[g]?
          let c ← s.ext[y.1]?.join
          some ({ s with ext := s.ext.set y.1 (some (c.set i (some x))) }, .unit)
        else some (setVal s h (some (.own (l.set i (some x)))), .unit)
    else none
  | .op (.read h i) => do
    let v ← s.vals[h]?.join
    let l ← elems s v
    let x ← l[i]?
    some (s, .val x)
  | .op (.size h) => do
    let v ← s.vals[h]?.join
    let n ← length s v
    some (s, .num n)
  | .op (.resize h n) => do
    let _ ← s.vals[h]?.join
    some (setVal s h (some (.own (List.replicate n none))), .unit)
  | .op (.touch h) => do
    let v ← s.vals[h]?.join
    if alone s v then some (s, .unit)
    else do
      let l ← elems s v
      some (setVal s h (some (.own l)), .unit)
  | .poke b i x => do
    let c ← s.ext[b]?.join
    if i < c.length then some ({ s with ext := s.ext.set b (some (c.set i (some x))) }, .unit) else none
  | .peek b i => do
    let c ← s.ext[b]?.join
    let x ← c[i]?
    some (s, .val x)
  | .free b => do
    let _ ← s.ext[b]?.join
    some ({ s with ext := s.ext.set b none }, .unit)

def run (s : ASt α) : List (Stmt α) → Option (ASt α × List (Out α))
  | [] => some (s, [])
  | c :: cs => do
    let x ← step s c
    let y ← run x.1 cs
    some (y.1, x.2 :: y.2)

end Verif.ExtMem.Spec
