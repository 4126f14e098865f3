import Verif.Model.RefCount
/-
Specification of vectors as independent values.  Only the types of operations and observations are
shared with the model: here a handle simply *is* a list of elements, nothing is shared.
-/
namespace Verif.RefCount.Spec

variable {α : Type}

/-- Each handle has its own value (`none`: destroyed handle); `ext` are the external arrays of the
caller that have not yet been handed to the library. -/
structure ASt (α : Type) where
  vals : List (Option (List (Option α)))
  ext : List (Option (List (Option α)))

def init (ext : List (List (Option α))) : ASt α := { vals := [], ext := ext.map some }

/-- Value semantics of each operation. `none`: the program misuses the interface (dead handle,
index out of bounds, external array handed over twice or with the wrong size). -/
def step (s : ASt α) : Op α → Option (ASt α × Out α)
  | .newEmpty => some ({ s with vals := s.vals ++ [some []] }, .unit)
  | .newSize n => some ({ s with vals := s.vals ++ [some (List.replicate n none)] }, .unit)
  | .wrap b n => do
    let c ← s.ext[b]?.join
    if c.length = n then
      some ({ vals := s.vals ++ [some c], ext := s.ext.set b none }, .unit)
    else none
  | .copy h => do
    let c ← s.vals[h]?.join
    some ({ s with vals := s.vals ++ [some c] }, .unit)
  | .destroy h => do
    let _ ← s.vals[h]?.join
    some ({ s with vals := s.vals.set h none }, .unit)
  | .assign h g => do
    let _ ← s.vals[h]?.join
    let c ← s.vals[g]?.join
    some ({ s with vals := s.vals.set h (some c) }, .unit)
  | .write h i v => do
    let c ← s.vals[h]?.join
    if i < c.length then some ({ s with vals := s.vals.set h (some (c.set i (some v))) }, .unit)
    else none
  | .read h i => do
    let c ← s.vals[h]?.join
    let v ← c[i]?
    some (s, .val v)
  | .size h => do
    let c ← s.vals[h]?.join
    some (s, .num c.length)
  | .resize h n => do
    let _ ← s.vals[h]?.join
    some ({ s with vals := s.vals.set h (some (List.replicate n none)) }, .unit)
  | .touch h => do
    let _ ← s.vals[h]?.join
    some (s, .unit)

def run (s : ASt α) : List (Op α) → Option (ASt α × List (Out α))
  | [] => some (s, [])
  | op :: ops => do
    let (s1, o) ← step s op
    let (s2, os) ← run s1 ops
    some (s2, o :: os)

end Verif.RefCount.Spec
