import Verif.Spec.RefCount
import Verif.Model.Inplace
/-
Specification of `a += b` and the other operators for tensors as independent values: the new elements are made from the
old ones, and the result of the operator is another name of `a`. Only the types of the statements and observations are
shared with the model.
-/
namespace Verif.Inplace.Spec

open Verif RefCount

variable {α : Type}

structure ASt (α : Type) where
  mem : RefCount.Spec.ASt α
  names : List Nat

/-- The operation on two elements, either of which may have no value. -/
def both (f : α → α → α) (x y : Option α) : Option α := x.bind fun a => y.map fun b => f a b

/-- The new value of a tensor with elements `l`. `none`: the operands do not fit or do not exist. -/
def value (f : α → α → α) (vals : List (Option (List (Option α)))) (l : List (Option α)) :
    Operand α → Option (List (Option α))
  | .tensor g => do
    let m ← vals[g]?.join
    if l.length = m.length then some (List.zipWith (both f) l m) else none
  | .number x => some (l.map fun y => both f y (some x))
  | .elem g i => do
    let m ← vals[g]?.join
    let x ← m[i]?
    some (l.map fun y => both f y x)
  | .elemAt g i => do
    let m ← vals[g]?.join
    let x ← m[i]?
    some (l.map fun y => both f y x)

def assign (f : α → α → α) (a : RefCount.Spec.ASt α) (h : Nat) (o : Operand α) :
    Option (RefCount.Spec.ASt α) := do
  let l ← a.vals[h]?.join
  let l' ← value f a.vals l o
  some { a with vals := a.vals.set h (some l') }

def step (sem : Kind → α → α → α) (s : ASt α) : Stmt α → Option (ASt α × Out α)
  | .op o => do
    let x ← RefCount.Spec.step s.mem o
    some (⟨x.1, s.names⟩, x.2)
  | .assign k _ h o => do
    let a ← assign (sem k) s.mem h o
    some (⟨a, s.names⟩, .unit)
  | .keep k _ h o => do
    let a ← assign (sem k) s.mem h o
    some (⟨a, s.names ++ [h]⟩, .unit)
  | .look r i => do
    let h ← s.names[r]?
    let l ← s.mem.vals[h]?.join
    let v ← l[i]?
    some (s, .val v)

def run (sem : Kind → α → α → α) (s : ASt α) : List (Stmt α) → Option (ASt α × List (Out α))
  | [] => some (s, [])
  | c :: cs => do
    let x ← step sem s c
    let y ← run sem x.1 cs
    some (y.1, x.2 :: y.2)

def init (ext : List (List (Option α))) : ASt α := ⟨RefCount.Spec.init ext, []⟩

/-- The values when the number is an element of the tensor itself: the elements after it are combined with the new
value of that element. -/
def ownValue (f : α → α → α) (l : List (Option α)) (i : Nat) (x : Option α) : List (Option α) :=
  l.mapIdx fun j z => both f z (if j ≤ i then x else both f x x)

/-- The operators when the right side is not an element of the tensor on the left. -/
def Apart (h : Nat) : Operand α → Prop
  | .elem g _ => g ≠ h
  | .elemAt g _ => g ≠ h
  | _ => True

/-- The operators return a reference. -/
def ByReference : Kind → Operand α → Prop
  | .plus, _ => True
  | .minus, _ => True
  | _, .tensor _ => True
  | _, _ => False

/-- Programs for which the specification holds. -/
def Plain : Stmt α → Prop
  | .op _ => True
  | .assign _ _ h o => Apart h o
  | .keep k _ h o => Apart h o ∧ ByReference k o
  | .look _ _ => True

end Verif.Inplace.Spec
