import Verif.Model.ElemRef
/-
Model of the operators `a += b`, `a -= b`, `a *= b`, `a /= b` for tensors whose data is shared with other tensors,
/repo/include/tensor/detail/tensor_ops.hpp:142-195, on the memory of Model/RefCount.lean. (Model/Arith.lean has the
same operators for one tensor which shares its data with nobody.)

* The functors of /repo/include/tensor/detail/functional.h:82-116 keep a reference `const t2 &value` to the number, not
  a copy: it is read again for each element. When the number is an element of a tensor, `g[i]` or `g.at(i)`, this is
  an address (Model/ElemRef.lean).
* `*=` and `/=` with a number return the tensor by value, :186-195; all others return a reference, :145-185.
* The arguments of std::transform are evaluated in any order; `first` says that `b.begin()` comes before the call of
  the non constant `a.begin()` which makes the copy.

Simplifications: only the data of the tensors, the check of the dimensions (:147, :154, :161, :168) is a check of the
number of elements; one type of elements; the arithmetic is a parameter. An element which was not initialised gives
an element which is not initialised.
-/
namespace Verif.Inplace

open Verif RefCount

variable {α : Type}

/-- The operators. -/
inductive Kind where
  | plus | minus | times | divided
deriving Repr, DecidableEq

/-- What is on the right of the operator. -/
inductive Operand (α : Type) where
  | tensor (g : Nat)          -- a tensor
  | number (x : α)            -- a number or a variable
  | elem (g i : Nat)          -- g[i], a constant reference, vector.h:60-62
  | elemAt (g i : Nat)        -- g.at(i), a reference, vector.h:63-65
deriving Repr, DecidableEq

/-- The operator returns a copy instead of a reference, tensor_ops.hpp:187, 192. -/
def byValue : Kind → Operand α → Bool
  | .times, .tensor _ => false
  | .times, _ => true
  | .divided, .tensor _ => false
  | .divided, _ => true
  | _, _ => false

/-- Where the second operand is read from in the loop: an iterator, a reference to an element, another variable. -/
inductive Src (α : Type) where
  | blk (b : Nat)
  | cell (b i : Nat)
  | const (x : α)

def fetch (s : RefCount.St α) : Src α → Nat → Res (Option α)
  | .blk b, k => do
    let c ← getBlk s b
    Res.ofOption c[k]?
  | .cell b i, _ => do
    let c ← getBlk s b
    Res.ofOption c[i]?
  | .const x, _ => pure (some x)

/-- The operation on two elements. -/
def lift2 (f : α → α → α) : Option α → Option α → Option α
  | some x, some y => some (f x y)
  | _, _ => none

/-- std::transform with the block `B` as first input and as output. -/
def loop (f : α → α → α) (src : Src α) (B : Nat) (s : RefCount.St α) (k : Nat) : Nat → Res (RefCount.St α)
  | 0 => pure s
  | n + 1 => do
    let c ← getBlk s B
    let x ← Res.ofOption c[k]?
    let y ← fetch s src k
    loop f src B { s with blks := upd s.blks B (some (c.set k (lift2 f x y))) } (k + 1) n

/-- `b.begin()` of a constant tensor: the block of its data. -/
def block (s : RefCount.St α) (g : Nat) : Res Nat := do
  let p ← handle s g
  let P ← getPtr s p
  pure P.blk

/-- `a.size()`. -/
def sizeOf (s : RefCount.St α) (g : Nat) : Res Nat := do
  let p ← handle s g
  let P ← getPtr s p
  pure P.size

/-- `a.begin()`, `a.end()` for the output, then the loop. -/
def transform (f : α → α → α) (s : RefCount.St α) (h : Nat) (src : RefCount.St α → Res (Src α)) :
    Res (RefCount.St α) := do
  let x ← appropriate s h
  let P ← getPtr x.1 x.2
  let y ← src x.1
  loop f y P.blk x.1 0 P.size

/-- `h op= o` without the result, tensor_ops.hpp:145-195. -/
def inplace (f : α → α → α) (first : Bool) (s : RefCount.St α) (h : Nat) : Operand α → Res (RefCount.St α)
  | .tensor g => do
    let n ← sizeOf s h
    let m ← sizeOf s g
    if n = m then do
      if first then do
        let b ← block s g
        transform f s h fun _ => pure (.blk b)
      else transform f s h fun s1 => do
        let b ← block s1 g
        pure (.blk b)
    else .abort
  | .number x => transform f s h fun _ => pure (.const x)
  | .elem g i => do
    let p ← handle s g
    let a ← ElemRef.addr s p i
    transform f s h fun _ => pure (.cell a.1 a.2)
  | .elemAt g i => do
    let x ← appropriate s g
    let a ← ElemRef.addr x.1 x.2 i
    transform f x.1 h fun _ => pure (.cell a.1 a.2)

/-- Statements. -/
inductive Stmt (α : Type) where
  | op (o : Op α)                                          -- operations on tensors
  | assign (k : Kind) (first : Bool) (h : Nat) (o : Operand α)  -- h op= o;
  | keep (k : Kind) (first : Bool) (h : Nat) (o : Operand α)    -- const Tensor &r = (h op= o);
  | look (r i : Nat)                                       -- r[i], which is observed

/-- The state: the memory and, for each reference `r`, the tensor which it names. A copy whose life is prolonged by a
reference is one more tensor. -/
structure St (α : Type) where
  mem : RefCount.St α
  names : List Nat

def step (sem : Kind → α → α → α) (s : St α) : Stmt α → Res (St α × Out α)
  | .op o => do
    let x ← RefCount.step s.mem o
    pure (⟨x.1, s.names⟩, x.2)
  | .assign k first h o => do
    let s1 ← inplace (sem k) first s.mem h o
    if byValue k o then do                      -- `return a;` makes a copy, which is destroyed after the statement
      let p ← handle s1 h
      let s2 ← reference s1 p
      let s3 ← dereference s2 p
      pure (⟨s3, s.names⟩, .unit)
    else pure (⟨s1, s.names⟩, .unit)
  | .keep k first h o => do
    let s1 ← inplace (sem k) first s.mem h o
    if byValue k o then do
      let x ← RefCount.step s1 (.copy h)
      pure (⟨x.1, s.names ++ [s1.hs.length]⟩, .unit)
    else pure (⟨s1, s.names ++ [h]⟩, .unit)
  | .look r i => do
    let h ← Res.ofOption s.names[r]?
    let x ← RefCount.step s.mem (.read h i)
    pure (s, x.2)

def run (sem : Kind → α → α → α) (s : St α) : List (Stmt α) → Res (St α × List (Out α))
  | [] => .ok (s, [])
  | c :: cs => do
    let x ← step sem s c
    let y ← run sem x.1 cs
    pure (y.1, x.2 :: y.2)

/-- The state at the start. -/
def init (ext : List (Cells α)) : St α := ⟨RefCount.init ext, []⟩

end Verif.Inplace
