import Verif.Core.Res
/-
Model of vectors which are used by several threads. The operations are those of class RefPointer,
/repo/include/tensor/detail/refcount.hpp:55-57, 106-135, as in Model/RefCount.lean, but one step of a thread is one
access to memory: the reference counter is an `int`, and `++references_` reads and writes it in two accesses.

Simplifications:
* Accesses to memory happen one after the other, in any order of the threads (sequential consistency). C++ allows
  worse if two threads access the same counter at the same time.
* A `pointer` object and its data are one object and are deleted together; clone() reads the data in one step.
* The memory is divided into parts: part 0 has the objects which exist at the start, part t + 1 those which the
  thread t makes. This stands for an allocator which never gives the same memory to two threads.
* Vectors of external memory, and resizing, are left out.
-/
namespace Verif.Threads

variable {α : Type}

/-- A `pointer` object with its data, refcount.hpp:29-70. -/
structure Obj (α : Type) where
  refs : Int
  data : List α
deriving Repr, DecidableEq

/-- The address of an object: part of the memory and number. -/
abbrev Addr := Nat × Nat

/-- Statements of a thread on its own variables. -/
inductive Stmt (α : Type) where
  | new (v : Nat) (data : List α)  -- Vector v(n), with its elements
  | copy (v w : Nat)               -- Vector v(w)
  | assign (v w : Nat)             -- v = w
  | destroy (v : Nat)              -- end of the lifetime of v
  | write (v i : Nat) (x : α)      -- v.at(i) = x
  | read (v i : Nat)               -- v[i], v const
deriving Repr, DecidableEq

/-- What is left to do of a statement; each is one access to memory, or to the variables of the thread. -/
inductive Micro (α : Type) where
  | make (v : Nat) (data : List α) -- new pointer(...), for a variable
  | load (p : Addr)                -- read references_ into a register
  | store (p : Addr) (d : Int)     -- write the register plus d to references_
  | deleteIf (p : Addr) (d : Int)  -- delete the object if the register plus d is not positive
  | cloneIf (v : Nat) (p : Addr)   -- if the register is larger than one: clone() and dereference()
  | bind (v : Nat) (p : Addr)      -- ref_ of a variable
  | unbind (v : Nat)
  | set (v i : Nat) (x : α)        -- write an element
  | get (p : Addr) (i : Nat)       -- read an element
deriving Repr, DecidableEq

/-- A thread: the rest of its program, of the statement, its register, variables, what it has read, and the number
of objects it has made. -/
structure Thread (α : Type) where
  code : List (Stmt α)
  todo : List (Micro α)
  reg : Int
  vars : Nat → Option Addr
  out : List α
  made : Nat

/-- The state of the program. -/
structure St (α : Type) where
  mem : Nat → Nat → Option (Obj α)
  threads : Nat → Thread α

def upd {β : Type} (f : Nat → β) (k : Nat) (v : β) : Nat → β := fun x => if x = k then v else f x

/-- An access to an object; undefined if it was deleted. -/
def getObj (s : St α) (p : Addr) : Res (Obj α) := Res.ofOption (s.mem p.1 p.2)

def setObj (s : St α) (p : Addr) (o : Option (Obj α)) : St α :=
  { s with mem := upd s.mem p.1 (upd (s.mem p.1) p.2 o) }

def setThread (s : St α) (t : Nat) (th : Thread α) : St α := { s with threads := upd s.threads t th }

/-- RefPointer::dereference, refcount.hpp:122-126, 56. -/
def dereference (p : Addr) : List (Micro α) := [.load p, .store p (-1), .deleteIf p (-1)]

/-- The accesses of a statement. Using a variable which does not exist is undefined. -/
def micros (th : Thread α) : Stmt α → Res (List (Micro α))
  | .new v data => pure [.make v data]                          -- refcount.hpp:81-84
  | .copy v w => do                                             -- refcount.hpp:106-109, 116-120, 55
    let p ← Res.ofOption (th.vars w)
    pure [.load p, .store p 1, .bind v p]
  | .assign v w => do                                           -- refcount.hpp:143-150
    let q ← Res.ofOption (th.vars w)
    let p ← Res.ofOption (th.vars v)
    if q = p then pure [] else pure (dereference p ++ [.load q, .store q 1, .bind v q])
  | .destroy v => do                                            -- refcount.hpp:111-114
    let p ← Res.ofOption (th.vars v)
    pure (dereference p ++ [.unbind v])
  | .write v i x => do                                          -- refcount.hpp:128-135
    let p ← Res.ofOption (th.vars v)
    pure [.load p, .cloneIf v p, .set v i x]
  | .read v i => do
    let p ← Res.ofOption (th.vars v)
    pure [.get p i]

/-- One access. `th` is the thread without the access. -/
def micro (s : St α) (t : Nat) (th : Thread α) : Micro α → Res (St α)
  | .make v data =>
    let q : Addr := (t + 1, th.made)
    pure (setThread (setObj s q (some ⟨1, data⟩)) t
      { th with made := th.made + 1, vars := upd th.vars v (some q) })
  | .load p => do
    let o ← getObj s p
    pure (setThread s t { th with reg := o.refs })
  | .store p d => do
    let o ← getObj s p
    pure (setThread (setObj s p (some { o with refs := th.reg + d })) t th)
  | .deleteIf p d =>
    if th.reg + d ≤ 0 then do
      let _ ← getObj s p
      pure (setThread (setObj s p none) t th)
    else pure (setThread s t th)
  | .cloneIf v p =>
    if th.reg > 1 then do
      let o ← getObj s p
      let q : Addr := (t + 1, th.made)
      pure (setThread (setObj s q (some ⟨1, o.data⟩)) t
        { th with made := th.made + 1, todo := dereference p ++ .bind v q :: th.todo })
    else pure (setThread s t th)
  | .bind v p => pure (setThread s t { th with vars := upd th.vars v (some p) })
  | .unbind v => pure (setThread s t { th with vars := upd th.vars v none })
  | .set v i x => do
    let p ← Res.ofOption (th.vars v)
    let o ← getObj s p
    if i < o.data.length then pure (setThread (setObj s p (some { o with data := o.data.set i x })) t th) else .ub
  | .get p i => do
    let o ← getObj s p
    let x ← Res.ofOption o.data[i]?
    pure (setThread s t { th with out := th.out ++ [x] })

/-- One step of the thread `t`; a thread which has finished does nothing. -/
def step (s : St α) (t : Nat) : Res (St α) :=
  match (s.threads t).todo with
  | m :: ms => micro s t { s.threads t with todo := ms } m
  | [] =>
    match (s.threads t).code with
    | [] => .ok s
    | c :: cs => do
      let ms ← micros (s.threads t) c
      pure (setThread s t { s.threads t with code := cs, todo := ms })

/-- An execution: `sched` says which thread does each step. -/
def run (s : St α) : List Nat → Res (St α)
  | [] => .ok s
  | t :: ts => do
    let s ← step s t
    run s ts

/-- A thread at the start of its program. -/
def start (code : List (Stmt α)) (vars : Nat → Option Addr) : Thread α := ⟨code, [], 0, vars, [], 0⟩

end Verif.Threads
