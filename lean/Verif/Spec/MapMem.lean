import Verif.Model.MapMem
import Verif.Spec.RefCount
/-
Meaning of programs which call solvers: vectors are independent values, and a call does nothing to them. Only the
number of solvers which are running is kept.
-/
namespace Verif.MapMem.Spec

open RefCount

variable {α : Type}

structure ASt (α : Type) where
  vec : RefCount.Spec.ASt α
  running : Nat

def init (ext : List (List (Option α))) : ASt α := ⟨RefCount.Spec.init ext, 0⟩

def step (s : ASt α) : Stmt α → Option (ASt α × Out α)
  | .op o => do
    let x ← RefCount.Spec.step s.vec o
    some ({ s with vec := x.1 }, x.2)
  | .enter _ vs =>
    if vs.all fun v => (s.vec.vals[v]?.join).isSome then some ({ s with running := s.running + 1 }, .unit) else none
  | .leave => if s.running = 0 then none else some ({ s with running := s.running - 1 }, .unit)
  | .throw => if s.running = 0 then none else some ({ s with running := s.running - 1 }, .unit)

def run (s : ASt α) : List (Stmt α) → Option (ASt α × List (Out α))
  | [] => some (s, [])
  | c :: cs => do
    let x ← step s c
    let y ← run x.1 cs
    some (y.1, x.2 :: y.2)

/-- Number of calls in a program which are left by eigs or by an exception; `st` are the solvers which are running, the
last one first. -/
def leaks : List Solver → List (Stmt α) → Nat
  | _, [] => 0
  | st, .op _ :: cs => leaks st cs
  | st, .enter k _ :: cs => leaks (k :: st) cs
  | [], .leave :: cs => leaks [] cs
  | .eigs :: st, .leave :: cs => leaks st cs + 1
  | _ :: st, .leave :: cs => leaks st cs
  | st, .throw :: cs => leaks st.tail cs + 1

end Verif.MapMem.Spec
