import Verif.Model.RefCount
/-
Model of the memory which the iterative solvers hold: cgs, eig_power_right, eig_power_left and eigs make a map object
with `new`, /repo/src/linalg/cgs_d.cc:36, cgs_z.cc:36, cgs_sp_d.cc:36, cgs_sp_z.cc:36, eig_power_d.cc:35, :50 (and _z,
_sp_d, _sp_z), /repo/src/arpack/eigs_sp_d.cc:32, eigs_sp_z.cc:32, /repo/include/tensor/linalg.h:69, :132, :195, and
call do_cgs (/repo/src/linalg/cgs.cc:26-64), eig_power_loop (/repo/src/linalg/eig_power.hpp:29-68) or do_eigs
(/repo/src/arpack/eigs_map_d.cc:29-89, eigs_map_z.cc). A MatrixMap has a copy of the matrix as a member,
/repo/include/tensor/map.h:34-43 and /repo/src/tools/map.cc:24-30; a FunctionMap has a reference to the function of
the caller, map.h:45-52.

The heap of data is that of Model/RefCount.lean. A matrix is a list of vectors: the dimensions and the elements of a
tensor, or the four members of a sparse matrix. The function of the caller may do anything while the solver runs, also
call other solvers or throw an exception; a call is hence represented by two statements, one at the beginning and
one at the end. Left out: temporary objects of the solvers, which are local variables; the loops.
-/
namespace Verif.MapMem

open Verif RefCount

variable {α : Type}

/-- The three functions which are given a map. -/
inductive Solver where
  | cgs                                -- do_cgs, cgs.cc:26-64
  | power                              -- eig_power_loop, eig_power.hpp:29-68
  | eigs                               -- do_eigs, eigs_map_d.cc:29-89, eigs_map_z.cc
deriving DecidableEq, Repr

/-- Whether the function deletes the map before it returns: cgs.cc:62 and eig_power.hpp:66 do; do_eigs has no
`delete`. -/
def deletes : Solver → Bool
  | .cgs => true
  | .power => true
  | .eigs => false

structure St (α : Type) where
  mem : RefCount.St α
  vars : List Nat                      -- handle which belongs to each variable of the caller
  stack : List (Solver × List Nat)     -- solvers which are running, with the members of their map
  maps : Nat                           -- map objects which exist

def init (ext : List (Cells α)) : St α := ⟨RefCount.init ext, [], [], 0⟩

inductive Stmt (α : Type) where
  | op (o : Op α)                      -- operations on the variables of the caller
  | enter (k : Solver) (vs : List Nat) -- a solver is called with a matrix made of variables `vs`; none for a function
  | leave                              -- the solver which was called last returns
  | throw                              -- the solver which was called last is left by an exception

/-- The operation on handles behind one on variables. -/
def rename (vars : List Nat) : Op α → Option (Op α)
  | .newEmpty => some .newEmpty
  | .newSize n => some (.newSize n)
  | .wrap b n => some (.wrap b n)
  | .copy v => do some (.copy (← vars[v]?))
  | .destroy v => do some (.destroy (← vars[v]?))
  | .assign v w => do some (.assign (← vars[v]?) (← vars[w]?))
  | .write v i x => do some (.write (← vars[v]?) i x)
  | .read v i => do some (.read (← vars[v]?) i)
  | .size v => do some (.size (← vars[v]?))
  | .resize v n => do some (.resize (← vars[v]?) n)
  | .touch v => do some (.touch (← vars[v]?))

/-- Operations which make a new variable. -/
def creates : Op α → Bool
  | .newEmpty => true
  | .newSize _ => true
  | .wrap _ _ => true
  | .copy _ => true
  | _ => false

/-- The members of a map are copies of the vectors of the matrix, map.cc:25-28. -/
def copyAll (m : RefCount.St α) : List Nat → Res (RefCount.St α × List Nat)
  | [] => .ok (m, [])
  | h :: hs => do
    let x ← RefCount.step m (.copy h)
    let y ← copyAll x.1 hs
    pure (y.1, m.hs.length :: y.2)

/-- Destructors of the members. -/
def destroyAll (m : RefCount.St α) : List Nat → Res (RefCount.St α)
  | [] => .ok m
  | h :: hs => do
    let x ← RefCount.step m (.destroy h)
    destroyAll x.1 hs

def handles (vars : List Nat) : List Nat → Option (List Nat)
  | [] => some []
  | v :: vs => do
    let h ← vars[v]?
    let hs ← handles vars vs
    some (h :: hs)

def step (s : St α) : Stmt α → Res (St α × Out α)
  | .op o => do
    let o' ← Res.ofOption (rename s.vars o)
    let x ← RefCount.step s.mem o'
    pure ({ s with mem := x.1, vars := if creates o then s.vars ++ [s.mem.hs.length] else s.vars }, x.2)
  | .enter k vs => do
    let hs ← Res.ofOption (handles s.vars vs)
    let x ← copyAll s.mem hs
    pure ({ s with mem := x.1, stack := (k, x.2) :: s.stack, maps := s.maps + 1 }, .unit)
  | .leave =>
    match s.stack with
    | [] => .ub
    | (k, ms) :: st =>
      if deletes k then do
        let m ← destroyAll s.mem ms.reverse
        pure ({ s with mem := m, stack := st, maps := s.maps - 1 }, .unit)
      else pure ({ s with stack := st }, .unit)
  | .throw =>
    match s.stack with
    | [] => .ub
    | _ :: st => pure ({ s with stack := st }, .unit)

def run (s : St α) : List (Stmt α) → Res (St α × List (Out α))
  | [] => .ok (s, [])
  | c :: cs => do
    let x ← step s c
    let y ← run x.1 cs
    pure (y.1, x.2 :: y.2)

end Verif.MapMem
