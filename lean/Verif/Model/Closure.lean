import Verif.Core.Res

/-!
# Functions with parameters, and maps over functions

`with_args` and the structures Closure1 to Closure5 of /repo/include/tensor/map.h:54-158, and FunctionMap,
map.h:45-52, as they are used by cgs, eig_power and eigs, /repo/include/tensor/linalg.h:64-70, 127-133, 188-197.

A program is a list of statements over variables with values. An object has a lifetime, and a use of an object
beyond its lifetime is undefined behaviour. Simplifications: the five structures are one with a list of
parameters; a function is total, does not throw and has no effects; a parameter is either an object, which
is copied, or a pointer to a variable. Variables of the program live longer than everything else.
-/

namespace Verif.Closure

variable {F V : Type}

/-- An argument of with_args: a variable, taken by value (`par1 a1`), or the address of a variable. -/
inductive Param
  | val (x : Nat)
  | ptr (x : Nat)
  deriving Repr, DecidableEq

/-- A member a1_, ..., a5_ of a closure, map.h:61, 78-79, 96-98, 117-120, 143-147. -/
inductive Member (V : Type)
  | copy (v : V)
  | addr (x : Nat)
  deriving Repr, DecidableEq

/-- Closure1, ..., Closure5: the pointer to the function and the members, map.h:54-62, 71-80, 89-99, 109-121,
134-148. -/
structure Obj (F V : Type) where
  f : F
  args : List (Member V)
  deriving Repr, DecidableEq

/-- The variables, the closures in the order of their creation, `none` after their destruction, and for each
FunctionMap the closure which its member `const Func &f_` (map.h:51) refers to. -/
structure State (F V : Type) where
  vars : Nat → V
  objs : List (Option (Obj F V))
  maps : List Nat

/-- The statements of a program. -/
inductive Stmt (F V : Type)
  /-- `x = v;` -/
  | set (x : Nat) (v : V)
  /-- `auto c = with_args(f, p1, ...);` -/
  | make (f : F) (ps : List Param)
  /-- `auto d = c;` -/
  | dup (c : Nat)
  /-- the end of the scope of the closure `c` -/
  | drop (c : Nat)
  /-- `Map *m = new FunctionMap<...>(c);` -/
  | map (c : Nat)
  /-- `Map *m = new FunctionMap<...>(with_args(f, p1, ...));` -/
  | mapTemp (f : F) (ps : List Param)
  /-- `x = c(y);` for a closure -/
  | apply (x c y : Nat)
  /-- `x = (*m)(y);` for a map -/
  | call (x m y : Nat)
  /-- `x = solver(with_args(f, p1, ...), y)`, for a solver which makes a FunctionMap of its argument, calls it
  `n` times, each time on the last result, and deletes it -/
  | solve (x : Nat) (f : F) (ps : List Param) (y n : Nat)

/-- The parameter is copied into the argument of with_args, map.h:66, and from there into the member,
map.h:57. -/
def capture (vars : Nat → V) : Param → Member V
  | .val x => .copy (vars x)
  | .ptr x => .addr x

/-- with_args, map.h:64-69, 82-87, 101-107, 123-132, 150-158. -/
def withArgs (vars : Nat → V) (f : F) (ps : List Param) : Obj F V :=
  ⟨f, ps.map (capture vars)⟩

/-- What the function receives for a member. -/
def fetch (vars : Nat → V) : Member V → V
  | .copy v => v
  | .addr x => vars x

/-- operator() of the closures, map.h:58, 75, 93, 114, 140. `sem` tells what the functions compute. -/
def invoke (sem : F → V → List V → V) (vars : Nat → V) (c : Obj F V) (a : V) : V :=
  sem c.f a (c.args.map (fetch vars))

/-- A closure through a name or a reference. Without such a closure the program does not compile (`abort`); if
it was destroyed the behaviour is undefined. -/
def State.obj (σ : State F V) (c : Nat) : Res (Obj F V) :=
  match σ.objs[c]? with
  | none => .abort
  | some none => .ub
  | some (some o) => .ok o

/-- An assignment to a variable. -/
def State.assign (σ : State F V) (x : Nat) (v : V) : State F V :=
  { σ with vars := fun y => if y = x then v else σ.vars y }

/-- FunctionMap::operator(), map.h:49: a call through the reference. -/
def State.callMap (sem : F → V → List V → V) (σ : State F V) (m : Nat) (a : V) : Res V :=
  match σ.maps[m]? with
  | none => .abort
  | some c => do
      let o ← σ.obj c
      .ok (invoke sem σ.vars o a)

/-- A solver which calls the map `n` times. -/
def State.iterate (sem : F → V → List V → V) (σ : State F V) (m : Nat) : Nat → V → Res V
  | 0, a => .ok a
  | n + 1, a => do
      let b ← σ.callMap sem m a
      σ.iterate sem m n b

/-- One statement. Temporary closures are destroyed at the end of the statement which creates them. -/
def step (sem : F → V → List V → V) (σ : State F V) : Stmt F V → Res (State F V)
  | .set x v => .ok (σ.assign x v)
  | .make f ps => .ok { σ with objs := σ.objs ++ [some (withArgs σ.vars f ps)] }
  | .dup c => do
      let o ← σ.obj c
      .ok { σ with objs := σ.objs ++ [some o] }
  | .drop c => do
      let _ ← σ.obj c
      .ok { σ with objs := σ.objs.set c none }
  | .map c => do
      let _ ← σ.obj c
      .ok { σ with maps := σ.maps ++ [c] }
  | .mapTemp _ _ =>
      .ok { σ with objs := σ.objs ++ [none], maps := σ.maps ++ [σ.objs.length] }
  | .apply x c y => do
      let o ← σ.obj c
      .ok (σ.assign x (invoke sem σ.vars o (σ.vars y)))
  | .call x m y => do
      let v ← σ.callMap sem m (σ.vars y)
      .ok (σ.assign x v)
  | .solve x f ps y n => do
      let τ : State F V :=
        { σ with objs := σ.objs ++ [some (withArgs σ.vars f ps)], maps := σ.maps ++ [σ.objs.length] }
      let v ← τ.iterate sem σ.maps.length n (σ.vars y)
      .ok (σ.assign x v)

/-- A program. -/
def run (sem : F → V → List V → V) : State F V → List (Stmt F V) → Res (State F V)
  | σ, [] => .ok σ
  | σ, s :: p => do
      let τ ← step sem σ s
      run sem τ p

/-- Before the first statement. -/
def start (vars : Nat → V) : State F V := ⟨vars, [], []⟩

end Verif.Closure
