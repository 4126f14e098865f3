import Verif.Core.Res
/-
Model of the class Flags, /repo/include/tensor/flags.h, /repo/src/tools/flags.cc. The state is the
vector of values.
-/
namespace Verif.Flags

open Verif

variable {α : Type}

/-- Flags::Flags, flags.cc:29-32. -/
def init : List α := []

/-- Flags::get, flags.cc:34-37: no test of the code. -/
def get (s : List α) (code : Nat) : Res α := Res.ofOption s[code]?

/-- Flags::set, flags.cc:39-47. -/
def set (s : List α) (code : Nat) (v : α) : Res (List α) := do
  Res.assert (¬ s.length ≤ code)
  pure (s.set code v)

/-- Flags::create_key, flags.cc:49-54: the code of the new flag, and the new state. -/
def createKey (s : List α) (v : α) : Nat × List α := (s.length, s ++ [v])

/-- What a program does with flags. -/
inductive Op (α : Type) where
  | create (v : α)
  | set (code : Nat) (v : α)

/-- One operation; `create` returns the new code. -/
def step (s : List α) : Op α → Res (Option Nat × List α)
  | .create v => pure (some (createKey s v).1, (createKey s v).2)
  | .set code v => do
    let s ← set s code v
    pure (none, s)

/-- A history of operations: the codes which were created, and the final state. -/
def run : List α → List (Op α) → Res (List Nat × List α)
  | s, [] => pure ([], s)
  | s, op :: ops => do
    let x ← step s op
    let y ← run x.2 ops
    pure (x.1.toList ++ y.1, y.2)

end Verif.Flags
