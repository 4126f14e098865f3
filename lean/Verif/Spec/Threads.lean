import Verif.Model.Threads
import Mathlib.Data.Finset.Card
/-
What a user expects of vectors in several threads: a variable of a thread has a value of its own, which only the
statements of that thread change.
-/
namespace Verif.Threads.Spec

variable {α : Type}

/-- The variables of a thread, and what it has read. -/
structure View (α : Type) where
  vals : Nat → Option (List α)
  out : List α

/-- The effect of a statement on the values; `none` if the program is wrong: it uses a variable or an element which
does not exist, or declares a variable twice. -/
def exec (a : View α) : Stmt α → Option (View α)
  | .new v data => if (a.vals v).isNone then some { a with vals := upd a.vals v (some data) } else none
  | .copy v w =>
    if (a.vals v).isNone then (a.vals w).map fun x => { a with vals := upd a.vals v (some x) } else none
  | .assign v w =>
    if (a.vals v).isNone then none else (a.vals w).map fun x => { a with vals := upd a.vals v (some x) }
  | .destroy v => (a.vals v).map fun _ => { a with vals := upd a.vals v none }
  | .write v i x =>
    (a.vals v).bind fun l => if i < l.length then some { a with vals := upd a.vals v (some (l.set i x)) } else none
  | .read v i => (a.vals v).bind fun l => l[i]?.map fun x => { a with out := a.out ++ [x] }

def execAll (a : View α) : List (Stmt α) → Option (View α)
  | [] => some a
  | c :: cs => (exec a c).bind fun a => execAll a cs

/-- The value of a variable of a thread. -/
def value (s : St α) (t v : Nat) : Option (List α) :=
  ((s.threads t).vars v).bind fun p => (s.mem p.1 p.2).map (·.data)

/-- What a thread sees of a state. -/
def view (s : St α) (t : Nat) : View α := ⟨value s t, (s.threads t).out⟩

/-- A state between statements: no thread is in the middle of one, the variables have objects, and the counter of
each object is the number of variables with it, which is not zero. -/
structure Settled (s : St α) : Prop where
  idle : ∀ t, (s.threads t).todo = []
  live : ∀ t v p, (s.threads t).vars v = some p → s.mem p.1 p.2 ≠ none
  counts : ∀ (p : Addr) o, s.mem p.1 p.2 = some o → ∃ H : Finset (Nat × Nat), H.Nonempty ∧ o.refs = H.card ∧
    ∀ t v, (t, v) ∈ H ↔ (s.threads t).vars v = some p
  fresh : ∀ t n, (s.threads t).made ≤ n → s.mem (t + 1) n = none

/-- A thread does a step only if no other one is in the middle of a statement, as with a lock around statements. -/
def Atomic (s : St α) : List Nat → Prop
  | [] => True
  | t :: ts => (∀ u, u ≠ t → (s.threads u).todo = []) ∧ ∀ s', step s t = .ok s' → Atomic s' ts

def Finished (s : St α) (t : Nat) : Prop := (s.threads t).code = [] ∧ (s.threads t).todo = []

/-- A statement which only reads the elements of the variables in `shared`. -/
def OnlyReads (shared : Nat → Prop) : Stmt α → Prop
  | .new v _ => ¬shared v
  | .copy v w => ¬shared v ∧ ¬shared w
  | .assign v w => ¬shared v ∧ ¬shared w
  | .destroy v => ¬shared v
  | .write v _ _ => ¬shared v
  | .read _ _ => True

/-- The objects of the variables of a thread which are not in `shared` are not of other threads. -/
def Private (s : St α) (t : Nat) (shared : Nat → Prop) : Prop :=
  ∀ v p, (s.threads t).vars v = some p → (shared v → p.1 = 0) ∧ (¬shared v → p.1 = t + 1)

end Verif.Threads.Spec
