import Mathlib.Logic.Basic
/-
Model of the lock of data files, get_lock and giveup_lock, data_file.cc:42-69, for any number of
processes which may run in any order and may stop at any moment.

* The lock file is a name which is linked to a file (a number), or to nothing. Every call to `open`
  makes a new open file; `flock` locks a file for one open file at a time, until it is closed
  (closing is also what the system does when a process stops).
* A process is identified with the DataFile object it creates. The branch ENOTSUP, :52-55, and
  descriptor number 0, :59, are not modelled.
-/
namespace Verif.Lock

/-- Where a process is: not trying; after `open`, data_file.cc:49, with the number of the file; with
the lock, after `flock`, :51; after `unlink`, :66, before `close`, :67. -/
inductive Pc
  | idle
  | opened (file : Nat)
  | holding (file : Nat)
  | unlinked (file : Nat)
deriving DecidableEq, Repr

/-- The state of the system: the file to which the name of the lock is linked, the number of the next
file to be created, which process has each file locked, and where each process is. -/
structure State where
  link : Option Nat
  next : Nat
  lock : Nat → Option Nat
  pc : Nat → Pc

def update {β : Type} (f : Nat → β) (i : Nat) (v : β) : Nat → β := fun j => if j = i then v else f j

/-- No process is trying and no file exists. -/
def init : State := ⟨none, 0, fun _ => none, fun _ => .idle⟩

/-- `open(lockName, O_RDWR|O_CREAT)`, data_file.cc:49. -/
def openFile (p : Nat) (s : State) : Option State :=
  match s.pc p with
  | .idle =>
    match s.link with
    | some f => some { s with pc := update s.pc p (.opened f) }
    | none => some { s with link := some s.next, next := s.next + 1, pc := update s.pc p (.opened s.next) }
  | _ => none

/-- `flock(fd, LOCK_EX|LOCK_NB)`, data_file.cc:51, and `close(fd)`, :56, when it fails. -/
def flock (p : Nat) (s : State) : Option State :=
  match s.pc p with
  | .opened f =>
    match s.lock f with
    | none => some { s with lock := update s.lock f (some p), pc := update s.pc p (.holding f) }
    | some _ => some { s with pc := update s.pc p .idle }
  | _ => none

/-- `unlink(lockName)`, data_file.cc:66: whatever file has that name. -/
def unlink (p : Nat) (s : State) : Option State :=
  match s.pc p with
  | .holding f => some { s with link := none, pc := update s.pc p (.unlinked f) }
  | _ => none

/-- `close(fd)`, data_file.cc:67, which releases the lock. -/
def close (p : Nat) (s : State) : Option State :=
  match s.pc p with
  | .unlinked f => some { s with lock := update s.lock f none, pc := update s.pc p .idle }
  | _ => none

/-- The process stops; the system closes its files. -/
def stop (p : Nat) (s : State) : Option State :=
  match s.pc p with
  | .idle => some s
  | .opened _ => some { s with pc := update s.pc p .idle }
  | .holding f | .unlinked f => some { s with lock := update s.lock f none, pc := update s.pc p .idle }

inductive Op
  | openFile | flock | unlink | close | stop
deriving DecidableEq, Repr

/-- One operation of process `p`; none if `p` is not at that point. -/
def step (s : State) (p : Nat) : Op → Option State
  | .openFile => openFile p s
  | .flock => flock p s
  | .unlink => unlink p s
  | .close => close p s
  | .stop => stop p s

/-- The state after a sequence of operations of processes. -/
def run : List (Nat × Op) → State → Option State
  | [], s => some s
  | (p, o) :: l, s => (step s p o).bind (run l)

/-- A process has the lock: from the return of get_lock until giveup_lock. -/
def State.Holds (s : State) (p : Nat) : Prop := ∃ f, s.pc p = .holding f

instance (s : State) (p : Nat) : Decidable (s.Holds p) :=
  match h : s.pc p with
  | .holding f => .isTrue ⟨f, h⟩
  | .idle => .isFalse (by rintro ⟨f, hf⟩; rw [h] at hf; cases hf)
  | .opened _ => .isFalse (by rintro ⟨f, hf⟩; rw [h] at hf; cases hf)
  | .unlinked _ => .isFalse (by rintro ⟨f, hf⟩; rw [h] at hf; cases hf)

end Verif.Lock
