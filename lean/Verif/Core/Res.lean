/-
Outcomes of C++ functions, and checked memory writes.  No library code is modelled here.
-/
namespace Verif

universe u v

/-- Outcome of a C++ function: a value, a controlled stop of the program (failed `assert`,
`abort()`, `exit()`), or undefined behaviour (including results which contain uninitialised
memory). -/
inductive Res (α : Type u) where
  | ok (a : α) : Res α
  | abort : Res α
  | ub : Res α
deriving Repr, DecidableEq

namespace Res

variable {α : Type u} {β : Type v}

protected def bind (x : Res α) (f : α → Res β) : Res β :=
  match x with
  | ok a => f a
  | abort => abort
  | ub => ub

instance : Monad Res where
  pure := Res.ok
  bind := Res.bind

@[simp] theorem pure_eq (a : α) : (pure a : Res α) = ok a := rfl
@[simp] theorem ok_bind {α β : Type u} (a : α) (f : α → Res β) : (ok a >>= f) = f a := rfl
@[simp] theorem abort_bind {α β : Type u} (f : α → Res β) : ((abort : Res α) >>= f) = abort := rfl
@[simp] theorem ub_bind {α β : Type u} (f : α → Res β) : ((ub : Res α) >>= f) = ub := rfl

instance : LawfulMonad Res := LawfulMonad.mk'
  (id_map := fun x => by cases x <;> rfl)
  (pure_bind := fun _ _ => rfl)
  (bind_assoc := fun x _ _ => by cases x <;> rfl)

@[simp] theorem map_ok {α β : Type u} (f : α → β) (a : α) : f <$> (ok a : Res α) = ok (f a) := rfl

/-- C++ `assert(p)` with assertions enabled, or `if (!p) abort();`. -/
def assert (p : Prop) [Decidable p] : Res PUnit := if p then ok ⟨⟩ else abort

/-- A memory read: `none` stands for a location outside the buffer or not initialised. -/
def ofOption : Option α → Res α
  | some a => ok a
  | none => ub

@[simp] theorem ofOption_some (a : α) : ofOption (some a) = ok a := rfl
@[simp] theorem ofOption_none : (ofOption none : Res α) = ub := rfl

theorem assert_pos {p : Prop} [Decidable p] (h : p) : assert p = ok ⟨⟩ := by simp [assert, h]
theorem assert_neg {p : Prop} [Decidable p] (h : ¬p) : assert p = abort := by simp [assert, h]

theorem assert_bind {p : Prop} [Decidable p] {β : Type u} (f : PUnit → Res β) :
    (assert p >>= f) = if p then f ⟨⟩ else abort := by
  by_cases h : p <;> simp [assert, h]

/-- The program neither aborted nor hit undefined behaviour. -/
def isOk : Res α → Bool
  | ok _ => true
  | _ => false

end Res

variable {α : Type u}

/-- Execute a sequence of writes `(position, value)`, in order, on a buffer whose cells may be
uninitialised (`none`).  Writing out of bounds, or writing a value which was read from outside
of a buffer (`none`), is undefined behaviour. -/
def writeAll (buf : List (Option α)) : List (Nat × Option α) → Res (List (Option α))
  | [] => .ok buf
  | (p, some v) :: ws => if p < buf.length then writeAll (buf.set p (some v)) ws else .ub
  | (_, none) :: _ => .ub

/-- Hand over a buffer as a result: it must not contain uninitialised cells. -/
def finish (buf : List (Option α)) : Res (List α) := Res.ofOption (buf.mapM id)

/-- A freshly allocated buffer of `n` cells, filled by a sequence of writes. -/
def runWrites (n : Nat) (ws : List (Nat × Option α)) : Res (List α) :=
  writeAll (List.replicate n none) ws >>= finish

/-- An existing buffer modified in place by a sequence of writes. -/
def updWrites (l : List α) (ws : List (Nat × Option α)) : Res (List α) :=
  writeAll (l.map some) ws >>= finish

/-- `acc = 0; for (i = 0; i < n; i++) acc += f(i)`, with values which may be invalid reads. -/
def sumO [Zero α] [Add α] (n : Nat) (f : Nat → Option α) : Option α :=
  (List.range n).foldlM (fun acc i => (f i).map (acc + ·)) 0

end Verif
