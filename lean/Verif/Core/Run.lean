import Verif.Core.Res
/-
Computations which may not terminate: functions of an amount of fuel.  No library code is modelled
here.
-/
namespace Verif

/-- Outcome of a computation with a limited number of steps: `out` of fuel, or a final outcome. -/
inductive Run (α : Type) where
  | out : Run α
  | done (r : Res α) : Run α

namespace Run

variable {α β : Type}

protected def bind (x : Run α) (f : α → Run β) : Run β :=
  match x with
  | out => out
  | done (.ok a) => f a
  | done .abort => done .abort
  | done .ub => done .ub

instance : Monad Run where
  pure a := done (.ok a)
  bind := Run.bind

@[simp] theorem pure_eq (a : α) : (pure a : Run α) = done (.ok a) := rfl
@[simp] theorem out_bind (f : α → Run β) : ((out : Run α) >>= f) = out := rfl
@[simp] theorem ok_bind (a : α) (f : α → Run β) : (done (.ok a) >>= f) = f a := rfl
@[simp] theorem abort_bind (f : α → Run β) : (done .abort >>= f) = done .abort := rfl
@[simp] theorem ub_bind (f : α → Run β) : (done .ub >>= f) = done .ub := rfl

theorem done_bind (r : Res α) (f : α → Res β) :
    (done r >>= fun a => done (f a)) = done (r >>= f) := by
  cases r <;> rfl

end Run

variable {α : Type}

/-- The computation finishes with outcome `r`. -/
def Finishes (f : Nat → Run α) (r : Res α) : Prop := ∃ N, ∀ n, N ≤ n → f n = .done r

/-- The computation never finishes. -/
def Diverges (f : Nat → Run α) : Prop := ∀ n, f n = .out

theorem Finishes.unique {f : Nat → Run α} {r s : Res α} (h1 : Finishes f r) (h2 : Finishes f s) :
    r = s := by
  obtain ⟨n1, e1⟩ := h1
  obtain ⟨n2, e2⟩ := h2
  have a := e1 (max n1 n2) (Nat.le_max_left _ _)
  have b := e2 (max n1 n2) (Nat.le_max_right _ _)
  rw [a] at b
  exact Run.done.inj b

theorem Diverges.not_finishes {f : Nat → Run α} (h : Diverges f) (r : Res α) :
    ¬ Finishes f r := by
  rintro ⟨n, e⟩
  have := e n (Nat.le_refl n)
  rw [h n] at this
  cases this

end Verif
