import Verif.Model.ViewHeap
/-
What a user expects of ranges and views which are kept in variables: a view is the slice of the tensor as it was
when the view was made; assigning to a mutable view changes the tensor as if the slice were written in the statement
(Model/View.lean). There is no memory here.
-/
namespace Verif.ViewHeap.Spec

open Verif

variable {α : Type}

structure St (α : Type) where
  tensors : Nat → Option (Tensor α)
  ranges : Nat → Option View.Spec                          -- ranges which have not been used
  views : Nat → Option (Tensor α × List View.Spec)         -- the tensor at that time, and the ranges
  mviews : Nat → Option (Nat × Tensor α × List View.Spec)  -- the variable, the tensor at that time, and the ranges
  out : List (List Int × List α)

def start : St α := ⟨fun _ => none, fun _ => none, fun _ => none, fun _ => none, []⟩

/-- The ranges in the variables `rs`. -/
def specs (a : St α) : List Nat → Option (List View.Spec)
  | [] => some []
  | r :: rs => (a.ranges r).bind fun x => (specs a rs).map fun xs => x :: xs

/-- The ranges in the variables `rs` have been used. -/
def use (a : St α) (rs : List Nat) : Nat → Option View.Spec := fun r => if r ∈ rs then none else a.ranges r

/-- The tensor of a mutable view, if it still has the same dimensions. -/
def target (a : St α) (t : Nat) (x : Tensor α) : Option (Tensor α) :=
  (a.tensors t).bind fun y => if y.dims = x.dims ∧ y.size = x.size then some y else none

/-- The effect of a statement. `none` if the statement is not allowed: it uses variables which do not exist, or a
range for the second time, or a mutable view of a tensor which has changed its dimensions. -/
def step (n : Nat) (a : St α) : Stmt α → Option (Run (St α))
  | .tensor t x => some (pure { a with tensors := upd a.tensors t (some x) })
  | .endTensor t => some (pure { a with tensors := upd a.tensors t none })
  | .range r spec =>
    if (a.ranges r).isSome then none else some (pure { a with ranges := upd a.ranges r (some spec) })
  | .view v t rs =>
    if (a.views v).isSome ∨ ¬rs.Nodup then none
    else (a.tensors t).bind fun x => (specs a rs).map fun xs => do
      let _ ← Run.done (View.mkView x xs)
      pure { a with ranges := use a rs, views := upd a.views v (some (x, xs)) }
  | .convert v => (a.views v).map fun x => do
      let y ← View.slice n x.1 x.2
      pure { a with out := a.out ++ [y] }
  | .endView v => (a.views v).map fun _ => pure { a with views := upd a.views v none }
  | .mview w t rs =>
    if (a.mviews w).isSome ∨ ¬rs.Nodup then none
    else (a.tensors t).bind fun x => (specs a rs).map fun xs => do
      let _ ← Run.done (View.mkView x xs)
      pure { a with ranges := use a rs, mviews := upd a.mviews w (some (t, x, xs)) }
  | .assign w q => (a.mviews w).bind fun x => (target a x.1 x.2.1).bind fun t => (a.tensors q).map fun q' => do
      let y ← if q = x.1 then View.assignSelf n t x.2.2 else View.assign n t x.2.2 q'
      pure { a with tensors := upd a.tensors x.1 (some y) }
  | .number w v => (a.mviews w).bind fun x => (target a x.1 x.2.1).map fun t => do
      let y ← View.assignNumber n t x.2.2 v
      pure { a with tensors := upd a.tensors x.1 (some y) }
  | .assignView w v => (a.mviews w).bind fun x => (target a x.1 x.2.1).bind fun t => (a.views v).map fun q => do
      let y ← View.assignView n t x.2.2 q.1 q.2
      pure { a with tensors := upd a.tensors x.1 (some y) }
  | .endMView w => (a.mviews w).map fun _ => pure { a with mviews := upd a.mviews w none }

/-- The effect of a program. -/
def run (n : Nat) (a : St α) : List (Stmt α) → Option (Run (St α))
  | [] => some (pure a)
  | c :: cs => (step n a c).bind fun r =>
    match r with
    | .done (.ok a') => run n a' cs
    | r => some r

/-- The same outcome, with results which are related by `P`. -/
def Sim {β γ : Type} (P : β → γ → Prop) : Run β → Run γ → Prop
  | .out, .out => True
  | .done (.ok x), .done (.ok y) => P x y
  | .done .abort, .done .abort => True
  | .done .ub, .done .ub => True
  | _, _ => False

end Verif.ViewHeap.Spec
