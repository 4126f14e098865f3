import Verif.Model.TensorFail
/-
Tensors, lists of indices and vectors as independent values: nothing is shared, and an operation which is left by an exception
has no effect. Only the types of operations and observations are those of the model.
-/
namespace Verif.TensorFail.Spec

variable {α : Type}

/-- The value of a variable; elements which were not initialised are `none`. -/
inductive Val (α : Type) where
  | tensor (dims : List Int) (data : List (Option α))
  | idx (l : List Int)
  | vec (l : List (Option α))

/-- The values of the variables; `none`: destroyed. -/
abbrev VSt (α : Type) := List (Option (Val α))

def prod : List Int → Int
  | [] => 1
  | n :: l => n * prod l

/-- Number of elements of a tensor with given dimensions. -/
def total (l : List Int) : Int := if l ≠ [] ∧ ∀ n ∈ l, 0 ≤ n then prod l else 0

def lift (f : α → α → α) (x y : Option α) : Option α := x.bind fun a => y.map fun b => f a b

/-- What an operation does: the new values and what the program sees, `none`: an exception. Without a result: the program
misuses the interface (variable of another type or destroyed, index out of range, dimensions which do not fit, a tensor with
elements and negative dimensions). -/
def step (w : VSt α) : TOp α → Option (VSt α × Option (TOut α))
  | .indices l => some (w ++ [some (.idx l)], some .unit)
  | .dimsOf t => match w[t]? with
    | some (some (.tensor l _)) => some (w ++ [some (.idx l)], some .unit)
    | _ => none
  | .elements t => match w[t]? with
    | some (some (.tensor _ c)) => some (w ++ [some (.vec c)], some .unit)
    | _ => none
  | .setIdx d i n => match w[d]? with
    | some (some (.idx l)) => if i < l.length then some (w.set d (some (.idx (l.set i n))), some .unit) else none
    | _ => none
  | .empty => some (w ++ [some (.tensor [] [])], some .unit)
  | .ofDims d => match w[d]? with
    | some (some (.idx l)) => some (w ++ [some (.tensor l (List.replicate (total l).toNat none))], some .unit)
    | _ => none
  | .sizes l =>
    if prod l < 0 then some (w, none)
    else if prod l = total l then some (w ++ [some (.tensor l (List.replicate (total l).toNat none))], some .unit)
    else none
  | .list l => some (w ++ [some (.tensor [(l.length : Int)] (l.map some))], some .unit)
  | .ofVector v => match w[v]? with
    | some (some (.vec c)) => some (w ++ [some (.tensor [(c.length : Int)] c)], some .unit)
    | _ => none
  | .reshaped t d => match w[t]?, w[d]? with
    | some (some (.tensor _ c)), some (some (.idx l)) =>
      if total l = c.length then some (w ++ [some (.tensor l c)], some .unit) else none
    | _, _ => none
  | .reshape t d => match w[t]?, w[d]? with
    | some (some (.tensor _ c)), some (some (.idx l)) =>
      if total l = c.length then some (w.set t (some (.tensor l c)), some .unit) else none
    | _, _ => none
  | .copy x => match w[x]? with
    | some (some v) => some (w ++ [some v], some .unit)
    | _ => none
  | .assign x y => match w[x]?, w[y]? with
    | some (some (.tensor _ _)), some (some (.tensor l c)) => some (w.set x (some (.tensor l c)), some .unit)
    | some (some (.idx _)), some (some (.idx l)) => some (w.set x (some (.idx l)), some .unit)
    | some (some (.vec _)), some (some (.vec c)) => some (w.set x (some (.vec c)), some .unit)
    | _, _ => none
  | .destroy x => match w[x]? with
    | some (some _) => some (w.set x none, some .unit)
    | _ => none
  | .get t i => match w[t]? with
    | some (some (.tensor _ c)) => c[i]?.map fun v => (w, some (.val v))
    | some (some (.vec c)) => c[i]?.map fun v => (w, some (.val v))
    | _ => none
  | .put t i v => match w[t]? with
    | some (some (.tensor l c)) => if i < c.length then some (w.set t (some (.tensor l (c.set i (some v)))), some .unit) else none
    | some (some (.vec c)) => if i < c.length then some (w.set t (some (.vec (c.set i (some v)))), some .unit) else none
    | _ => none
  | .size t => match w[t]? with
    | some (some (.tensor _ c)) => some (w, some (.num c.length))
    | _ => none
  | .rank t => match w[t]? with
    | some (some (.tensor l _)) => some (w, some (.num l.length))
    | _ => none
  | .dimension t k => match w[t]? with
    | some (some (.tensor l _)) => l[k]?.map fun n => (w, some (.num n))
    | _ => none
  | .fill t v => match w[t]? with
    | some (some (.tensor l c)) => some (w.set t (some (.tensor l (c.map fun _ => some v))), some .unit)
    | _ => none
  | .apply t f => match w[t]? with
    | some (some (.tensor l c)) => some (w.set t (some (.tensor l (c.map (·.map f)))), some .unit)
    | _ => none
  | .binary t u f => match w[t]?, w[u]? with
    | some (some (.tensor l c)), some (some (.tensor l' c')) =>
      if l = l' then some (w ++ [some (.tensor l (List.zipWith (lift f) c c'))], some .unit) else none
    | _, _ => none

/-- Operations which may need memory. -/
def allocates : TOp α → Bool
  | .indices _ => true
  | .setIdx _ _ _ => true
  | .empty => true
  | .ofDims _ => true
  | .sizes _ => true
  | .list _ => true
  | .ofVector _ => true
  | .put _ _ _ => true
  | .fill _ _ => true
  | .apply _ _ => true
  | .binary _ _ _ => true
  | _ => false

/-- Operations on existing variables which an assertion has to stop: other numbers of elements or dimensions than needed, and
dimensions which the tensor does not have. -/
def refuses (w : VSt α) : TOp α → Prop
  | .reshaped t d => ∃ l' c l, w[t]? = some (some (.tensor l' c)) ∧ w[d]? = some (some (.idx l)) ∧ total l ≠ c.length
  | .reshape t d => ∃ l' c l, w[t]? = some (some (.tensor l' c)) ∧ w[d]? = some (some (.idx l)) ∧ total l ≠ c.length
  | .dimension t k => ∃ l c, w[t]? = some (some (.tensor l c)) ∧ l.length ≤ k
  | .binary t u _ => ∃ l c l' c', w[t]? = some (some (.tensor l c)) ∧ w[u]? = some (some (.tensor l' c')) ∧ l ≠ l'
  | _ => False

/-- A program, in which the operations marked `true` were left by an exception because there was no memory. -/
def run (w : VSt α) : List (TOp α × Bool) → Option (VSt α × List (Option (TOut α)))
  | [] => some (w, [])
  | (o, b) :: ops => do
    let x ← step w o
    let y ← run (if b then w else x.1) ops
    some (y.1, (if b then none else x.2) :: y.2)

end Verif.TensorFail.Spec
