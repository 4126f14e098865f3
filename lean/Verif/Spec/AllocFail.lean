import Verif.Spec.RefCount
/-
Vectors as independent values, with operations which may be left by an exception; these have no effect.
-/
namespace Verif.AllocFail.Spec

open RefCount

variable {α : Type}

/-- Operations which may need memory. -/
def allocates : Op α → Bool
  | .newEmpty => true
  | .newSize _ => true
  | .wrap _ _ => true
  | .write _ _ _ => true
  | .touch _ => true
  | .resize _ _ => true
  | _ => false

/-- Operations, and whether an exception left them. `none`: the program misuses the interface. -/
def run (a : RefCount.Spec.ASt α) : List (Op α × Bool) → Option (RefCount.Spec.ASt α × List (Option (Out α)))
  | [] => some (a, [])
  | (_, true) :: ops => do
    let y ← run a ops
    some (y.1, none :: y.2)
  | (o, false) :: ops => do
    let x ← RefCount.Spec.step a o
    let y ← run x.1 ops
    some (y.1, some x.2 :: y.2)

end Verif.AllocFail.Spec
