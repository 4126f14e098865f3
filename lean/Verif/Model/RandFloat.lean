import Verif.Model.Rand
import Verif.Core.Float
/-
Model of the random numbers of type double between limits, /repo/include/tensor/rand.h:54-61 with
real_number = double.
-/
namespace Verif.Rand

open Verif

variable [Rounding]

/-- `rand<double>(upper)`, rand.h:54-56. -/
noncomputable def randDoubleTo (upper : Fl) (s : State 64) : Res (Fl × State 64) := do
  let p ← randDouble s
  pure (upper * Fl.fin p.1, p.2)

/-- `rand<double>(lower, upper)`, rand.h:58-61. -/
noncomputable def randDoubleIn (lower upper : Fl) (s : State 64) : Res (Fl × State 64) := do
  let p ← randDoubleTo (upper - lower) s
  pure (p.1 + lower, p.2)

end Verif.Rand
