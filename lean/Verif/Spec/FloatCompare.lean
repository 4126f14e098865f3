import Mathlib.Data.EReal.Basic
import Verif.Core.Float
/-
What comparisons of doubles mean: numbers with infinities are ordered as extended real numbers, where both
zeros are 0, and NaN is not ordered.
-/
namespace Verif.FlCmp

open Verif

/-- The extended real number, none for NaN. -/
noncomputable def ext : Fl → Option EReal
  | .nan => none
  | .pinf => some ⊤
  | .ninf => some ⊥
  | .nzero => some 0
  | .fin x => some (x : EReal)

end Verif.FlCmp
