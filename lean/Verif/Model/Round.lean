import Verif.Core.CFloat
import Verif.Model.Arith
/-
Model of the function round() for numbers and tensors: /repo/src/tensor/tensor_round_d.cc:27-54 and
/repo/include/tensor/numbers.h:79-88. The function `::round` of the C library is modelled by its description in the C standard (7.12.9.6, F.10.6.6): the
nearest integer, halfway cases away from zero, with the sign of the argument.
-/
namespace Verif.Round

open Verif

/-- The nearest integer, halfway cases away from zero. -/
noncomputable def away (x : ℝ) : ℤ := if x < 0 then -⌊-x + 1 / 2⌋ else ⌊x + 1 / 2⌋

/-- `::round` of the C library. -/
noncomputable def libRound : Fl → Fl
  | .fin x => if away x = 0 then Fl.zeroS (decide (x < 0)) else .fin (away x)
  | x => x

/-- `round(cdouble)`, numbers.h:85-87. -/
noncomputable def cround (z : CFl) : CFl := ⟨libRound z.re, libRound z.im⟩

/-- `round(RTensor)`, tensor_round_d.cc:48-53. -/
noncomputable def tensor (t : Tensor Fl) : Res (Tensor Fl) := Tensor.unop libRound t

/-- `floor` of the C library. -/
noncomputable def libFloor : Fl → Fl
  | .fin x => .fin ⌊x⌋
  | x => x

/-- The function for old compilers, tensor_round_d.cc:28-30. -/
noncomputable def msvc [Rounding] (x : Fl) : Fl := libFloor (if x < 0 then x - .fin (1 / 2) else x + .fin (1 / 2))

end Verif.Round
