import Verif.Core.Float
/-
The numbers `std::complex<double>` of C++, with the operations which the library uses. The parts of a
product are computed by the formula of the definition, with four products which are rounded each. If both
results are NaN then compilers which follow ISO C, annex G.5.1 (GCC: __muldc3), look for infinities and
may give another result; others do not. `recover` is what they do, and all that is assumed of it is that
it leaves results alone which do not come from infinities.
-/
namespace Verif

/-- A complex number. -/
structure CFl where
  re : Fl
  im : Fl

namespace CFl

variable [Rounding]

/-- The product of real and imaginary parts without special cases. -/
noncomputable def mulRe (x y : CFl) : Fl := x.re * y.re - x.im * y.im
noncomputable def mulIm (x y : CFl) : Fl := x.re * y.im + x.im * y.re

/-- No infinity is an argument or a product of parts. -/
def NoInf (x y : CFl) : Prop :=
  x.re.isInf = false ∧ x.im.isInf = false ∧ y.re.isInf = false ∧ y.im.isInf = false ∧
  (x.re * y.re).isInf = false ∧ (x.im * y.im).isInf = false ∧ (x.re * y.im).isInf = false ∧
  (x.im * y.re).isInf = false

end CFl

/-- What the compiler does if both parts of a product are NaN. -/
class Recover [Rounding] where
  recover : CFl → CFl → CFl
  none : ∀ x y, CFl.NoInf x y → recover x y = ⟨.nan, .nan⟩

namespace CFl

noncomputable instance : Zero CFl := ⟨⟨0, 0⟩⟩

/-- std::conj. -/
noncomputable def conj (x : CFl) : CFl := ⟨x.re, -x.im⟩

section
variable [Rounding]

noncomputable instance : Add CFl := ⟨fun x y => ⟨x.re + y.re, x.im + y.im⟩⟩

/-- Division by a `double`. -/
noncomputable def divD (x : CFl) (y : Fl) : CFl := ⟨x.re / y, x.im / y⟩

variable [Recover]

noncomputable instance : Mul CFl :=
  ⟨fun x y => if mulRe x y = .nan ∧ mulIm x y = .nan then Recover.recover x y else ⟨mulRe x y, mulIm x y⟩⟩

end

/-- Without annex G. -/
@[instance_reducible] noncomputable def plain [Rounding] : Recover := ⟨fun _ _ => ⟨.nan, .nan⟩, fun _ _ _ => rfl⟩

/-- One or zero with a sign. -/
noncomputable def unit (s : Fl → Bool) (a : Fl) : Fl :=
  if a.isInf then (if s a then .fin (-1) else .fin 1) else Fl.zeroS (s a)

/-- Zero in place of NaN. -/
noncomputable def clear (s : Fl → Bool) (a : Fl) : Fl := if a = .nan then Fl.zeroS (s a) else a

/-- Annex G.5.1, example 1; `s` is the sign bit, also of NaN. -/
noncomputable def annexG [Rounding] (s : Fl → Bool) (x y : CFl) : CFl :=
  let again (x y : CFl) : CFl := ⟨.pinf * (x.re * y.re - x.im * y.im), .pinf * (x.re * y.im + x.im * y.re)⟩
  if x.re.isInf ∨ x.im.isInf then
    let x' : CFl := ⟨unit s x.re, unit s x.im⟩
    let y' : CFl := ⟨clear s y.re, clear s y.im⟩
    if y'.re.isInf ∨ y'.im.isInf then
      again ⟨clear s x'.re, clear s x'.im⟩ ⟨unit s y'.re, unit s y'.im⟩
    else again x' y'
  else if y.re.isInf ∨ y.im.isInf then
    again ⟨clear s x.re, clear s x.im⟩ ⟨unit s y.re, unit s y.im⟩
  else if (x.re * y.re).isInf ∨ (x.im * y.im).isInf ∨ (x.re * y.im).isInf ∨ (x.im * y.re).isInf then
    again ⟨clear s x.re, clear s x.im⟩ ⟨clear s y.re, clear s y.im⟩
  else ⟨.nan, .nan⟩

/-- With annex G. -/
@[instance_reducible] noncomputable def iso [Rounding] (s : Fl → Bool) : Recover :=
  ⟨annexG s, fun x y h => by
    obtain ⟨h1, h2, h3, h4, h5, h6, h7, h8⟩ := h
    simp [annexG, h1, h2, h3, h4, h5, h6, h7, h8]⟩

end CFl

end Verif
