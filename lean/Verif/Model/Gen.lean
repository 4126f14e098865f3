import Verif.Core.CFloat
import Verif.Model.Indices
import Verif.Model.FloatCompare
import Mathlib.Algebra.Order.Round
/-
Model of the lists of numbers `igen << ...`, `rgen << ...`, `cgen << ...`, `bgen << ...` and `xgen << ...` with the
types of C++, /repo/include/tensor/gen.h:42-159. The conversions are those of ISO C++, [conv], for a machine with 32 bits
in `int` and 64 in `long`, and integers which do not fit are taken modulo 2^n (C++20, and GCC before).
-/
namespace Verif.Gen

open Verif Indices

/-- Types of integers: `int`, `long` (the type `index`, vector.h:31) and `unsigned long` (`size_t`). -/
inductive IntTy where
  | int
  | long
  | ulong
deriving DecidableEq

def IntTy.lo : IntTy → ℤ
  | .int => -2 ^ 31
  | .long => -2 ^ 63
  | .ulong => 0

/-- The number of values of the type. -/
def IntTy.count : IntTy → ℤ
  | .int => 2 ^ 32
  | .long => 2 ^ 64
  | .ulong => 2 ^ 64

/-- Types of numbers. -/
inductive Ty where
  | bool
  | int (t : IntTy)
  | double
  | complex
deriving DecidableEq

/-- Numbers with their type. -/
inductive Num where
  | b (x : Bool)
  | i (t : IntTy) (n : ℤ)
  | d (x : Fl)
  | z (x : CFl)

def Num.ty : Num → Ty
  | .b _ => .bool
  | .i t _ => .int t
  | .d _ => .double
  | .z _ => .complex

/-- Programs which convert complex numbers to other types do not compile. -/
def convertible (t : Ty) (x : Num) : Bool := x.ty != .complex || t == .complex

/-- The value modulo 2^n, [conv.integral]. -/
def wrap (t : IntTy) (n : ℤ) : ℤ := t.lo + (n - t.lo) % t.count

/-- The integer next to the number on the side of zero. -/
noncomputable def trunc (x : ℝ) : ℤ := if x < 0 then ⌈x⌉ else ⌊x⌋

section
variable [Rounding]

/-- Conversion to `bool`, [conv.bool]. -/
noncomputable def toBool : Num → Bool
  | .b x => x
  | .i _ n => decide (n ≠ 0)
  | .d x => decide (x = .nan ∨ x.isInf ∨ x.val ≠ 0)
  | .z _ => false

open Classical in
/-- Conversion to a type of integers, [conv.integral], [conv.fpint]: numbers which do not fit have no conversion if they
come from a `double`. -/
noncomputable def toInt (t : IntTy) : Num → Res ℤ
  | .b x => .ok (if x then 1 else 0)
  | .i _ n => .ok (wrap t n)
  | .d x =>
    if x.Finite ∧ t.lo ≤ trunc x.val ∧ trunc x.val < t.lo + t.count then .ok (trunc x.val) else .ub
  | .z _ => .ub

/-- Conversion to `double`, [conv.fpint]. -/
noncomputable def toDouble : Num → Fl
  | .b x => if x then .fin 1 else .fin 0
  | .i _ n => Fl.ofInt n
  | .d x => x
  | .z x => x.re

/-- The conversion of an argument `x` to the type of the elements, where `convertible`. -/
noncomputable def conv : Ty → Num → Res Num
  | .bool, x => .ok (.b (toBool x))
  | .int t, x => do
    let n ← toInt t x
    pure (.i t n)
  | .double, x => .ok (.d (toDouble x))
  | .complex, .z x => .ok (.z x)
  | .complex, x => .ok (.z ⟨toDouble x, 0⟩)

/-- `g << x` for a StaticVector `g`, gen.h:131-134. -/
noncomputable def append (t : Ty) (g : StaticVector Num) (x : Num) : Res (StaticVector Num) := do
  let y ← conv t x
  pure (.more g y)

/-- `g << x << xs[0] << ...` for a generator with elements of type `t`, gen.h:121-134. -/
noncomputable def build (t : Ty) (x : Num) (xs : List Num) : Res (StaticVector Num) := do
  let y ← conv t x
  xs.foldlM (append t) (.one y)

/-- The list, converted to a Vector; `none` if the program does not compile. -/
noncomputable def list (t : Ty) (x : Num) (xs : List Num) : Option (Res (List Num)) :=
  if (x :: xs).all (convertible t) then some do
    let g ← build t x xs
    g.toVector
  else none

/-- The type of the elements of `xgen << x << ...` is that of `x`, gen.h:126-129. -/
noncomputable def xlist (x : Num) (xs : List Num) : Option (Res (List Num)) := list x.ty x xs

end

/-- StaticVector == Vector for doubles, gen.h:140-147, and the same with the arguments exchanged, gen.h:149-156. -/
noncomputable def equal (g : StaticVector Fl) (v : List Fl) : Res Bool := do
  let v0 ← g.toVector
  if v0.length ≠ v.length then pure false
  else FlCmp.stdEqual v0 v

end Verif.Gen
