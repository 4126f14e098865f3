import Verif.Model.Gen
/-
What the numbers of a list mean.
-/
namespace Verif.Gen

open Verif

/-- A number which its type has. -/
def Num.WF : Num → Prop
  | .b _ => True
  | .i t n => t.lo ≤ n ∧ n < t.lo + t.count
  | .d x => x.WF
  | .z x => x.re.WF ∧ x.im.WF

/-- `x` is the complex number re + i im. -/
def Num.Is (re im : ℝ) : Num → Prop
  | .b x => re = (if x then 1 else 0) ∧ im = 0
  | .i _ n => re = n ∧ im = 0
  | .d x => x.Finite ∧ re = x.val ∧ im = 0
  | .z x => x.re.Finite ∧ x.im.Finite ∧ re = x.re.val ∧ im = x.im.val

/-- `y` is the number `x` in the type `t`. -/
def Same (t : Ty) (x y : Num) : Prop := y.ty = t ∧ ∃ re im, x.Is re im ∧ y.Is re im

/-- The numbers of a type and how many bits they have, ISO C++ [basic.fundamental], not taken from the model. -/
def InType : IntTy → ℤ → Prop
  | .int, n => -2147483648 ≤ n ∧ n ≤ 2147483647
  | .long, n => -9223372036854775808 ≤ n ∧ n ≤ 9223372036854775807
  | .ulong, n => 0 ≤ n ∧ n ≤ 18446744073709551615

def bits : IntTy → Nat
  | .int => 32
  | .long => 64
  | .ulong => 64

end Verif.Gen
