import Verif.Core.Float
/-
What it means that a double is the sum, or the mean, of some doubles, up to rounding.
-/
namespace Verif.SumFl.Spec

open Verif Fl

/-- `s` is the sum of the numbers `l`: if it is finite then they are, and the error is at most (1 + 2^-53)^(n-1) - 1 times the sum of their absolute
values. It is finite if they are, far from the largest number. -/
def IsSum (l : List Fl) (s : Fl) : Prop :=
  (s.Finite → (∀ x ∈ l, x.Finite) ∧
    |s.val - (l.map val).sum| ≤ ((1 + 2 ^ (-53 : ℤ)) ^ (l.length - 1) - 1) * (l.map fun x => |x.val|).sum) ∧
  ((∀ x ∈ l, x.Finite) → (1 + 2 ^ (-53 : ℤ)) ^ (l.length - 1) * (l.map fun x => |x.val|).sum < (2 : ℝ) ^ 1024 → s.Finite)

/-- `s` is the mean of the numbers `l`. The quotient may be smaller than the numbers with all digits. -/
def IsMean (l : List Fl) (s : Fl) : Prop :=
  (s.Finite → (∀ x ∈ l, x.Finite) ∧ |s.val - (l.map val).sum / l.length| ≤
    ((1 + 2 ^ (-53 : ℤ)) ^ l.length - 1) * ((l.map fun x => |x.val|).sum / l.length) + 2 ^ (-1075 : ℤ)) ∧
  ((∀ x ∈ l, x.Finite) → (1 + 2 ^ (-53 : ℤ)) ^ l.length * (l.map fun x => |x.val|).sum < (2 : ℝ) ^ 1023 → s.Finite)

end Verif.SumFl.Spec
