import Mathlib.Data.Nat.Log
import Mathlib.Tactic.Ring
import Mathlib.Tactic.Linarith
/-
Conversion of integers to double precision numbers (IEEE 754, round to nearest, ties to even), for
integers which do not overflow. No library code is modelled here.
-/
namespace Verif

/-- `n / 2^e` rounded to the nearest integer; ties go to the even one. -/
def roundShift (n e : Nat) : Nat :=
  let q := n / 2 ^ e
  let r := n % 2 ^ e
  if 2 * r < 2 ^ e then q
  else if 2 * r > 2 ^ e then q + 1
  else if q % 2 = 0 then q else q + 1

/-- The double precision number nearest to a natural number: 53 significant bits. (The value is a
natural number.) -/
def natToDouble (n : Nat) : Nat :=
  if n < 2 ^ 53 then n else roundShift n (Nat.log2 n - 52) * 2 ^ (Nat.log2 n - 52)

/-- The double precision number nearest to an integer. -/
def toDouble (n : Int) : Int :=
  if n < 0 then -(natToDouble n.natAbs : Int) else natToDouble n.natAbs

theorem natToDouble_small {n : Nat} (h : n ≤ 2 ^ 53) : natToDouble n = n := by
  rcases Nat.lt_or_ge n (2 ^ 53) with h1 | h1
  · rw [natToDouble, if_pos h1]
  · have : n = 2 ^ 53 := by omega
    subst this
    decide

theorem toDouble_small {n : Int} (h : n.natAbs ≤ 2 ^ 53) : toDouble n = n := by
  rw [toDouble, natToDouble_small h]
  split <;> omega

example : toDouble (2 ^ 53 + 1) = 2 ^ 53 := by decide
example : toDouble (2 ^ 53 + 3) = 2 ^ 53 + 4 := by decide

end Verif
