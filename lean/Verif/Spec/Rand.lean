import Mathlib.Data.BitVec
/-
Specification of the Mersenne twister: the sequence of words defined by the recurrence of Matsumoto and
Nishimura.
-/
namespace Verif.Spec

/-- The first words of the sequence, for a seed. -/
def seedWord {w : Nat} (mult : BitVec w) (shift : Nat) (seed : BitVec w) : Nat → BitVec w
  | 0 => seed
  | k + 1 =>
    let x := seedWord mult shift seed k
    mult * (x ^^^ (x >>> shift)) + BitVec.ofNat w (k + 1)

/-- The upper bits of `x` and the lower bits of `y`, times the matrix A. -/
def mixWord {w : Nat} (um lm a x y : BitVec w) : BitVec w :=
  let z := (x &&& um) ||| (y &&& lm)
  (z >>> 1) ^^^ (if z.getLsbD 0 then a else 0#w)

/-- `x` is a Mersenne twister sequence of degree `n`. -/
def IsTwister {w : Nat} (n m : Nat) (um lm a : BitVec w) (x : Nat → BitVec w) : Prop :=
  ∀ k, x (k + n) = x (k + m) ^^^ mixWord um lm a (x k) (x (k + 1))

end Verif.Spec
