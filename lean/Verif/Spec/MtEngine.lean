import Mathlib.Data.Nat.Bitwise
/-
Specification of `std::mersenne_twister_engine` of ISO C++, [rand.eng.mers], in arithmetic of natural numbers, with the
parameters of `std::mt19937` and `std::mt19937_64`, [rand.predef].
-/
namespace Verif.MtEngine.Spec

/-- The parameters of the template, in the order of the standard. -/
structure Params where
  w : Nat
  n : Nat
  m : Nat
  r : Nat
  a : Nat
  u : Nat
  d : Nat
  s : Nat
  b : Nat
  t : Nat
  c : Nat
  l : Nat
  f : Nat

/-- The sequence of the engine constructed with `v`; the first `n` elements are the X of negative index of the standard. -/
structure IsEngine (p : Params) (v : Nat) (x : Nat → Nat) : Prop where
  first : x 0 = v % 2 ^ p.w
  seed : ∀ k, k + 1 < p.n → x (k + 1) = (p.f * (x k ^^^ (x k / 2 ^ (p.w - 2))) + (k + 1) % p.n) % 2 ^ p.w
  next : ∀ k y, y = x k / 2 ^ p.r * 2 ^ p.r + x (k + 1) % 2 ^ p.r →
    x (k + p.n) = x (k + p.m) ^^^ (y / 2) ^^^ (p.a * (y % 2))

/-- The output of the engine for an element of the sequence. -/
def output (p : Params) (x : Nat) : Nat :=
  let z1 := x ^^^ ((x / 2 ^ p.u) &&& p.d)
  let z2 := z1 ^^^ ((z1 * 2 ^ p.s % 2 ^ p.w) &&& p.b)
  let z3 := z2 ^^^ ((z2 * 2 ^ p.t % 2 ^ p.w) &&& p.c)
  z3 ^^^ (z3 / 2 ^ p.l)

/-- std::mt19937 -/
def mt19937 : Params :=
  ⟨32, 624, 397, 31, 0x9908b0df, 11, 0xffffffff, 7, 0x9d2c5680, 15, 0xefc60000, 18, 1812433253⟩

/-- std::mt19937_64 -/
def mt19937_64 : Params :=
  ⟨64, 312, 156, 31, 0xb5026f5aa96619e9, 29, 0x5555555555555555, 17, 0x71d67fffeda60000, 37, 0xfff7eee000000000, 43,
    6364136223846793005⟩

end Verif.MtEngine.Spec
