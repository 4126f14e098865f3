import Verif.Core.Res
import Mathlib.Data.Rat.Floor
/-
Model of the random numbers: /repo/src/rand/rand64.cc, /repo/src/rand/rand32.cc, /repo/src/rand/rand.cc
and /repo/include/tensor/rand.h. The two generators are the same program with different constants.
Accesses out of the table are `ub`. Doubles are rational numbers and a rounding function.
-/
namespace Verif.Rand

open Verif

/-- The constants of a generator with words of `w` bits. -/
structure Gen (w : Nat) where
  /-- Number of words of the table. -/
  n : Nat
  m : Nat
  matrixA : BitVec w
  um : BitVec w
  lm : BitVec w
  mult : BitVec w
  shift : Nat
  /-- Multipliers of init_by_array. -/
  mult1 : BitVec w
  mult2 : BitVec w
  /-- The output of the generator for a word. -/
  temper : BitVec w → BitVec w

variable {w : Nat}

/-- The static variables mt and mti, rand64.cc:69-72, rand32.cc:58-59. -/
structure State (w : Nat) where
  mt : List (BitVec w)
  mti : Nat

/-- mt[i] -/
def read (mt : List (BitVec w)) (i : Int) : Res (BitVec w) :=
  if 0 ≤ i then Res.ofOption mt[i.toNat]? else .ub

/-- mt[i] = x -/
def write (mt : List (BitVec w)) (i : Int) (x : BitVec w) : Res (List (BitVec w)) :=
  if 0 ≤ i ∧ i < mt.length then .ok (mt.set i.toNat x) else .ub

/-- A loop which runs `c` times, from `i` on. -/
def loop {σ : Type} (f : Nat → σ → Res σ) : Nat → Nat → σ → Res σ
  | 0, _, s => .ok s
  | c + 1, i, s => do
    let s ← f i s
    loop f c (i + 1) s

/-- The body of the loop of init_genrand, rand64.cc:79, rand32.cc:66-72. -/
def initStep (g : Gen w) (i : Nat) (mt : List (BitVec w)) : Res (List (BitVec w)) := do
  let x ← read mt ((i : Int) - 1)
  write mt i (g.mult * (x ^^^ (x >>> g.shift)) + BitVec.ofNat w i)

/-- init_genrand, rand64.cc:75-80, rand32.cc:62-75. -/
def initGenrand (g : Gen w) (s : State w) (seed : BitVec w) : Res (State w) := do
  let mt ← write s.mt 0 seed
  let mt ← loop (initStep g) (g.n - 1) 1 mt
  pure ⟨mt, max 1 g.n⟩

/-- One word of the table, rand64.cc:123-124, 127-128, 130-131, rand32.cc:120-121, 124-125,
127-128. -/
def twistStep (g : Gen w) (i j k : Int) (mt : List (BitVec w)) : Res (List (BitVec w)) := do
  let a ← read mt i
  let b ← read mt j
  let x := (a &&& g.um) ||| (b &&& g.lm)
  let c ← read mt k
  write mt i (c ^^^ (x >>> 1) ^^^ (if x &&& 1#w = 0#w then 0#w else g.matrixA))

/-- All the words of the table, rand64.cc:121-131, rand32.cc:119-128. -/
def twist (g : Gen w) (mt : List (BitVec w)) : Res (List (BitVec w)) := do
  let mt ← loop (fun i => twistStep g i (i + 1) (i + g.m)) (g.n - g.m) 0 mt
  let mt ← loop (fun i => twistStep g i (i + 1) (i + ((g.m : Int) - g.n))) (g.n - 1 - (g.n - g.m))
    (g.n - g.m) mt
  twistStep g ((g.n : Int) - 1) 0 ((g.m : Int) - 1) mt

/-- genrand_int64, rand64.cc:109-144, genrand_int32, rand32.cc:107-142. -/
def genrand (g : Gen w) (s : State w) : Res (BitVec w × State w) := do
  let s ← (if g.n ≤ s.mti then do
      let s ← (if s.mti = g.n + 1 then initGenrand g s (BitVec.ofNat w 5489) else pure s)
      let mt ← twist g s.mt
      pure ⟨mt, 0⟩
    else pure s)
  let x ← read s.mt s.mti
  pure (g.temper x, ⟨s.mt, s.mti + 1⟩)

/-- State of the loops of init_by_array: mt, i and j. -/
structure KeyState (w : Nat) where
  mt : List (BitVec w)
  i : Nat
  j : Nat

/-- rand64.cc:95, 102, rand32.cc:92, 100: `if (i>=NN) { mt[0] = mt[NN-1]; i=1; }` -/
def wrap (g : Gen w) (mt : List (BitVec w)) (i : Nat) : Res (List (BitVec w) × Nat) :=
  if g.n ≤ i then do
    let x ← read mt ((g.n : Int) - 1)
    let mt ← write mt 0 x
    pure (mt, 1)
  else pure (mt, i)

/-- The first loop of init_by_array, rand64.cc:91-97, rand32.cc:87-94. -/
def keyStep1 (g : Gen w) (key : List (BitVec w)) (s : KeyState w) : Res (KeyState w) := do
  let x ← read s.mt s.i
  let y ← read s.mt ((s.i : Int) - 1)
  let z ← read key s.j
  let mt ← write s.mt s.i ((x ^^^ ((y ^^^ (y >>> g.shift)) * g.mult1)) + z + BitVec.ofNat w s.j)
  let p ← wrap g mt (s.i + 1)
  pure ⟨p.1, p.2, if key.length ≤ s.j + 1 then 0 else s.j + 1⟩

/-- The second loop of init_by_array, rand64.cc:98-103, rand32.cc:95-101. -/
def keyStep2 (g : Gen w) (s : KeyState w) : Res (KeyState w) := do
  let x ← read s.mt s.i
  let y ← read s.mt ((s.i : Int) - 1)
  let mt ← write s.mt s.i ((x ^^^ ((y ^^^ (y >>> g.shift)) * g.mult2)) - BitVec.ofNat w s.i)
  let p ← wrap g mt (s.i + 1)
  pure ⟨p.1, p.2, s.j⟩

/-- init_by_array, rand64.cc:85-106, rand32.cc:81-104. -/
def initByArray (g : Gen w) (s : State w) (key : List (BitVec w)) : Res (State w) := do
  let s ← initGenrand g s (BitVec.ofNat w 19650218)
  let k := if key.length < g.n then g.n else key.length
  let q ← loop (fun _ => keyStep1 g key) k 0 ⟨s.mt, 1, 0⟩
  let q ← loop (fun _ => keyStep2 g) (g.n - 1) 0 q
  let mt ← write q.mt 0 (1#w <<< (w - 1))
  pure ⟨mt, s.mti⟩

/-- rand64.cc:138-141 -/
def temper64 (x : BitVec 64) : BitVec 64 :=
  let x := x ^^^ ((x >>> 29) &&& 0x5555555555555555#64)
  let x := x ^^^ ((x <<< 17) &&& 0x71D67FFFEDA60000#64)
  let x := x ^^^ ((x <<< 37) &&& 0xFFF7EEE000000000#64)
  x ^^^ (x >>> 43)

/-- rand32.cc:136-139 -/
def temper32 (x : BitVec 32) : BitVec 32 :=
  let x := x ^^^ (x >>> 11)
  let x := x ^^^ ((x <<< 7) &&& 0x9d2c5680#32)
  let x := x ^^^ ((x <<< 15) &&& 0xefc60000#32)
  x ^^^ (x >>> 18)

/-- rand64.cc:62-66, 79, 92, 99 -/
def mt64 : Gen 64 where
  n := 312
  m := 156
  matrixA := 0xB5026F5AA96619E9#64
  um := 0xFFFFFFFF80000000#64
  lm := 0x7FFFFFFF#64
  mult := 6364136223846793005#64
  shift := 62
  mult1 := 3935559000370003845#64
  mult2 := 2862933555777941757#64
  temper := temper64

/-- rand32.cc:52-56, 67, 88, 96 -/
def mt32 : Gen 32 where
  n := 624
  m := 397
  matrixA := 0x9908b0df#32
  um := 0x80000000#32
  lm := 0x7fffffff#32
  mult := 1812433253#32
  shift := 30
  mult1 := 1664525#32
  mult2 := 1566083941#32
  temper := temper32

/-- `c` calls of the generator. -/
def draws (g : Gen w) : Nat → State w → Res (List (BitVec w) × State w)
  | 0, s => .ok ([], s)
  | c + 1, s => do
    let p ← genrand g s
    let q ← draws g c p.2
    pure (p.1 :: q.1, q.2)

/-- set_seed, rand.cc:45-48. -/
def setSeed (s : State 64) (seed : BitVec 64) : Res (State 64) := initGenrand mt64 s seed

/-- genrand_int63, rand64.cc:147-150. -/
def genrandInt63 (s : State 64) : Res (BitVec 64 × State 64) := do
  let p ← genrand mt64 s
  pure (p.1 >>> 1, p.2)

/-- genrand_res53, rand64.cc:171-174. The product is exact: the integer has 53 bits. -/
def genrandRes53 (s : State 64) : Res (ℚ × State 64) := do
  let p ← genrand mt64 s
  pure (((p.1 >>> 11).toNat : ℚ) * (1 / 9007199254740992), p.2)

/-- genrand_res53, rand32.cc:172-176. All the operations are exact. -/
def genrandRes53' (s : State 32) : Res (ℚ × State 32) := do
  let p ← genrand mt32 s
  let q ← genrand mt32 p.2
  pure ((((p.1 >>> 5).toNat : ℚ) * 67108864 + (q.1 >>> 6).toNat) * (1 / 9007199254740992), q.2)

/-- `rand<int>()`, rand.cc:104: conversion of an int64_t. -/
def randInt (s : State 64) : Res (BitVec 32 × State 64) := do
  let p ← genrandInt63 s
  pure (p.1.setWidth 32, p.2)

/-- `rand<unsigned int>()`, rand.cc:105. -/
def randUInt (s : State 64) : Res (BitVec 32 × State 64) := do
  let p ← genrand mt64 s
  pure (p.1.setWidth 32, p.2)

/-- `rand<long>()`, rand.cc:106. -/
def randLong (s : State 64) : Res (BitVec 64 × State 64) := genrandInt63 s

/-- `rand<unsigned long>()`, rand.cc:107. -/
def randULong (s : State 64) : Res (BitVec 64 × State 64) := genrand mt64 s

/-- `rand<double>()`, rand.cc:119-121. -/
def randDouble (s : State 64) : Res (ℚ × State 64) := genrandRes53 s

/-- `rand<float>()`, rand.cc:115-117, where `rnd` rounds to a float. -/
def randFloat (rnd : ℚ → ℚ) (s : State 64) : Res (ℚ × State 64) := do
  let p ← genrandRes53 s
  pure (rnd p.1, p.2)

/-- `rand<unsigned int>(upper)`, rand.h:54-56, where `rnd` rounds to a double. -/
def randUIntTo (rnd : ℚ → ℚ) (upper : BitVec 32) (s : State 64) : Res (BitVec 32 × State 64) := do
  let p ← randDouble s
  let x := rnd (upper.toNat * p.1)
  -- a conversion of a double which does not fit is undefined
  if x < 0 ∨ 2 ^ 32 ≤ x then .ub else pure (BitVec.ofInt 32 ⌊x⌋, p.2)

/-- `rand<unsigned int>(lower, upper)`, rand.h:58-61. -/
def randUIntIn (rnd : ℚ → ℚ) (lower upper : BitVec 32) (s : State 64) :
    Res (BitVec 32 × State 64) := do
  let p ← randUIntTo rnd (upper - lower) s
  pure (p.1 + lower, p.2)

/-- `rand<int>(upper)`, rand.h:63-67: the remainder is that of unsigned numbers. -/
def randIntTo (upper : BitVec 32) (s : State 64) : Res (BitVec 32 × State 64) :=
  if upper ≠ 0#32 then do
    let p ← randUInt s
    pure (p.1 % upper, p.2)
  else pure (0#32, s)

/-- `rand<int>(lower, upper)`, rand.h:69-71. Overflows are undefined. -/
def randIntIn (lower upper : BitVec 32) (s : State 64) : Res (BitVec 32 × State 64) :=
  if BitVec.ssubOverflow upper lower then .ub
  else do
    let p ← randIntTo (upper - lower) s
    if BitVec.saddOverflow p.1 lower then .ub else pure (p.1 + lower, p.2)

/-- `rand<long>(upper)`, rand.h:73-77: the conversion comes before the remainder, which is that of
signed numbers and which overflows for the smallest number and -1. -/
def randLongTo (upper : BitVec 64) (s : State 64) : Res (BitVec 64 × State 64) :=
  if upper ≠ 0#64 then do
    let p ← randULong s
    if p.1 = BitVec.intMin 64 ∧ upper = -1#64 then .ub else pure (p.1.srem upper, p.2)
  else pure (0#64, s)

/-- `rand<long>(lower, upper)`, rand.h:79-81. -/
def randLongIn (lower upper : BitVec 64) (s : State 64) : Res (BitVec 64 × State 64) :=
  if BitVec.ssubOverflow upper lower then .ub
  else do
    let p ← randLongTo (upper - lower) s
    if BitVec.saddOverflow p.1 lower then .ub else pure (p.1 + lower, p.2)

/-- `rand<unsigned long>(upper)`, rand.h:83-87. -/
def randULongTo (upper : BitVec 64) (s : State 64) : Res (BitVec 64 × State 64) :=
  if upper ≠ 0#64 then do
    let p ← randULong s
    pure (p.1 % upper, p.2)
  else pure (0#64, s)

/-- `rand<unsigned long>(lower, upper)`, rand.h:89-91. -/
def randULongIn (lower upper : BitVec 64) (s : State 64) : Res (BitVec 64 × State 64) := do
  let p ← randULongTo (upper - lower) s
  pure (p.1 + lower, p.2)

end Verif.Rand
