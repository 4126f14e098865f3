import Verif.Model.Rand
/-
Model of the seeds of the generator of random numbers: rand_reseed, /repo/src/rand/rand.cc:50-99, which the static variable of :101 runs before the program starts, :34-39. With integers of 64 bits (TENSOR_64BITS)
and SEED_SIZE 1, :41-43. What is written to the terminal (:80) is left out.
-/
namespace Verif.Rand

open Verif

/-- What isspace accepts in the language C. -/
def isSpace (c : Char) : Bool := c = ' ' || c = '\t' || c = '\n' || c = '\x0b' || c = '\x0c' || c = '\r'

/-- The digits at the start of a text. -/
def digits (s : List Char) : Nat := (s.takeWhile Char.isDigit).foldl (fun n c => 10 * n + (c.toNat - 48)) 0

/-- The sign of a text, and the rest. -/
def signOf : List Char → Bool × List Char
  | '-' :: t => (true, t)
  | '+' :: t => (false, t)
  | t => (false, t)

/-- atoi of the C library: undefined if the number is not an int. -/
def atoi (s : List Char) : Res Int :=
  let t := signOf (s.dropWhile isSpace)
  let v : Int := if t.1 then -(digits t.2 : Int) else (digits t.2 : Int)
  if -2 ^ 31 ≤ v ∧ v < 2 ^ 31 then .ok v else .ub

/-- What the process finds outside. -/
structure Env where
  /-- The variable RANDSEED of the environment, if there is one. -/
  randseed : Option (List Char)
  /-- `none`: /dev/urandom cannot be opened; `some none`: it can, but the eight bytes cannot be read. -/
  urandom : Option (Option (BitVec 64))
  /-- The clock. -/
  time : Int

/-- Numbers which are drawn and thrown away, rand.cc:95-98: 624*10 calls of `rand<long>()`. -/
def warmUp (s : State 64) : Res (State 64) := do
  let p ← draws mt64 (624 * 10) s
  pure p.2

/-- rand_reseed, rand.cc:50-99. `int` becomes uint64_t by extension of the sign; the clock becomes int by its 32 last bits
(:92). The return value of fread is not looked at, :88: without the bytes `seed` is not initialised. -/
def reseed (env : Env) (s : State 64) : Res (State 64) :=
  match env.randseed with
  | some text => do
    let n ← atoi text
    initGenrand mt64 s (BitVec.ofInt 64 n)
  | none => do
    let s ← (match env.urandom with
      | some bytes => do
        let seed ← Res.ofOption bytes
        initByArray mt64 s [seed]
      | none => initGenrand mt64 s ((BitVec.ofInt 32 env.time).signExtend 64))
    warmUp s

/-- The state when the program starts, rand64.cc:69-72, and after initialize_mt, rand.cc:34-39, 101. -/
def start (env : Env) : Res (State 64) := reseed env ⟨List.replicate 312 0#64, 313⟩

/-- rand_reseed for Windows, rand.cc:51-66, 95-98: the first argument is the word of CryptGenRandom, if there is one; it is
stored in `r`, which is not used. `clock` and `time` become uint32_t, :65. -/
def reseedWindows (word : Option (BitVec 64)) (clock time : Int) (s : State 64) : Res (State 64) := do
  let s ← (match word with
    | some _ => pure s
    | none => initGenrand mt64 s ((BitVec.ofInt 32 clock ^^^ BitVec.ofInt 32 time).setWidth 64))
  warmUp s

end Verif.Rand
