import Verif.Core.Float
/-
Model of tic and toc, /repo/src/tools/tictoc.cc, for systems with gettimeofday (HAVE_GETTIMEOFDAY,
configure.ac:87). The constant 1e-6 is a double nearest to it. One process with one thread.
-/
namespace Verif.TicToc

open Verif

variable [Rounding]

/-- What gettimeofday gives: tv_sec and tv_usec. -/
structure Clock where
  sec : Int
  usec : Int

/-- now, tictoc.cc:29-40. -/
noncomputable def now (c : Clock) : Fl :=
  let seconds : Fl := Fl.ofInt c.sec
  let museconds : Fl := Fl.ofInt c.usec
  seconds + Fl.round (10 ^ (-6 : Int)) * museconds

/-- The calls. -/
inductive Call
  | tic
  | toc
  | tocSince (w : Fl)

/-- The variable sometime, tictoc.cc:42, a static variable without initializer. -/
noncomputable def start : Fl := Fl.fin 0

/-- A call when the clock is `c`, tictoc.cc:45-74: the result and the variable after it. -/
noncomputable def call (sometime : Fl) (c : Clock) : Call → Fl × Fl
  | .tic => (now c, now c)
  | .toc => (now c - sometime, sometime)
  | .tocSince w => (now c - w, sometime)

/-- Several calls one after the other, with the clock at each: the results and the variable. -/
noncomputable def calls (sometime : Fl) : List (Call × Clock) → List Fl × Fl
  | [] => ([], sometime)
  | x :: l =>
    let r := call sometime x.2 x.1
    let rs := calls r.2 l
    (r.1 :: rs.1, rs.2)

end Verif.TicToc
