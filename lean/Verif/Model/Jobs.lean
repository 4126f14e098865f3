import Verif.Core.Run
import Mathlib.Algebra.Field.Basic
import Mathlib.Data.List.TakeWhile
/-
Model of the jobs of /repo/include/tensor/jobs.h and /repo/src/tools/jobs.cc.

Strings are lists of characters. `atof` and `atoi` are parameters. What the program prints is left
out. Variables of C++ which have not been given a value are `none`, and reading them is `ub`. Values
of variables are in a field (see Model/Linspace.lean).
-/
namespace Verif.Jobs

open Verif

abbrev Str := List Char

/-- is_separator, jobs.cc:25-29. -/
def isSep (c : Char) : Bool := c = ' ' || c = '\t' || c = '\n' || c = ',' || c = ';'

/-- split_string, jobs.cc:31-49: skips the separators, takes one character and those after it which
are not separators, and continues behind them. -/
def split (s : Str) : List Str :=
  match _h : s.dropWhile isSep with
  | [] => []
  | c :: r => (c :: r.takeWhile (fun x => !isSep x)) :: split (r.dropWhile (fun x => !isSep x))
  termination_by s.length
  decreasing_by
    have h1 := (List.dropWhile_sublist isSep (l := s)).length_le
    have h2 := (List.dropWhile_sublist (fun x => !isSep x) (l := r)).length_le
    rw [_h, List.length_cons] at h1
    omega

variable {α : Type}

/-- Job::Variable, jobs.h:50-73. -/
structure Var (α : Type) where
  name : Str
  values : List α
  which : Nat

/-- Job::no_variable, jobs.cc:51. -/
def noVar : Var α := ⟨[], [], 0⟩

/-- The values of a variable, jobs.h:53: linspace(min,max,n). That linspace returns these is
`linspace_vals` in Props/Jobs.lean. -/
def linVals [Field α] (mn mx : α) (n : Nat) : List α :=
  if n = 1 then [mn] else (List.range n).map fun (i : Nat) => (mx - mn) / ((n : α) - 1) * (i : α) + mn

/-- The constructor of Job::Variable, jobs.h:52-54. A negative number of steps stops the program:
the memory for it cannot be had (refcount.hpp:83). -/
def mkVar [Field α] (name : Str) (mn mx : α) (n : Int) : Res (Var α) := do
  Res.assert (0 ≤ n)
  pure ⟨name, linVals mn mx n.toNat, 0⟩

/-- The functions of the C library which read numbers. -/
structure Lib (α : Type) where
  atof : Str → α
  atoi : Str → Int

variable [Field α]

/-- Job::parse_line, jobs.cc:53-87. -/
def parseLine (c : Lib α) (s : Str) : Res (Var α) :=
  match split s with
  | [] => pure noVar
  | [_] => pure noVar
  | [nm, a] => mkVar nm (c.atof a) (c.atof a) 1
  | [nm, a, b] => mkVar nm (c.atof a) (c.atof b) 10
  | [nm, a, b, n] => mkVar nm (c.atof a) (c.atof b) (c.atoi n)
  | _ => pure noVar

/-- The loop of Job::parse_file, jobs.cc:94-100: the text in the buffer is always the same. -/
def fileLoop (c : Lib α) (buffer : Str) : Nat → Nat → List (Var α) → Run (Nat × List (Var α))
  | 0, _, _ => .out
  | fuel + 1, line, data => do
    let v ← Run.done (parseLine c buffer)
    if v.name.length = 0 then pure (line, data) else fileLoop c buffer fuel (line + 1) (data ++ [v])

/-- Job::parse_file, jobs.cc:89-102. The contents of the file are not read. -/
def parseFile (c : Lib α) (fuel : Nat) (_contents : Str) (data : List (Var α)) :
    Run (Nat × List (Var α)) :=
  fileLoop c [] fuel 0 data

/-- What the constructor of Job has found in its arguments, jobs.cc:107-113. A flag `.._found` is
true when the number is not `none`. -/
structure Opts (α : Type) where
  vars : List (Var α) := []
  print : Bool := false
  first : Option Int := none
  last : Option Int := none
  blocks : Option Int := none
  cur : Option Int := none

/-- The loop over the arguments, jobs.cc:115-209; `none` if the program exits. `files` has the
contents of the files. -/
def args (c : Lib α) (files : Str → Str) (fuel : Nat) :
    Opts α → List Str → Run (Option (Opts α))
  | o, [] => pure (some o)
  | o, [a] =>
    if a = "--job".toList then .done .abort
    else if a = "--print-jobs".toList then pure (some { o with print := true })
    else if a = "--this-job".toList then .done .abort
    else if a = "--job-blocks".toList then .done .abort
    else if a = "--first-job".toList then .done .abort
    else if a = "--last-job".toList then .done .abort
    else if a = "--variable".toList then .done .abort
    else if a = "--help".toList then pure none
    else pure (some o)
  | o, a :: b :: rest =>
    if a = "--job".toList then do
      let r ← parseFile c fuel (files b) o.vars
      if r.1 ≠ 0 then .done .abort else args c files fuel { o with vars := r.2 } rest
    else if a = "--print-jobs".toList then args c files fuel { o with print := true } (b :: rest)
    else if a = "--this-job".toList then args c files fuel { o with cur := some (c.atoi b) } rest
    else if a = "--job-blocks".toList then
      args c files fuel { o with blocks := some (c.atoi b) } rest
    else if a = "--first-job".toList then
      if o.cur.isSome then .done .abort
      else args c files fuel { o with first := some (c.atoi b) } rest
    else if a = "--last-job".toList then
      if o.first.isNone then .done .abort
      else args c files fuel { o with last := some (c.atoi b) } rest
    else if a = "--variable".toList then do
      let v ← Run.done (parseLine c b)
      if v.name.length = 0 then .done .abort
      else args c files fuel { o with vars := o.vars ++ [v] } rest
    else if a = "--help".toList then pure none
    else args c files fuel o (b :: rest)

omit [Field α] in
/-- Job::compute_number_of_jobs, jobs.cc:270-280. -/
def numberOfJobs (vs : List (Var α)) : Nat := vs.foldl (fun n v => n * v.values.length) 1

/-- first_job_, last_job_ and current_job, jobs.cc:215-266. `/` of two numbers which are not negative
is that of C++. -/
def choose (o : Opts α) (n : Int) : Res (Int × Option Int × Int) :=
  match o.blocks with
  | some b => do
    Res.assert (o.first = none ∧ o.last = none)
    Res.assert (0 < b)
    let delta := (n + b - 1) / b
    let cur ← Res.ofOption o.cur
    let first := min (cur * delta) n
    pure (first, some (min (n - 1) (first + delta - 1)), first)
  | none =>
    match o.first with
    | some f => do
      Res.assert (0 ≤ f ∧ f < n)
      match o.last with
      | some l =>
        let l := if n ≤ l then max 0 (n - 1) else l
        Res.assert (f ≤ l)
        pure (f, some l, f)
      | none => pure (f, none, f)
    | none =>
      match o.cur with
      | some k => pure (k, some k, k)
      | none => pure (0, some (n - 1), 0)

/-- Job, jobs.h:29-91. -/
structure Job (α : Type) where
  vars : List (Var α)
  n : Int
  this : Int
  first : Int
  last : Option Int

omit [Field α] in
/-- The loop of Job::select_job, jobs.cc:288-294. The remainder of a division by zero is `ub`. -/
def digits : List (Var α) → Nat → Res (List (Var α))
  | [], _ => pure []
  | v :: vs, i =>
    if v.values.length = 0 then .ub
    else do
      let r ← digits vs (i / v.values.length)
      pure ({ v with which := i % v.values.length } :: r)

omit [Field α] in
/-- Job::select_job, jobs.cc:282-296. -/
def select (j : Job α) (which : Int) : Res (Job α) := do
  Res.assert (0 ≤ which)
  if which ≤ j.n then do
    let vs ← digits j.vars which.toNat
    pure { j with vars := vs, this := which }
  else pure { j with this := which }

/-- The constructor of Job, jobs.cc:104-268; `none` if the program exits. -/
def start (c : Lib α) (files : Str → Str) (argv : List Str) (fuel : Nat) : Run (Option (Job α)) := do
  let r ← args c files fuel {} argv
  match r with
  | none => pure none
  | some o =>
    let n : Int := numberOfJobs o.vars
    if o.print then pure none
    else do
      let x ← Run.done (choose o n)
      let j ← Run.done (select ⟨o.vars, n, 0, x.1, x.2.1⟩ x.2.2)
      pure (some j)

omit [Field α] in
/-- Job::operator++, jobs.cc:298-302. -/
def next (j : Job α) : Res (Job α) := select j (j.this + 1)

omit [Field α] in
/-- Job::to_do, jobs.cc:304-311. -/
def toDo (j : Job α) : Res Bool :=
  if 0 ≤ j.this ∧ j.this < j.n ∧ j.first ≤ j.this then do
    let l ← Res.ofOption j.last
    pure (decide (j.this ≤ l))
  else pure false

omit [Field α] in
/-- The loop of a program which executes jobs: `while (job.to_do()) { ...; ++job; }`. Returns the
states in which the body of the loop has been executed. -/
def runLoop : Nat → Job α → Run (List (Job α))
  | 0, _ => .out
  | fuel + 1, j => do
    let b ← Run.done (toDo j)
    if b then do
      let j' ← Run.done (next j)
      let r ← runLoop fuel j'
      pure (j :: r)
    else pure []

/-- A program which creates a job and executes that loop; `none` if the constructor exits. -/
def program (c : Lib α) (files : Str → Str) (argv : List Str) (fuel : Nat) :
    Run (Option (List (Job α))) := do
  let r ← start c files argv fuel
  match r with
  | none => pure none
  | some j => do
    let l ← runLoop fuel j
    pure (some l)

omit [Field α] in
/-- Job::find_variable, jobs.cc:313-322. -/
def findVar (vs : List (Var α)) (name : Str) : Option (Var α) := vs.find? (fun v => v.name = name)

omit [Field α] in
/-- Job::Variable::value, jobs.h:65; operator[] does not check its argument. -/
def Var.value (v : Var α) : Res α := Res.ofOption v.values[v.which]?

omit [Field α] in
/-- Job::get_value, jobs.cc:324-334. -/
def getValue (j : Job α) (name : Str) : Res α :=
  match findVar j.vars name with
  | none => .abort
  | some v => v.value

omit [Field α] in
/-- Job::get_value_with_default, jobs.cc:337-342. -/
def getValueWithDefault (j : Job α) (name : Str) (d : α) : Res α :=
  match findVar j.vars name with
  | none => pure d
  | some v => v.value

end Verif.Jobs
