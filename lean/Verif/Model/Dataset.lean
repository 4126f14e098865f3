import Verif.Model.FileOps
/-
Model of the datasets of jobs, Job::open_dataset and Job::dataset_record_exists
(src/tools/jobs_dataset.cc), with what OutDataFile in the paranoid mode does to the files
(src/sdf/data_file.cc, odata_file.cc, rename_file.cc), for any number of processes which run in any
order and may stop at any moment.

* Unlike Model/FileOps.lean, a file is a number (an inode) with contents, and the name of a file is
  a link to it: a process which has opened a file goes on writing to it when the name is deleted.
* Every operation of the system is one step; writing is done byte by byte.
* The processes have all the permissions in the directory, and nobody else changes it.
-/
namespace Verif.Dataset

open Sdf

/-- The decimal digits of a number, with fuel (see `digits_eq`). -/
def digitsFuel : Nat → Nat → List Byte
  | 0, _ => []
  | fuel + 1, n =>
    if n < 10 then [BitVec.ofNat 8 (48 + n)]
    else digitsFuel fuel (n / 10) ++ [BitVec.ofNat 8 (48 + n % 10)]

/-- The decimal digits of a number. -/
def digits (n : Nat) : List Byte := digitsFuel (n + 1) n

/-- The text of a number, as written by `ostream << int` (NumberToString, jobs_dataset.cc:27-41). -/
def numberToString (n : Int) : List Byte := if n < 0 then 45 :: digits n.natAbs else digits n.natAbs

/-- Conversion of `index` to `int` (current_job() is an `index`, the argument `jobid` an `int`,
jobs_dataset.cc:44, 69). -/
def toInt (n : Int) : Int := Int.bmod n (2 ^ 32)

/-- dataset_name, jobs_dataset.cc:43-47, called with current_job(), :69, 83. -/
def recordPath (base : Path) (job : Int) : Path := base ++ 47 :: numberToString (toInt job)

/-- What the name of the dataset is in the file system. -/
inductive Kind
  | none | file | dir
deriving DecidableEq, Repr

/-- Where a process is. -/
inductive Pc
  /-- file_exists(filename) and isdir(filename), jobs_dataset.cc:53-57 (together: a name which exists
  does not change any more) -/
  | checkBase
  /-- make_directory, :62 -/
  | makeDir
  /-- file_exists(filename), :63 -/
  | checkDir
  /-- file_exists(dataset_record_name), :71 -/
  | checkRecord
  /-- delete_file, data_file.cc:92 -/
  | unlinkTmp
  /-- file_exists, odata_file.cc:101 -/
  | checkTmp
  /-- open, odata_file.cc:102 -/
  | openTmp (existed : Bool)
  /-- writing the header, the variables; then closing the stream, odata_file.cc:103-105, 113-120 -/
  | write (ino : Nat) (rest : List Byte)
  /-- file_exists(_actual_filename), data_file.cc:114 -/
  | closing
  /-- file_exists(dest), rename_file.cc:28 -/
  | checkDest
  /-- delete_file(dest), rename_file.cc:29 -/
  | unlinkDest
  /-- file_exists(orig), rename_file.cc:35 -/
  | checkOrig
  /-- rename, rename_file.cc:40 -/
  | rename
  /-- the end: the record was there before (NULL, jobs_dataset.cc:73), or not -/
  | finished (wrote : Bool)
  /-- abort(), or an exception -/
  | aborted
  /-- the process was stopped from outside -/
  | stopped
deriving DecidableEq, Repr

/-- A process: the number of the job, the variables which it writes, and where it is. -/
structure Proc where
  job : Int
  recs : List (Value × List Byte)
  pc : Pc

/-- The system: the dataset, the names and contents of the files in it, the number of the next file
to be created, and the processes. -/
structure State where
  base : Kind
  link : Path → Option Nat
  cont : Nat → List Byte
  next : Nat
  proc : Nat → Option Proc

def update {ι β : Type} [DecidableEq ι] (f : ι → β) (i : ι) (v : β) : ι → β :=
  fun j => if j = i then v else f j

/-- The contents of a file. -/
def State.file (s : State) (p : Path) : Option (List Byte) := (s.link p).map s.cont

def State.goto (s : State) (p : Nat) (x : Proc) (pc : Pc) : State :=
  { s with proc := update s.proc p (some { x with pc := pc }) }

/-- What a session writes to a new file. -/
def full (recs : List (Value × List Byte)) : List Byte := header ++ dumpAll recs

/-- One step of process `p`, whose state is `x`; none if it has ended. -/
def step (name : Path) (s : State) (p : Nat) (x : Proc) : Option State :=
  let r := recordPath name x.job
  let t := tmpPath r
  match x.pc with
  | .checkBase =>
    match s.base with
    | .none => some (s.goto p x .makeDir)
    | .file => some (s.goto p x .aborted)
    | .dir => some (s.goto p x .checkRecord)
  | .makeDir =>
    some { s.goto p x .checkDir with base := if s.base = .none then .dir else s.base }
  | .checkDir =>
    if s.base = .none then some (s.goto p x .aborted) else some (s.goto p x .checkRecord)
  | .checkRecord =>
    if (s.link r).isSome then some (s.goto p x (.finished false)) else some (s.goto p x .unlinkTmp)
  | .unlinkTmp => some { s.goto p x .checkTmp with link := update s.link t none }
  | .checkTmp => some (s.goto p x (.openTmp (s.link t).isSome))
  | .openTmp existed =>
    let w := (if existed then [] else header) ++ dumpAll x.recs
    if s.base ≠ .dir then some (s.goto p x .aborted)      -- the stream is bad, odata_file.cc:30-33
    else
      match s.link t with
      | some i => some (s.goto p x (.write i w))
      | none =>
        some { s.goto p x (.write s.next w) with
          link := update s.link t (some s.next)
          cont := update s.cont s.next []
          next := s.next + 1 }
  | .write i (b :: rest) =>
    some { s.goto p x (.write i rest) with cont := update s.cont i (s.cont i ++ [b]) }
  | .write _ [] => some (s.goto p x .closing)
  | .closing =>
    if (s.link t).isSome then some (s.goto p x .checkDest) else some (s.goto p x (.finished true))
  | .checkDest =>
    if (s.link r).isSome then some (s.goto p x .unlinkDest) else some (s.goto p x .checkOrig)
  | .unlinkDest =>
    if (s.link r).isSome then some { s.goto p x .checkOrig with link := update s.link r none }
    else some (s.goto p x .aborted)
  | .checkOrig =>
    if (s.link t).isSome then some (s.goto p x .rename) else some (s.goto p x .aborted)
  | .rename =>
    match s.link t with
    | some i =>
      some { s.goto p x (.finished true) with link := update (update s.link r (some i)) t none }
    | none => some (s.goto p x (.finished true))           -- the result of rename is not used
  | .finished _ | .aborted | .stopped => none

/-- A process which has not ended. -/
def Pc.running : Pc → Bool
  | .finished _ | .aborted | .stopped => false
  | _ => true

inductive Op
  /-- A new process calls open_dataset for a job, dumps variables and closes the file. -/
  | start (p : Nat) (job : Int) (recs : List (Value × List Byte))
  | step (p : Nat)
  | stop (p : Nat)

/-- One event; none if it is not possible. -/
def event (name : Path) (s : State) : Op → Option State
  | .start p job recs =>
    match s.proc p with
    | none => some { s with proc := update s.proc p (some ⟨job, recs, .checkBase⟩) }
    | some _ => none
  | .step p => (s.proc p).bind fun x => step name s p x
  | .stop p => (s.proc p).bind fun x => if x.pc.running then some (s.goto p x .stopped) else none

/-- The state after a sequence of events. -/
def run (name : Path) : List Op → State → Option State
  | [], s => some s
  | o :: l, s => (event name s o).bind (run name l)

/-- Job::dataset_record_exists, jobs_dataset.cc:80-84. -/
def recordExists (name : Path) (s : State) (job : Int) : Bool := (s.link (recordPath name job)).isSome

end Verif.Dataset
