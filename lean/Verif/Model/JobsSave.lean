import Verif.Model.Jobs
import Verif.Model.DataFile
import Verif.Model.Python
import Mathlib.Order.Defs.LinearOrder
/-
Model of Job::dump_variables, /repo/src/tools/jobs_save.cc, and of load_sorted_dataset, /repo/python/sdf.py:18-21.

`bits` are the bytes of a number as a word, `bytes` those of a string. Numbers are compared by Python through `num`:
there is no NaN.
-/
namespace Verif.Jobs

open Verif Sdf

variable {α : Type}

/-- The loop of Job::dump_variables, jobs_save.cc:27-29: what is dumped. -/
def dumpVars (bits : α → Word) (bytes : Str → List Byte) : List (Var α) → Res (List (Value × List Byte))
  | [] => pure []
  | v :: vs => do
    let a ← v.value
    let rs ← dumpVars bits bytes vs
    pure ((.double (bits a), bytes v.name) :: rs)

/-- Job::dump_variables, jobs_save.cc:24-30. -/
def dumpVariables (bits : α → Word) (bytes : Str → List Byte) (j : Job α) : Res (List (Value × List Byte)) :=
  dumpVars bits bytes j.vars

end Verif.Jobs

namespace Verif.Py

open Sdf

/-- `data[field][0]`, sdf.py:20, for arrays of real numbers with one index; a missing name and an array or list without
elements are errors. What is not modelled is `ub`: elements which are complex numbers or arrays. -/
def sortKey (field : List Byte) (data : Dict) : Res Word :=
  match lookup data field with
  | none => .abort
  | some .list => .abort
  | some (.complex _) => .ub
  | some (.real t) =>
    match t.dims, t.data with
    | [_], [] => .abort
    | [_], w :: _ => Res.ofOption w
    | _, _ => .ub

/-- The keys of `set.sort(key=...)`, which are found before sorting, sdf.py:20. -/
def sortKeys (field : List Byte) : List Dict → Res (List (Word × Dict))
  | [] => pure []
  | d :: ds => do
    let w ← sortKey field d
    let l ← sortKeys field ds
    pure ((w, d) :: l)

/-- load_sorted_dataset, sdf.py:18-21, for the contents of the files in the order of `iterdir()`. The method `sort` of
lists is stable. -/
def loadSorted {κ : Type} [LinearOrder κ] (num : Word → κ) (maxdims depth : Nat) (files : List (List Byte))
    (field : List Byte) (fuel : Nat) : Run (List (List Byte × Comb)) := do
  let set ← loadFiles maxdims depth fuel files
  let l ← Run.done (sortKeys field set)
  .done (combine maxdims ((l.mergeSort fun a b => decide (num a.1 ≤ num b.1)).map Prod.snd))

end Verif.Py
