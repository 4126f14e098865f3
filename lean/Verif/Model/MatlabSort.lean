import Verif.Core.Res
import Verif.Model.Matlab
import Mathlib.Algebra.Field.Defs
import Mathlib.Order.Defs.LinearOrder
/-
Model of sorting data sets in Matlab.  /repo/matlab/sdf_sort_1d.m, sdf_sort_2d.m.

Errors of Matlab are represented by `abort`.  An array has its size and its elements in the order in which Matlab
stores them (the first index is the fastest).  The elements of the fields by which records are sorted are compared by
a `key`: for real numbers without NaN the number itself, for complex ones the pair of absolute value and angle.
sdf_sort_2d computes with the keys, in exact arithmetic.  Indices of Matlab begin with 1, those here with 0.
-/
namespace Verif.MatSort

open Verif

variable {α κ : Type}

/-- An array with its size. -/
structure Arr (α : Type) where
  dims : List Nat
  data : List α
deriving DecidableEq, Repr

/-- A structure: its fields with their names. -/
abbrev Record (α : Type) := List (String × Arr α)

/-- `getfield(record, name)`: an error if there is no such field. -/
def getfield : Record α → String → Res (Arr α)
  | [], _ => .abort
  | f :: r, n => if f.1 = n then .ok f.2 else getfield r n

/-- `setfield(record, name, data)` for a field which exists. -/
def setfield : Record α → String → Arr α → Record α
  | [], _, _ => []
  | f :: r, n, a => if f.1 = n then (n, a) :: r else f :: setfield r n a

/-- `data = [data, aux(:)]`, sdf_sort_1d.m:6: another column, of the same length unless `data` is `[]`. -/
def addColumn (data : List (List α)) (aux : List α) : Res (List (List α)) :=
  match data with
  | [] => .ok [aux]
  | c :: _ => do
    Res.assert (c.length = aux.length)
    pure (data ++ [aux])

/-- sdf_sort_1d.m:3-7. -/
def columns (r : Record α) (fields : List String) : Res (List (List α)) :=
  fields.foldlM (fun data n => do
    let aux ← getfield r n
    addColumn data aux.data) []

/-- Number of rows of the matrix with these columns. -/
def rows : List (List α) → Nat
  | [] => 0
  | c :: _ => c.length

/-- A row of the matrix. -/
def row (key : α → κ) (data : List (List α)) (i : Nat) : List κ := data.filterMap fun c => c[i]?.map key

/-- Comparison of rows by the first column in which they differ. -/
def rowLE [LinearOrder κ] : List κ → List κ → Bool
  | [], _ => true
  | _ :: _, [] => false
  | a :: s, b :: t => a < b || (a = b && rowLE s t)

/-- `[~, order] = sortrows(data)`, sdf_sort_1d.m:8: equal rows keep their order. -/
def sortrows [LinearOrder κ] (key : α → κ) (data : List (List α)) : List Nat :=
  (List.range (rows data)).mergeSort fun i j => rowLE (row key data i) (row key data j)

/-- `k = find(dims > 1); k = k(end)`, sdf_sort_1d.m:14-15, sdf_sort_2d.m:41-42: `none` is the error of `k(end)` if
`k` is empty. -/
def lastBig (dims : List Nat) : Option Nat :=
  ((List.range dims.length).filter fun i => 1 < dims.getD i 0).getLast?

/-- `data(:,order)` for a matrix with `m` rows. -/
def pick (m : Nat) (order : List Nat) (data : List α) : List α :=
  order.flatMap fun j => (data.drop (m * j)).take m

/-- The body of the loop, sdf_sort_1d.m:11-23. The message in lines 17-18 refers to the function `warn` and to the
variable `field`, which do not exist: an error. -/
def permuteField (l : Nat) (order : List Nat) (a : Arr α) : Res (Arr α) :=
  match lastBig a.dims with
  | none => .abort
  | some k => do
    Res.assert (a.dims.getD k 0 = l)
    Res.assert (a.data.length / l * l = a.data.length)
    let d := pick (a.data.length / l) order a.data
    Res.assert (a.dims.foldl (· * ·) 1 = d.length)
    pure ⟨a.dims, d⟩

/-- `for i = 1:length(names)`: the fields are replaced one after the other. -/
def eachField (f : Arr α → Res (Arr α)) (r : Record α) : Res (Record α) :=
  (r.map Prod.fst).foldlM (fun r n => do
    let a ← getfield r n
    let b ← f a
    pure (setfield r n b)) r

/-- sdf_sort_1d, sdf_sort_1d.m:1-24. -/
def sort1d [LinearOrder κ] (key : α → κ) (r : Record α) (fields : List String) : Res (Record α) := do
  let data ← columns r fields
  let order := sortrows key data
  eachField (permuteField order.length order) r

/-- `min(l)`; `none` is `[]`. -/
def minimum [LinearOrder κ] (l : List κ) : Option κ :=
  match l with
  | [] => none
  | a :: l => some (l.foldl min a)

/-- `max(l)`; `none` is `[]`. -/
def maximum [LinearOrder κ] (l : List κ) : Option κ :=
  match l with
  | [] => none
  | a :: l => some (l.foldl max a)

/-- Comparison in `sort` of numbers, where `none` is NaN: these are the last. -/
def numLE [LinearOrder κ] : Option κ → Option κ → Bool
  | _, none => true
  | none, some _ => false
  | some a, some b => a ≤ b

/-- `datax - min(datax)`, sdf_sort_2d.m:12-13. -/
def shifted {F : Type} [Field F] [LinearOrder F] (l : List F) : List F :=
  match minimum l with
  | none => []
  | some m => l.map (· - m)

/-- The numbers which are sorted, sdf_sort_2d.m:14: `datax/max(datax) + 2*datay/min(datay(find(datay)))`. If all of
datay are zero the divisor is `[]`, an error; if all of datax are zero, the quotients are NaN. -/
def weights {F : Type} [Field F] [LinearOrder F] (x y : List F) : Res (List (Option F)) :=
  match minimum (y.filter (· ≠ 0)), maximum x with
  | some m, some M => .ok (List.zipWith (fun a b => if M = 0 then none else some (a / M + 2 * b / m)) x y)
  | _, _ => .abort

/-- `[~, order] = sort(...)`, sdf_sort_2d.m:14. -/
def sortOrder [LinearOrder κ] (w : List (Option κ)) : List Nat :=
  (List.range w.length).mergeSort fun i j => numLE (w[i]?.join) (w[j]?.join)

/-- The body of the loop, sdf_sort_2d.m:38-51. -/
def gridField (l nrows ncols : Nat) (order : List Nat) (a : Arr α) : Res (Arr α) :=
  match lastBig a.dims with
  | none => .abort
  | some k => do
    Res.assert (a.dims.getD k 0 = l)
    Res.assert (a.data.length / l * l = a.data.length)
    let d := pick (a.data.length / l) order a.data
    let dims := a.dims.take k ++ [nrows, ncols]
    Res.assert (dims.foldl (· * ·) 1 = d.length)
    pure ⟨Mat.size dims, d⟩

/-- The numbers of rows and columns, sdf_sort_2d.m:21-35: arguments which are missing (`none`) are computed. The
comparison in line 23 is with the shifted values. -/
def shape {F : Type} [DecidableEq F] (l : Nat) (x : List F) (nrows ncols : Option Nat) : Res (Nat × Nat) := do
  let n ← match nrows with
    | some n => pure n
    | none => match x with
      | [] => .abort
      | a :: _ => pure (x.filter (· = a)).length
  match ncols with
  | some m => do
    Res.assert (m * n = l)
    pure (n, m)
  | none => do
    Res.assert (n ≠ 0 ∧ l / n * n = l)
    pure (n, l / n)

/-- sdf_sort_2d, sdf_sort_2d.m:1-51, if `cols` is only given together with `rows`. If the two fields have different
sizes, or are not vectors, one of the last lines is always an error. -/
def sort2d {F : Type} [Field F] [LinearOrder F] (key : α → F) (r : Record α) (fieldx fieldy : String)
    (nrows ncols : Option Nat) : Res (Record α) := do
  let ax ← getfield r fieldx
  let ay ← getfield r fieldy
  Res.assert (ax.dims = ay.dims)
  let x := shifted (ax.data.map key)
  let y := shifted (ay.data.map key)
  let w ← weights x y
  let order := sortOrder w
  Res.assert (ax.data.length = ay.data.length)
  let s ← shape ax.data.length x nrows ncols
  eachField (gridField ax.data.length s.1 s.2 order) r

end Verif.MatSort
