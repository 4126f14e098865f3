import Verif.Model.Python
import Verif.Core.Run
/-
Model of the functions of Matlab which read data files, matlab/sdf_load.m, sdf_load_record.m and
sdf_load_dataset.m.

* `abort` is an error of Matlab, `ub` a case in which this model does not say what Matlab does.
* Matlab is modelled by what its manual says of fread, feof, reshape, complex, cat, isfield, setfield and
  rmfield. Which names setfield accepts is a parameter (`valid`). Files are read with an encoding with one
  byte for each character (`fread(f, 64, 'char')`).
* An array is described by its size and by its elements in column-major order. Elements are complex numbers;
  whether an array with imaginary parts zero is stored as a complex array is not modelled. Integers are
  exact (in Matlab they are numbers of type double, exact up to 2^53). The largest size of arrays is not
  modelled.
* SDF_LOAD_MPS is empty. The depth of nested vectors which Matlab admits is a parameter (`depth`).
-/
namespace Verif.Mat

open Sdf

/-- A file, whether its end was reached, and the global variables SDF_TAG_TYPE (number of bytes) and
SDF_ENDIAN (whether it is 'l'). -/
structure In where
  rest : List Byte
  eof : Bool
  long : Nat
  little : Bool
deriving DecidableEq, Repr

/-- `fread(f, n, precision)` for elements of `w` bytes: at most `n` elements; an element of which only a
part is in the file is completed with zeros. The indicator of the end of the file is set if not all bytes
could be read. -/
def fread (n w : Nat) (s : In) : List (List Byte) × In :=
  let b := s.rest.take (n * w)
  ((List.range ((b.length + (w - 1)) / w)).map fun k =>
      let e := (b.drop (k * w)).take w
      e ++ List.replicate (w - e.length) 0,
    { s with rest := s.rest.drop (n * w), eof := s.eof || decide (s.rest.length < n * w) })

/-- The bytes of a number in the order of a little endian machine. -/
def ordered (s : In) (l : List Byte) : List Byte := if s.little then l else l.reverse

/-- read_longs, sdf_load_record.m:23-26. A negative number of elements is refused. -/
def readLongs (n : Int) (s : In) : Res (List Int × In) := do
  Res.assert (0 ≤ n)
  let (l, s') := fread n.toNat s.long s
  pure (l.map fun e => Py.longOf (ordered s e), s')

/-- `read_longs(f, 1)` where the number is used: what is done with an empty array in place of a number is
not modelled. -/
def readLong (s : In) : Res (Int × In) := do
  let (l, s) ← readLongs 1 s
  let v ← Res.ofOption l[0]?
  pure (v, s)

/-- `name(i)`, counted from zero: an index beyond the end is an error. -/
def charAt (name : List Byte) (i : Nat) : Res Byte :=
  match name[i]? with
  | some b => .ok b
  | none => .abort

/-- `fread(f{1}, 64, 'char')`. -/
def readName (s : In) : List Byte × In :=
  let (l, s) := fread 64 1 s
  (l.flatten, s)

/-- The header, sdf_load_record.m:33-47. -/
def skipHeader (name : List Byte) (s : In) : Res (List Byte × In) := do
  if name = [] then pure (name, s)
  else do
    let a ← charAt name 0
    let b ← charAt name 1
    let c ← charAt name 2
    if a = 115 ∧ b = 100 ∧ c = 102 then do
      let t ← charAt name 4
      Res.assert (t = 52 ∨ t = 56)
      let e ← charAt name 5
      pure (readName { s with long := if t = 52 then 4 else 8, little := decide (e = 49) })
    else pure (name, s)

/-- sdf_load_tag, sdf_load_record.m:29-59. -/
def loadTag (s : In) : Res (List Byte × Int × In) := do
  let (name, s) := readName s
  let (name, s) ← skipHeader name s
  if s.eof then pure ([], -1, s)
  else do
    let (l, s) ← readLongs 1 s
    match l with
    | [] => .abort
    | code :: _ => pure (name.filter (· ≠ 0), code, s)

/-- The size of an array with the given dimensions: at least two, and the last one is not 1 if there are
more. -/
def size (d : List Nat) : List Nat :=
  d.getD 0 1 :: d.getD 1 1 :: ((d.drop 2).reverse.dropWhile (· = 1)).reverse

/-- An array of Matlab. -/
structure Arr where
  dims : List Nat
  data : List (Word × Word)
deriving DecidableEq, Repr

/-- The array `[]`. -/
def empty : Arr := ⟨[0, 0], []⟩

/-- A column as fread returns it: `[]` if it has no elements. -/
def column (l : List (Word × Word)) : Arr := ⟨if l = [] then [0, 0] else [l.length, 1], l⟩

/-- `complex(Pk(1:2:end),Pk(2:2:end))`: the two must have the same size. -/
def pairs : List Word → Res (List (Word × Word))
  | [] => .ok []
  | [_] => .abort
  | a :: b :: l => do
    let r ← pairs l
    pure ((a, b) :: r)

/-- `reshape(Pk, dims)`: at least two dimensions, not negative, for the number of elements which there
are. -/
def reshape (l : List (Word × Word)) (dims : List Int) : Res Arr := do
  Res.assert (2 ≤ dims.length)
  Res.assert (∀ d ∈ dims, 0 ≤ d)
  let dims := dims.map Int.toNat
  Res.assert (dims.foldl (· * ·) 1 = l.length)
  pure ⟨size dims, l⟩

/-- sdf_load_tensor, sdf_load_record.m:62-75, with the number of dimensions which were read. The size of a
complex array without elements before reshape is not modelled. -/
def loadTensor (cplx : Bool) (s : In) : Res (Arr × Nat × In) := do
  let (rank, s) ← readLong s
  let (dims, s) ← readLongs rank s
  let (n, s) ← readLong s
  Res.assert (0 ≤ n)
  let (l, s') := fread (if cplx then 2 * n.toNat else n.toNat) 8 s
  let ws := l.map fun e => wordOf (ordered s e)
  let pk ← if cplx then pairs ws else pure (ws.map fun w => (w, 0))
  if 1 < rank then do
    let t ← reshape pk dims
    pure (t, dims.length, s')
  else if cplx ∧ pk = [] then .ub
  else pure (column pk, dims.length, s')

/-- The loop of sdf_load_record.m:82-84. -/
def skipRecords (f : In → Res (Arr × List Byte × Nat × In)) : Nat → In → Res In
  | 0, s => .ok s
  | k + 1, s => do
    let (_, _, _, s) ← f s
    skipRecords f k s

/-- sdf_load_record and sdf_load_mp, sdf_load_record.m:1-20, 78-91: the array, its name, and the length of
`dims`. -/
def loadRecord : Nat → In → Res (Arr × List Byte × Nat × In)
  | depth, s => do
    let (name, code, s) ← loadTag s
    if code = -1 then pure (empty, [], 1, s)
    else if code = 0 then do
      let (t, l, s) ← loadTensor false s
      pure (t, name, l, s)
    else if code = 1 then do
      let (t, l, s) ← loadTensor true s
      pure (t, name, l, s)
    else if code = 2 ∨ code = 3 then
      match depth with
      | 0 => .abort
      | depth + 1 => do
        let (l, s) ← readLong s
        let s ← skipRecords (loadRecord depth) l.toNat s
        pure (empty, name, 1, s)
    else .abort

/-- A struct of Matlab: its fields in their order. -/
abbrev Data := List (List Byte × Arr)

/-- `getfield(data, name)`, if there is one. -/
def field : Data → List Byte → Option Arr
  | [], _ => none
  | e :: d, n => if e.1 = n then some e.2 else field d n

/-- `setfield(data, name, obj)` for a valid name. -/
def setfield : Data → List Byte → Arr → Data
  | [], n, v => [(n, v)]
  | e :: d, n, v => if e.1 = n then (n, v) :: d else e :: setfield d n v

/-- A list of dimensions completed with ones. -/
def pad (n : Nat) (d : List Nat) : List Nat := d ++ List.replicate (n - d.length) 1

/-- `cat(l, a, b)`: arrays `[]` are left out, otherwise the sizes agree except in the dimension `l`, counted
from one. -/
def cat (l : Nat) (a b : Arr) : Res Arr := do
  Res.assert (0 < l)
  if a.dims = [0, 0] then pure b
  else if b.dims = [0, 0] then pure a
  else do
    let n := max l (max a.dims.length b.dims.length)
    let da := pad n a.dims
    let db := pad n b.dims
    Res.assert (da.set (l - 1) 0 = db.set (l - 1) 0)
    let ca := (da.take l).foldl (· * ·) 1
    let cb := (db.take l).foldl (· * ·) 1
    let outer := (da.drop l).foldl (· * ·) 1
    pure ⟨size (da.set (l - 1) (da.getD (l - 1) 1 + db.getD (l - 1) 1)),
      (List.range outer).flatMap fun k => (a.data.drop (k * ca)).take ca ++ (b.data.drop (k * cb)).take cb⟩

/-- sdf_load.m:17-25: a variable is added to those with the same name. -/
def store (valid : List Byte → Bool) (d : Data) (name : List Byte) (obj : Arr) (l : Nat) : Res Data := do
  let obj ← match field d name with
    | none => pure obj
    | some old => cat (if 1 < l ∨ 1 < obj.dims.getD 0 1 then l + 1 else l) old obj
  Res.assert (valid name = true)
  pure (setfield d name obj)

/-- The loop of sdf_load.m:10-27. -/
def loadLoop (valid : List Byte → Bool) (depth : Nat) : Nat → In → Data → Run Data
  | 0, _, _ => .out
  | fuel + 1, s, d =>
    if s.eof then pure d
    else do
      let (obj, name, l, s) ← .done (loadRecord depth s)
      if name = [] then
        if obj.data = [] then pure d else loadLoop valid depth fuel s d
      else do
        let d ← .done (store valid d name obj l)
        loadLoop valid depth fuel s d

/-- `sdf_load(filename)`, sdf_load.m, for a file with the given contents; `long` and `little` are what the
global variables were before. -/
def load (valid : List Byte → Bool) (depth : Nat) (long : Nat) (little : Bool) (file : List Byte) (fuel : Nat) :
    Run Data :=
  loadLoop valid depth fuel ⟨file, false, long, little⟩ []

/-! Datasets -/

/-- The global variables SDF_DATA, SDF_AVOID, SDF_TAG_TYPE and SDF_ENDIAN. -/
structure Globals where
  data : Data
  avoid : List (List Byte)
  long : Nat
  little : Bool
deriving DecidableEq, Repr

/-- `rmfield(data, name)`: an error if there is no such field. -/
def rmfield (d : Data) (name : List Byte) : Res Data := do
  Res.assert ((field d name).isSome = true)
  pure (d.filter fun e => e.1 ≠ name)

/-- sdf_load_dataset.m:47-61: the same as sdf_load, with errors caught. -/
def storeOrAvoid (valid : List Byte → Bool) (g : Globals) (name : List Byte) (obj : Arr) (l : Nat) :
    Res Globals :=
  match store valid g.data name obj l with
  | .ok d => .ok { g with data := d }
  | .ub => .ub
  | .abort => do
    let d ← rmfield g.data name
    pure { g with data := d, avoid := g.avoid ++ [name] }

/-- The loop of sdf_load_one, sdf_load_dataset.m:35-63. -/
def oneLoop (valid : List Byte → Bool) (depth : Nat) : Nat → In → Globals → Run Globals
  | 0, _, _ => .out
  | fuel + 1, s, g =>
    if s.eof then pure { g with long := s.long, little := s.little }
    else do
      let (obj, name, l, s) ← .done (loadRecord depth s)
      let name := if name ∈ g.avoid then [] else name
      if name = [] then
        if obj.data = [] then pure { g with long := s.long, little := s.little } else oneLoop valid depth fuel s g
      else do
        let g ← .done (storeOrAvoid valid g name obj l)
        oneLoop valid depth fuel s g

/-- `directory(1:(k(end)-1))` where `k` are the places of '/', sdf_load_dataset.m:7-10. -/
def cutPath (directory : List Byte) : List Byte :=
  if (47 : Byte) ∈ directory then ((directory.reverse.dropWhile (· ≠ 47)).drop 1).reverse else directory

/-- The loop of sdf_load_dataset.m:12-16; `list` is what `dir(directory)` gives: names and whether they are
directories. `files` has the contents of the files by their paths. -/
def filesLoop (valid : List Byte → Bool) (depth : Nat) (files : List Byte → Option (List Byte))
    (directory : List Byte) (fuel : Nat) : List (List Byte × Bool) → Globals → Run Globals
  | [], g => pure g
  | e :: list, g =>
    if e.2 then filesLoop valid depth files directory fuel list g
    else
      match files (directory ++ 47 :: e.1) with
      | none => .done .abort
      | some f => do
        let g ← oneLoop valid depth fuel ⟨f, false, g.long, g.little⟩ g
        filesLoop valid depth files directory fuel list g

/-- `sdf_load_dataset(directory)`, sdf_load_dataset.m. -/
def loadDataset (valid : List Byte → Bool) (depth : Nat) (dir : List Byte → List (List Byte × Bool))
    (files : List Byte → Option (List Byte)) (g : Globals) (directory : List Byte) (fuel : Nat) : Run Globals :=
  filesLoop valid depth files (cutPath directory) fuel (dir directory) { g with data := [] }

end Verif.Mat
