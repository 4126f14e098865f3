import Verif.Model.DataFile
import Verif.Core.Run
/-
Model of the Python module which reads data files, python/sdf.py.

* The machine is little endian (`sys.byteorder` is 'little'), as in Model/DataFile.lean.
* `abort` is an exception, `ub` that what is done depends on memory which was not initialised (in
  numpy, which does not clear the arrays of `np.ndarray(shape=...)`). Elements which were not read are
  `none`.
* numpy is modelled by what its manual says of `np.ndarray(shape, buffer, dtype, order)` and of
  `np.stack`. The largest number of dimensions is a parameter (`maxdims`, 32 in numpy 1, 64 in
  numpy 2). Memory which cannot be obtained is not modelled.
* The depth of nested vectors which the stack of Python admits is a parameter (`depth`).
* An array is described by its dimensions and by its elements in column-major order.
-/
namespace Verif.Py

open Sdf

/-- The file and the fields of SDF which change: the number of bytes of `long_type` and `interpret`,
sdf.py:48-53, 68-70. -/
structure In where
  rest : List Byte
  long : Nat
  swap : Bool
deriving DecidableEq, Repr

/-- `self.f.read(n)`: at most `n` bytes. -/
def read (n : Nat) (s : In) : List Byte × In := (s.rest.take n, { s with rest := s.rest.drop n })

/-- `self.f.readinto(output)` for a new array of `n` bytes. -/
def readInto (n : Nat) (s : In) : List (Option Byte) × In :=
  ((s.rest.take n).map some ++ List.replicate (n - s.rest.length) none,
    { s with rest := s.rest.drop n })

/-- The signed integer with the given bytes. -/
def longOf (l : List Byte) : Int := Int.bmod (bytesNat l) (256 ^ l.length)

/-- read_longs, read_doubles and read_complex, sdf.py:105-124: a negative length is refused by numpy,
and there is no method `byteswwap`. -/
def readArray {ε : Type} (width : Nat) (dec : List Byte → ε) (n : Int) (s : In) :
    Res (List (Option ε) × In) := do
  Res.assert (0 ≤ n)
  Res.assert (s.swap = false)
  let (buf, s) := readInto (n.toNat * width) s
  pure ((List.range n.toNat).map fun k => (allSome ((buf.drop (k * width)).take width)).map dec, s)

/-- `self.read_longs(1)[0]`. -/
def readLong (s : In) : Res (Int × In) := do
  let (l, s) ← readArray s.long longOf 1 s
  let v ← Res.ofOption (l[0]?.getD none)
  pure (v, s)

/-- An array of numpy. -/
structure Arr (ε : Type) where
  dims : List Nat
  data : List (Option ε)
deriving DecidableEq, Repr

/-- `np.ndarray(shape=dims,buffer=data,dtype=data.dtype,order='F')`, sdf.py:103: not too many
dimensions, none of them negative, not too large (dimensions zero are not counted), and not more
elements than there are in the buffer. One dimension -1 is the size of the buffer. -/
def ndarray {ε : Type} (maxdims width : Nat) (dims : List Int) (data : List (Option ε)) :
    Res (Arr ε) := do
  Res.assert (dims.length ≤ maxdims)
  let dims := if dims = [-1] then [(data.length : Int)] else dims
  Res.assert (∀ d ∈ dims, 0 ≤ d)
  let dims := dims.map Int.toNat
  Res.assert (width * (dims.filter (· ≠ 0)).foldl (· * ·) 1 < 2 ^ 63)
  let n := dims.foldl (· * ·) 1
  Res.assert (n ≤ data.length)
  pure ⟨dims, data.take n⟩

/-- load_tensor, sdf.py:95-103. -/
def loadTensor {ε : Type} (maxdims : Nat) (c : Codec ε) (s : In) : Res (Arr ε × In) := do
  let (rank, s) ← readLong s
  let (dims, s) ← readArray s.long longOf rank s
  let (l, s) ← readLong s
  let (data, s) ← readArray c.width c.dec l s
  match allSome dims with
  | none => .ub
  | some d => do
    let t ← ndarray maxdims c.width d data
    pure (t, s)

/-- `name[i]` of the bytes which were read. -/
def byteAt (name : List Byte) (i : Nat) : Res Byte :=
  match name[i]? with
  | some b => .ok b
  | none => .abort

/-- The test of sdf.py:130: the characters "sdf"; the later ones are not looked at if an earlier one
differs. -/
def isSdf (name : List Byte) : Res Bool := do
  let b ← byteAt name 0
  if b ≠ 115 then pure false
  else do
    let b ← byteAt name 1
    if b ≠ 100 then pure false
    else do
      let b ← byteAt name 2
      pure (decide (b = 102))

/-- sdf.py:130-141. -/
def skipHeader (name : List Byte) (s : In) : Res (List Byte × In) := do
  let h ← isSdf name
  if h then do
    let b ← byteAt name 4
    Res.assert (b = 52 ∨ b = 56)
    let e ← byteAt name 5
    pure (read 64 { s with long := if b = 52 then 4 else 8, swap := decide (e ≠ 49) })
  else pure (name, s)

/-- A byte which continues a character in UTF-8. -/
def isCont (b : Byte) : Bool := decide (128 ≤ b.toNat ∧ b.toNat < 192)

/-- Whether `str(name,'utf-8')` accepts the bytes, sdf.py:143 (RFC 3629). -/
def utf8 : List Byte → Bool
  | [] => true
  | a :: l =>
    if a.toNat < 128 then utf8 l
    else match l with
    | [] => false
    | b :: l =>
      if 194 ≤ a.toNat ∧ a.toNat < 224 then isCont b && utf8 l
      else match l with
      | [] => false
      | c :: l =>
        if 224 ≤ a.toNat ∧ a.toNat < 240 then
          isCont b && isCont c && decide (¬(a = 224 ∧ b.toNat < 160))
            && decide (¬(a = 237 ∧ 160 ≤ b.toNat)) && utf8 l
        else match l with
        | [] => false
        | d :: l =>
          decide (240 ≤ a.toNat ∧ a.toNat < 245) && isCont b && isCont c && isCont d
            && decide (¬(a = 240 ∧ b.toNat < 144)) && decide (¬(a = 244 ∧ 144 ≤ b.toNat)) && utf8 l

/-- load_tag, sdf.py:126-147. -/
def loadTag (s : In) : Res (List Byte × Int × In) := do
  let (name, s) := read 64 s
  if name.length = 0 then pure ([], -1, s)
  else do
    let (name, s) ← skipHeader name s
    let name := name.takeWhile (· ≠ 0)
    Res.assert (utf8 name = true)
    let (code, s) ← readLong s
    pure (name, code, s)

/-- What a variable is read as; `list` is the empty list `[]`. -/
inductive Obj
  | real (t : Arr Word)
  | complex (t : Arr (Word × Word))
  | list
deriving DecidableEq, Repr

/-- `for i in range(L)` of sdf.py:92. -/
def skipRecords (f : In → Res (Obj × List Byte × In)) : Nat → In → Res In
  | 0, s => .ok s
  | k + 1, s => do
    let (_, _, s) ← f s
    skipRecords f k s

/-- load_record and load_mp, sdf.py:72-93. (`Error` is not defined, so that an unknown tag is a
NameError.) -/
def loadRecord (maxdims : Nat) : Nat → In → Res (Obj × List Byte × In)
  | depth, s => do
    let (name, code, s) ← loadTag s
    if code = -1 then pure (.list, [], s)
    else if code = 0 then do
      let (t, s) ← loadTensor maxdims realC s
      pure (.real t, name, s)
    else if code = 1 then do
      let (t, s) ← loadTensor maxdims cplxC s
      pure (.complex t, name, s)
    else if code = 2 ∨ code = 3 then
      match depth with
      | 0 => .abort
      | depth + 1 => do
        let (l, s) ← readLong s
        let s ← skipRecords (loadRecord maxdims depth) l.toNat s
        pure (.list, name, s)
    else .abort

/-- A dictionary of Python: the keys in the order in which they were first added. -/
abbrev Dict := List (List Byte × Obj)

/-- `output[name] = obj`. -/
def insert : Dict → List Byte → Obj → Dict
  | [], n, v => [(n, v)]
  | e :: d, n, v => if e.1 = n then (n, v) :: d else e :: insert d n v

/-- `data[name]`. -/
def lookup : Dict → List Byte → Option Obj
  | [], _ => none
  | e :: d, n => if e.1 = n then some e.2 else lookup d n

/-- The loop of sdf.py:58-63. -/
def loadLoop (maxdims depth : Nat) : Nat → In → Dict → Run Dict
  | 0, _, _ => .out
  | fuel + 1, s, d => do
    let (v, name, s) ← .done (loadRecord maxdims depth s)
    if name.length ≠ 0 then loadLoop maxdims depth fuel s (insert d name v)
    else pure d

/-- load, sdf.py:11-16, 48-66, of a file with the given contents. -/
def load (maxdims depth : Nat) (file : List Byte) (fuel : Nat) : Run Dict :=
  loadLoop maxdims depth fuel ⟨file, 4, false⟩ []

/-! Datasets -/

/-- What the variables of several files are combined to. -/
inductive Comb
  | real (t : Arr Word)
  | complex (t : Arr (Word × Word))
  | objs (l : List Obj)
deriving DecidableEq, Repr

/-- The shape of `np.asanyarray(obj)`; that of `[]` is (0,). -/
def Obj.shape : Obj → List Nat
  | .real t => t.dims
  | .complex t => t.dims
  | .list => [0]

def Obj.isComplex : Obj → Bool
  | .complex _ => true
  | _ => false

/-- The elements as real numbers (there are none in `[]`, and none is used of complex arrays). -/
def Obj.reals : Obj → List (Option Word)
  | .real t => t.data
  | _ => []

/-- The elements as complex numbers. -/
def Obj.complexes : Obj → List (Option (Word × Word))
  | .real t => t.data.map fun x => x.map fun w => (w, 0)
  | .complex t => t.data
  | .list => []

/-- `np.stack(objs, axis=objs[0].ndim)`: arrays with the same shape, with a new last index; complex if
one of them is. -/
def stack (maxdims : Nat) (shape : List Nat) (objs : List Obj) : Res Comb := do
  Res.assert (∀ o ∈ objs, o.shape = shape)
  Res.assert (shape.length + 1 ≤ maxdims)
  let dims := shape ++ [objs.length]
  if objs.any Obj.isComplex then pure (.complex ⟨dims, (objs.map Obj.complexes).flatten⟩)
  else pure (.real ⟨dims, (objs.map Obj.reals).flatten⟩)

/-- `[data[name] for data in set]`: a KeyError if there is none. -/
def lookups (name : List Byte) : List Dict → Res (List Obj)
  | [] => .ok []
  | d :: ds => do
    match lookup d name with
    | none => .abort
    | some o => do
      let os ← lookups name ds
      pure (o :: os)

/-- One variable, sdf.py:30-34. -/
def combineOne (maxdims : Nat) (name : List Byte) (set : List Dict) : Res Comb := do
  let objs ← lookups name set
  match objs with
  | [] => .abort
  | .list :: _ => pure (.objs objs)
  | o :: _ => stack maxdims o.shape objs

/-- The loop of sdf.py:29-34. -/
def combineLoop (maxdims : Nat) (set : List Dict) : List (List Byte) →
    Res (List (List Byte × Comb))
  | [] => .ok []
  | n :: ns => do
    let c ← combineOne maxdims n set
    let cs ← combineLoop maxdims set ns
    pure ((n, c) :: cs)

/-- combine_dataset, sdf.py:27-35: the names of the first file. -/
def combine (maxdims : Nat) (set : List Dict) : Res (List (List Byte × Comb)) :=
  match set with
  | [] => .abort
  | d :: _ => combineLoop maxdims set (d.map Prod.fst)

/-- `[load(f) for f in ...]`, sdf.py:24. -/
def loadFiles (maxdims depth : Nat) (fuel : Nat) : List (List Byte) → Run (List Dict)
  | [] => .done (.ok [])
  | f :: fs => do
    let d ← load maxdims depth f fuel
    let ds ← loadFiles maxdims depth fuel fs
    pure (d :: ds)

/-- load_dataset, sdf.py:23-25, for the contents of the files in the order of `iterdir()`. -/
def loadDataset (maxdims depth : Nat) (files : List (List Byte)) (fuel : Nat) :
    Run (List (List Byte × Comb)) := do
  let set ← loadFiles maxdims depth fuel files
  .done (combine maxdims set)

end Verif.Py
