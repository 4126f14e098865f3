import Verif.Core.Bytes
import Verif.Model.Tensor
/-
Model of the data files of src/sdf: the bytes written by OutDataFile and what InDataFile makes of the
bytes of a file.

* The machine is little endian with 4-byte `int` and 8-byte `long` and `size_t` (others: Model/Machines.lean). Numbers are bit patterns (`Word`), complex
  numbers pairs of them, so nothing is assumed about NaN or signed zeros.
* `read` of an input stream which ends early fills a part of the buffer and sets the fail bit, after
  which nothing more is read. The library only looks at `bad()`, idata_file.cc:28-32, which is not
  set by a short read. Bytes of a buffer which were not read are `none`: what a new buffer contains.
  Deciding on the value of such a byte is `ub`; copying it in a tensor is not noticed.
* I/O errors (`bad()`), memory which cannot be obtained (except for lengths ≥ 2^63) are not modelled.
-/
namespace Verif.Sdf

/-- How an element is stored: its number of bytes, its bytes, and what is made of those bytes. -/
structure Codec (ε : Type) where
  width : Nat
  enc : ε → List Byte
  dec : List Byte → ε

/-- Elements of RTensor: write_raw(const double *, n), odata_file.cc:150-155. -/
def realC : Codec Word := ⟨8, wordBytes, wordOf⟩

/-- Elements of CTensor: `2*n` numbers, odata_file.cc:157-162 and idata_file.cc:130-135. -/
def cplxC : Codec (Word × Word) :=
  ⟨16, fun z => wordBytes z.1 ++ wordBytes z.2, fun l => (wordOf (l.take 8), wordOf (l.drop 8))⟩

/-- Elements of Indices (`long`), odata_file.cc:136-141. -/
def dimC : Codec Int := ⟨8, fun i => wordBytes (BitVec.ofInt 64 i), fun l => (wordOf l).toInt⟩

/-! Writing -/

/-- write_variable_name, odata_file.cc:164-172: `strncpy` of at most 63 characters, which stops at a
null character, in a buffer of 64 zeros. -/
def nameField (name : List Byte) : List Byte :=
  let s := (name.take (min 63 name.length)).takeWhile (· ≠ 0)
  s ++ List.replicate (64 - s.length) 0

/-- write_tag, odata_file.cc:174-179. -/
def tagBytes (name : List Byte) (tag : Int) : List Byte :=
  nameField name ++ wordBytes (BitVec.ofInt 64 tag)

/-- dump_vector, odata_file.cc:181-186. -/
def vecBytes {ε : Type} (c : Codec ε) (v : List ε) : List Byte :=
  wordBytes (BitVec.ofNat 64 v.length) ++ (v.map c.enc).flatten

/-- dump of a tensor, odata_file.cc:188-202. -/
def dumpTensor {ε : Type} (c : Codec ε) (tag : Int) (t : Tensor ε) (name : List Byte) : List Byte :=
  tagBytes name tag ++ vecBytes dimC (t.dims.map fun d : Nat => (d : Int)) ++ vecBytes c t.data

/-- dump of a vector of tensors, odata_file.cc:204-224; `tag1` is the tag of the tensors. -/
def dumpTensors {ε : Type} (c : Codec ε) (tag tag1 : Int) (m : List (Tensor ε)) (name : List Byte) :
    List Byte :=
  tagBytes name tag ++ wordBytes (BitVec.ofNat 64 m.length)
    ++ (m.map fun t => dumpTensor c tag1 t []).flatten

/-- The types of variables, sdf.h:100-107; tags of sdf.h:42-47. -/
inductive Kind
  | real | complex | reals | complexes | double | cdouble | int | size
deriving DecidableEq, Repr

/-- A variable to be written. -/
inductive Value
  | real (t : Tensor Word)
  | complex (t : Tensor (Word × Word))
  | reals (m : List (Tensor Word))
  | complexes (m : List (Tensor (Word × Word)))
  | double (v : Word)
  | cdouble (v : Word × Word)
  | int (v : Int)
  | size (v : Nat)

def Value.kind : Value → Kind
  | .real _ => .real
  | .complex _ => .complex
  | .reals _ => .reals
  | .complexes _ => .complexes
  | .double _ => .double
  | .cdouble _ => .cdouble
  | .int _ => .int
  | .size _ => .size

/-- dump, odata_file.cc:188-252: numbers are written as tensors with one element, integers are
converted to `double`. -/
def dump (v : Value) (name : List Byte) : List Byte :=
  match v with
  | .real t => dumpTensor realC 0 t name
  | .complex t => dumpTensor cplxC 1 t name
  | .reals m => dumpTensors realC 2 0 m name
  | .complexes m => dumpTensors cplxC 3 1 m name
  | .double v => dumpTensor realC 0 ⟨[1], [v]⟩ name
  | .cdouble v => dumpTensor cplxC 1 ⟨[1], [v]⟩ name
  | .int v => dumpTensor realC 0 ⟨[1], [doubleBits v]⟩ name
  | .size v => dumpTensor realC 0 ⟨[1], [doubleBits v]⟩ name

/-- Successive calls to dump. -/
def dumpAll (rs : List (Value × List Byte)) : List Byte :=
  (rs.map fun r => dump r.1 r.2).flatten

/-- write_header, odata_file.cc:254-263: "sdf481" for this machine. -/
def header : List Byte := nameField [115, 100, 102, 4 + 48, 8 + 48, 1 + 48]

/-! Reading -/

/-- An input stream: the bytes which have not been read and the fail bit. -/
structure In where
  rest : List Byte
  fail : Bool
deriving DecidableEq, Repr

/-- `_stream.read` of `n` bytes in a new buffer, idata_file.cc:24-33. -/
def readRaw (n : Nat) (s : In) : List (Option Byte) × In :=
  if s.fail then (List.replicate n none, s)
  else if n ≤ s.rest.length then ((s.rest.take n).map some, ⟨s.rest.drop n, false⟩)
  else (s.rest.map some ++ List.replicate (n - s.rest.length) none, ⟨[], true⟩)

/-- All the elements, if all of them have a value. -/
def allSome {β : Type} : List (Option β) → Option (List β)
  | [] => some []
  | none :: _ => none
  | some a :: r => (allSome r).map (a :: ·)

/-- read_raw(v) for a `long` or `size_t` whose value is going to be used, sdf.h:120-122. -/
def readWord (s : In) : Res (Word × In) :=
  match allSome (readRaw 8 s).1 with
  | none => .ub
  | some l => .ok (wordOf l, (readRaw 8 s).2)

/-- `std::string(buffer)`: the characters before the first null character; running out of
characters of known value is `ub`. -/
def cString : List (Option Byte) → Res (List Byte)
  | [] => .ub
  | none :: _ => .ub
  | some b :: r => if b = 0 then .ok [] else do
    let t ← cString r
    pure (b :: t)

/-- read_variable_name, idata_file.cc:144-152. -/
def readName (s : In) : Res (List Byte × In) := do
  let n ← cString (readRaw 64 s).1
  pure (n, (readRaw 64 s).2)

/-- tag_to_name, data_file.cc:118-128: `names` has 4 elements (and the test only prints). -/
def tagToName (tag : Int) : Res Unit := if 0 ≤ tag ∧ tag < 4 then .ok () else .ub

/-- read_tag, idata_file.cc:154-171. -/
def readTag (name : List Byte) (type : Int) (s : In) : Res In := do
  let (otherName, s) ← readName s
  Res.assert (¬(name ≠ [] ∧ name ≠ otherName))
  let (w, s) ← readWord s
  if w.toInt = type then pure s
  else do
    tagToName type
    tagToName w.toInt
    .abort

/-- load_vector, idata_file.cc:173-181; a length ≥ 2^63 is a negative `index` and the allocation
fails. -/
def loadVector {ε : Type} (c : Codec ε) (s : In) : Res (List (Option ε) × In) := do
  let (w, s) ← readWord s
  Res.assert (w.toNat < 2 ^ 63)
  let (buf, s) := readRaw (w.toNat * c.width) s
  pure ((List.range w.toNat).map fun k => (allSome ((buf.drop (k * c.width)).take c.width)).map c.dec, s)

/-- A tensor which has been loaded: its dimensions, and its elements if they were in the file. -/
structure GotT (ε : Type) where
  dims : List Int
  data : List (Option ε)
deriving DecidableEq, Repr

/-- load of a tensor, idata_file.cc:183-195, with the check of the constructor,
tensor_base.hpp:46-51. -/
def loadTensor {ε : Type} (c : Codec ε) (tag : Int) (name : List Byte) (s : In) :
    Res (GotT ε × In) := do
  let s ← readTag name tag s
  let (dims, s) ← loadVector dimC s
  let (data, s) ← loadVector c s
  match allSome dims with
  | none => .ub
  | some d => do
    Res.assert (Tensor.totalSizeI d = data.length)
    pure (⟨d, data⟩, s)

/-- The loop of idata_file.cc:204-206, 216-218. -/
def loadMany {ε : Type} (c : Codec ε) (tag1 : Int) : Nat → In → Res (List (GotT ε) × In)
  | 0, s => .ok ([], s)
  | k + 1, s => do
    let (t, s) ← loadTensor c tag1 [] s
    let (ts, s) ← loadMany c tag1 k s
    pure (t :: ts, s)

/-- load of a vector of tensors, idata_file.cc:197-219. -/
def loadTensors {ε : Type} (c : Codec ε) (tag tag1 : Int) (name : List Byte) (s : In) :
    Res (List (GotT ε) × In) := do
  let s ← readTag name tag s
  let (w, s) ← readWord s
  Res.assert (w.toNat < 2 ^ 63)
  loadMany c tag1 w.toNat s

/-- load of a number, idata_file.cc:221-245; `t[0]` is not checked. -/
def loadScalar {ε : Type} (c : Codec ε) (tag : Int) (name : List Byte) (s : In) :
    Res (ε × In) := do
  let (t, s) ← loadTensor c tag name s
  Res.assert (¬(t.data.length > 1))
  let v ← Res.ofOption t.data[0]?
  let v ← Res.ofOption v
  pure (v, s)

/-- A variable which has been read. -/
inductive Got
  | real (t : GotT Word)
  | complex (t : GotT (Word × Word))
  | reals (m : List (GotT Word))
  | complexes (m : List (GotT (Word × Word)))
  | double (v : Word)
  | cdouble (v : Word × Word)
  | int (v : Int)
  | size (v : Nat)
deriving DecidableEq, Repr

/-- `(int)aux`, idata_file.cc:255-261: undefined when the integer part is not an `int`. -/
def castInt (w : Word) : Res Int := do
  let v ← Res.ofOption (truncBits w)
  if -2 ^ 31 ≤ v ∧ v < 2 ^ 31 then .ok v else .ub

/-- `(size_t)aux`, idata_file.cc:247-253. -/
def castSize (w : Word) : Res Nat := do
  let v ← Res.ofOption (truncBits w)
  if 0 ≤ v ∧ v < 2 ^ 64 then .ok v.toNat else .ub

/-- load, idata_file.cc:183-261. -/
def load (k : Kind) (name : List Byte) (s : In) : Res (Got × In) :=
  match k with
  | .real => do let (t, s) ← loadTensor realC 0 name s; pure (.real t, s)
  | .complex => do let (t, s) ← loadTensor cplxC 1 name s; pure (.complex t, s)
  | .reals => do let (m, s) ← loadTensors realC 2 0 name s; pure (.reals m, s)
  | .complexes => do let (m, s) ← loadTensors cplxC 3 1 name s; pure (.complexes m, s)
  | .double => do let (v, s) ← loadScalar realC 0 name s; pure (.double v, s)
  | .cdouble => do let (v, s) ← loadScalar cplxC 1 name s; pure (.cdouble v, s)
  | .int => do
    let (v, s) ← loadScalar realC 0 name s
    let i ← castInt v
    pure (.int i, s)
  | .size => do
    let (v, s) ← loadScalar realC 0 name s
    let i ← castSize v
    pure (.size i, s)

/-- Successive calls to load. -/
def loadAll : List (Kind × List Byte) → In → Res (List Got × In)
  | [], s => .ok ([], s)
  | r :: rs, s => do
    let (g, s) ← load r.1 r.2 s
    let (gs, s) ← loadAll rs s
    pure (g :: gs, s)

/-- `var_name[i]` of a std::string: the character after the last one is null, others do not exist. -/
def charAt (s : List Byte) (i : Nat) : Res Byte :=
  if i < s.length then Res.ofOption s[i]? else if i = s.length then .ok 0 else .ub

/-- read_header, idata_file.cc:263-284. -/
def readHeader (s : In) : Res In := do
  let (n, s) ← readName s
  let c0 ← charAt n 0
  Res.assert (c0 = 115)
  let c1 ← charAt n 1
  Res.assert (c1 = 100)
  let c2 ← charAt n 2
  Res.assert (c2 = 102)
  let c3 ← charAt n 3
  let c4 ← charAt n 4
  let c5 ← charAt n 5
  Res.assert (c3 = 4 + 48 ∧ c4 = 8 + 48 ∧ c5 = 1 + 48)
  pure s

/-- The constructor of InDataFile, idata_file.cc:82-89 (flag SDF_SHARED), for a file with the given
contents, or none if there is no such file (the stream has then its fail bit set). -/
def openIn (file : Option (List Byte)) : Res In :=
  readHeader ⟨file.getD [], file.isNone⟩

end Verif.Sdf
