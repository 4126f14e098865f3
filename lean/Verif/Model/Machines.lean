import Verif.Model.DataFile
/-
Data files written and read on machines with other sizes of `int`, `long` and `size_t` and with the other order of
bytes. Model/DataFile.lean is the case of 64-bit Linux (`c120_linux`).

`index` is `long` (/repo/include/tensor/vector.h:31), so that tags, dimensions and the lengths of tensors are written
as `long`, but lengths are read as `size_t` (idata_file.cc:173-181). Numbers are written as tensors with one element,
odata_file.cc:226-252, and are not treated again here.

The branches for the macro `aix` (odata_file.cc:39-90, idata_file.cc:34-80) are not modelled: that of idata_file.cc
does not compile, since `min` is not declared (there is no `using namespace std`).
-/
namespace Verif.SdfM

open Verif Sdf

/-- A machine: `sizeof` of int, long and size_t, whether the byte of highest value comes first (TENSOR_BIGENDIAN of
m4/tensor.m4:11, which is right if the library is configured), and the largest number of bytes which `new` can
obtain. -/
structure Machine where
  int : Nat
  long : Nat
  size : Nat
  big : Bool
  memory : Nat

/-- The `k` bytes of a number in memory. -/
def put (m : Machine) (k n : Nat) : List Byte := if m.big then (natBytes k n).reverse else natBytes k n

/-- The number with the given bytes in memory. -/
def get (m : Machine) (l : List Byte) : Nat := bytesNat (if m.big then l.reverse else l)

/-- The value of a signed type of `k` bytes. -/
def signed (k n : Nat) : Int := if 2 * n < 256 ^ k then n else n - 256 ^ k

/-- The doubles of an element of RTensor and CTensor. -/
def parts (c : Bool) : Nat := if c then 2 else 1

/-- Tags of tensors and of vectors of them, sdf.h:42-47. -/
def tag (c : Bool) : Nat := if c then 1 else 0
def vtag (c : Bool) : Nat := if c then 3 else 2

/-! Writing. The elements of a tensor are given as a list of doubles, two for a complex number. -/

/-- write_tag, odata_file.cc:174-179. -/
def tagBytes (m : Machine) (name : List Byte) (g : Nat) : List Byte := nameField name ++ put m m.long g

/-- dump_vector, odata_file.cc:181-186, for numbers of `k` bytes and `p` numbers in each element. `size()` is an
`index`, vector.h:53 and tensor.h:121. -/
def vecBytes (m : Machine) (k p : Nat) (v : List Nat) : List Byte :=
  put m m.long (v.length / p) ++ (v.map (put m k)).flatten

/-- dump of a tensor, odata_file.cc:188-202. -/
def dumpTensor (m : Machine) (c : Bool) (t : Tensor Word) (name : List Byte) : List Byte :=
  tagBytes m name (tag c) ++ vecBytes m m.long 1 t.dims ++ vecBytes m 8 (parts c) (t.data.map BitVec.toNat)

/-- dump of a vector of tensors, odata_file.cc:204-224. -/
def dumpTensors (m : Machine) (c : Bool) (v : List (Tensor Word)) (name : List Byte) : List Byte :=
  tagBytes m name (vtag c) ++ put m m.size v.length ++ (v.map fun t => dumpTensor m c t []).flatten

/-- What is written. -/
inductive Value
  | one (c : Bool) (t : Tensor Word)
  | many (c : Bool) (v : List (Tensor Word))

def dump (m : Machine) (v : Value) (name : List Byte) : List Byte :=
  match v with
  | .one c t => dumpTensor m c t name
  | .many c v => dumpTensors m c v name

def dumpAll (m : Machine) (rs : List (Value × List Byte)) : List Byte :=
  (rs.map fun r => dump m r.1 r.2).flatten

/-- write_header, odata_file.cc:254-263, and data_file.cc:33-37. -/
def header (m : Machine) : List Byte :=
  nameField [115, 100, 102, BitVec.ofNat 8 (m.int + 48), BitVec.ofNat 8 (m.long + 48), if m.big then 48 else 49]

/-! Reading -/

/-- A number whose value is used, of `k` bytes. -/
def readNum (m : Machine) (k : Nat) (s : In) : Res (Nat × In) :=
  match allSome (readRaw k s).1 with
  | none => .ub
  | some l => .ok (get m l, (readRaw k s).2)

/-- read_tag, idata_file.cc:154-171. -/
def readTag (m : Machine) (name : List Byte) (g : Nat) (s : In) : Res In := do
  let (otherName, s) ← readName s
  Res.assert (¬(name ≠ [] ∧ name ≠ otherName))
  let (w, s) ← readNum m m.long s
  if signed m.long w = g then pure s
  else do
    tagToName g
    tagToName (signed m.long w)
    .abort

/-- The `j`-th number of `k` bytes in a buffer. -/
def number (m : Machine) (k : Nat) (buf : List (Option Byte)) (j : Nat) : Option Nat :=
  (allSome ((List.range k).map fun b => (buf[j * k + b]?).join)).map (get m)

/-- load_vector, idata_file.cc:173-181, for numbers of `k` bytes and `p` numbers in each element. The length is a
`size_t` which is converted to `index` for the constructor of the vector, while all of it is used for the number
of bytes which are read: a product of type `size_t`, then converted to a signed type. -/
def loadVector (m : Machine) (k p : Nat) (s : In) : Res (List (Option Nat) × In) := do
  let (n, s) ← readNum m m.size s
  let i := signed m.long (n % 256 ^ m.long)
  Res.assert (0 ≤ i ∧ i.toNat * (p * k) ≤ m.memory)
  let bytes := n * (p * k) % 256 ^ m.size
  if 256 ^ m.size ≤ 2 * bytes then .ub
  else if i.toNat * (p * k) < min bytes (if s.fail then 0 else s.rest.length) then .ub
  else
    let (buf, s) := readRaw bytes s
    pure ((List.range (i.toNat * p)).map (number m k buf), s)

/-- load of a tensor, idata_file.cc:183-195, with the check of the constructor, tensor_base.hpp:46-51. -/
def loadTensor (m : Machine) (c : Bool) (name : List Byte) (s : In) : Res (GotT Word × In) := do
  let s ← readTag m name (tag c) s
  let (dims, s) ← loadVector m m.long 1 s
  let (data, s) ← loadVector m 8 (parts c) s
  match allSome dims with
  | none => .ub
  | some d => do
    let d := d.map (signed m.long)
    Res.assert (Tensor.totalSizeI d = (data.length / parts c : Nat))
    pure (⟨d, data.map fun x => x.map (BitVec.ofNat 64)⟩, s)

/-- The loop of idata_file.cc:204-206, 216-218. -/
def loadMany (m : Machine) (c : Bool) : Nat → In → Res (List (GotT Word) × In)
  | 0, s => .ok ([], s)
  | k + 1, s => do
    let (t, s) ← loadTensor m c [] s
    let (ts, s) ← loadMany m c k s
    pure (t :: ts, s)

/-- load of a vector of tensors, idata_file.cc:197-219. A tensor has at least one byte. -/
def loadTensors (m : Machine) (c : Bool) (name : List Byte) (s : In) : Res (List (GotT Word) × In) := do
  let s ← readTag m name (vtag c) s
  let (n, s) ← readNum m m.size s
  Res.assert (n ≤ m.memory)
  loadMany m c n s

/-- What is read. -/
inductive Got
  | one (t : GotT Word)
  | many (v : List (GotT Word))

/-- The type of variable which is asked for: whether it is a vector, and whether it is complex. -/
structure Kind where
  many : Bool
  cplx : Bool

def Value.kind : Value → Kind
  | .one c _ => ⟨false, c⟩
  | .many c _ => ⟨true, c⟩

def load (m : Machine) (k : Kind) (name : List Byte) (s : In) : Res (Got × In) :=
  match k with
  | ⟨true, c⟩ => do
    let (v, s) ← loadTensors m c name s
    pure (.many v, s)
  | ⟨false, c⟩ => do
    let (t, s) ← loadTensor m c name s
    pure (.one t, s)

def loadAll (m : Machine) : List (Kind × List Byte) → In → Res (List Got × In)
  | [], s => .ok ([], s)
  | r :: rs, s => do
    let (g, s) ← load m r.1 r.2 s
    let (gs, s) ← loadAll m rs s
    pure (g :: gs, s)

/-- read_header, idata_file.cc:263-284; `char` is signed or not, which makes no difference for what is accepted. -/
def readHeader (m : Machine) (s : In) : Res In := do
  let (n, s) ← readName s
  let c0 ← charAt n 0
  Res.assert (c0 = 115)
  let c1 ← charAt n 1
  Res.assert (c1 = 100)
  let c2 ← charAt n 2
  Res.assert (c2 = 102)
  let c3 ← charAt n 3
  let c4 ← charAt n 4
  let c5 ← charAt n 5
  Res.assert (c3.toInt - 48 = m.int ∧ c4.toInt - 48 = m.long ∧ c5.toInt - 48 = if m.big then 0 else 1)
  pure s

/-- The constructor of InDataFile, idata_file.cc:82-89, for a file with the given contents. -/
def openIn (m : Machine) (file : List Byte) : Res In := readHeader m ⟨file, false⟩

end Verif.SdfM
