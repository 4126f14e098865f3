import Verif.Model.Tensor
import Verif.Model.Indices
/-
Model of the index arithmetic of class Tensor in machine words.  The other models compute sizes
and positions with unbounded integers; here `index` is `long` (vector.h:31) with 64 bits, and every
multiplication, addition and subtraction is checked.
/repo/include/tensor/vector.h, /repo/include/tensor/detail/common.h,
/repo/include/tensor/detail/refcount.hpp, /repo/include/tensor/detail/tensor_base.hpp,
/repo/include/tensor/detail/sparse_base.hpp, /repo/src/indices/indices.cc,
/repo/src/indices/surrounding_dimensions.cc.

What an overflow does is a parameter `ov`, which takes the exact value: undefined behaviour by the
language (`strict`), or the wrapped value, which is what the processor computes (`wrap`).
-/
namespace Verif.Machine

variable {α : Type}

/-- The values of `index`, that is `long`, vector.h:31. -/
def Fits (x : Int) : Prop := -2 ^ 63 ≤ x ∧ x < 2 ^ 63

instance (x : Int) : Decidable (Fits x) := inferInstanceAs (Decidable (_ ∧ _))

/-- Overflow in signed arithmetic is undefined behaviour. -/
def strict (_ : Int) : Res Int := .ub

/-- Overflow gives the value modulo 2^64. -/
def wrap (x : Int) : Res Int := .ok (Int.bmod x (2 ^ 64))

/-- The result of an operation on `index` whose exact value is `x`. -/
def word (ov : Int → Res Int) (x : Int) : Res Int := if Fits x then .ok x else ov x

/-- The loop of Indices::total_size, indices.cc:40-50; a negative entry leaves it with `return false`, that is 0. -/
def totalLoop (ov : Int → Res Int) : Int → List Int → Res Int
  | aux, [] => .ok aux
  | aux, d :: ds =>
    if d < 0 then .ok 0
    else do
      let aux ← word ov (aux * d)
      totalLoop ov aux ds

/-- Indices::total_size, indices.cc:38-55. -/
def totalSize (ov : Int → Res Int) (d : List Int) : Res Int :=
  if d.length ≠ 0 then totalLoop ov 1 d else .ok 0

/-- What a constructor of Tensor produces: the dimensions, the number of elements `size()` says it
has, and the number of elements there is memory for. -/
structure Obj where
  dims : List Int
  size : Nat
  cells : Nat
deriving Repr, DecidableEq

/-- Conversion of `index` to `size_t`, in the call of RefPointer(size_t) by Vector(index),
vector.h:43. -/
def toSize (n : Int) : Nat := (n % 2 ^ 64).toNat

/-- `new double[n]`: it throws, and nobody catches it, if the array would be larger than half of
the address space. -/
def newDoubles (n : Nat) : Res Nat := if n * 8 < 2 ^ 63 then .ok n else .abort

/-- RefPointer<double>(size_t), refcount.hpp:81-84. -/
def newReal (n : Int) : Res (Nat × Nat) := do
  let cells ← newDoubles (toSize n)
  pure (toSize n, cells)

/-- RefPointer<cdouble>(size_t), refcount.hpp:88-91: two doubles for each element; `2*new_size` is
unsigned arithmetic. -/
def newComplex (n : Int) : Res (Nat × Nat) := do
  let doubles ← newDoubles (2 * toSize n % 2 ^ 64)
  pure (toSize n, doubles / 2)

/-- Tensor(const Indices &), tensor_base.hpp:40-44, for a kind `alloc` of elements. -/
def makeDims (ov : Int → Res Int) (alloc : Int → Res (Nat × Nat)) (d : List Int) : Res Obj := do
  let n ← totalSize ov d
  let b ← alloc n
  pure ⟨d, b.1, b.2⟩

/-- Tensor(d1), ..., Tensor(d1, ..., d6), tensor_base.hpp:62-118: the products are computed from
left to right.  There is no such constructor for other numbers of dimensions; programs which use it
do not compile, which is represented by `abort`. -/
def makeArgs (ov : Int → Res Int) (alloc : Int → Res (Nat × Nat)) (d : List Int) : Res Obj :=
  match d with
  | [d1] => do
    let b ← alloc d1
    pure ⟨[d1], b.1, b.2⟩
  | [d1, d2] => do
    let n ← word ov (d1 * d2)
    let b ← alloc n
    pure ⟨[d1, d2], b.1, b.2⟩
  | [d1, d2, d3] => do
    let n ← word ov (d1 * d2)
    let n ← word ov (n * d3)
    let b ← alloc n
    pure ⟨[d1, d2, d3], b.1, b.2⟩
  | [d1, d2, d3, d4] => do
    let n ← word ov (d1 * d2)
    let n ← word ov (n * d3)
    let n ← word ov (n * d4)
    let b ← alloc n
    pure ⟨[d1, d2, d3, d4], b.1, b.2⟩
  | [d1, d2, d3, d4, d5] => do
    let n ← word ov (d1 * d2)
    let n ← word ov (n * d3)
    let n ← word ov (n * d4)
    let n ← word ov (n * d5)
    let b ← alloc n
    pure ⟨[d1, d2, d3, d4, d5], b.1, b.2⟩
  | [d1, d2, d3, d4, d5, d6] => do
    let n ← word ov (d1 * d2)
    let n ← word ov (n * d3)
    let n ← word ov (n * d4)
    let n ← word ov (n * d5)
    let n ← word ov (n * d6)
    let b ← alloc n
    pure ⟨[d1, d2, d3, d4, d5, d6], b.1, b.2⟩
  | _ => .abort

/-- normalize_index, common.h:25-30. -/
def normalizeIndex (ov : Int → Res Int) (i : Int) (dimension : Int) : Res Int := do
  let i ← if i < 0 then word ov (i + dimension) else .ok i
  Res.assert (i < dimension ∧ i ≥ 0)
  pure i

/-- `a * b + c`, the step of all the formulas for positions, tensor_base.hpp:227-354. -/
def step (ov : Int → Res Int) (a b c : Int) : Res Int := do
  let p ← word ov (a * b)
  word ov (p + c)

/-- The position computed by the accessors with one to six indices, tensor_base.hpp:219-283 and
300-354, with the dimensions `d` of the object; `abort` if the rank is another. -/
def position (ov : Int → Res Int) (d idx : List Int) : Res Int :=
  match d, idx with
  | [d1], [i1] => normalizeIndex ov i1 d1
  | [d1, d2], [i1, i2] => do
    let i1 ← normalizeIndex ov i1 d1
    let i2 ← normalizeIndex ov i2 d2
    step ov i2 d1 i1
  | [d1, d2, d3], [i1, i2, i3] => do
    let i1 ← normalizeIndex ov i1 d1
    let i2 ← normalizeIndex ov i2 d2
    let i3 ← normalizeIndex ov i3 d3
    let p ← step ov i3 d2 i2
    step ov p d1 i1
  | [d1, d2, d3, d4], [i1, i2, i3, i4] => do
    let i1 ← normalizeIndex ov i1 d1
    let i2 ← normalizeIndex ov i2 d2
    let i3 ← normalizeIndex ov i3 d3
    let i4 ← normalizeIndex ov i4 d4
    let p ← step ov i4 d3 i3
    let p ← step ov p d2 i2
    step ov p d1 i1
  | [d1, d2, d3, d4, d5], [i1, i2, i3, i4, i5] => do
    let i1 ← normalizeIndex ov i1 d1
    let i2 ← normalizeIndex ov i2 d2
    let i3 ← normalizeIndex ov i3 d3
    let i4 ← normalizeIndex ov i4 d4
    let i5 ← normalizeIndex ov i5 d5
    let p ← step ov i5 d4 i4
    let p ← step ov p d3 i3
    let p ← step ov p d2 i2
    step ov p d1 i1
  | [d1, d2, d3, d4, d5, d6], [i1, i2, i3, i4, i5, i6] => do
    let i1 ← normalizeIndex ov i1 d1
    let i2 ← normalizeIndex ov i2 d2
    let i3 ← normalizeIndex ov i3 d3
    let i4 ← normalizeIndex ov i4 d4
    let i5 ← normalizeIndex ov i5 d5
    let i6 ← normalizeIndex ov i6 d6
    let p ← step ov i6 d5 i5
    let p ← step ov p d4 i4
    let p ← step ov p d3 i3
    let p ← step ov p d2 i2
    step ov p d1 i1
  | _, _ => .abort

/-- The memory access of `operator()(i1, ...)` on an object: undefined outside of its memory.
Gives the number of the element which is read. -/
def Obj.access (ov : Int → Res Int) (o : Obj) (idx : List Int) : Res Nat := do
  let p ← position ov o.dims idx
  if 0 ≤ p ∧ p < o.cells then .ok p.toNat else .ub

/-- `operator()(i1, ...)`, tensor_base.hpp:219-283. -/
def get (ov : Int → Res Int) (t : Tensor α) (idx : List Int) : Res α := do
  let p ← position ov (t.dims.map Int.ofNat) idx
  t.dataAt p

/-- `at(i1, ...) = v`, tensor_base.hpp:294-354; one index is normalised by `size()`. -/
def set (ov : Int → Res Int) (t : Tensor α) (idx : List Int) (v : α) : Res (Tensor α) :=
  match idx with
  | [i1] => do
    let i ← normalizeIndex ov i1 t.size
    t.dataSet i v
  | _ => do
    let p ← position ov (t.dims.map Int.ofNat) idx
    t.dataSet p v

/-- Tensor(dims, other), tensor_base.hpp:46-51, and reshape, tensor_base.hpp:203-208. -/
def reshape (ov : Int → Res Int) (t : Tensor α) (dims : List Nat) : Res (Tensor α) := do
  let n ← totalSize ov (dims.map Int.ofNat)
  Res.assert (n = t.size)
  pure ⟨dims, t.data⟩

/-- A loop `x *= d[i]`, surrounding_dimensions.cc:39-41, 43-45. -/
def mulLoop (ov : Int → Res Int) : Int → List Int → Res Int
  | x, [] => .ok x
  | x, d :: ds => do
    let x ← word ov (x * d)
    mulLoop ov x ds

/-- surrounding_dimensions, surrounding_dimensions.cc:34-46; reading `d[ndx]` out of bounds is
undefined. -/
def surrounding (ov : Int → Res Int) (d : List Int) (ndx : Nat) : Res (Int × Int × Int) :=
  if ndx < d.length then do
    let d1 ← mulLoop ov 1 (d.take ndx)
    let d2 ← Res.ofOption d[ndx]?
    let d3 ← mulLoop ov 1 (d.drop (ndx + 1))
    pure (d1, d2, d3)
  else .ub

/-- The loop of Indices::range, indices.cc:63-66: `*it = min; min += step`. The addition is also
done after the last element. -/
def rangeLoop (ov : Int → Res Int) (step : Int) : Nat → Int → Res (List Int)
  | 0, _ => .ok []
  | n + 1, min => do
    let next ← word ov (min + step)
    let rest ← rangeLoop ov step n next
    pure (min :: rest)

/-- Indices::range, indices.cc:57-69.  The division overflows only for the least number and -1,
and `word` covers it; a negative size makes the allocation throw, as does one which is too large. -/
def range (ov : Int → Res Int) (min max step : Int) : Res (List Int) :=
  if max < min then .ok []
  else do
    let diff ← word ov (max - min)
    if step = 0 then .ub
    else do
      let q ← word ov (diff.tdiv step)
      let size ← word ov (q + 1)
      let n ← newDoubles (toSize size)     -- sizeof(long) = sizeof(double)
      rangeLoop ov step n min

/-- safe_size, sparse_base.hpp:36-45.  The division overflows only for the least number and -1. -/
def safeSize (ov : Int → Res Int) (nonzero rows cols : Int) : Res Int :=
  if rows = 0 ∨ cols = 0 then .ok 0
  else do
    let q ← word ov (nonzero.tdiv rows)
    Res.assert (q ≤ cols)
    pure nonzero

end Verif.Machine
