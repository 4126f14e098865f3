import Verif.Model.Fftw
import Verif.Model.FoldMachine
/-
Model of the Fourier transforms, /repo/src/fftw/fftw.cc, fftw_inplace.cc and fftw_common.cc, in machine words: the lengths and
the strides which are given to FFTW are of type int, with `w` bits. The products of type `index` do not overflow, because the
tensor is in memory, and the rank of the tensor is an int.

FFTW makes no plan for negative lengths, and fftw_execute is then undefined. The strides of an index with one value are not
used. A negative stride of another index leads to elements before the first one, here undefined also if there are no
elements at all.
-/
namespace Verif.FftwMachine

open Verif Fftw Machine

variable {α : Type}

/-- fftw_iodim: three numbers of type int. -/
structure IntDim where
  n : Int
  is : Int
  os : Int

/-- A length and its strides, as FFTW uses them. -/
def place (d : IntDim) : Res IoDim :=
  if d.n < 0 then .ub
  else if d.n ≤ 1 then .ok ⟨d.n.toNat, 0, 0⟩
  else if d.is < 0 ∨ d.os < 0 then .ub
  else .ok ⟨d.n.toNat, d.is.toNat, d.os.toNat⟩

/-- All the lengths. -/
def places : List IntDim → Res (List IoDim)
  | [] => .ok []
  | d :: ds => do
    let a ← place d
    let r ← places ds
    .ok (a :: r)

section
variable [Zero α] [Add α] [Mul α]

/-- fftw_plan_guru_dft and fftw_execute. -/
def guru (W : Int → Nat → Nat → α) (inPlace : Bool) (inp : List α) (fft loop : List IntDim) (direction : Int) :
    Res (List α) := do
  let f ← places fft
  let l ← places loop
  Fftw.guru W inPlace inp f l direction

/-- fftw_plan_dft and fftw_plan_dft_1d, and fftw_execute. FFTW computes the strides, with integers of the size of a
pointer. -/
def plan (W : Int → Nat → Nat → α) (inPlace : Bool) (inp : List α) (dimensions : List Int) (direction : Int) :
    Res (List α) :=
  if ∃ n ∈ dimensions, n < 0 then .ub
  else Fftw.plan W inPlace inp (dimensions.map Int.toNat) direction

/-- do_fftw for all the indices, fftw_common.cc:26-43: `dims[0]` is converted to int in :32, and `dims[i]` in :36. -/
def doAll (w : Nat) (W : Int → Nat → Nat → α) (inPlace : Bool) (inp : List α) (dims : List Nat) (direction : Int) :
    Res (List α) :=
  if dims.length = 1 then plan W inPlace inp (dims.map fun (n : Nat) => conv w n) direction
  else do
    let ds ← dimensions dims
    plan W inPlace inp (ds.map fun (n : Nat) => conv w n) direction

/-- The loops fftw_common.cc:52-57 and 64-69, with the stride at their end. The stride is multiplied with the int, :56, 68. -/
def strides (w : Nat) : List Nat → Int → List IntDim × Int
  | [], stride => ([], stride)
  | n :: ns, stride =>
    let r := strides w ns (stride * conv w n)
    (⟨conv w n, conv w stride, conv w stride⟩ :: r.1, r.2)

/-- do_fftw for one index, fftw_common.cc:45-76. -/
def doDim (w : Nat) (W : Int → Nat → Nat → α) (inPlace : Bool) (inp : List α) (dim : Nat) (dims : List Nat)
    (direction : Int) : Res (List α) := do
  let before := strides w (dims.take dim) 1
  let n ← Res.ofOption dims[dim]?
  let fft : IntDim := ⟨conv w n, conv w before.2, conv w before.2⟩
  let after := strides w (dims.drop (dim + 1)) (before.2 * conv w n)
  guru W inPlace inp [fft] (before.1 ++ after.1) direction

/-- The loop fftw_common.cc:87-101: `fft_dims` and `loop_dims`. The stride is multiplied with the `index`, :100. -/
def split (w : Nat) : List Bool → List Nat → Nat → List IntDim × List IntDim
  | c :: cs, n :: ns, stride =>
    let r := split w cs ns (stride * n)
    if c = false then (r.1, ⟨conv w n, conv w stride, conv w stride⟩ :: r.2)
    else (⟨conv w n, conv w stride, conv w stride⟩ :: r.1, r.2)
  | _, _, _ => ([], [])

/-- do_fftw for some indices, fftw_common.cc:78-108. -/
def doSome (w : Nat) (W : Int → Nat → Nat → α) (inPlace : Bool) (inp : List α) (convert : List Bool) (dims : List Nat)
    (direction : Int) : Res (List α) :=
  guru W inPlace inp (split w convert dims 1).1 (split w convert dims 1).2 direction

/-- fftw(in, direction), fftw.cc:27-39; fftw_inplace(in, direction), fftw_inplace.cc:25-29. -/
def fftwAll (w : Nat) (W : Int → Nat → Nat → α) (inPlace : Bool) (t : Tensor α) (direction : Int) : Res (Tensor α) := do
  let out ← doAll w W inPlace t.data t.dims direction
  .ok ⟨t.dims, out⟩

/-- fftw(in, dim, direction), fftw.cc:41-53; fftw_inplace(in, dim, direction), fftw_inplace.cc:31-36. -/
def fftwDim (w : Nat) (W : Int → Nat → Nat → α) (inPlace : Bool) (t : Tensor α) (dim direction : Int) :
    Res (Tensor α) := do
  let _ ← Res.assert (0 ≤ dim ∧ dim < t.dims.length)
  let out ← doDim w W inPlace t.data dim.toNat t.dims direction
  .ok ⟨t.dims, out⟩

/-- fftw(in, convert, direction), fftw.cc:55-67; fftw_inplace(in, convert, direction), fftw_inplace.cc:38-43. -/
def fftwSome (w : Nat) (W : Int → Nat → Nat → α) (inPlace : Bool) (t : Tensor α) (convert : List Bool)
    (direction : Int) : Res (Tensor α) := do
  let _ ← Res.assert (convert.length = t.dims.length)
  let out ← doSome w W inPlace t.data convert t.dims direction
  .ok ⟨t.dims, out⟩

end

end Verif.FftwMachine
