import Verif.Model.Tensor
/-
Model of the Fourier transforms, /repo/src/fftw/fftw.cc, fftw_inplace.cc and fftw_common.cc. The library
FFTW is not modelled: `guru` and `plan` are what its manual says about fftw_plan_guru_dft,
fftw_plan_dft and fftw_plan_dft_1d followed by fftw_execute, without rounding. The numbers
exp(direction * 2 pi i m / n) are a parameter, `W direction n m`. Sizes and strides are `int` in the
interface of FFTW; here they are not bounded.
-/
namespace Verif.Fftw

open Verif

variable {α : Type}

/-- fftw_iodim: the length of an index and its strides in the input and the output. -/
structure IoDim where
  n : Nat
  is : Nat
  os : Nat
  deriving Repr, DecidableEq

/-- All the values of some indices. -/
def allIdx : List Nat → List (List Nat)
  | [] => [[]]
  | n :: ns => (List.range n).flatMap fun i => (allIdx ns).map (i :: ·)

/-- The distance from the first element in the input. -/
def inOff : List IoDim → List Nat → Nat
  | d :: ds, i :: is => i * d.is + inOff ds is
  | _, _ => 0

/-- The distance from the first element in the output. -/
def outOff : List IoDim → List Nat → Nat
  | d :: ds, i :: is => i * d.os + outOff ds is
  | _, _ => 0

section
variable [Zero α] [Add α] [Mul α]

/-- One number of a transform: the sum for the frequencies `ks`, of the input that begins at `a`. -/
def sums (W : Nat → Nat → α) (inp : List α) : List IoDim → List Nat → Nat → Option α
  | d :: ds, k :: ks, a =>
    sumO d.n fun j => (sums W inp ds ks (a + j * d.is)).map (W d.n (j * k) * ·)
  | _, _, a => inp[a]?

/-- What a transform writes: all the frequencies, for all the values of the other indices. -/
def writes (W : Nat → Nat → α) (inp : List α) (fft loop : List IoDim) : List (Nat × Option α) :=
  (allIdx (loop.map (·.n))).flatMap fun h => (allIdx (fft.map (·.n))).map fun k =>
    (outOff loop h + outOff fft k, sums W inp fft k (inOff loop h))

/-- The output is either a new tensor of the same size (fftw.cc:30, 44, 58) or the input
(fftw_inplace.cc:28, 35, 42). -/
def target (inPlace : Bool) (inp : List α) (ws : List (Nat × Option α)) : Res (List α) :=
  if inPlace then updWrites inp ws else runWrites inp.length ws

/-- fftw_plan_guru_dft and fftw_execute: there is no plan to execute if there is nothing to sum, and
nothing is said about other directions. -/
def guru (W : Int → Nat → Nat → α) (inPlace : Bool) (inp : List α) (fft loop : List IoDim)
    (direction : Int) : Res (List α) :=
  if (direction = -1 ∨ direction = 1) ∧ ∀ d ∈ fft, d.n ≠ 0 then
    target inPlace inp (writes (W direction) inp fft loop)
  else .ub

/-- The strides of an array in row-major order, for the manual of fftw_plan_dft. -/
def rowMajor : List Nat → List IoDim
  | [] => []
  | n :: ns => ⟨n, ns.foldl (· * ·) 1, ns.foldl (· * ·) 1⟩ :: rowMajor ns

/-- fftw_plan_dft (fftw_plan_dft_1d is the case of one dimension) and fftw_execute. -/
def plan (W : Int → Nat → Nat → α) (inPlace : Bool) (inp : List α) (dimensions : List Nat)
    (direction : Int) : Res (List α) :=
  guru W inPlace inp (rowMajor dimensions) [] direction

/-- `dimensions[d - i - 1] = dims[i]`, fftw_common.cc:34-37. -/
def dimensions (dims : List Nat) : Res (List Nat) :=
  runWrites dims.length
    ((List.range dims.length).map fun i => (dims.length - i - 1, dims[i]?))

/-- do_fftw for all the indices, fftw_common.cc:26-43. -/
def doAll (W : Int → Nat → Nat → α) (inPlace : Bool) (inp : List α) (dims : List Nat)
    (direction : Int) : Res (List α) :=
  if dims.length = 1 then plan W inPlace inp dims direction
  else do
    let ds ← dimensions dims
    plan W inPlace inp ds direction

/-- The loops fftw_common.cc:52-57 and 64-69, with the stride at their end. -/
def strides : List Nat → Nat → List IoDim × Nat
  | [], stride => ([], stride)
  | n :: ns, stride =>
    let r := strides ns (stride * n)
    (⟨n, stride, stride⟩ :: r.1, r.2)

/-- do_fftw for one index, fftw_common.cc:45-76. -/
def doDim (W : Int → Nat → Nat → α) (inPlace : Bool) (inp : List α) (dim : Nat) (dims : List Nat)
    (direction : Int) : Res (List α) := do
  let before := strides (dims.take dim) 1
  let n ← Res.ofOption dims[dim]?
  let fft : IoDim := ⟨n, before.2, before.2⟩
  let after := strides (dims.drop (dim + 1)) (before.2 * n)
  guru W inPlace inp [fft] (before.1 ++ after.1) direction

/-- The loop fftw_common.cc:87-101: `fft_dims` and `loop_dims`. -/
def split : List Bool → List Nat → Nat → List IoDim × List IoDim
  | c :: cs, n :: ns, stride =>
    let r := split cs ns (stride * n)
    if c = false then (r.1, ⟨n, stride, stride⟩ :: r.2) else (⟨n, stride, stride⟩ :: r.1, r.2)
  | _, _, _ => ([], [])

/-- do_fftw for some indices, fftw_common.cc:78-108. -/
def doSome (W : Int → Nat → Nat → α) (inPlace : Bool) (inp : List α) (convert : List Bool)
    (dims : List Nat) (direction : Int) : Res (List α) :=
  guru W inPlace inp (split convert dims 1).1 (split convert dims 1).2 direction

/-- fftw(in, direction), fftw.cc:27-39; fftw_inplace(in, direction), fftw_inplace.cc:25-29. -/
def fftwAll (W : Int → Nat → Nat → α) (inPlace : Bool) (t : Tensor α) (direction : Int) :
    Res (Tensor α) := do
  let out ← doAll W inPlace t.data t.dims direction
  .ok ⟨t.dims, out⟩

/-- fftw(in, dim, direction), fftw.cc:41-53; fftw_inplace(in, dim, direction),
fftw_inplace.cc:31-36. -/
def fftwDim (W : Int → Nat → Nat → α) (inPlace : Bool) (t : Tensor α) (dim direction : Int) :
    Res (Tensor α) := do
  let _ ← Res.assert (0 ≤ dim ∧ dim < t.dims.length)
  let out ← doDim W inPlace t.data dim.toNat t.dims direction
  .ok ⟨t.dims, out⟩

/-- fftw(in, convert, direction), fftw.cc:55-67; fftw_inplace(in, convert, direction),
fftw_inplace.cc:38-43. -/
def fftwSome (W : Int → Nat → Nat → α) (inPlace : Bool) (t : Tensor α) (convert : List Bool)
    (direction : Int) : Res (Tensor α) := do
  let _ ← Res.assert (convert.length = t.dims.length)
  let out ← doSome W inPlace t.data convert t.dims direction
  .ok ⟨t.dims, out⟩

end

end Verif.Fftw
