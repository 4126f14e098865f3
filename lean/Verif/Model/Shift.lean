import Verif.Model.View
/-
Model of fftshift, /repo/src/fftw/fftshift.cc. Elements of new tensors which have not been written are
`none`; using them is `ub`.
-/
namespace Verif.Shift

open Verif View

variable {α : Type}

/-- Nhalf and minfreq, fftshift.cc:64-77. -/
def halves (n : Nat) (fwd : Bool) : Nat × Nat :=
  if n % 2 = 1 then
    if fwd then ((n - 1) / 2, (n + 1) / 2) else ((n - 1) / 2 + 1, (n + 1) / 2 - 1)
  else (n / 2, n / 2)

/-- fftshift(input, dim, direction), fftshift.cc:38-83, where `fwd` is false for FFTW_BACKWARD. -/
def shiftDim (fuel : Nat) (t : Tensor α) (dim : Int) (fwd : Bool) : Run (Tensor α) := do
  let _ ← Run.done (Res.assert (0 ≤ dim ∧ dim < t.dims.length))
  let n ← Run.done (Res.ofOption t.dims[dim.toNat]?)
  if n = 1 then pure t
  else do
    let before := (t.dims.take dim.toNat).foldl (· * ·) 1
    let after := (t.dims.drop (dim.toNat + 1)).foldl (· * ·) 1
    let out : Tensor (Option α) := Tensor.fill [before, n, after] none
    let inp ← Run.done ((⟨t.dims, t.data.map some⟩ : Tensor (Option α)).reshape out.dims)
    let h := (halves n fwd).1
    let m := (halves n fwd).2
    let e : Int := (n : Int) - 1
    let out ← assignView fuel out [.all, .step 0 ((h : Int) - 1) 1, .all] inp
      [.all, .step m e 1, .all]
    let out ← assignView fuel out [.all, .step h e 1, .all] inp [.all, .step 0 ((m : Int) - 1) 1, .all]
    let out ← Run.done (out.reshape t.dims)
    let data ← Run.done (finish out.data)
    pure ⟨out.dims, data⟩

/-- The loops of fftshift.cc:90-94 and 29-31: the flags say which of the indices from `dim` on are
shifted. -/
def shiftLoop (fuel : Nat) (fwd : Bool) : Nat → List Bool → Tensor α → Run (Tensor α)
  | _, [], t => pure t
  | dim, f :: fs, t => do
    let t ← (if f then shiftDim fuel t dim fwd else pure t)
    shiftLoop fuel fwd (dim + 1) fs t

/-- fftshift(input, convert, direction), fftshift.cc:85-97. -/
def shiftSome (fuel : Nat) (t : Tensor α) (convert : List Bool) (fwd : Bool) : Run (Tensor α) := do
  let _ ← Run.done (Res.assert (t.dims.length = convert.length))
  shiftLoop fuel fwd 0 convert t

/-- fftshift(input, direction), fftshift.cc:26-35. -/
def shiftAll (fuel : Nat) (t : Tensor α) (fwd : Bool) : Run (Tensor α) :=
  shiftLoop fuel fwd 0 (List.replicate t.dims.length true) t

end Verif.Shift
