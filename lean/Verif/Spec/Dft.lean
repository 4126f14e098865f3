import Verif.Spec.Index
import Mathlib.Algebra.BigOperators.Group.Finset.Basic
import Mathlib.Analysis.SpecialFunctions.Trigonometric.Basic
/-
Specification of the discrete Fourier transform along some indices of a tensor.
-/
namespace Verif.Spec

open Finset

variable {α : Type}

/-- The element `idx` of the tensor is `x idx`. -/
def Entries (dims : List Nat) (data : List α) (x : List Nat → α) : Prop :=
  ∀ idx, InB idx dims → elem dims data idx = some (x idx)

/-- The element `ks` of the transform of `x` along the indices which are marked:
`Σ_j W n (j k) x(.., j, ..)` for each of them. -/
def dft [CommSemiring α] (W : Nat → Nat → α) :
    (marks : List Bool) → (dims ks : List Nat) → (x : List Nat → α) → α
  | true :: ms, n :: ns, k :: ks, x =>
    ∑ j ∈ range n, W n (j * k) * dft W ms ns ks fun js => x (j :: js)
  | false :: ms, _ :: ns, k :: ks, x => dft W ms ns ks fun js => x (k :: js)
  | _, _, _, x => x []

/-- The product of the dimensions which are marked. -/
def markedSize : (marks : List Bool) → (dims : List Nat) → Nat
  | true :: ms, n :: ns => n * markedSize ms ns
  | false :: ms, _ :: ns => markedSize ms ns
  | _, _ => 1

/-- No marked dimension is zero. -/
def MarkedPos : (marks : List Bool) → (dims : List Nat) → Prop
  | m :: ms, n :: ns => (m = true → n ≠ 0) ∧ MarkedPos ms ns
  | _, _ => True

/-- `exp (s 2 π i m / n)`. -/
noncomputable def root (s : Int) (n m : Nat) : ℂ := Complex.exp (s * (2 * Real.pi * Complex.I) * m / n)

/-- The opposite frequency along the marked indices. -/
def opposite : (marks : List Bool) → (dims ks : List Nat) → List Nat
  | m :: ms, n :: ns, k :: ks => (if m then (n - k) % n else k) :: opposite ms ns ks
  | _, _, _ => []

/-- The cyclic convolution along the marked indices, by elements along the others. -/
def cyclic [CommSemiring α] : (marks : List Bool) → (dims ks : List Nat) → (x y : List Nat → α) → α
  | true :: ms, n :: ns, k :: ks, x, y =>
    ∑ j ∈ range n, cyclic ms ns ks (fun js => x (j :: js)) fun js => y ((k + n - j) % n :: js)
  | false :: ms, _ :: ns, k :: ks, x, y =>
    cyclic ms ns ks (fun js => x (k :: js)) fun js => y (k :: js)
  | _, _, _, x, y => x [] * y []

/-- The product of the numbers W n (h k) for a displacement of h n along each of the marked indices. -/
def phase [CommSemiring α] (W : Nat → Nat → α) (h : Nat → Nat) :
    (marks : List Bool) → (dims ks : List Nat) → α
  | true :: ms, n :: ns, k :: ks => W n (h n * k) * phase W h ms ns ks
  | false :: ms, _ :: ns, _ :: ks => phase W h ms ns ks
  | _, _, _ => 1

end Verif.Spec
