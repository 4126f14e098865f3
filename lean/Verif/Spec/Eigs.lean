import Verif.Spec.Eig
/-
Specification of the selection of eigenvalues, linalg.h:142-151.
-/
namespace Verif.Spec

open Finset

/-- The eigenvalue z may be given before w: the type t is one of 0, LargestMagnitude; 1,
SmallestMagnitude; 2, LargestReal; 3, SmallestReal; 4, LargestImaginary; 5, SmallestImaginary. -/
def MayPrecede (t : Int) (z w : ℂ) : Prop :=
  (t = 0 → ‖w‖ ≤ ‖z‖) ∧ (t = 1 → ‖z‖ ≤ ‖w‖) ∧ (t = 2 → w.re ≤ z.re) ∧ (t = 3 → z.re ≤ w.re) ∧
    (t = 4 → w.im ≤ z.im) ∧ (t = 5 → z.im ≤ w.im)

/-- The numbers ev(e(0)), ..., ev(e(k-1)) are k of ev(0), ..., ev(n-1), and no other one should be
given before them. -/
structure Chosen (t : Int) (n : Nat) (ev : Nat → ℂ) (k : Nat) (e : Nat → Nat) : Prop where
  lt : ∀ l < k, e l < n
  inj : ∀ l m, l < k → m < k → e l = e m → l = m
  first : ∀ j < n, (∀ l < k, e l ≠ j) → ∀ l < k, MayPrecede t (ev (e l)) (ev j)

/-- They are in order. -/
def InOrder (t : Int) (k : Nat) (z : Nat → ℂ) : Prop :=
  ∀ l m, l ≤ m → m < k → MayPrecede t (z l) (z m)

/-- a aᴴ = aᴴ a. -/
def IsNormal (n : Nat) (a : Nat → Nat → ℂ) : Prop :=
  ∀ i < n, ∀ j < n, ∑ k ∈ range n, a i k * starRingEnd ℂ (a j k)
    = ∑ k ∈ range n, starRingEnd ℂ (a k i) * a k j

end Verif.Spec
