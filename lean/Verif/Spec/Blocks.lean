import Mathlib.Logic.Relation
import Mathlib.Data.List.Sort
/-
Specification of the blocks of a matrix: the connected components of the graph whose vertices are the
rows (`.inl`) and the columns (`.inr`) and whose edges are the significant elements.
-/
namespace Verif.Spec

/-- A row and a column which share a significant element. -/
def Touch (sig : Nat → Nat → Prop) (x y : Nat ⊕ Nat) : Prop :=
  ∃ r c, x = .inl r ∧ y = .inr c ∧ sig r c

/-- Connected rows and columns. -/
def Linked (sig : Nat → Nat → Prop) : Nat ⊕ Nat → Nat ⊕ Nat → Prop := Relation.EqvGen (Touch sig)

/-- The rows and columns of a block. -/
def Within (b : List Nat × List Nat) : Nat ⊕ Nat → Prop
  | .inl r => r ∈ b.1
  | .inr c => c ∈ b.2

/-- `bl` is the list of blocks: each significant element is in one of them, they have no rows or columns
in common, each one has significant elements and cannot be split, and its rows and columns are sorted. -/
structure IsBlocks (sig : Nat → Nat → Prop) (bl : List (List Nat × List Nat)) : Prop where
  cover : ∀ r c, sig r c → ∃ b ∈ bl, r ∈ b.1 ∧ c ∈ b.2
  apart : bl.Pairwise fun a b => (∀ r ∈ a.1, r ∉ b.1) ∧ ∀ c ∈ a.2, c ∉ b.2
  touched : ∀ b ∈ bl, ∃ r c, r ∈ b.1 ∧ c ∈ b.2 ∧ sig r c
  whole : ∀ b ∈ bl, ∀ x y, Within b x → Within b y → Linked sig x y
  sorted : ∀ b ∈ bl, b.1.Pairwise (· < ·) ∧ b.2.Pairwise (· < ·)

end Verif.Spec
