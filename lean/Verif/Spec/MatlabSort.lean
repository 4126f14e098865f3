import Verif.Spec.Index
/-
Specification of sorted data sets: records in which every field has one last index, that of the file.
-/
namespace Verif.MatSort.Spec

open Verif.Spec

variable {α κ : Type}

/-- Two rows have equal numbers in a column. -/
def Same (key : α → κ) (c : List α) (i j : Nat) : Prop := c[i]?.map key = c[j]?.map key

/-- Row `i` has the smaller number in a column. -/
def Less [LT κ] (key : α → κ) (c : List α) (i j : Nat) : Prop := ∃ a b, c[i]? = some a ∧ c[j]? = some b ∧ key a < key b

/-- Row `i` precedes row `j`: the first column in which they differ decides, and the old order if they do not. -/
def Before [LT κ] (key : α → κ) : (cols : List (List α)) → Nat → Nat → Prop
  | [], i, j => i < j
  | c :: cs, i, j => Less key c i j ∨ (Same key c i j ∧ Before key cs i j)

/-- `σ` lists the `l` rows in their order. -/
def IsOrder [LT κ] (key : α → κ) (cols : List (List α)) (l : Nat) (σ : Nat → Nat) : Prop :=
  (∀ i, i < l → σ i < l) ∧ ∀ i j, i < j → j < l → Before key cols (σ i) (σ j)

/-- The last index of an array with dimensions `dims`, apart from those with one value, has `l` values. -/
def LastIs (l : Nat) (dims : List Nat) : Prop :=
  1 < l ∧ ∃ pre post, dims = pre ++ l :: post ∧ ∀ d ∈ post, d ≤ 1

/-- The arrays have the same dimensions, and the elements of the second one with the value `i` of the last index are
those of the first one with the value `σ i`. -/
def Moved (l : Nat) (σ : Nat → Nat) (dims : List Nat) (data : List α) (dims' : List Nat) (data' : List α) : Prop :=
  dims' = dims ∧ data'.length = data.length ∧
    ∀ pre post, dims = pre ++ l :: post → (∀ d ∈ post, d ≤ 1) →
      ∀ ip i iz, InB ip pre → i < l → InB iz post →
        elem dims' data' (ip ++ i :: iz) = elem dims data (ip ++ σ i :: iz)

/-- The last index of the first array has been replaced by two, and the elements of the second one with the values
`a`, `b` are those of the first one with the value `σ a b`. -/
def Gridded (l n m : Nat) (σ : Nat → Nat → Nat) (dims : List Nat) (data : List α) (dims' : List Nat)
    (data' : List α) : Prop :=
  ∃ pre post, dims = pre ++ l :: post ∧ (∀ d ∈ post, d ≤ 1) ∧ dims' = pre ++ [n, m] ∧
    ∀ ip a b iz, InB ip pre → a < n → b < m → InB iz post →
      elem dims' data' (ip ++ [a, b]) = elem dims data (ip ++ σ a b :: iz)

end Verif.MatSort.Spec
