/-
Specification of matrices in compressed row storage.
-/
namespace Verif.Spec

variable {α : Type}

/-- The arrays of a compressed row matrix are consistent: there is one row pointer per row and one
more, they begin with 0, do not decrease and end with the number of stored elements; the columns of
the elements of each row increase strictly, and are in range. -/
structure ValidCsr (rows cols : Nat) (rowStart column : List Nat) (data : List α) : Prop where
  len : rowStart.length = rows + 1
  first : rowStart.head? = some 0
  mono : rowStart.Pairwise (· ≤ ·)
  last : rowStart.getLast? = some column.length
  data : data.length = column.length
  incr : ∀ i a b : Nat, rowStart[i]? = some a → rowStart[i + 1]? = some b →
    ((column.take b).drop a).Pairwise (· < ·)
  range : ∀ c ∈ column, c < cols

/-- The value v is stored for the element (i,j). -/
def Stored (rowStart column : List Nat) (data : List α) (i j : Nat) (v : α) : Prop :=
  ∃ a b k : Nat, rowStart[i]? = some a ∧ rowStart[i + 1]? = some b ∧ a ≤ k ∧ k < b ∧
    column[k]? = some j ∧ data[k]? = some v

/-- The consistent compressed row matrix with the entries f(i,j): the stored ones have the stored
value, the others are zero. -/
def IsCsr [Zero α] (rows cols : Nat) (rowStart column : List Nat) (data : List α)
    (r c : Nat) (f : Nat → Nat → α) : Prop :=
  rows = r ∧ cols = c ∧ ValidCsr rows cols rowStart column data ∧
  ∀ i j, i < r → j < c → Stored rowStart column data i j (f i j) ∨
    (f i j = 0 ∧ ∀ v, ¬ Stored rowStart column data i j v)

end Verif.Spec
