/-
Specification of diagonals.
-/
namespace Verif.Spec

/-- First index of the l-th element of the w-th diagonal: the diagonals with w < 0 begin in the first
column, below the corner. -/
def diagRow (w : Int) (l : Nat) : Nat := l + (-w).toNat

/-- Second index of the l-th element of the w-th diagonal. -/
def diagCol (w : Int) (l : Nat) : Nat := l + w.toNat

/-- Number of elements of the w-th diagonal of an m x n matrix. -/
def diagLen (m n : Nat) (w : Int) : Nat := min (m - (-w).toNat) (n - w.toNat)

end Verif.Spec
