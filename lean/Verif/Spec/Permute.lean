import Verif.Spec.Index
/-
Specification of index exchange.
-/
namespace Verif.Spec

/-- The list with the entries `i` and `j` exchanged (unchanged if one of them does not exist). -/
def swapAt {α : Type} (l : List α) (i j : Nat) : List α :=
  match l[i]?, l[j]? with
  | some x, some y => (l.set i y).set j x
  | _, _ => l

end Verif.Spec
