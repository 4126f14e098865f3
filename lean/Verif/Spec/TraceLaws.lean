/-
Positions of indices in traces of traces.
-/
namespace Verif.Spec

/-- The position which index `k` of a tensor has once the indices `i` and `j` are gone. -/
def without (i j k : Nat) : Nat := k - (if i < k then 1 else 0) - (if j < k then 1 else 0)

end Verif.Spec
