import Mathlib.Data.List.Infix
import Verif.Model.DataFile
/-
Text of elements from which that of a matrix can be read again.
-/
namespace Verif.Text

open Sdf

/-- Text which is not empty and has no closing bracket, end of line or comma with a space, as that of
all real numbers, and of complex ones: "(1,2)". -/
def Plain (s : List Byte) : Prop := s ≠ [] ∧ (93 : Byte) ∉ s ∧ (10 : Byte) ∉ s ∧ ¬ [(44 : Byte), 32] <:+: s

end Verif.Text
