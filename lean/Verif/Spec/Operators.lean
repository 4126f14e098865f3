import Verif.Model.Operators
import Verif.Spec.Index
import Verif.Spec.Sparse
/-
Specification of the operators: what the operands and the results mean as arrays of Mathlib's
complex numbers.
-/
namespace Verif.Ops

open Verif Spec

/-- The mathematical operation of a symbol. -/
noncomputable def Op.on : Op → ℂ → ℂ → ℂ
  | .add, u, v => u + v
  | .sub, u, v => u - v
  | .mul, u, v => u * v
  | .div, u, v => u / v

/-- The element of an operand at some indices; a number has the same value everywhere. -/
def Arg.at : Arg → List Nat → Option ℂ
  | .rt t, idx => (elem t.dims t.data idx).map Complex.ofReal
  | .ct t, idx => (elem t.dims t.data idx).map fun z => ⟨z.1, z.2⟩
  | .rn x, _ => some x
  | .cn z, _ => some ⟨z.1, z.2⟩

/-- A tensor with the dimensions `d`, or a number. -/
def Arg.Fits (d : List Nat) : Arg → Prop
  | .rt t => t.WF ∧ t.dims = d
  | .ct t => t.WF ∧ t.dims = d
  | _ => True

def Arg.isTensor : Arg → Bool
  | .rt _ => true
  | .ct _ => true
  | _ => false

def Arg.isComplex : Arg → Bool
  | .ct _ => true
  | .cn _ => true
  | _ => false

/-- The mathematical function of a name. -/
noncomputable def Fun.on : Fun → ℂ → ℂ
  | .abs, u => (‖u‖ : ℂ)
  | .cos, u => (Complex.exp (u * Complex.I) + Complex.exp (-u * Complex.I)) / 2
  | .cosh, u => (Complex.exp u + Complex.exp (-u)) / 2
  | .exp, u => Complex.exp u
  | .log, u => Complex.log u
  | .sin, u => (Complex.exp (-u * Complex.I) - Complex.exp (u * Complex.I)) * Complex.I / 2
  | .sinh, u => (Complex.exp u - Complex.exp (-u)) / 2
  | .sqrt, u => if u = 0 then 0 else Complex.exp (Complex.log u / 2)
  | .tan, u => Complex.sin u / Complex.cos u
  | .tanh, u => (Complex.exp u - Complex.exp (-u)) / (Complex.exp u + Complex.exp (-u))

/-- Where the functions have a value; for real tensors (`complex = false`) the value is real. -/
def Fun.Dom : Fun → (complex : Bool) → ℂ → Prop
  | .log, false, u => 0 < u.re
  | .log, true, u => u ≠ 0
  | .sqrt, false, u => 0 ≤ u.re
  | .tan, _, u => Complex.cos u ≠ 0
  | .tanh, _, u => Complex.cosh u ≠ 0
  | _, _, _ => True

/-- The sparse matrix has r rows, c columns and the entries f; a number has the same value
everywhere. -/
def SArg.Means (r c : Nat) (f : Nat → Nat → ℂ) : SArg → Prop
  | .rs s => ∃ g, IsCsr s.rows s.cols s.rowStart s.column s.data r c g ∧
      ∀ i j, i < r → j < c → f i j = (g i j : ℂ)
  | .cs s => ∃ g, IsCsr s.rows s.cols s.rowStart s.column s.data r c g ∧
      ∀ i j, i < r → j < c → f i j = ⟨(g i j).1, (g i j).2⟩
  | .rn x => ∀ i j, i < r → j < c → f i j = (x : ℂ)
  | .cn z => ∀ i j, i < r → j < c → f i j = ⟨z.1, z.2⟩

def SArg.isMatrix : SArg → Bool
  | .rs _ => true
  | .cs _ => true
  | _ => false

def SArg.isComplex : SArg → Bool
  | .cs _ => true
  | .cn _ => true
  | _ => false

end Verif.Ops
