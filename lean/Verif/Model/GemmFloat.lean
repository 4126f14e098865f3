import Verif.Core.Float
import Verif.Model.Fold
import Mathlib.Algebra.MvPolynomial.Eval
/-
What the contractions compute with doubles. /repo/src/tensor/tensor_fold.cc, tensor_foldin.cc, gemm.cc.

gemm belongs to the BLAS library, of which there are many (tensor_blas.h:86-125); they add the products of
one element in different orders, in blocks, with or without fused operations, and some leave out products with
zero. `Sums` says what any of them may compute. (Algorithms like that of Strassen, which do not compute the
products of elements, are not included.)

Which products make up each element is taken from Model/Fold.lean: the contraction is computed with formal
sums of products in place of numbers, that is, polynomials whose variables are the doubles in the arguments.
-/
namespace Verif.GemmFl

open Verif Fl

variable [Rounding]

/-- fusedMultiplyAdd, IEEE 754-2019, 5.4.1: a * b + c, rounded once. -/
noncomputable def fma (a b c : Fl) : Fl :=
  if a = nan ∨ b = nan ∨ c = nan ∨ a.isInf ∨ b.isInf then a * b + c
  else if c.isInf then c
  else if a.val * b.val = 0 then a * b + c
  else if a.val * b.val + c.val = 0 then fin 0
  else Fl.round (a.val * b.val + c.val)

/-- Positive or negative zero. -/
def IsZero (x : Fl) : Prop := x = nzero ∨ x = fin 0

/-- `Sums l s`: the sum of the products of the pairs in `l` may be computed as `s`. -/
inductive Sums : List (Fl × Fl) → Fl → Prop
  /-- A sum begins with zero. -/
  | zero : Sums [] 0
  /-- A product. -/
  | prod (x y : Fl) : Sums [(x, y)] (x * y)
  /-- The sum of two parts. -/
  | add {l l' : List (Fl × Fl)} {s s' : Fl} : Sums l s → Sums l' s' → Sums (l ++ l') (s + s')
  /-- A fused operation. -/
  | fma {l : List (Fl × Fl)} {s : Fl} (x y : Fl) : Sums l s → Sums ((x, y) :: l) (fma x y s)
  /-- A product with zero is left out, as in dgemm and zgemm of the reference implementation. -/
  | skip {l : List (Fl × Fl)} {s : Fl} (x y : Fl) : IsZero x ∨ IsZero y → Sums l s → Sums ((x, y) :: l) s
  /-- Products are added in any order. -/
  | perm {l l' : List (Fl × Fl)} {s : Fl} : l.Perm l' → Sums l s → Sums l' s
  /-- The opposite of the sum of the opposite products. -/
  | neg {l : List (Fl × Fl)} {s : Fl} : Sums (l.map fun p => (-p.1, p.2)) s → Sums l (-s)
  /-- The signs of both factors do not matter. -/
  | sign {l : List (Fl × Fl)} {s : Fl} (x y : Fl) : Sums ((-x, -y) :: l) s → Sums ((x, y) :: l) s
  /-- The sign of a result zero is not determined. -/
  | flip {l : List (Fl × Fl)} {s s' : Fl} : Sums l s → IsZero s → IsZero s' → Sums l s'

/-- A formal sum of products of elements of type `V`. -/
abbrev Formal (V : Type) := MvPolynomial V ℕ

omit [Rounding] in
/-- The formal sum of the products of pairs. -/
noncomputable def formal {V : Type} (l : List (V × V)) : Formal V :=
  (l.map fun p => MvPolynomial.X p.1 * MvPolynomial.X p.2).sum

/-- What may be computed for a formal sum. -/
def Computes (p : Formal Fl) (s : Fl) : Prop := ∃ l, p = formal l ∧ Sums l s

omit [Rounding] in
/-- The tensor with variables in place of its elements. -/
noncomputable def vars {V : Type} (a : Tensor V) : Tensor (Formal V) := ⟨a.dims, a.data.map MvPolynomial.X⟩

omit [Rounding] in
/-- `r` is a possible result of the program, if `f` is the result with formal sums, and `C` says what may be computed
for a formal sum. -/
def Result {V : Type} (C : Formal V → V → Prop) (f : Res (Tensor (Formal V))) (r : Res (Tensor V)) : Prop :=
  match f, r with
  | .ok t, .ok c => c.dims = t.dims ∧ List.Forall₂ C t.data c.data
  | .abort, .abort => True
  | .ub, _ => True
  | _, _ => False

/-- fold for two real tensors, tensor_fold_d.cc:40-46. -/
def Fold (a : Tensor Fl) (ndx1 : Int) (b : Tensor Fl) (ndx2 : Int) (r : Res (Tensor Fl)) : Prop :=
  Result Computes (Tensor.fold (vars a) ndx1 (vars b) ndx2) r

/-- foldin for two real tensors, tensor_foldin_d.cc:35-41. -/
def Foldin (a : Tensor Fl) (ndx1 : Int) (b : Tensor Fl) (ndx2 : Int) (r : Res (Tensor Fl)) : Prop :=
  Result Computes (Tensor.foldin (vars a) ndx1 (vars b) ndx2) r

/-- mmult, tensor_fold_d.cc:69-72. -/
def Mmult (a b : Tensor Fl) (r : Res (Tensor Fl)) : Prop := Result Computes (Tensor.mmult (vars a) (vars b)) r

end Verif.GemmFl
