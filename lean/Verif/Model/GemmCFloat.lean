import Verif.Model.GemmFloat
import Verif.Core.CFloat
import Mathlib.Algebra.MvPolynomial.Rename
/-
What the contractions compute with complex doubles. /repo/src/tensor/tensor_fold_z.cc, tensor_foldin_z.cc, gemm.cc.

zgemm belongs to the BLAS library. Its products are those of the definition, with four products of real numbers; the
real and the imaginary part of an element are sums of products of parts, computed in any order as described in
Model/GemmFloat.lean. (Variants with three products, which some libraries have under other names, are not included.)
The factors 1 and 0 which gemm is called with (alpha and beta, tensor_fold.cc:103-104) are complex, too. Products with
1 + 0 i only change signs of zeros of finite numbers, but they give NaN for infinities. Therefore nothing is assumed
of the results if one of the parts is not finite.
-/
namespace Verif.GemmFl

open Verif Fl

/-- Products in the real part of the sum of the products of complex numbers. -/
noncomputable def rePairs (l : List (CFl × CFl)) : List (Fl × Fl) :=
  l.flatMap fun p => [(p.1.re, p.2.re), (-p.1.im, p.2.im)]

/-- Products in the imaginary part. -/
def imPairs (l : List (CFl × CFl)) : List (Fl × Fl) := l.flatMap fun p => [(p.1.re, p.2.im), (p.1.im, p.2.re)]

/-- Both parts are finite. -/
def CFinite (z : CFl) : Prop := z.re.Finite ∧ z.im.Finite

/-- Conjugation of formal sums: that of the numbers in them. -/
noncomputable def conjF : Formal CFl →+* Formal CFl := (MvPolynomial.rename CFl.conj).toRingHom

variable [Rounding]

/-- What may be computed for the sum of the products of complex numbers. -/
def CSums (l : List (CFl × CFl)) (s : CFl) : Prop :=
  (∀ p ∈ l, CFinite p.1 ∧ CFinite p.2) → ∃ z : CFl, Sums (rePairs l) z.re ∧ Sums (imPairs l) z.im ∧ (CFinite z → s = z)

/-- What may be computed for a formal sum. -/
def CComputes (p : Formal CFl) (s : CFl) : Prop := ∃ l, p = formal l ∧ CSums l s

/-- fold for two complex tensors, tensor_fold_z.cc:39-45. -/
def CFold (a : Tensor CFl) (ndx1 : Int) (b : Tensor CFl) (ndx2 : Int) (r : Res (Tensor CFl)) : Prop :=
  Result CComputes (Tensor.fold (vars a) ndx1 (vars b) ndx2) r

/-- foldc for two complex tensors, tensor_fold_z.cc:62-68. -/
def CFoldc (a : Tensor CFl) (ndx1 : Int) (b : Tensor CFl) (ndx2 : Int) (r : Res (Tensor CFl)) : Prop :=
  Result CComputes (Tensor.foldc conjF (vars a) ndx1 (vars b) ndx2) r

/-- foldin for two complex tensors, tensor_foldin_z.cc:34-40. -/
def CFoldin (a : Tensor CFl) (ndx1 : Int) (b : Tensor CFl) (ndx2 : Int) (r : Res (Tensor CFl)) : Prop :=
  Result CComputes (Tensor.foldin (vars a) ndx1 (vars b) ndx2) r

/-- mmult, tensor_fold_z.cc:77-80. -/
def CMmult (a b : Tensor CFl) (r : Res (Tensor CFl)) : Prop := Result CComputes (Tensor.mmult (vars a) (vars b)) r

end Verif.GemmFl
