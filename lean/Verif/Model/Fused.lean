import Verif.Model.GemmFloat
import Verif.Model.GemmCFloat
import Verif.Model.Reduce
import Verif.Model.Sparse
/-
Programs of compilers which fuse operations. A product and a sum may be computed with one rounding
(ISO C 6.5, FP_CONTRACT). GCC does this by default where the processor has such an instruction: on ARM64 and
PowerPC always, on others with -march. No file of the project has a flag against it.

The loops of the library in which products are added up are those of scprod and norm2
(/repo/src/tensor/tensor_norm2_d.cc, tensor_norm2_z.cc) and of mmult with a sparse matrix
(/repo/src/sparse/mmult_sparse_tensor.h; that of mmult_tensor_sparse.h always aborts, C39).

The functions of Model/Reduce.lean and Model/Sparse.lean are run with terms in place of numbers, and `Eval` says
what a term may be computed as. Each operation may be fused or not, since compilers may unroll loops and treat the
last steps in another way. Additions are not reordered: that needs -ffast-math.
-/
namespace Verif.Fused

open Verif Fl GemmFl

/-- What is computed: numbers, sums and products. -/
inductive Term
  | num (x : Fl)
  | add (a b : Term)
  | mul (a b : Term)

noncomputable instance : Zero Term := ⟨.num 0⟩
instance : Add Term := ⟨.add⟩
instance : Mul Term := ⟨.mul⟩

/-- The same for complex numbers, with conjugation. -/
inductive CTerm
  | num (z : CFl)
  | add (a b : CTerm)
  | mul (a b : CTerm)
  | conj (a : CTerm)

noncomputable instance : Zero CTerm := ⟨.num 0⟩
instance : Add CTerm := ⟨.add⟩
instance : Mul CTerm := ⟨.mul⟩

/-- `r` is a possible result if `f` is that with terms, and `E` says what a term may be computed as. -/
def Possible {T V : Type} (E : T → V → Prop) (f : Res T) (r : Res V) : Prop :=
  match f, r with
  | .ok t, .ok c => E t c
  | .abort, .abort => True
  | .ub, _ => True
  | _, _ => False

/-- Tensors of terms and numbers. -/
def Elements {T V : Type} (E : T → V → Prop) (t : Tensor T) (c : Tensor V) : Prop :=
  c.dims = t.dims ∧ List.Forall₂ E t.data c.data

section
variable [Rounding]

/-- What a term may be computed as. -/
inductive Eval : Term → Fl → Prop
  | num (x : Fl) : Eval (.num x) x
  | add {a b : Term} {x y : Fl} : Eval a x → Eval b y → Eval (.add a b) (x + y)
  | mul {a b : Term} {x y : Fl} : Eval a x → Eval b y → Eval (.mul a b) (x * y)
  | fmaR {a b c : Term} {x y z : Fl} : Eval a x → Eval b y → Eval c z → Eval (.add c (.mul a b)) (fma x y z)
  | fmaL {a b c : Term} {x y z : Fl} : Eval a x → Eval b y → Eval c z → Eval (.add (.mul a b) c) (fma x y z)

/-- What the real part of a product may be computed as: x.re * y.re - x.im * y.im. -/
inductive ReOf (x y : CFl) : Fl → Prop
  | plain : ReOf x y (x.re * y.re - x.im * y.im)
  | first : ReOf x y (fma x.re y.re (-(x.im * y.im)))
  | second : ReOf x y (fma (-x.im) y.im (x.re * y.re))

/-- What the imaginary part of a product may be computed as: x.re * y.im + x.im * y.re. -/
inductive ImOf (x y : CFl) : Fl → Prop
  | plain : ImOf x y (x.re * y.im + x.im * y.re)
  | first : ImOf x y (fma x.re y.im (x.im * y.re))
  | second : ImOf x y (fma x.im y.re (x.re * y.im))

/-- The result of a complex product, Core/CFloat.lean. -/
noncomputable def finish [Recover] (x y : CFl) (r i : Fl) : CFl :=
  if r = nan ∧ i = nan then Recover.recover x y else ⟨r, i⟩

/-- What a complex term may be computed as. The parts of a product are differences and sums, so that nothing
is left to be fused with another sum. -/
inductive CEval [Recover] : CTerm → CFl → Prop
  | num (z : CFl) : CEval (.num z) z
  | add {a b : CTerm} {x y : CFl} : CEval a x → CEval b y → CEval (.add a b) ⟨x.re + y.re, x.im + y.im⟩
  | conj {a : CTerm} {x : CFl} : CEval a x → CEval (.conj a) x.conj
  | mul {a b : CTerm} {x y : CFl} {r i : Fl} : CEval a x → CEval b y → ReOf x y r → ImOf x y i →
      CEval (.mul a b) (finish x y r i)

/-- Tensors and matrices of numbers. -/
def terms (t : Tensor Fl) : Tensor Term := ⟨t.dims, t.data.map .num⟩
def cterms (t : Tensor CFl) : Tensor CTerm := ⟨t.dims, t.data.map .num⟩
def sterms (s : Sparse Fl) : Sparse Term := ⟨s.rows, s.cols, s.rowStart, s.column, s.data.map .num⟩
def csterms (s : Sparse CFl) : Sparse CTerm := ⟨s.rows, s.cols, s.rowStart, s.column, s.data.map .num⟩

/-- scprod of real tensors, tensor_norm2_d.cc:29-36. -/
def Scprod (a b : Tensor Fl) (r : Res Fl) : Prop := Possible Eval (Tensor.scprod id (terms a) (terms b)) r

/-- scprod of complex tensors, tensor_norm2_z.cc:29-36. -/
def CScprod [Recover] (a b : Tensor CFl) (r : Res CFl) : Prop :=
  Possible CEval (Tensor.scprod .conj (cterms a) (cterms b)) r

/-- norm2 of real tensors, tensor_norm2_d.cc:24-27. -/
def Norm2 (t : Tensor Fl) (r : Res Fl) : Prop := ∃ s, Scprod t t s ∧ r = s.bind fun s => .ok (sqrt s)

/-- norm2 of complex tensors, tensor_norm2_z.cc:24-27. -/
def CNorm2 [Recover] (t : Tensor CFl) (r : Res Fl) : Prop := ∃ s, CScprod t t s ∧ r = s.bind fun s => .ok (sqrt s.re)

/-- mmult of a sparse matrix and a tensor, mmult_sparse_tensor.h:27-109, mmult_sparse_tensor_d.cc. -/
def SMmult (s : Sparse Fl) (t : Tensor Fl) (r : Res (Tensor Fl)) : Prop :=
  Possible (Elements Eval) (Sparse.mmultST (sterms s) (terms t)) r

/-- The same for complex numbers, mmult_sparse_tensor_z.cc. -/
def CSMmult [Recover] (s : Sparse CFl) (t : Tensor CFl) (r : Res (Tensor CFl)) : Prop :=
  Possible (Elements CEval) (Sparse.mmultST (csterms s) (cterms t)) r

end

end Verif.Fused
