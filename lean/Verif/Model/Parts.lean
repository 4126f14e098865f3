import Verif.Model.Arith
import Verif.Model.Sparse
/-
Model of the real and imaginary parts of tensors and sparse matrices: /repo/src/tensor/
tensor_real_z.cc, tensor_imag_z.cc, tensor_imag_d.cc, tensor_conj.cc, tensor_to_complex.cc,
/repo/src/sparse/sparse_{real,imag,conj,d_to_z}.cc. A complex number is the pair of its parts,
numbers.h:54-76.
-/
namespace Verif.Parts

open Verif

variable {α : Type}

/-- to_complex(double), numbers.h:56-58. -/
def ofReal [Zero α] (x : α) : α × α := (x, 0)

/-- conj(cdouble), numbers.h:76. -/
def conjNum [Neg α] (z : α × α) : α × α := (z.1, -z.2)

/-- real(CTensor), tensor_real_z.cc:25-35. -/
def real (t : Tensor (α × α)) : Res (Tensor α) := Tensor.unop Prod.fst t

/-- imag(CTensor), tensor_imag_z.cc:25-35. -/
def imag (t : Tensor (α × α)) : Res (Tensor α) := Tensor.unop Prod.snd t

/-- imag(RTensor), tensor_imag_d.cc:25-31. -/
def imagReal [Zero α] (t : Tensor α) : Tensor α := Tensor.fill t.dims 0

/-- conj(CTensor), tensor_conj.cc:26-37. -/
def conj [Neg α] (t : Tensor (α × α)) : Res (Tensor (α × α)) := Tensor.unop conjNum t

/-- to_complex(r), tensor_to_complex.cc:24-32: the loop has as many steps as the output. -/
def toComplex [Zero α] (r : Tensor α) : Res (Tensor (α × α)) := do
  let c ← runWrites (Tensor.totalSize r.dims) (Tensor.mapLoop ofReal r.data (Tensor.totalSize r.dims))
  pure ⟨r.dims, c⟩

/-- to_complex(r, i), tensor_to_complex.cc:34-43: the dimensions are not compared. -/
def toComplex2 (r i : Tensor α) : Res (Tensor (α × α)) := do
  let c ← runWrites (Tensor.totalSize r.dims)
    (Tensor.zipLoop Prod.mk r.data i.data (Tensor.totalSize r.dims))
  pure ⟨r.dims, c⟩

/-- real(CSparse), sparse_real.cc:24-28. -/
def realSp (s : Sparse (α × α)) : Res (Sparse α) := Sparse.mapData Prod.fst s

/-- imag(CSparse), sparse_imag.cc:24-28. -/
def imagSp (s : Sparse (α × α)) : Res (Sparse α) := Sparse.mapData Prod.snd s

/-- conj(CSparse), sparse_conj.cc:24-28. -/
def conjSp [Neg α] (s : Sparse (α × α)) : Res (Sparse (α × α)) := Sparse.mapData conjNum s

/-- imag(RSparse), sparse.h:157-159. -/
def imagRealSp (s : Sparse α) : Sparse α := Sparse.zeros s.rows s.cols

/-- to_complex(RSparse), sparse_d_to_z.cc:25-30. -/
def toComplexSp [Zero α] (s : Sparse α) : Res (Sparse (α × α)) := Sparse.mapData ofReal s

end Verif.Parts
