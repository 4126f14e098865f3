import Verif.Model.Power
import Verif.Model.Sparse
/-
Model of the iterative methods for sparse matrices, /repo/src/linalg/cgs_sp_d.cc, cgs_sp_z.cc,
eig_power_sp_d.cc, eig_power_sp_z.cc, and of the maps of /repo/src/tools/map.cc for these matrices
(map_sp_d.cc, map_sp_z.cc).
-/
namespace Verif.SparseIter

open Verif

variable {α β : Type}

/-- MatrixMap::operator(), map.cc:33-35, for sparse matrices. -/
def sparseMap [Zero α] [Add α] [Mul α] (m : Sparse α) (transpose : Bool) (arg : Tensor α) :
    Res (Tensor α) :=
  if transpose then Sparse.mmultTS arg m else Sparse.mmultST m arg

section
variable [Zero α] [Add α] [Sub α] [Mul α] [Div α] [DecidableEq α] [Zero β] [LT β] [DecidableLT β] [LE β]
  [DecidableLE β]

/-- cgs, cgs_sp_d.cc:34-39, cgs_sp_z.cc:33-38. -/
def cgs (N : Cgs.Num α β) (deftol : β) (A : Sparse α) (b : Tensor α) (xstart : Option (Tensor α))
    (start : Tensor α) (maxiter : Int) (tol : β) : Res (Cgs.Out α) :=
  Cgs.solve N deftol (sparseMap A false) b xstart start maxiter tol

/-- eig_power_right and eig_power_left (`left`), eig_power_sp_d.cc:31-52, eig_power_sp_z.cc:31-52. -/
def eigPower [Mul β] (N : Power.Num α β) (deftol : β) (left : Bool) (m : Sparse α)
    (vector : Option (Tensor α)) (start : Tensor α) (iter : Nat) (tol : β) : Res (Power.Out α) := do
  Res.assert (m.rows = m.cols)
  Power.power N deftol (sparseMap m left) m.cols vector start iter tol

end

end Verif.SparseIter
