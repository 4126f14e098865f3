import Verif.Model.Arith
import Verif.Model.Reduce
import Verif.Model.Fold
import Mathlib.Algebra.Field.Defs
/-
Model of expm, /repo/src/linalg/expm_d.cc and expm_z.cc, over a field; rounding is not modelled. Parameters:
`abs` is the absolute value of matrix_norminf, `ilog x` is (int)floor(log2(x)), which is not defined if x is
zero, and `sol` is the function solve, which works by LAPACK.
-/
namespace Verif.Expm

open Verif Tensor

variable {α β : Type}

/-- The sign of a term of the denominator, expm_d.cc:69-73. -/
def altAdd [Add α] [Sub α] (k : Nat) (D cX : Tensor α) : Res (Tensor α) :=
  if k % 2 = 0 then binopTT (· + ·) D cX else binopTT (· - ·) D cX

/-- The loop of the Pade approximation, expm_d.cc:64-74, from k with n more iterations: `X`, `N` and `D`
are the power of the matrix, the numerator and the denominator. -/
def padeLoop [Zero α] [Add α] [Sub α] [Mul α] [Div α] [NatCast α] (order : Nat) (A : Tensor α) : Nat → Nat → α →
    Tensor α → Tensor α → Tensor α → Res (Tensor α × Tensor α)
  | 0, _, _, _, N, D => .ok (N, D)
  | n + 1, k, c, X, N, D => do
    let c := c * ((order - k + 1 : Nat) : α) / ((k * (2 * order - k + 1) : Nat) : α)
    let X ← mmult A X
    let cX ← binopNT (· * ·) c X
    let N ← binopTT (· + ·) N cX
    let D ← altAdd k D cX
    padeLoop order A n (k + 1) c X N D

/-- The squares, expm_d.cc:76-78. -/
def squareLoop [Zero α] [Add α] [Mul α] : Nat → Tensor α → Res (Tensor α)
  | 0, X => .ok X
  | n + 1, X => do
    let X ← mmult X X
    squareLoop n X

/-- expm, expm_d.cc:46-80, expm_z.cc:45-78. -/
def expm [Field α] [Zero β] [Add β] [LT β] [DecidableLT β] (abs : α → β) (ilog : β → Option Int)
    (sol : Tensor α → Tensor α → Res (Tensor α)) (Aunorm : Tensor α) (order : Nat) : Res (Tensor α) := do
  Res.assert (Aunorm.rank = 2)
  let rows ← Aunorm.dimension 0
  let columns ← Aunorm.dimension 1
  Res.assert (columns = rows)
  let norm ← matrixNormInf abs Aunorm
  let e ← Res.ofOption (ilog norm)
  let j := (max 0 (e + 1)).toNat
  let A ← binopTN (· / ·) Aunorm (2 ^ j)
  let n ← A.dimension 0
  let I ← eye n n
  let cA ← binopNT (· * ·) (1 / 2) A
  let N ← binopTT (· + ·) I cA
  let D ← binopTT (· - ·) I cA
  let r ← padeLoop order A (order - 1) 2 (1 / 2) A N D
  let X ← sol r.2 r.1
  squareLoop j X

end Verif.Expm
