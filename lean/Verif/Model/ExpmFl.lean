import Verif.Core.Float
import Verif.Model.Expm
/-
Model of expm of real matrices, /repo/src/linalg/expm_d.cc, with doubles and machine integers. Parameters: `lg` is log2 of the
C library; `mm i` is the i-th of the products of matrices (mmult, which calls BLAS, and need not give the same for equal
arguments); `sol` is solve, which calls LAPACK. `unsigned int` has 32 bits, `size_t` 64 and `int` 32.
-/
namespace Verif.ExpmFl

open Verif Tensor Fl

/-- exp2(j), expm_d.cc:58: the powers of two are exact, and those from 2^1024 on are infinite. -/
noncomputable def exp2 (j : Nat) : Fl := if j < 1024 then fin (2 ^ j) else pinf

/-- (int)floor(x), expm_d.cc:53; not defined unless the result is an int (ISO C++ 7.3.11). -/
noncomputable def toInt : Fl → Option Int
  | nzero => some 0
  | fin x => if -2 ^ 31 ≤ ⌊x⌋ ∧ ⌊x⌋ < 2 ^ 31 then some ⌊x⌋ else none
  | _ => none

/-- order-k+1 and k*(2*order-k+1), expm_d.cc:65: `2*order` has the type of `order`, and the rest that of `k`. -/
def num (order k : Nat) : Nat := (order + 2 ^ 64 - k + 1) % 2 ^ 64
def den (order k : Nat) : Nat := k * ((2 * order % 2 ^ 32 + 2 ^ 64 - k + 1) % 2 ^ 64) % 2 ^ 64

section
variable [Rounding]

/-- The number of squares and the matrix divided by a power of two, expm_d.cc:52-54, 58. -/
noncomputable def scale (lg : Fl → Fl) (m : Tensor Fl) : Res (Nat × Tensor Fl) := do
  let norm ← matrixNormInf Fl.abs m
  let e ← Res.ofOption (toInt (lg norm))
  let j := (max 0 (e + 1)).toNat
  let A ← binopTN (· / ·) m (exp2 j)
  pure (j, A)

/-- The loop of the Pade approximation, expm_d.cc:63-74. -/
noncomputable def padeLoop (mm : Nat → Tensor Fl → Tensor Fl → Res (Tensor Fl)) (order : Nat) (A : Tensor Fl) : Nat → Nat →
    Fl → Tensor Fl → Tensor Fl → Tensor Fl → Res (Tensor Fl × Tensor Fl)
  | 0, _, _, _, N, D => .ok (N, D)
  | n + 1, k, c, X, N, D => do
    let c := c * (num order k : Fl) / (den order k : Fl)
    let X ← mm k A X
    let cX ← binopNT (· * ·) c X
    let N ← binopTT (· + ·) N cX
    let D ← Expm.altAdd k D cX
    padeLoop mm order A n (k + 1) c X N D

/-- The squares, expm_d.cc:76-78. -/
def squareLoop (mm : Nat → Tensor Fl → Tensor Fl → Res (Tensor Fl)) : Nat → Nat → Tensor Fl → Res (Tensor Fl)
  | 0, _, X => .ok X
  | n + 1, i, X => do
    let X ← mm i X X
    squareLoop mm n (i + 1) X

/-- expm, expm_d.cc:46-80. -/
noncomputable def expm (lg : Fl → Fl) (mm : Nat → Tensor Fl → Tensor Fl → Res (Tensor Fl))
    (sol : Tensor Fl → Tensor Fl → Res (Tensor Fl)) (m : Tensor Fl) (order : Nat) : Res (Tensor Fl) := do
  Res.assert (m.rank = 2)
  let rows ← m.dimension 0
  let columns ← m.dimension 1
  Res.assert (columns = rows)
  let s ← scale lg m
  let n ← s.2.dimension 0
  let I ← eye n n
  let cA ← binopNT (· * ·) (fin (1 / 2)) s.2
  let N ← binopTT (· + ·) I cA
  let D ← binopTT (· - ·) I cA
  let r ← padeLoop mm order s.2 (order - 1) 2 (fin (1 / 2)) s.2 N D
  let X ← sol r.2 r.1
  squareLoop mm s.1 (order + 1) X

end

end Verif.ExpmFl
