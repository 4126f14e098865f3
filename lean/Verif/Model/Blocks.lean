import Verif.Model.Permute
/-
Model of find_blocks, /repo/src/linalg/find_blocks.hpp. `empty` is -1. The array col_block only has
the elements which have been written. `mag x` is |real(x)| + |imag(x)|.
-/
namespace Verif.Blocks

open Verif

/-- replace_integer, find_blocks.hpp:30-36, over all the elements. -/
def replaceInteger (v : List Int) (old new : Int) : List Int := v.map fun x => if x = old then new else x

/-- The variables of the loop over rows, find_blocks.hpp:88-104. -/
structure S where
  rows : List Int
  cols : List Int
  nb : Int
  cur : Int
  set : Bool

/-- The body of the loop over rows, find_blocks.hpp:91-103. -/
def rowStep (significant : Bool) (row : Nat) (s : S) : Res S :=
  if significant then do
    let b ← Res.ofOption s.rows[row]?
    if b = -1 then pure { s with rows := s.rows.set row s.cur, set := true }
    else if b ≠ s.cur then
      pure ⟨replaceInteger s.rows s.cur b, replaceInteger s.cols s.cur b, s.nb - 1, b, true⟩
    else pure { s with set := true }
  else pure s

/-- The loop over rows, find_blocks.hpp:90-104; `p` is the position of the pointer to the elements. -/
def rowLoop (sig : List Bool) : Nat → Nat → Nat → S → Res S
  | 0, _, _, s => .ok s
  | k + 1, row, p, s => do
    let x ← Res.ofOption sig[p]?
    let s ← rowStep x row s
    rowLoop sig k (row + 1) (p + 1) s

/-- The loop over columns, find_blocks.hpp:84-111. -/
def colLoop (sig : List Bool) (n : Nat) : Nat → Nat → Nat → List Int → List Int → Int →
    Res (List Int × List Int × Int)
  | 0, _, _, rows, cols, nb => .ok (rows, cols, nb)
  | k + 1, col, p, rows, cols, nb => do
    let s ← rowLoop sig n 0 p ⟨rows, cols, nb, col, false⟩
    if s.set then colLoop sig n k (col + 1) (p + n) s.rows (s.cols ++ [s.cur]) (s.nb + 1)
    else colLoop sig n k (col + 1) (p + n) s.rows (s.cols ++ [-1]) s.nb

/-- Where a list has the element `b`, find_blocks.hpp:131-137, 142-147. -/
def positions (b : Int) (l : List Int) : List Nat :=
  (List.range l.length).filter fun i => l[i]? = some b

/-- The last loop, find_blocks.hpp:124-153: the arrays of `nb` lists have the `acc` already. -/
def collect (rows : List Int) (nb : Int) : Nat → Nat → List Int → List (List Nat × List Nat) →
    Res (List (List Nat × List Nat))
  | 0, _, _, acc => .ok (acc ++ List.replicate (nb.toNat - acc.length) ([], []))
  | k + 1, col, cols, acc => do
    let block ← Res.ofOption cols[col]?
    if block ≠ -1 then do
      let c := positions block cols
      Res.assert (c ≠ [])
      let r := positions block rows
      Res.assert (r ≠ [])
      if nb ≤ acc.length then .ub
      else collect rows nb k (col + 1) (replaceInteger cols block (-1)) (acc ++ [(r, c)])
    else collect rows nb k (col + 1) cols acc

/-- find_blocks for matrices with no more rows than columns, find_blocks.hpp:69-158; `none` if there is
one block, in which case the result is false and there are no lists. An array with a negative number of
elements is an exception. -/
def wide {α β : Type} [LT β] [DecidableLT β] (mag : α → β) (n m : Nat) (data : List α) (tol : β) :
    Res (Option (List (List Nat × List Nat))) := do
  let r ← colLoop (data.map fun x => decide (tol < mag x)) n m 0 0 (List.replicate n (-1)) [] 0
  if r.2.2 = 1 then pure none
  else do
    Res.assert (0 ≤ r.2.2)
    let bl ← collect r.1 r.2.2 m 0 r.2.1 []
    pure (some bl)

/-- find_blocks, find_blocks.hpp:59-158. A matrix with more rows than columns is transposed, without
its tolerance: the default one is 0. -/
def findBlocks {α β : Type} [LT β] [DecidableLT β] [Zero β] (mag : α → β) (A : Tensor α) (tol : β) :
    Res (Option (List (List Nat × List Nat))) := do
  let n ← A.dimension 0
  let m ← A.dimension 1
  if m < n then do
    let t ← A.transpose
    let n ← t.dimension 0
    let m ← t.dimension 1
    let r ← wide mag n m t.data 0
    pure (r.map fun bl => bl.map fun b => (b.2, b.1))
  else wide mag n m A.data tol

end Verif.Blocks
