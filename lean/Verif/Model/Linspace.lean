import Verif.Model.View
import Verif.Model.Arith
import Mathlib.Data.Nat.Cast.Defs
/-
Model of linspace, /repo/src/indices/linspace.hpp, linspace_d.cc, linspace_z.cc. Elements are in a
field (without rounding) or numbers of type double; those of the new tensor which have not been written are
`none`.
-/
namespace Verif.Linspace

open Verif View

variable {α : Type} [NatCast α] [One α] [Add α] [Sub α] [Mul α] [Div α]

/-- The loop of linspace.hpp:39-41 from `i` on, for `k` more columns. -/
def loop (fuel : Nat) (delta min : Tensor α) : Nat → Nat → Tensor (Option α) → Run (Tensor (Option α))
  | _, 0, out => pure out
  | i, k + 1, out => do
    let a ← Run.done (Tensor.binopTN (· * ·) delta (i : α))
    let b ← Run.done (Tensor.binopTT (· + ·) a min)
    let out ← assign fuel out [.all, .single i] ⟨b.dims, b.data.map some⟩
    loop fuel delta min (i + 1) k out

/-- do_linspace, linspace.hpp:26-47, for n ≥ 0. -/
def linspace (fuel : Nat) (min max : Tensor α) (n : Nat) : Run (Tensor (Option α)) := do
  let d := min.size
  let out : Tensor (Option α) := Tensor.fill [d, n] none
  let out ← (if n = 1 then pure ⟨min.dims, min.data.map some⟩
    else if n ≠ 0 then do
      let _ ← Run.done (max.reshape [d])
      let diff ← Run.done (Tensor.binopTT (· - ·) max min)
      let q ← Run.done (Tensor.binopTN (· / ·) diff ((n : α) - 1))
      let delta ← Run.done (q.reshape [d])
      loop fuel delta min 0 n out
    else pure out)
  if d = 1 then Run.done (out.reshape [n]) else Run.done (out.reshape (min.dims ++ [n]))

/-- linspace of two numbers, linspace_d.cc:26-32. -/
def linspaceNum (fuel : Nat) (min max : α) (n : Nat) : Run (Tensor (Option α)) :=
  linspace fuel ⟨[1], [min]⟩ ⟨[1], [max]⟩ n

end Verif.Linspace
