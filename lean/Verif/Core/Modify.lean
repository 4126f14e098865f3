import Verif.Core.Res
/-
Buffers modified in place, one element at a time.  No library code is modelled here.
-/
namespace Verif

/-- The writes of the values `vals` in consecutive positions, starting with `r`:
`*p = v; p++` for each value. -/
def seqFrom {α : Type} (r : Nat) : List (Option α) → List (Nat × Option α)
  | [] => []
  | v :: vs => (r, v) :: seqFrom (r + 1) vs

/-- For each step `(p, q)`, in order: `buf[p] = f(buf[p], src[q])`. The source may be the buffer
itself, in which case `src` is the identity. -/
def modLoop {α β : Type} (f : α → β → α) (src : List α → List β) :
    List (Nat × Nat) → List α → Res (List α)
  | [], buf => .ok buf
  | (p, q) :: ss, buf => do
    let x ← Res.ofOption buf[p]?
    let y ← Res.ofOption (src buf)[q]?
    modLoop f src ss (buf.set p (f x y))

/-- `acc = z; for x in l: acc += x`, with values which may be invalid reads. -/
def accum {α : Type} [Add α] : α → List (Option α) → Option α
  | z, [] => some z
  | z, v :: vs => v.bind fun x => accum (z + x) vs

end Verif
