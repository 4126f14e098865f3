import Verif.Core.Res
/-
Counted loops over pointers, and sequences of positions.  No library code is modelled here.
-/
namespace Verif

/-- `for (index i = n; i--; p += stride) { body(p) }`, where `p` starts at `base`; the body
contributes a list of actions. -/
def loop {β : Type} (n stride base : Nat) (body : Nat → List β) : List β :=
  match n with
  | 0 => []
  | n + 1 => body base ++ loop n stride (base + stride) body

/-- The actions `*p = *q; q++` for a sequence of output positions `p`, when the input pointer `q`
starts at position `r` of `src`. -/
def copyTo {α : Type} (src : List α) : List Nat → Nat → List (Nat × Option α)
  | [], _ => []
  | p :: ps, r => (p, src[r]?) :: copyTo src ps (r + 1)

end Verif
