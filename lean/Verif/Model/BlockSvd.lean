import Verif.Model.Svd
import Verif.Model.Blocks
/-
Model of block_svd, /repo/src/linalg/block_svd.hpp. The routine gesvd of LAPACK and the order that
sort_indices chooses are parameters. Rounding is not modelled.
-/
namespace Verif.Svd

open Verif Tensor View Blocks

variable {α β : Type}

/-- The variables of the loop, block_svd.hpp:56-68: sndx, s, *pU, *pVT. The tensors are only there if they
are wanted. -/
structure BlockS (α β : Type) where
  sndx : Nat
  s : Tensor β
  U : Option (Tensor α)
  VT : Option (Tensor α)

/-- `if (p) { ... }`, with the modified tensor. -/
def ifWanted {γ : Type} (p : Option γ) (f : γ → Run γ) : Run (Option γ) :=
  match p with
  | none => pure none
  | some t => do
    let t ← f t
    pure (some t)

/-- The body of the loop for blocks with more than one element, block_svd.hpp:71-81. -/
def blockLarge (fuel : Nat) (g : Gesvd α β) (economic : Bool) (b : List Nat × List Nat) (m : Tensor α)
    (st : BlockS α β) : Run (BlockS α β) := do
  let r ← Run.done (svd g m st.U.isSome st.VT.isSome economic)
  let slast : Int := (st.sndx : Int) + r.1.size - 1
  let s ← assign fuel st.s [.step st.sndx slast 1] r.1
  let U ← ifWanted st.U fun U => do
    let Utemp ← Run.done (Res.ofOption r.2.1)
    assign fuel U [.list (b.1.map Int.ofNat), .step st.sndx slast 1] Utemp
  let VT ← ifWanted st.VT fun VT => do
    let Vtemp ← Run.done (Res.ofOption r.2.2)
    assign fuel VT [.step st.sndx slast 1, .list (b.2.map Int.ofNat)] Vtemp
  pure ⟨(slast + 1).toNat, s, U, VT⟩

/-- The body of the loop for blocks with one element, block_svd.hpp:83-94; `up` makes an element from a
real number. -/
def blockSmall [One α] [Div α] (absf : α → β) (up : β → α) (b : List Nat × List Nat) (m : Tensor α)
    (st : BlockS α β) : Run (BlockS α β) := do
  let row : Nat ← Run.done (Res.ofOption b.1[0]?)
  let col : Nat ← Run.done (Res.ofOption b.2[0]?)
  let x ← Run.done (m.dataAt 0)
  let aux := absf x
  let s ← Run.done (st.s.set1 st.sndx aux)
  let U ← ifWanted st.U fun U => Run.done (U.set2 row st.sndx 1)
  let VT ← ifWanted st.VT fun VT => Run.done (VT.set2 st.sndx col (x / up aux))
  pure ⟨st.sndx + 1, s, U, VT⟩

/-- The body of the loop for the block `m`, block_svd.hpp:70-95. -/
def blockBody [One α] [Div α] (fuel : Nat) (g : Gesvd α β) (absf : α → β) (up : β → α) (economic : Bool)
    (b : List Nat × List Nat) (m : Tensor α) (st : BlockS α β) : Run (BlockS α β) :=
  if m.size > 1 then blockLarge fuel g economic b m st else blockSmall absf up b m st

/-- The loop over the blocks, block_svd.hpp:67-96. -/
def blockLoop [One α] [Div α] (fuel : Nat) (g : Gesvd α β) (absf : α → β) (up : β → α) (economic : Bool)
    (A : Tensor α) : List (List Nat × List Nat) → BlockS α β → Run (BlockS α β)
  | [], st => pure st
  | b :: bl, st => do
    let m ← sliceT fuel A [.list (b.1.map Int.ofNat), .list (b.2.map Int.ofNat)]
    let st ← blockBody fuel g absf up economic b m st
    blockLoop fuel g absf up economic A bl st

/-- do_block_svd, block_svd.hpp:29-104; `mag x` is |real(x)| + |imag(x)|. -/
def blockSvd [Zero α] [One α] [Div α] [Zero β] [LT β] [DecidableLT β] (fuel : Nat) (g : Gesvd α β)
    (mag absf : α → β) (up : β → α) (sort : List β → List Int) (A : Tensor α)
    (wantU wantV economic : Bool) : Run (Tensor β × Option (Tensor α) × Option (Tensor α)) := do
  let rows ← Run.done (A.dimension 0)
  let cols ← Run.done (A.dimension 1)
  if rows ≠ cols ∧ economic = false then Run.done (svd g A wantU wantV economic)
  else do
    let minrc := min rows cols
    let found ← Run.done (findBlocks mag A 0)
    match found with
    | none => Run.done (svd g A wantU wantV economic)
    | some bl =>
      if bl.length = 1 ∧ (∃ b ∈ bl, b.1.length ≥ rows / 2 ∧ b.2.length ≥ cols / 2) then
        Run.done (svd g A wantU wantV economic)
      else do
        let st ← blockLoop fuel g absf up economic A bl
          ⟨0, fill [minrc] 0,
            if wantU then some (fill [rows, if economic then minrc else rows] 0) else none,
            if wantV then some (fill [if economic then minrc else cols, cols] 0) else none⟩
        let ndx := sort st.s.data
        let s ← sliceT fuel st.s [.list ndx]
        let U ← ifWanted st.U fun U => sliceT fuel U [.all, .list ndx]
        let VT ← ifWanted st.VT fun VT => sliceT fuel VT [.list ndx, .all]
        pure (s, U, VT)

end Verif.Svd
