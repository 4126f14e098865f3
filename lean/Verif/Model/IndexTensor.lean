import Verif.Core.Float
import Verif.Model.Tensor
/-
Model of index_to_tensor, /repo/src/indices/to_tensor.cc. A list of indices is a list of integers; the conversion from
`index` to `double` is that of IEEE 754 with rounding to nearest.
-/
namespace Verif.IndexTensor

open Verif

/-- index_to_tensor, to_tensor.cc:25-30: `RTensor output(ndx.size())` and std::copy, each element converted to `double`. -/
noncomputable def indexToTensor [Rounding] (ndx : List Int) : Res (Tensor Fl) := do
  let data ← runWrites ndx.length ((List.range ndx.length).map fun i => (i, ndx[i]?.map Fl.ofInt))
  pure ⟨[ndx.length], data⟩

end Verif.IndexTensor
