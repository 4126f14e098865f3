import Verif.Core.Res
import Verif.Model.Tensor
import Mathlib.Algebra.Module.LinearMap.Defs
import Mathlib.Algebra.Module.Pi
/-
Specification of linear maps over tensors of some dimensions: their effect over the elements, in the order
of the data.
-/
namespace Verif.Spec

/-- The function `A` works as the linear map `L` for tensors with dimensions `d`. -/
def ActsAs {α : Type} [Semiring α] {n : Nat} (A : Tensor α → Res (Tensor α)) (d : List Nat)
    (L : (Fin n → α) →ₗ[α] (Fin n → α)) : Prop :=
  ∀ v : Fin n → α, A ⟨d, List.ofFn v⟩ = .ok ⟨d, List.ofFn (L v)⟩

end Verif.Spec
