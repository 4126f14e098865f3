import Verif.Lemmas.Arith
/-
C32: elementwise arithmetic.
-/
namespace Verif.Tensor

open Verif Spec

variable {α β γ : Type}

/-- C32: an operator between tensors of equal dimensions acts on each element and keeps the
dimensions, for operands of the same type (`binopTT`) and of different type (`binopMixed`). Operands
of different total size stop the program. -/
theorem c32_tensor_tensor (f : α → β → γ) (a : Tensor α) (b : Tensor β) (wfa : a.WF) (wfb : b.WF) :
    (a.dims = b.dims → ∃ c : Tensor γ, binopTT f a b = .ok c ∧ binopMixed f a b = .ok c ∧ c.WF ∧
      c.dims = a.dims ∧ ∀ idx x y, elem a.dims a.data idx = some x →
        elem b.dims b.data idx = some y → elem c.dims c.data idx = some (f x y)) ∧
    (a.data.length ≠ b.data.length → binopTT f a b = .abort ∧ binopMixed f a b = .abort) := by
  have ha : a.data.length = totalSize a.dims := wfa
  have hb : b.data.length = totalSize b.dims := wfb
  constructor
  · intro h
    have hl : a.data.length = b.data.length := by rw [ha, hb, h]
    refine ⟨_, binopTT_ok f a b wfa hl, binopMixed_ok f a b wfa wfb h, ?_, rfl, ?_⟩
    · show (List.zipWith f a.data b.data).length = totalSize a.dims
      simp [← hl, ha]
    · intro idx x y hx hy
      rw [← h] at hy
      exact elem_zipWith f a.dims a.data b.data idx x y hx hy
  · intro h
    have hd : a.dims ≠ b.dims := fun e => h (by rw [ha, hb, e])
    simp [binopTT, binopMixed, size, Res.assert_bind, h, hd]

/-- C32: operands of different type must have the same dimensions. -/
theorem c32_mixed_dimensions (f : α → β → γ) (a : Tensor α) (b : Tensor β)
    (h : a.dims ≠ b.dims) : binopMixed f a b = .abort := by
  simp [binopMixed, Res.assert_bind, h]

/-- C32: operators between a tensor and a number, on either side, act on each element. -/
theorem c32_tensor_number (f : α → β → γ) (a : Tensor α) (v : β) (b : Tensor β) (w : α)
    (wfa : a.WF) (wfb : b.WF) :
    (∃ c : Tensor γ, binopTN f a v = .ok c ∧ c.WF ∧ c.dims = a.dims ∧
      ∀ idx, elem c.dims c.data idx = (elem a.dims a.data idx).map fun x => f x v) ∧
    (∃ c : Tensor γ, binopNT f w b = .ok c ∧ c.WF ∧ c.dims = b.dims ∧
      ∀ idx, elem c.dims c.data idx = (elem b.dims b.data idx).map fun y => f w y) := by
  refine ⟨⟨_, unop_ok _ a wfa, ?_, rfl, fun idx => elem_map _ _ _ _⟩,
    ⟨_, unop_ok _ b wfb, ?_, rfl, fun idx => elem_map _ _ _ _⟩⟩
  · show (a.data.map _).length = _
    rw [List.length_map]; exact wfa
  · show (b.data.map _).length = _
    rw [List.length_map]; exact wfb

/-- C32: unary operations (opposite, conjugate, elementary functions) act on each element. -/
theorem c32_unary (f : α → γ) (a : Tensor α) (wfa : a.WF) :
    ∃ c : Tensor γ, unop f a = .ok c ∧ c.WF ∧ c.dims = a.dims ∧
      ∀ idx, elem c.dims c.data idx = (elem a.dims a.data idx).map f :=
  ⟨_, unop_ok _ a wfa, by
    show (a.data.map _).length = _
    rw [List.length_map]; exact wfa, rfl, fun idx => elem_map _ _ _ _⟩

/-- C32: a OP= b leaves in a the value of a OP b, also when both are the same variable. -/
theorem c32_inplace (f : α → α → α) (a b : Tensor α) (same : Bool) (wfa : a.WF)
    (hs : same = true → a = b) : inplaceTT f a same b = binopTT f a b := by
  by_cases h : a.data.length = b.data.length
  · rw [binopTT_ok f a b wfa h]
    simp only [inplaceTT, size, h, Res.assert_bind, if_true]
    rw [← h]
    cases same with
    | false =>
      have := inplaceLoop_other f b.data [] a.data [] b.data rfl h.symm rfl
      simp only [List.nil_append, List.length_nil] at this
      simp [this]
    | true =>
      obtain rfl := hs rfl
      have := inplaceLoop_same f [] a.data
      simp only [List.nil_append, List.length_nil] at this
      simp only [if_true, this, Res.ok_bind, Res.pure_eq]
      simp [List.zipWith_self]
  · simp [inplaceTT, binopTT, size, h, Res.assert_bind]

/-- C32: a OP= number leaves in a the value of a OP number, if the number is not an element of a.
Missing: a number which is a reference to an element of a, see the next theorem. -/
theorem c32_inplace_number_partial (f : α → α → α) (a : Tensor α) (wfa : a.WF) (v : α) :
    inplaceTN f a (.val v) = binopTN f a v := by
  have := inplaceTNLoop_val f v [] a.data
  simp only [List.nil_append, List.length_nil] at this
  simp [inplaceTN, size, this, binopTN, unop_ok _ a wfa]

/-- C32 is false of the code when the number is an element of the tensor, as in `t /= t[0]`: the
element is replaced while it is still needed. -/
theorem c32_negation_own_element :
    ∃ (t : Tensor Int) (p : Nat) (v : Int), t.WF ∧ t.data[p]? = some v ∧
      inplaceTN (· / ·) t (.elt p) ≠ binopTN (· / ·) t v :=
  ⟨⟨[3], [2, 4, 6]⟩, 0, 2, by decide, by decide, by decide⟩

section Examples

private def a22 : Tensor Int := ⟨[2, 2], [1, 2, 3, 4]⟩
private def b22 : Tensor Int := ⟨[2, 2], [5, 6, 7, 8]⟩

example : a22.WF ∧ b22.WF ∧ a22.dims = b22.dims := by decide
example : elem a22.dims a22.data [1, 1] = some 4 ∧ elem b22.dims b22.data [1, 1] = some 8 := by decide
example : binopTT (· - ·) a22 b22 = .ok ⟨[2, 2], [-4, -4, -4, -4]⟩ := by decide
example : binopTT (· - ·) a22 (⟨[3], [1, 2, 3]⟩ : Tensor Int) = .abort := by decide
example : binopNT (· - ·) 10 a22 = .ok ⟨[2, 2], [9, 8, 7, 6]⟩ := by decide
example : inplaceTT (· + ·) a22 true a22 = .ok ⟨[2, 2], [2, 4, 6, 8]⟩ := by decide
example : inplaceTN (· * ·) a22 (.val 3) = .ok ⟨[2, 2], [3, 6, 9, 12]⟩ := by decide

end Examples

end Verif.Tensor
