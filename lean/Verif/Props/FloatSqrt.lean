import Verif.Props.FloatSum
/-
C84: the square root of each element of a tensor of doubles, src/generated/tensor_unop_sqrt_d.cc:24-34.
-/
namespace Verif.Fl

open Verif Tensor Rounding

variable [Rounding]

theorem sqrt_big {v : ℝ} (hd : IsDouble v) (h0 : 0 ≤ v) : |rnd (Real.sqrt v)| < 2 ^ 1024 := by
  have h1 : IsDouble 1 := ⟨1, 0, by norm_num, by norm_num, by norm_num, by norm_num⟩
  have big : ∀ {x : ℝ}, IsDouble x → |x| < 2 ^ 1024 := fun h => h.lt
  rw [abs_of_nonneg (rnd_nonneg (Real.sqrt_nonneg v))]
  rcases le_total v 1 with h | h
  · have : rnd (Real.sqrt v) ≤ 1 := rnd_le (.inl h1) (Real.sqrt_le_one.2 h)
    have b1 := big h1
    rw [abs_one] at b1
    exact lt_of_le_of_lt this b1
  · have hs : Real.sqrt v ≤ v := by
      rw [Real.sqrt_le_left h0]
      exact le_self_pow₀ h two_ne_zero
    have b1 := big hd
    rw [abs_of_nonneg h0] at b1
    exact lt_of_le_of_lt (rnd_le (.inl hd) hs) b1

/-- C84: sqrt of a tensor keeps its dimensions, and of its elements exactly the NaN, minus infinity and the negative
numbers become NaN; the others become the rounded square root, without overflow. -/
theorem c84_sqrt (t : Tensor Fl) (wf : t.WF) (hw : ∀ x ∈ t.data, x.WF) :
    ∃ c : Tensor Fl, unop sqrt t = .ok c ∧ c.dims = t.dims ∧ c.data.length = t.data.length ∧
      ∀ (p : Nat) (x y : Fl), t.data[p]? = some x → c.data[p]? = some y →
        (y = nan ↔ x = nan ∨ x = ninf ∨ (x.Finite ∧ x.val < 0)) ∧
        (x = pinf → y = pinf) ∧ (x = nzero → y = nzero) ∧
        (x.Finite → 0 ≤ x.val → y.Finite ∧ y.val = rnd (Real.sqrt x.val)) := by
  refine ⟨_, unop_ok sqrt t wf, rfl, by simp, fun p x y hx hy => ?_⟩
  have hx' := hw x (List.mem_of_getElem? hx)
  rw [List.getElem?_map, hx] at hy
  simp only [Option.map_some, Option.some.injEq] at hy
  subst hy
  cases x with
  | nan => simp [sqrt, Fl.Finite]
  | pinf => simp [sqrt, Fl.Finite]
  | ninf => simp [sqrt, Fl.Finite]
  | nzero =>
    refine ⟨by simp [sqrt, Fl.val], nofun, fun _ => rfl, fun _ _ => ⟨trivial, ?_⟩⟩
    simp [sqrt, Fl.val, rnd_zero]
  | fin v =>
    refine ⟨?_, nofun, nofun, fun hf h0 => sqrt_finite hf h0 (sqrt_big hx' h0)⟩
    constructor
    · intro h
      refine .inr (.inr ⟨hx', ?_⟩)
      by_contra hc
      have := (sqrt_finite (a := fin v) hx' (not_lt.1 hc) (sqrt_big hx' (not_lt.1 hc))).1
      rw [h] at this
      exact this
    · rintro (h | h | ⟨-, h⟩)
      · cases h
      · cases h
      · have h : v < 0 := h
        rw [sqrt, if_pos h]

example : (⟨[3], [fin 0, nan, ninf]⟩ : Tensor Fl).WF ∧ ∀ x ∈ [fin 0, nan, ninf], x.WF := by
  refine ⟨rfl, ?_⟩
  simp [Fl.WF, isDouble_zero]

end Verif.Fl
