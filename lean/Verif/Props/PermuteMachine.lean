import Verif.Lemmas.Permute
import Verif.Lemmas.Kron
import Verif.Model.PermuteMachine
import Verif.Props.Permute
import Mathlib.Tactic.Linarith
/-
C112: index arithmetic and pointers of permute, transpose, adjoint and kron.
-/
namespace Verif.PermuteMachine

open Verif Verif.Tensor Verif.Spec

variable {α β : Type}

/-! ## Lemmas -/

theorem mul_ok {a b : Nat} (h : a * b < 2 ^ 63) : mul a b = .ok (a * b) := if_pos h

theorem prod_pos {l : List Nat} (h : ∀ d ∈ l, d ≠ 0) : 0 < prod l := by
  induction l with
  | nil => simp
  | cons d l ih =>
    rw [prod_cons]
    exact Nat.mul_pos (Nat.pos_of_ne_zero (h d (by simp))) (ih fun x hx => h x (by simp [hx]))

theorem mulAll_ok {l : List Nat} (h : ∀ d ∈ l, d ≠ 0) (a : Nat) (hb : a * prod l < 2 ^ 63) :
    mulAll a l = .ok (a * prod l) := by
  induction l generalizing a with
  | nil => simp [mulAll]
  | cons d l ih =>
    have hp := prod_pos fun x hx => h x (List.mem_cons_of_mem d hx)
    rw [prod_cons, ← Nat.mul_assoc] at hb
    have : a * d ≤ a * d * prod l := Nat.le_mul_of_pos_right _ hp
    rw [mulAll, mul_ok (by omega), Res.ok_bind, ih (fun x hx => h x (by simp [hx])) _ hb, prod_cons,
      Nat.mul_assoc]

theorem total_ok {l : List Nat} (h : ∀ d ∈ l, d ≠ 0) (hb : prod l < 2 ^ 63) (hn : l ≠ []) :
    total l = .ok (prod l) := by
  rw [total, if_neg hn, mulAll_ok h 1 (by omega), Nat.one_mul]

theorem ptrLoop_flat (len n s b : Nat) (body : Nat → Res (List β)) (f : Nat → List β)
    (h : ∀ p, body p = .ok (f p)) : ptrLoop (move flat len) n s b body = .ok (loop n s b f) := by
  induction n generalizing b with
  | zero => rfl
  | succ n ih =>
    have : move flat len b s = .ok (b + s) := by simp [move, flat]
    simp [ptrLoop, loop, h, this, ih]

/-- A loop whose pointer stays in the array. -/
theorem ptrLoop_ok (len n s b : Nat) (body : Nat → Res (List β)) (f : Nat → List β)
    (h : ∀ k, k < n → body (b + k * s) = .ok (f (b + k * s))) (hb : n = 0 ∨ b + n * s ≤ len) :
    ptrLoop (move lang len) n s b body = .ok (loop n s b f) := by
  induction n generalizing b with
  | zero => rfl
  | succ n ih =>
    have hb : b + (n + 1) * s ≤ len := by omega
    rw [Nat.add_mul, Nat.one_mul] at hb
    have hm : move lang len b s = .ok (b + s) := if_pos (by omega)
    have h0 := h 0 (by omega)
    simp only [Nat.zero_mul, Nat.add_zero] at h0
    rw [ptrLoop, h0, Res.ok_bind, hm, Res.ok_bind, ih (b + s) ?_ (by omega)]
    · rfl
    · intro k hk
      have := h (k + 1) (by omega)
      rw [Nat.add_mul, Nat.one_mul] at this
      rwa [show b + s + k * s = b + (k * s + s) by omega]

theorem ptrLoop_ne_abort (len n s b : Nat) (body : Nat → Res (List β)) (h : ∀ p, body p ≠ .abort) :
    ptrLoop (move lang len) n s b body ≠ .abort := by
  induction n generalizing b with
  | zero => intro e; cases e
  | succ n ih =>
    rw [ptrLoop]
    cases e : body b with
    | abort => exact absurd e (h b)
    | ub => simp
    | ok xs =>
      rw [Res.ok_bind]
      by_cases hm : b + s ≤ len
      · rw [move, if_pos hm, Res.ok_bind]
        cases e' : ptrLoop (move lang len) n s (b + s) body with
        | abort => exact absurd e' (ih _)
        | ub => simp
        | ok ys => simp
      · rw [move, if_neg hm]; simp [lang]

/-- A loop in which the pointer leaves the array, or in which some iteration fails. -/
theorem ptrLoop_ub (len n s b : Nat) (body : Nat → Res (List β)) (h : ∀ p, body p ≠ .abort)
    (hb : (∃ k, k < n ∧ body (b + k * s) = .ub) ∨ (0 < n ∧ len < b + n * s)) :
    ptrLoop (move lang len) n s b body = .ub := by
  induction n generalizing b with
  | zero => omega
  | succ n ih =>
    rw [ptrLoop]
    cases e : body b with
    | abort => exact absurd e (h b)
    | ub => simp
    | ok xs =>
      rw [Res.ok_bind]
      by_cases hm : b + s ≤ len
      · rw [move, if_pos hm, Res.ok_bind]
        rw [ih (b + s) ?_, Res.ub_bind]
        rcases hb with ⟨k, hk, hu⟩ | ⟨-, hl⟩
        · cases k with
          | zero => simp [e] at hu
          | succ k =>
            refine Or.inl ⟨k, by omega, ?_⟩
            rw [Nat.add_mul, Nat.one_mul] at hu
            rwa [show b + s + k * s = b + (k * s + s) by omega]
        · rw [Nat.add_mul, Nat.one_mul] at hl
          refine Or.inr ⟨?_, by omega⟩
          rcases Nat.eq_zero_or_pos n with rfl | hn
          · omega
          · exact hn
      · rw [move, if_neg hm]; simp [lang]

/-! ### The loops with any pointers -/

theorem permute12_flat {n a1 a2 a3 : Nat} (h : a1 * a2 < 2 ^ 63) :
    permute12 (move flat n) a1 a2 a3 = .ok (Tensor.permute12 a1 a2 a3) := by
  rw [permute12, mul_ok h, Res.ok_bind]
  exact ptrLoop_flat _ _ _ _ _ _ fun _ => ptrLoop_flat _ _ _ _ _ _ fun _ => ptrLoop_flat _ _ _ _ _ _ fun _ => rfl

theorem permute23_flat {n a1 a2 a3 a4 : Nat} (h : a1 * a3 < 2 ^ 63) (h' : a1 * a3 * a2 < 2 ^ 63) :
    permute23 (move flat n) a1 a2 a3 a4 = .ok (Tensor.permute23 a1 a2 a3 a4) := by
  rw [permute23, mul_ok h, Res.ok_bind, mul_ok h', Res.ok_bind]
  exact ptrLoop_flat _ _ _ _ _ _ fun _ => ptrLoop_flat _ _ _ _ _ _ fun _ => ptrLoop_flat _ _ _ _ _ _ fun _ =>
    ptrLoop_flat _ _ _ _ _ _ fun _ => rfl

theorem permute13_flat {n a1 a2 a3 a4 : Nat} (h : a3 * a2 < 2 ^ 63) (h' : a3 * a2 * a1 < 2 ^ 63) :
    permute13 (move flat n) a1 a2 a3 a4 = .ok (Tensor.permute13 a1 a2 a3 a4) := by
  rw [permute13, mul_ok h, Res.ok_bind, mul_ok h', Res.ok_bind]
  exact ptrLoop_flat _ _ _ _ _ _ fun _ => ptrLoop_flat _ _ _ _ _ _ fun _ => ptrLoop_flat _ _ _ _ _ _ fun _ =>
    ptrLoop_flat _ _ _ _ _ _ fun _ => rfl

theorem permute24_flat {n a1 a2 a3 a4 a5 : Nat} (h : a1 * a4 < 2 ^ 63) (h' : a1 * a4 * a3 < 2 ^ 63)
    (h'' : a1 * a4 * a3 * a2 < 2 ^ 63) :
    permute24 (move flat n) a1 a2 a3 a4 a5 = .ok (Tensor.permute24 a1 a2 a3 a4 a5) := by
  rw [permute24, mul_ok h, Res.ok_bind, mul_ok h', Res.ok_bind, mul_ok h'', Res.ok_bind]
  exact ptrLoop_flat _ _ _ _ _ _ fun _ => ptrLoop_flat _ _ _ _ _ _ fun _ => ptrLoop_flat _ _ _ _ _ _ fun _ =>
    ptrLoop_flat _ _ _ _ _ _ fun _ => ptrLoop_flat _ _ _ _ _ _ fun _ => rfl

/-! ### The loops with pointers of the language -/

theorem ok_ne_abort (x : β) : (Res.ok x : Res β) ≠ .abort := by intro h; cases h

theorem permute12_lang_ub {a1 a2 a3 : Nat} (h1 : 0 < a1) (h2 : 1 < a2) (h3 : 0 < a3) (h : a1 * a2 < 2 ^ 63) :
    permute12 (move lang (a1 * a2 * a3)) a1 a2 a3 = .ub := by
  rw [permute12, mul_ok h, Res.ok_bind]
  refine ptrLoop_ub _ _ _ _ _ (fun _ => ptrLoop_ne_abort _ _ _ _ _ fun _ => ptrLoop_ne_abort _ _ _ _ _ fun _ =>
    ok_ne_abort _) (Or.inl ⟨a3 - 1, by omega, ?_⟩)
  refine ptrLoop_ub _ _ _ _ _ (fun _ => ptrLoop_ne_abort _ _ _ _ _ fun _ => ok_ne_abort _)
    (Or.inl ⟨a2 - 1, by omega, ?_⟩)
  refine ptrLoop_ub _ _ _ _ _ (fun _ => ok_ne_abort _) (Or.inr ⟨h1, ?_⟩)
  obtain ⟨m, rfl⟩ : ∃ m, a3 = m + 1 := ⟨a3 - 1, by omega⟩
  have : a1 * a2 * (m + 1) = m * (a1 * a2) + a1 * a2 := by ring
  rw [this, Nat.add_sub_cancel]
  omega

theorem permute12_lang_ok {a1 a3 : Nat} (h1 : 0 < a1) (h : a1 < 2 ^ 63) :
    permute12 (move lang (a1 * 1 * a3)) a1 1 a3 = .ok (Tensor.permute12 a1 1 a3) := by
  rw [permute12, mul_ok (by omega), Res.ok_bind]
  have key : ∀ k, k < a3 → k * a1 + a1 ≤ a1 * a3 := by
    intro k hk
    have : a1 * (k + 1) ≤ a1 * a3 := Nat.mul_le_mul_left _ hk
    have e : a1 * (k + 1) = k * a1 + a1 := by ring
    omega
  refine ptrLoop_ok _ _ _ _ _ _ (fun k hk => ?_) (Or.inr (le_of_eq (by ring)))
  have hk' := key k hk
  refine ptrLoop_ok _ _ _ _ _ _ (fun j hj => ?_) (Or.inr ?_)
  · refine ptrLoop_ok _ _ _ _ _ _ (fun i hi => rfl) (Or.inr ?_)
    obtain rfl : j = 0 := by omega
    simp only [Nat.mul_one, Nat.add_zero, Nat.zero_add]
    omega
  · simp only [Nat.mul_one, Nat.zero_add]
    omega

theorem permute23_lang_ub {a1 a2 a3 a4 : Nat} (h1 : 0 < a1) (h2 : 0 < a2) (h3 : 1 < a3) (h4 : 0 < a4)
    (h : a1 * a3 < 2 ^ 63) (h' : a1 * a3 * a2 < 2 ^ 63) :
    permute23 (move lang (a1 * a2 * a3 * a4)) a1 a2 a3 a4 = .ub := by
  rw [permute23, mul_ok h, Res.ok_bind, mul_ok h', Res.ok_bind]
  refine ptrLoop_ub _ _ _ _ _ (fun _ => ptrLoop_ne_abort _ _ _ _ _ fun _ => ptrLoop_ne_abort _ _ _ _ _ fun _ =>
    ptrLoop_ne_abort _ _ _ _ _ fun _ => ok_ne_abort _) (Or.inl ⟨a4 - 1, by omega, ?_⟩)
  refine ptrLoop_ub _ _ _ _ _ (fun _ => ptrLoop_ne_abort _ _ _ _ _ fun _ => ptrLoop_ne_abort _ _ _ _ _ fun _ =>
    ok_ne_abort _) (Or.inl ⟨1, by omega, ?_⟩)
  refine ptrLoop_ub _ _ _ _ _ (fun _ => ptrLoop_ne_abort _ _ _ _ _ fun _ => ok_ne_abort _) (Or.inr ⟨h2, ?_⟩)
  obtain ⟨m, rfl⟩ : ∃ m, a4 = m + 1 := ⟨a4 - 1, by omega⟩
  have : a1 * a2 * a3 * (m + 1) = m * (a1 * a3 * a2) + a2 * (a1 * a3) := by ring
  rw [this, Nat.add_sub_cancel]
  omega

theorem permute23_lang_ok {a1 a2 a4 : Nat} (h2 : 0 < a2) (h : a1 < 2 ^ 63) (h' : a1 * a2 < 2 ^ 63) :
    permute23 (move lang (a1 * a2 * 1 * a4)) a1 a2 1 a4 = .ok (Tensor.permute23 a1 a2 1 a4) := by
  rw [permute23, mul_ok (by omega), Res.ok_bind, mul_ok (by simpa using h'), Res.ok_bind]
  have key : ∀ k, k < a4 → k * (a1 * a2) + a1 * a2 ≤ a1 * a2 * a4 := by
    intro k hk
    have : a1 * a2 * (k + 1) ≤ a1 * a2 * a4 := Nat.mul_le_mul_left _ hk
    have e : a1 * a2 * (k + 1) = k * (a1 * a2) + a1 * a2 := by ring
    omega
  have key' : ∀ j, j < a2 → j * a1 + a1 ≤ a1 * a2 := by
    intro k hk
    have : a1 * (k + 1) ≤ a1 * a2 := Nat.mul_le_mul_left _ hk
    have e : a1 * (k + 1) = k * a1 + a1 := by ring
    omega
  refine ptrLoop_ok _ _ _ _ _ _ (fun l hl => ?_) (Or.inr (le_of_eq (by ring)))
  have hl' := key l hl
  have : a1 ≤ a1 * a2 := Nat.le_mul_of_pos_right _ h2
  refine ptrLoop_ok _ _ _ _ _ _ (fun k hk => ?_) (Or.inr ?_)
  · obtain rfl : k = 0 := by omega
    refine ptrLoop_ok _ _ _ _ _ _ (fun j hj => ?_) (Or.inr ?_)
    · have hj' := key' j hj
      refine ptrLoop_ok _ _ _ _ _ _ (fun i hi => rfl) (Or.inr ?_)
      simp only [Nat.mul_one, Nat.zero_mul, Nat.add_zero, Nat.zero_add]
      omega
    · simp only [Nat.mul_one, Nat.zero_mul, Nat.add_zero, Nat.zero_add]
      have : a2 * a1 = a1 * a2 := Nat.mul_comm _ _
      omega
  · simp only [Nat.mul_one, Nat.one_mul, Nat.zero_add]
    omega

theorem permute13_lang_ub {a1 a2 a3 a4 : Nat} (h1 : 0 < a1) (h2 : 0 < a2) (h3 : 1 < a3) (h4 : 0 < a4)
    (h : a3 * a2 < 2 ^ 63) (h' : a3 * a2 * a1 < 2 ^ 63) :
    permute13 (move lang (a1 * a2 * a3 * a4)) a1 a2 a3 a4 = .ub := by
  rw [permute13, mul_ok h, Res.ok_bind, mul_ok h', Res.ok_bind]
  refine ptrLoop_ub _ _ _ _ _ (fun _ => ptrLoop_ne_abort _ _ _ _ _ fun _ => ptrLoop_ne_abort _ _ _ _ _ fun _ =>
    ptrLoop_ne_abort _ _ _ _ _ fun _ => ok_ne_abort _) (Or.inl ⟨a4 - 1, by omega, ?_⟩)
  refine ptrLoop_ub _ _ _ _ _ (fun _ => ptrLoop_ne_abort _ _ _ _ _ fun _ => ptrLoop_ne_abort _ _ _ _ _ fun _ =>
    ok_ne_abort _) (Or.inl ⟨1, by omega, ?_⟩)
  refine ptrLoop_ub _ _ _ _ _ (fun _ => ptrLoop_ne_abort _ _ _ _ _ fun _ => ok_ne_abort _)
    (Or.inl ⟨0, h2, ?_⟩)
  refine ptrLoop_ub _ _ _ _ _ (fun _ => ok_ne_abort _) (Or.inr ⟨h1, ?_⟩)
  obtain ⟨m, rfl⟩ : ∃ m, a4 = m + 1 := ⟨a4 - 1, by omega⟩
  have : a1 * a2 * a3 * (m + 1) = m * (a3 * a2 * a1) + a1 * (a3 * a2) := by ring
  rw [this, Nat.add_sub_cancel]
  omega

theorem permute24_lang_ub {a1 a2 a3 a4 a5 : Nat} (h1 : 0 < a1) (h2 : 0 < a2) (h3 : 0 < a3) (h4 : 1 < a4)
    (h5 : 0 < a5) (h : a1 * a4 < 2 ^ 63) (h' : a1 * a4 * a3 < 2 ^ 63) (h'' : a1 * a4 * a3 * a2 < 2 ^ 63) :
    permute24 (move lang (a1 * a2 * a3 * a4 * a5)) a1 a2 a3 a4 a5 = .ub := by
  rw [permute24, mul_ok h, Res.ok_bind, mul_ok h', Res.ok_bind, mul_ok h'', Res.ok_bind]
  refine ptrLoop_ub _ _ _ _ _ (fun _ => ptrLoop_ne_abort _ _ _ _ _ fun _ => ptrLoop_ne_abort _ _ _ _ _ fun _ =>
    ptrLoop_ne_abort _ _ _ _ _ fun _ => ptrLoop_ne_abort _ _ _ _ _ fun _ => ok_ne_abort _)
    (Or.inl ⟨a5 - 1, by omega, ?_⟩)
  refine ptrLoop_ub _ _ _ _ _ (fun _ => ptrLoop_ne_abort _ _ _ _ _ fun _ => ptrLoop_ne_abort _ _ _ _ _ fun _ =>
    ptrLoop_ne_abort _ _ _ _ _ fun _ => ok_ne_abort _) (Or.inl ⟨1, by omega, ?_⟩)
  refine ptrLoop_ub _ _ _ _ _ (fun _ => ptrLoop_ne_abort _ _ _ _ _ fun _ => ptrLoop_ne_abort _ _ _ _ _ fun _ =>
    ok_ne_abort _) (Or.inl ⟨0, h3, ?_⟩)
  refine ptrLoop_ub _ _ _ _ _ (fun _ => ptrLoop_ne_abort _ _ _ _ _ fun _ => ok_ne_abort _) (Or.inr ⟨h2, ?_⟩)
  obtain ⟨m, rfl⟩ : ∃ m, a5 = m + 1 := ⟨a5 - 1, by omega⟩
  have : a1 * a2 * a3 * a4 * (m + 1) = m * (a1 * a4 * a3 * a2) + a2 * (a1 * a4 * a3) := by ring
  rw [this, Nat.add_sub_cancel]
  omega

/-! ### permute -/

theorem filled_of {far : Nat → Res Nat} {dims : List Nat} {src : List α}
    {pos : (Nat → Nat → Res Nat) → Res (List Nat)} {n : Nat} {ps : List Nat} (hn : total dims = .ok n)
    (hp : pos (move far n) = .ok ps) : filled far dims src pos = Tensor.filled dims src ps := by
  rw [filled, hn, Res.ok_bind, hp, Res.ok_bind]

theorem filled_ub {far : Nat → Res Nat} {dims : List Nat} {src : List α}
    {pos : (Nat → Nat → Res Nat) → Res (List Nat)} {n : Nat} (hn : total dims = .ok n)
    (hp : pos (move far n) = .ub) : filled far dims src pos = .ub := by
  rw [filled, hn, Res.ok_bind, hp, Res.ub_bind]

theorem reshape_of {a : Tensor α} {dims : List Nat} {n : Nat} (hn : total dims = .ok n) :
    reshape a dims = a.reshape dims := by rw [reshape, hn, Res.ok_bind]

theorem permuteNoA3_flat (a : Tensor α) {newDims : List Nat} {a1 a2 a4 a5 n : Nat}
    (hn : total newDims = .ok n) (h5 : 0 < a5) (h2 : 0 < a2) (hb : a1 * a2 * a4 * a5 < 2 ^ 63) (h1 : 0 < a1) :
    permuteNoA3 flat a newDims a1 a2 a4 a5 = Tensor.permuteNoA3 a newDims a1 a2 a4 a5 := by
  have hb' : a1 * a2 * a4 < 2 ^ 63 := lt_of_le_of_lt (Nat.le_mul_of_pos_right _ h5) hb
  have e1 : a1 * a4 * a2 = a1 * a2 * a4 := by ring
  have e2 : a1 * a4 ≤ a1 * a4 * a2 := Nat.le_mul_of_pos_right _ h2
  have e3 : a2 * a4 ≤ a1 * (a2 * a4) := Nat.le_mul_of_pos_left _ h1
  rw [← Nat.mul_assoc] at e3
  unfold permuteNoA3 Tensor.permuteNoA3
  rw [filled_of hn (permute23_flat (by omega) (by omega)), filled_of hn (permute12_flat (by omega)), reshape_of hn]

theorem permuteNoA3_lang_ok (a : Tensor α) {newDims : List Nat} {a1 a2 a5 : Nat}
    (hn : total newDims = .ok (a1 * a2 * a5)) (h5 : 0 < a5) (h2 : 0 < a2) (hb : a1 * a2 * a5 < 2 ^ 63)
    (h1 : 0 < a1) :
    permuteNoA3 lang a newDims a1 a2 1 a5 = Tensor.permuteNoA3 a newDims a1 a2 1 a5 := by
  have hb' : a1 * a2 < 2 ^ 63 := lt_of_le_of_lt (Nat.le_mul_of_pos_right _ h5) hb
  have e2 : a1 ≤ a1 * a2 := Nat.le_mul_of_pos_right _ h2
  have e3 : a2 ≤ a1 * a2 := Nat.le_mul_of_pos_left _ h1
  unfold permuteNoA3 Tensor.permuteNoA3
  rw [reshape_of hn]
  split
  · split
    · rw [filled_of (ps := Tensor.permute23 a1 a2 1 a5) hn]
      have := permute23_lang_ok (a1 := a1) (a2 := a2) (a4 := a5) h2 (by omega) hb'
      rwa [Nat.mul_one] at this
    · obtain rfl : a1 = 1 := by omega
      rw [filled_of (ps := Tensor.permute12 a2 1 a5) hn]
      have := permute12_lang_ok (a1 := a2) (a3 := a5) h2 (by omega)
      rw [Nat.mul_one] at this
      rwa [Nat.one_mul]
  · rfl

theorem permuteNoA3_lang_ub (a : Tensor α) {newDims : List Nat} {a1 a2 a4 a5 : Nat}
    (hn : total newDims = .ok (a1 * a2 * a4 * a5)) (h5 : 0 < a5) (h2 : 0 < a2) (h4 : 1 < a4)
    (hb : a1 * a2 * a4 * a5 < 2 ^ 63) (h1 : 0 < a1) :
    permuteNoA3 lang a newDims a1 a2 a4 a5 = .ub := by
  have hb' : a1 * a2 * a4 < 2 ^ 63 := lt_of_le_of_lt (Nat.le_mul_of_pos_right _ h5) hb
  have e1 : a1 * a4 * a2 = a1 * a2 * a4 := by ring
  have e2 : a1 * a4 ≤ a1 * a4 * a2 := Nat.le_mul_of_pos_right _ h2
  have e3 : a2 * a4 ≤ a1 * (a2 * a4) := Nat.le_mul_of_pos_left _ h1
  rw [← Nat.mul_assoc] at e3
  unfold permuteNoA3
  rw [if_pos (Or.inl h4)]
  split
  · exact filled_ub hn (permute23_lang_ub h1 h2 h4 h5 (by omega) (by omega))
  · obtain rfl : a1 = 1 := by omega
    rw [Nat.one_mul] at hn
    exact filled_ub hn (permute12_lang_ub h2 h4 h5 (by omega))

/-- The parts of the dimensions, as in Lemmas/Permute.lean. -/
theorem parts (P M Q : List Nat) (x y : Nat) :
    (P ++ x :: (M ++ y :: Q))[P.length]? = some x ∧ (P ++ x :: (M ++ y :: Q))[(P ++ x :: M).length]? = some y ∧
    (P ++ x :: (M ++ y :: Q)).take P.length = P ∧
    ((P ++ x :: (M ++ y :: Q)).take (P ++ x :: M).length).drop (P.length + 1) = M ∧
    (P ++ x :: (M ++ y :: Q)).drop ((P ++ x :: M).length + 1) = Q ∧
    ((P ++ x :: (M ++ y :: Q)).set P.length y).set (P ++ x :: M).length x = P ++ y :: (M ++ x :: Q) := by
  have e1 : (P ++ x :: (M ++ y :: Q))[P.length]? = some x := by simp
  have e2 : (P ++ x :: (M ++ y :: Q))[(P ++ x :: M).length]? = some y := by
    have : P ++ x :: (M ++ y :: Q) = (P ++ x :: M) ++ y :: Q := by simp
    rw [this]; simp
  refine ⟨e1, e2, by simp, ?_, ?_, ?_⟩
  · have : P ++ x :: (M ++ y :: Q) = (P ++ x :: M) ++ y :: Q := by simp
    rw [this, List.take_left]
    have : P ++ x :: M = (P ++ [x]) ++ M := by simp
    rw [this, List.drop_left' (by simp)]
  · have : P ++ x :: (M ++ y :: Q) = (P ++ x :: M ++ [y]) ++ Q := by simp
    rw [this, List.drop_left' (by simp; omega)]
  · have := swapAt_split P M Q x y
    simpa only [swapAt, e1, e2] using this

section sorted

variable {P M Q : List Nat} {x y : Nat} {data : List α} (h0 : ∀ d ∈ P ++ x :: (M ++ y :: Q), d ≠ 0)
  (hl : data.length = prod P * x * prod M * y * prod Q) (hb : data.length < 2 ^ 63)
include h0 hl hb

theorem sizes : 0 < prod P ∧ 0 < x ∧ 0 < prod M ∧ 0 < y ∧ 0 < prod Q ∧
    mulAll 1 P = .ok (prod P) ∧ mulAll 1 M = .ok (prod M) ∧ mulAll 1 Q = .ok (prod Q) ∧
    total (P ++ y :: (M ++ x :: Q)) = .ok data.length ∧
    prod P * y < 2 ^ 63 ∧ prod P * y * prod M < 2 ^ 63 ∧ prod P * y * prod M * x < 2 ^ 63 := by
  have hP : ∀ d ∈ P, d ≠ 0 := fun d hd => h0 d (by simp [hd])
  have hM : ∀ d ∈ M, d ≠ 0 := fun d hd => h0 d (by simp [hd])
  have hQ : ∀ d ∈ Q, d ≠ 0 := fun d hd => h0 d (by simp [hd])
  have hx : 0 < x := Nat.pos_of_ne_zero (h0 x (by simp))
  have hy : 0 < y := Nat.pos_of_ne_zero (h0 y (by simp))
  have pP := prod_pos hP
  have pM := prod_pos hM
  have pQ := prod_pos hQ
  have e1 : prod P * y * prod M * x * prod Q < 2 ^ 63 := by
    rw [show prod P * y * prod M * x * prod Q = data.length by rw [hl]; ring]; exact hb
  have e2 : prod P * y * prod M * x < 2 ^ 63 := lt_of_le_of_lt (Nat.le_mul_of_pos_right _ pQ) e1
  have e3 : prod P * y * prod M < 2 ^ 63 := lt_of_le_of_lt (Nat.le_mul_of_pos_right _ hx) e2
  have e4 : prod P * y < 2 ^ 63 := lt_of_le_of_lt (Nat.le_mul_of_pos_right _ pM) e3
  have e5 : prod P < 2 ^ 63 := lt_of_le_of_lt (Nat.le_mul_of_pos_right _ hy) e4
  have e6 : prod M < 2 ^ 63 := lt_of_le_of_lt (Nat.le_mul_of_pos_left _ (Nat.mul_pos pP hy)) e3
  have e7 : prod Q < 2 ^ 63 :=
    lt_of_le_of_lt (Nat.le_mul_of_pos_left _ (Nat.mul_pos (Nat.mul_pos (Nat.mul_pos pP hy) pM) hx)) e1
  have e8 : prod (P ++ y :: (M ++ x :: Q)) = data.length := by
    rw [hl]; simp only [prod_append, prod_cons]; ring
  refine ⟨pP, hx, pM, hy, pQ, ?_, ?_, ?_, ?_, e4, e3, e2⟩
  · rw [mulAll_ok hP 1 (by omega), Nat.one_mul]
  · rw [mulAll_ok hM 1 (by omega), Nat.one_mul]
  · rw [mulAll_ok hQ 1 (by omega), Nat.one_mul]
  · rw [total_ok ?_ (by omega) (by simp), e8]
    intro d hd
    refine h0 d ?_
    simp only [List.mem_append, List.mem_cons] at hd ⊢
    tauto

theorem permuteSorted_flat :
    permuteSorted flat ⟨P ++ x :: (M ++ y :: Q), data⟩ P.length (P ++ x :: M).length =
      Tensor.permuteSorted ⟨P ++ x :: (M ++ y :: Q), data⟩ P.length (P ++ x :: M).length := by
  obtain ⟨e1, e2, e3, e4, e5, e6⟩ := parts P M Q x y
  obtain ⟨p1, p2, p3, p4, p5, m1, m2, m3, mt, b1, b2, b3⟩ := sizes h0 hl hb
  simp only [permuteSorted, Tensor.permuteSorted, e1, e2, e3, e4, e5, e6, Res.ofOption_some, Res.ok_bind,
    foldl_mul, Nat.one_mul, m1, m2, m3, size]
  have d0 : data.length ≠ 0 := by
    rw [hl]
    exact Nat.ne_of_gt (Nat.mul_pos (Nat.mul_pos (Nat.mul_pos (Nat.mul_pos p1 p2) p3) p4) p5)
  rw [if_pos d0, if_pos d0]
  split
  case isTrue hx =>
    subst hx
    exact permuteNoA3_flat _ mt p5 p3 (by rw [show prod P * prod M * y * prod Q = data.length by rw [hl]; ring]; exact hb) p1
  case isFalse hx =>
    split
    case isTrue hy =>
      subst hy
      exact permuteNoA3_flat _ mt p5 p2
        (by rw [show prod P * x * prod M * prod Q = data.length by rw [hl]; ring]; exact hb) p1
    case isFalse hy =>
      split
      case isTrue hM =>
        split
        case isTrue hP => exact filled_of mt (permute24_flat b1 b2 b3)
        case isFalse hP =>
          have e : prod P = 1 := by omega
          rw [e, Nat.one_mul] at b2 b3
          exact filled_of mt (permute13_flat b2 b3)
      case isFalse hM =>
        have e : prod M = 1 := by omega
        refine permuteNoA3_flat _ mt p5 p2 ?_ p1
        rw [e, Nat.mul_one] at hl
        rw [← hl]; exact hb

theorem permuteSorted_lang_ok (h : y = 1 ∧ (x = 1 ∨ prod M = 1)) :
    permuteSorted lang ⟨P ++ x :: (M ++ y :: Q), data⟩ P.length (P ++ x :: M).length =
      Tensor.permuteSorted ⟨P ++ x :: (M ++ y :: Q), data⟩ P.length (P ++ x :: M).length := by
  obtain ⟨e1, e2, e3, e4, e5, e6⟩ := parts P M Q x y
  obtain ⟨p1, p2, p3, p4, p5, m1, m2, m3, mt, b1, b2, b3⟩ := sizes h0 hl hb
  obtain ⟨rfl, h⟩ := h
  simp only [permuteSorted, Tensor.permuteSorted, e1, e2, e3, e4, e5, e6, Res.ofOption_some, Res.ok_bind,
    foldl_mul, Nat.one_mul, m1, m2, m3, size]
  have d0 : data.length ≠ 0 := by
    rw [hl]
    exact Nat.ne_of_gt (Nat.mul_pos (Nat.mul_pos (Nat.mul_pos (Nat.mul_pos p1 p2) p3) p4) p5)
  rw [if_pos d0, if_pos d0]
  split
  case isTrue hx =>
    subst hx
    simp only [Nat.mul_one] at hl
    rw [hl] at mt hb
    exact permuteNoA3_lang_ok _ mt p5 p3 hb p1
  case isFalse hx =>
    have e : prod M = 1 := by omega
    rw [if_pos trivial, if_pos trivial, e]
    simp only [e, Nat.mul_one] at hl
    rw [hl] at mt hb
    exact permuteNoA3_lang_ok _ mt p5 p2 hb p1

theorem permuteSorted_lang_ub (h : ¬ (y = 1 ∧ (x = 1 ∨ prod M = 1))) :
    permuteSorted lang ⟨P ++ x :: (M ++ y :: Q), data⟩ P.length (P ++ x :: M).length = .ub := by
  obtain ⟨e1, e2, e3, e4, e5, e6⟩ := parts P M Q x y
  obtain ⟨p1, p2, p3, p4, p5, m1, m2, m3, mt, b1, b2, b3⟩ := sizes h0 hl hb
  simp only [permuteSorted, e1, e2, e3, e4, e5, e6, Res.ofOption_some, Res.ok_bind, m1, m2, m3, size]
  have d0 : data.length ≠ 0 := by
    rw [hl]
    exact Nat.ne_of_gt (Nat.mul_pos (Nat.mul_pos (Nat.mul_pos (Nat.mul_pos p1 p2) p3) p4) p5)
  rw [if_pos d0]
  rw [hl] at mt hb
  split
  case isTrue hx =>
    subst hx
    rw [Nat.mul_one] at mt hb
    exact permuteNoA3_lang_ub _ mt p5 p3 (by omega) hb p1
  case isFalse hx =>
    split
    case isTrue hy =>
      subst hy
      rw [Nat.mul_one] at mt hb
      exact permuteNoA3_lang_ub _ mt p5 p2 (by omega) hb p1
    case isFalse hy =>
      split
      case isTrue hM =>
        split
        case isTrue hP => exact filled_ub mt (permute24_lang_ub p1 p2 p3 (by omega) p5 b1 b2 b3)
        case isFalse hP =>
          have e : prod P = 1 := by omega
          rw [e, Nat.one_mul] at b2 b3
          rw [e, Nat.one_mul] at mt
          exact filled_ub mt (permute13_lang_ub p2 p3 (by omega) p5 b2 b3)
      case isFalse hM =>
        have e : prod M = 1 := by omega
        rw [e, Nat.mul_one] at mt hb
        exact permuteNoA3_lang_ub _ mt p5 p2 (by omega) hb p1

end sorted

/-! ### kron -/

theorem kronSteps_lang {iLen jLen kLen lLen : Nat} (hi : 0 < iLen) (hj : 0 < jLen) :
    kronSteps lang (jLen * lLen) (iLen * kLen) iLen jLen kLen lLen = .ok (Tensor.kronSteps iLen jLen kLen lLen) := by
  have key : ∀ n m k : Nat, k < m → k * n + n ≤ n * m := by
    intro n m k hk
    have : n * (k + 1) ≤ n * m := Nat.mul_le_mul_left _ hk
    have e : n * (k + 1) = k * n + n := by ring
    omega
  refine ptrLoop_ok _ _ _ _ _ _ (fun l hl => ?_) (Or.inr (le_of_eq (by ring)))
  refine ptrLoop_ok _ _ _ _ _ _ (fun k hk => ?_) (Or.inr (le_of_eq (by ring)))
  have h1 := key jLen lLen l hl
  have h2 := key iLen kLen k hk
  refine ptrLoop_ok _ _ _ _ _ _ (fun j hj => ?_) (Or.inr (by omega))
  exact ptrLoop_ok _ _ _ _ _ _ (fun i hi => rfl) (Or.inr (by omega))

theorem kronSteps_flat {nb na iLen jLen kLen lLen : Nat} :
    kronSteps flat nb na iLen jLen kLen lLen = .ok (Tensor.kronSteps iLen jLen kLen lLen) :=
  ptrLoop_flat _ _ _ _ _ _ fun _ => ptrLoop_flat _ _ _ _ _ _ fun _ => ptrLoop_flat _ _ _ _ _ _ fun _ =>
    ptrLoop_flat _ _ _ _ _ _ fun _ => rfl

theorem kronMat_eq [Mul α] {far : Nat → Res Nat} (hf : far = lang ∨ far = flat) {a b : Tensor α}
    {i k j l : Nat} (ha : a.dims = [i, k]) (hb : b.dims = [j, l]) (wa : a.WF) (wb : b.WF)
    (h1 : i * j < 2 ^ 63) (h2 : k * l < 2 ^ 63) (h3 : i * j * (k * l) < 2 ^ 63) :
    kronMat far b a = Tensor.kronMat b a := by
  have la : a.data.length = i * k := by rw [wa, ha]; simp [totalSize]
  have lb : b.data.length = j * l := by rw [wb, hb]; simp [totalSize]
  have a0 : a.dimension 0 = .ok i := by simp [dimension, rank, ha, Res.assert_bind]
  have a1 : a.dimension 1 = .ok k := by simp [dimension, rank, ha, Res.assert_bind]
  have b0 : b.dimension 0 = .ok j := by simp [dimension, rank, hb, Res.assert_bind]
  have b1 : b.dimension 1 = .ok l := by simp [dimension, rank, hb, Res.assert_bind]
  have ht : totalSize [i * j, k * l] = i * j * (k * l) := by simp [totalSize]
  rw [kronMat, Tensor.kronMat, a0, a1, b0, b1]
  simp only [Res.ok_bind, mul_ok h1, mul_ok h2, mul_ok h3, ht]
  split
  · rfl
  · rename_i hz
    have hi : 0 < i := Nat.pos_of_ne_zero fun h => hz (Or.inl (by simp [h]))
    have hj : 0 < j := Nat.pos_of_ne_zero fun h => hz (Or.inl (by simp [h]))
    have : kronSteps far b.data.length a.data.length i j k l = .ok (Tensor.kronSteps i j k l) := by
      rcases hf with rfl | rfl
      · rw [la, lb]; exact kronSteps_lang hi hj
      · exact kronSteps_flat
    rw [this, Res.ok_bind]

/-! ## Theorems -/

/-- **C112 (partial)**: for tensors which have elements permute computes without overflow what Model/Permute.lean
does with unbounded numbers, so that C17 holds of it. -/
theorem c112_permute_partial (t : Tensor α) (wf : t.WF) (h0 : ∀ d ∈ t.dims, d ≠ 0) (hb : t.data.length < 2 ^ 63)
    (ndx1 ndx2 : Int) : permute flat t ndx1 ndx2 = t.permute ndx1 ndx2 := by
  have key : ∀ n1 n2 : Nat, n1 < n2 → n2 < t.dims.length →
      permuteSorted flat t n1 n2 = Tensor.permuteSorted t n1 n2 := by
    intro n1 n2 h h2
    obtain ⟨dims, data⟩ := t
    obtain ⟨P, x, M, y, Q, rfl, rfl, rfl⟩ := split2 dims n1 n2 h h2
    have hl : data.length = prod P * x * prod M * y * prod Q := by
      rw [WF.length_eq wf (by simp)]
      simp only [prod_append, prod_cons]; ring
    exact permuteSorted_flat h0 hl hb
  simp only [permute, Tensor.permute, rank, normalizeIndex_eq]
  cases e1 : norm t.dims.length ndx1 with
  | none => rfl
  | some i =>
    cases e2 : norm t.dims.length ndx2 with
    | none => rfl
    | some j =>
      have hi' := norm_lt e1
      have hj' := norm_lt e2
      simp only [Res.ok_bind]
      rcases Nat.lt_trichotomy i j with h | h | h
      · rw [if_neg (by omega), if_neg (by omega), if_neg (by omega), if_neg (by omega)]
        exact key i j h hj'
      · subst h; simp
      · rw [if_pos (by omega), if_pos (by omega)]
        exact key j i h hi'

/-- **C112 (partial)**: the same for transpose and adjoint, also without elements. -/
theorem c112_transpose_partial (t : Tensor α) (hb : ∀ r c, t.dims = [r, c] → r * c < 2 ^ 63) :
    transpose flat t = t.transpose := by
  obtain ⟨d, data⟩ := t
  unfold transpose Tensor.transpose
  match d with
  | [r, c] =>
    have hb := hb r c rfl
    have hb' : c * r < 2 ^ 63 := by rwa [Nat.mul_comm]
    simp only [mul_ok hb', Res.ok_bind]
    split
    · rw [permute12_flat hb, Res.ok_bind]
    · rfl
  | [] => rfl
  | [_] => rfl
  | _ :: _ :: _ :: _ => rfl

/-- **C112 (partial)**: adjoint. -/
theorem c112_adjoint_partial (conj : α → α) (t : Tensor α) (hb : ∀ r c, t.dims = [r, c] → r * c < 2 ^ 63) :
    adjoint flat conj t = t.adjoint conj := by
  obtain ⟨d, data⟩ := t
  unfold adjoint Tensor.adjoint
  match d with
  | [r, c] =>
    have hb := hb r c rfl
    have hb' : c * r < 2 ^ 63 := by rwa [Nat.mul_comm]
    simp only [mul_ok hb', Res.ok_bind]
    split
    · rw [ptrLoop_flat _ _ _ _ _ _ fun _ => ptrLoop_flat _ _ _ _ _ _ fun _ => rfl, Res.ok_bind]
      rfl
    · rfl
  | [] => rfl
  | [_] => rfl
  | _ :: _ :: _ :: _ => rfl

/-- **C112 (partial)**: kron computes without overflow, and with pointers which stay in the arrays, if the numbers of rows, of
columns and of elements of the result are less than 2^63. -/
theorem c112_kron_partial [Mul α] {far : Nat → Res Nat} (hf : far = lang ∨ far = flat) (b a : Tensor α)
    (wb : b.WF) (wa : a.WF)
    (h1 : ∀ i k j l, a.dims = [i, k] → b.dims = [j, l] → i * j < 2 ^ 63 ∧ k * l < 2 ^ 63)
    (h2 : a.data.length * b.data.length < 2 ^ 63) : kron far b a = Tensor.kron b a := by
  unfold kron Tensor.kron
  by_cases hr : b.rank = a.rank
  swap
  · simp [Res.assert_neg hr]
  rw [Res.assert_pos hr, Res.ok_bind, Res.ok_bind]
  by_cases hr2 : b.rank ≤ 2
  swap
  · simp [Res.assert_neg hr2]
  rw [Res.assert_pos hr2, Res.ok_bind, Res.ok_bind]
  split
  · have ra : a.reshape [a.size, 1] = .ok ⟨[a.size, 1], a.data⟩ := by
      simp [Tensor.reshape, Res.assert_bind, totalSize]
    have rb : b.reshape [b.size, 1] = .ok ⟨[b.size, 1], b.data⟩ := by
      simp [Tensor.reshape, Res.assert_bind, totalSize]
    rw [ra, rb, Res.ok_bind, Res.ok_bind, Res.ok_bind, Res.ok_bind,
      kronMat_eq hf (i := a.size) (j := b.size) (k := 1) (l := 1) rfl rfl (by simp [Tensor.WF, totalSize, size])
        (by simp [Tensor.WF, totalSize, size]) h2 (by norm_num) (by simpa [size] using h2)]
    have : mul a.size b.size = .ok (a.size * b.size) := mul_ok h2
    rw [this]
    rfl
  · rename_i hra
    -- rank 0 or 2
    by_cases h2' : a.rank = 2
    · obtain ⟨da, xa⟩ := a
      obtain ⟨db, xb⟩ := b
      match da, db with
      | [i, k], [j, l] =>
        have la : xa.length = i * k := by rw [show xa.length = totalSize [i, k] from wa]; simp [totalSize]
        have lb : xb.length = j * l := by rw [show xb.length = totalSize [j, l] from wb]; simp [totalSize]
        obtain ⟨g1, g2⟩ := h1 i k j l rfl rfl
        refine kronMat_eq hf rfl rfl wa wb g1 g2 ?_
        rw [show i * j * (k * l) = i * k * (j * l) by ring, ← la, ← lb]
        exact h2
    · have h0 : a.rank = 0 := by omega
      have : a.dimension 0 = .abort := by simp [dimension, h0, Res.assert]
      simp [kronMat, Tensor.kronMat, this]

/-- **C112**: by the rules of the language, which allow no pointer beyond the position after the last element, permute has
undefined behaviour unless the second index has only one value, and the first one or all indices between have only
one value. In these cases its result is as before. -/
theorem c112_pointers (t : Tensor α) (wf : t.WF) (h0 : ∀ d ∈ t.dims, d ≠ 0) (hb : t.data.length < 2 ^ 63)
    {ndx1 ndx2 : Int} {i j : Nat} (hi : norm t.dims.length ndx1 = some i) (hj : norm t.dims.length ndx2 = some j)
    (hij : i < j) :
    (t.dims[j]? = some 1 ∧ (t.dims[i]? = some 1 ∨ ∀ k, i < k → k < j → t.dims[k]? = some 1) →
      permute lang t ndx1 ndx2 = t.permute ndx1 ndx2 ∧ permute lang t ndx2 ndx1 = t.permute ndx2 ndx1) ∧
    (¬ (t.dims[j]? = some 1 ∧ (t.dims[i]? = some 1 ∨ ∀ k, i < k → k < j → t.dims[k]? = some 1)) →
      permute lang t ndx1 ndx2 = .ub ∧ permute lang t ndx2 ndx1 = .ub) := by
  have hj' := norm_lt hj
  simp only [permute, Tensor.permute, rank, normalizeIndex_eq, hi, hj, Res.ok_bind]
  rw [if_neg (by omega : ¬ ((j : Int) < i)), if_neg (by omega : ¬ ((j : Int) = i)),
    if_neg (by omega : ¬ ((j : Int) < i)), if_neg (by omega : ¬ ((j : Int) = i)),
    if_pos (by omega : (i : Int) < j), if_pos (by omega : (i : Int) < j)]
  simp only [Int.toNat_natCast, and_self]
  obtain ⟨dims, data⟩ := t
  obtain ⟨P, x, M, y, Q, rfl, rfl, rfl⟩ := split2 dims i j hij hj'
  have hl : data.length = prod P * x * prod M * y * prod Q := by
    rw [WF.length_eq wf (by simp)]
    simp only [prod_append, prod_cons]; ring
  obtain ⟨e1, e2, -⟩ := parts P M Q x y
  have hM : (∀ k, P.length < k → k < (P ++ x :: M).length → (P ++ x :: (M ++ y :: Q))[k]? = some 1) ↔
      prod M = 1 := by
    have hk : ∀ m, m < M.length → (P ++ x :: (M ++ y :: Q))[P.length + 1 + m]? = M[m]? := by
      intro m hm
      rw [List.getElem?_append_right (by omega), show P.length + 1 + m - P.length = m + 1 by omega,
        List.getElem?_cons_succ, List.getElem?_append_left hm]
    constructor
    · intro h
      have : ∀ d ∈ M, d = 1 := by
        intro d hd
        obtain ⟨m, hm, rfl⟩ := List.getElem_of_mem hd
        have := h (P.length + 1 + m) (by omega) (by simp; omega)
        rw [hk m hm, List.getElem?_eq_getElem hm] at this
        exact Option.some.inj this
      clear hk h wf hl e1 e2 h0 hij hj' hi hj hb
      induction M with
      | nil => rfl
      | cons d M ih =>
        rw [prod_cons, this d (by simp), ih fun d hd => this d (by simp [hd])]
    · intro h k h1 h2
      obtain ⟨m, rfl⟩ : ∃ m, k = P.length + 1 + m := ⟨k - (P.length + 1), by omega⟩
      have hm : m < M.length := by simp at h2; omega
      rw [hk m hm, List.getElem?_eq_getElem hm]
      congr 1
      have hd : M[m] ∣ prod M := by
        clear hk h wf hl e1 e2 h0 hij hj' hi hj hb h1 h2
        induction M generalizing m with
        | nil => simp at hm
        | cons d M ih =>
          rw [prod_cons]
          cases m with
          | zero => exact Nat.dvd_mul_right _ _
          | succ m => exact Dvd.dvd.mul_left (ih m (by simpa using hm)) _
      rw [h] at hd
      exact Nat.dvd_one.1 hd
  simp only [e1, e2, hM, Option.some.injEq]
  exact ⟨fun h => permuteSorted_lang_ok h0 hl hb h, fun h => permuteSorted_lang_ub h0 hl hb h⟩

/-- **C112, negation**: transposing a matrix with rows and at least two columns computes pointers beyond the end of the result. -/
theorem c112_negation_transpose (t : Tensor α) {r c : Nat} (hd : t.dims = [r, c]) (hr : 0 < r) (hc : 1 < c)
    (hb : r * c < 2 ^ 63) : transpose lang t = .ub := by
  unfold transpose
  rw [hd]
  have hb' : c * r < 2 ^ 63 := by rwa [Nat.mul_comm]
  simp only [mul_ok hb', Res.ok_bind]
  rw [if_pos ⟨by omega, by omega⟩]
  have := permute12_lang_ub hr hc (a3 := 1) Nat.one_pos hb
  rw [show r * c * 1 = c * r by ring] at this
  rw [this, Res.ub_bind]

/-- **C112, negation**: and so does the adjoint. -/
theorem c112_negation_adjoint (conj : α → α) (t : Tensor α) {r c : Nat} (hd : t.dims = [r, c]) (hr : 0 < r)
    (hc : 1 < c) (hb : r * c < 2 ^ 63) : adjoint lang conj t = .ub := by
  unfold adjoint
  rw [hd]
  have hb' : c * r < 2 ^ 63 := by rwa [Nat.mul_comm]
  simp only [mul_ok hb', Res.ok_bind]
  rw [if_pos ⟨by omega, by omega⟩, ptrLoop_ub _ _ _ _ _
    (fun _ => ptrLoop_ne_abort _ _ _ _ _ fun _ => ok_ne_abort _) (Or.inl ⟨c - 1, by omega, ?_⟩), Res.ub_bind]
  refine ptrLoop_ub _ _ _ _ _ (fun _ => ok_ne_abort _) (Or.inr ⟨hr, ?_⟩)
  have : c * r = r * c := Nat.mul_comm _ _
  omega

/-- **C112, negation**: a tensor without elements can exist whose indices cannot be exchanged: the product of the dimensions
overflows when the zero is not the first one. -/
theorem c112_negation_empty :
    (⟨[0, 2 ^ 32, 2 ^ 32], []⟩ : Tensor α).WF ∧ total [0, 2 ^ 32, 2 ^ 32] = .ok 0 ∧
    (⟨[0, 2 ^ 32, 2 ^ 32], []⟩ : Tensor α).permute 0 2 = .ok ⟨[2 ^ 32, 2 ^ 32, 0], []⟩ ∧
    permute flat (⟨[0, 2 ^ 32, 2 ^ 32], []⟩ : Tensor α) 0 2 = .ub := by
  refine ⟨by simp [Tensor.WF, totalSize], by decide, ?_, ?_⟩ <;> rfl

/-- **C112, negation**: likewise kron of two matrices without columns, whose result is empty. -/
theorem c112_negation_kron [Mul α] :
    (⟨[2 ^ 32, 0], []⟩ : Tensor α).WF ∧
    Tensor.kron (⟨[2 ^ 32, 0], []⟩ : Tensor α) ⟨[2 ^ 32, 0], []⟩ = .ok ⟨[2 ^ 64, 0], []⟩ ∧
    kron flat (⟨[2 ^ 32, 0], []⟩ : Tensor α) ⟨[2 ^ 32, 0], []⟩ = .ub := by
  refine ⟨by simp [Tensor.WF, totalSize], ?_, ?_⟩ <;> rfl

/-! ## Examples -/

example : permute flat (⟨[2, 1, 3], [1, 2, 3, 4, 5, 6]⟩ : Tensor Int) 0 (-1) =
    .ok ⟨[3, 1, 2], [1, 3, 5, 2, 4, 6]⟩ := by
  rw [c112_permute_partial _ (by decide) (by decide) (by norm_num)]; decide

example : transpose flat (⟨[2, 3], [1, 2, 3, 4, 5, 6]⟩ : Tensor Int) = .ok ⟨[3, 2], [1, 3, 5, 2, 4, 6]⟩ := by
  rw [c112_transpose_partial _ (by intro r c h; simp at h; obtain ⟨rfl, rfl⟩ := h; norm_num)]; decide

example : transpose lang (⟨[2, 3], [1, 2, 3, 4, 5, 6]⟩ : Tensor Int) = .ub :=
  c112_negation_transpose _ rfl (by norm_num) (by norm_num) (by norm_num)

example : adjoint flat (fun x => x) (⟨[1, 2], [1, 2]⟩ : Tensor Int) = .ok ⟨[2, 1], [1, 2]⟩ := by
  rw [c112_adjoint_partial _ _ (by intro r c h; simp at h; obtain ⟨rfl, rfl⟩ := h; norm_num)]; decide

example : adjoint lang (fun x => x) (⟨[1, 2], [1, 2]⟩ : Tensor Int) = .ub :=
  c112_negation_adjoint _ _ rfl (by norm_num) (by norm_num) (by norm_num)

example : kron lang (⟨[2], [1, 10]⟩ : Tensor Int) ⟨[2], [3, 4]⟩ = .ok ⟨[4], [3, 4, 30, 40]⟩ := by
  rw [c112_kron_partial (Or.inl rfl) _ _ (by decide) (by decide) (by intro i k j l h; simp at h) (by norm_num)]
  decide

/-- Only the second of two indices counts. -/
example : permute lang (⟨[1, 2], [5, 6]⟩ : Tensor Int) 0 1 = .ub ∧
    permute lang (⟨[2, 1], [5, 6]⟩ : Tensor Int) 0 1 = .ok ⟨[1, 2], [5, 6]⟩ := by
  constructor
  · have := c112_pointers (⟨[1, 2], [5, 6]⟩ : Tensor Int) (by decide) (by decide) (by norm_num)
      (ndx1 := 0) (ndx2 := 1) (i := 0) (j := 1) (by decide) (by decide) (by decide)
    exact (this.2 (by simp)).1
  · decide

end Verif.PermuteMachine
