import Verif.Spec.Index
import Verif.Model.Tensor
import Mathlib.Tactic.Ring
import Mathlib.Tactic.Linarith
/-
Lemmas about multi-indices and sizes.
-/
namespace Verif

open Spec

variable {α : Type}

theorem foldl_mul (l : List Nat) (a : Nat) : l.foldl (· * ·) a = a * prod l := by
  induction l generalizing a with
  | nil => simp [prod]
  | cons d ds ih => simp [prod, ih, Nat.mul_assoc]

theorem prod_append (a b : List Nat) : prod (a ++ b) = prod a * prod b := by
  induction a with
  | nil => simp [prod]
  | cons d ds ih => simp [prod, ih, Nat.mul_assoc]

@[simp] theorem prod_nil : prod [] = 1 := rfl
@[simp] theorem prod_cons (d : Nat) (ds : List Nat) : prod (d :: ds) = d * prod ds := rfl

theorem totalSize_of_ne {d : List Nat} (h : d ≠ []) : Tensor.totalSize d = prod d := by
  have : d.length ≠ 0 := by simpa using h
  simp [Tensor.totalSize, foldl_mul, h]

@[simp] theorem totalSize_nil : Tensor.totalSize [] = 0 := rfl

@[simp] theorem totalSize_cons (d : Nat) (ds : List Nat) :
    Tensor.totalSize (d :: ds) = d * prod ds := by
  rw [totalSize_of_ne (by simp)]; rfl

theorem Spec.InB.length {idx dims : List Nat} (h : InB idx dims) : idx.length = dims.length := by
  induction idx generalizing dims with
  | nil => cases dims with
    | nil => rfl
    | cons => exact h.elim
  | cons i is ih => cases dims with
    | nil => exact h.elim
    | cons d ds => simp [ih h.2]

@[simp] theorem InB_nil : InB [] [] := trivial

@[simp] theorem InB_cons {i d : Nat} {is ds : List Nat} :
    InB (i :: is) (d :: ds) ↔ i < d ∧ InB is ds := Iff.rfl

theorem InB_append {a b d e : List Nat} (h : a.length = d.length) :
    InB (a ++ b) (d ++ e) ↔ InB a d ∧ InB b e := by
  induction a generalizing d with
  | nil => cases d with
    | nil => simp
    | cons => simp at h
  | cons i is ih => cases d with
    | nil => simp at h
    | cons x xs =>
      simp only [List.length_cons, Nat.add_right_cancel_iff] at h
      simp [ih h, and_assoc]

theorem Spec.InB.append {a b d e : List Nat} (h1 : InB a d) (h2 : InB b e) : InB (a ++ b) (d ++ e) :=
  (InB_append h1.length).2 ⟨h1, h2⟩

@[simp] theorem colPos_nil : colPos [] [] = 0 := rfl
@[simp] theorem colPos_cons (d i : Nat) (ds is : List Nat) :
    colPos (d :: ds) (i :: is) = i + d * colPos ds is := rfl

theorem colPos_append {a d : List Nat} (b e : List Nat) (h : a.length = d.length) :
    colPos (d ++ e) (a ++ b) = colPos d a + prod d * colPos e b := by
  induction a generalizing d with
  | nil => cases d with
    | nil => simp
    | cons => simp at h
  | cons i is ih => cases d with
    | nil => simp at h
    | cons x xs =>
      simp only [List.length_cons, Nat.add_right_cancel_iff] at h
      simp only [List.cons_append, colPos_cons, ih h, prod_cons]
      ring

theorem colPos_lt {dims idx : List Nat} (h : InB idx dims) : colPos dims idx < prod dims := by
  induction idx generalizing dims with
  | nil => cases dims with
    | nil => simp
    | cons => exact h.elim
  | cons i is ih => cases dims with
    | nil => exact h.elim
    | cons d ds =>
      have h1 := ih h.2
      have h2 := h.1
      simp only [colPos_cons, prod_cons]
      calc i + d * colPos ds is < d + d * colPos ds is := by omega
        _ = d * (colPos ds is + 1) := by ring
        _ ≤ d * prod ds := Nat.mul_le_mul_left d h1

theorem colPos_inj {dims a b : List Nat} (ha : InB a dims) (hb : InB b dims)
    (h : colPos dims a = colPos dims b) : a = b := by
  induction dims generalizing a b with
  | nil =>
    cases a with
    | nil => cases b with
      | nil => rfl
      | cons => exact hb.elim
    | cons => exact ha.elim
  | cons d ds ih =>
    cases a with
    | nil => exact ha.elim
    | cons i is =>
      cases b with
      | nil => exact hb.elim
      | cons j js =>
        simp only [colPos_cons] at h
        obtain ⟨hi, his⟩ := ha
        obtain ⟨hj, hjs⟩ := hb
        have h0 : i = j := by
          have := congrArg (· % d) h
          simpa [Nat.add_mul_mod_self_left, Nat.mod_eq_of_lt hi, Nat.mod_eq_of_lt hj] using this
        subst h0
        have hd : 0 < d := by omega
        have : colPos ds is = colPos ds js := Nat.eq_of_mul_eq_mul_left hd (by omega)
        rw [ih his hjs this]

theorem colPos_surj (dims : List Nat) (p : Nat) (h : p < prod dims) :
    ∃ idx, InB idx dims ∧ colPos dims idx = p := by
  induction dims generalizing p with
  | nil => exact ⟨[], trivial, by simp at h; simp [h]⟩
  | cons d ds ih =>
    simp only [prod_cons] at h
    have hd : 0 < d := by
      rcases Nat.eq_zero_or_pos d with rfl | h' 
      · simp at h
      · exact h'
    obtain ⟨is, h1, h2⟩ := ih (p / d) (Nat.div_lt_of_lt_mul h)
    exact ⟨p % d :: is, ⟨Nat.mod_lt _ hd, h1⟩, by
      simp only [colPos_cons, h2]; exact Nat.mod_add_div p d⟩

theorem prod_pos_of_InB {dims idx : List Nat} (h : InB idx dims) : 0 < prod dims :=
  Nat.lt_of_le_of_lt (Nat.zero_le _) (colPos_lt h)

end Verif
