import Verif.Lemmas.Res
import Verif.Lemmas.Indices
import Verif.Lemmas.Access
import Verif.Model.Arith
/-
Lemmas for elementwise arithmetic.
-/
namespace Verif.Tensor

open Verif Spec

variable {α β γ : Type}

theorem runWrites_range (l : List γ) (g : Nat → Option γ) (h : ∀ i < l.length, g i = l[i]?) :
    runWrites l.length ((List.range l.length).map fun i => (i, g i)) = .ok l := by
  apply Indices.runWrites_list
  · intro w hw
    simp only [List.mem_map, List.mem_range] at hw
    obtain ⟨i, hi, rfl⟩ := hw
    simp only
    rw [h i hi]
    exact ⟨by simp [hi], rfl⟩
  · intro p hp
    exact ⟨(p, g p), by simp only [List.mem_map, List.mem_range]; exact ⟨p, hp, rfl⟩, rfl⟩

theorem zipLoop_ok (f : α → β → γ) (a : List α) (b : List β) (h : a.length = b.length) :
    runWrites a.length (zipLoop f a b a.length) = .ok (List.zipWith f a b) := by
  have hl : (List.zipWith f a b).length = a.length := by simp [h]
  rw [← hl]
  apply runWrites_range
  intro i hi
  rw [hl] at hi
  have hb : i < b.length := by omega
  simp [hi, hb]

theorem mapLoop_ok (f : α → γ) (a : List α) :
    runWrites a.length (mapLoop f a a.length) = .ok (a.map f) := by
  have hl : (a.map f).length = a.length := by simp
  rw [← hl]
  apply runWrites_range
  intro i hi
  simp

theorem binopTT_ok (f : α → β → γ) (a : Tensor α) (b : Tensor β) (wf : a.WF)
    (h : a.data.length = b.data.length) :
    binopTT f a b = .ok ⟨a.dims, List.zipWith f a.data b.data⟩ := by
  have hw : totalSize a.dims = a.data.length := wf.symm
  simp [binopTT, size, h, Res.assert_bind, hw]
  rw [← h, zipLoop_ok f _ _ h]
  rfl

theorem binopMixed_ok (f : α → β → γ) (a : Tensor α) (b : Tensor β) (wfa : a.WF) (wfb : b.WF)
    (h : a.dims = b.dims) :
    binopMixed f a b = .ok ⟨a.dims, List.zipWith f a.data b.data⟩ := by
  have hw : totalSize a.dims = a.data.length := wfa.symm
  have hb : a.data.length = b.data.length := by
    have h1 : a.data.length = totalSize a.dims := wfa
    have h2 : b.data.length = totalSize b.dims := wfb
    rw [h1, h2, h]
  simp only [binopMixed, size, Res.assert_bind, h, if_true]
  rw [← h, hw, zipLoop_ok f _ _ hb]
  rfl

theorem unop_ok (f : α → γ) (a : Tensor α) (wf : a.WF) : unop f a = .ok ⟨a.dims, a.data.map f⟩ := by
  have hw : totalSize a.dims = a.data.length := wf.symm
  simp only [unop, size, hw, mapLoop_ok]
  rfl

theorem elem_map (f : α → γ) (dims : List Nat) (l : List α) (idx : List Nat) :
    elem dims (l.map f) idx = (elem dims l idx).map f := by
  unfold elem
  split <;> simp

theorem elem_zipWith (f : α → β → γ) (dims : List Nat) (a : List α) (b : List β) (idx : List Nat)
    (x : α) (y : β) (hx : elem dims a idx = some x) (hy : elem dims b idx = some y) :
    elem dims (List.zipWith f a b) idx = some (f x y) := by
  unfold elem at *
  split at hx
  · rename_i h
    rw [if_pos h] at hy ⊢
    simp [List.getElem?_zipWith, hx, hy]
  · simp at hx

theorem set_take_drop {l : List α} {i : Nat} (x : α) (h : i < l.length) :
    l.set i x = l.take i ++ x :: l.drop (i + 1) := by
  rw [List.set_eq_take_append_cons_drop, if_pos h]

/-- The in-place loop, when the operands are different variables. -/
theorem inplaceLoop_other (f : α → α → α) (b : List α) (pre suf pre' suf' : List α)
    (hp : pre'.length = pre.length) (hs : suf'.length = suf.length) (hb : b = pre' ++ suf') :
    inplaceLoop f (some b) (pre ++ suf) pre.length suf.length =
      .ok (pre ++ List.zipWith f suf suf') := by
  induction suf generalizing pre pre' suf' with
  | nil =>
    cases suf' with
    | nil => simp [inplaceLoop]
    | cons => simp at hs
  | cons x xs ih =>
    cases suf' with
    | nil => simp at hs
    | cons y ys =>
      subst hb
      have h1 : (pre ++ x :: xs)[pre.length]? = some x := by simp
      have h2 : (pre' ++ y :: ys)[pre.length]? = some y := by simp [← hp]
      simp only [List.length_cons, inplaceLoop, Option.getD_some, h1, h2, Res.ofOption_some,
        Res.ok_bind]
      have := ih (pre ++ [f x y]) (pre' ++ [y]) ys (by simp [hp]) (by simpa using hs) (by simp)
      simp only [List.append_assoc, List.singleton_append, List.length_append,
        List.length_cons, List.length_nil, Nat.zero_add] at this
      rw [show (pre ++ x :: xs).set pre.length (f x y) = pre ++ f x y :: xs by simp, this]
      rfl

/-- The in-place loop, when the operands are the same variable. -/
theorem inplaceLoop_same (f : α → α → α) (pre suf : List α) :
    inplaceLoop f none (pre ++ suf) pre.length suf.length =
      .ok (pre ++ suf.map fun x => f x x) := by
  induction suf generalizing pre with
  | nil => simp [inplaceLoop]
  | cons x xs ih =>
    have h1 : (pre ++ x :: xs)[pre.length]? = some x := by simp
    simp only [List.length_cons, inplaceLoop, Option.getD_none, h1, Res.ofOption_some,
      Res.ok_bind]
    have := ih (pre ++ [f x x])
    simp only [List.append_assoc, List.singleton_append, List.length_append,
      List.length_cons, List.length_nil, Nat.zero_add] at this
    rw [show (pre ++ x :: xs).set pre.length (f x x) = pre ++ f x x :: xs by simp, this]
    rfl

theorem inplaceTNLoop_val (f : α → α → α) (v : α) (pre suf : List α) :
    inplaceTNLoop f (.val v) (pre ++ suf) pre.length suf.length =
      .ok (pre ++ suf.map fun x => f x v) := by
  induction suf generalizing pre with
  | nil => simp [inplaceTNLoop]
  | cons x xs ih =>
    have h1 : (pre ++ x :: xs)[pre.length]? = some x := by simp
    simp only [List.length_cons, inplaceTNLoop, NumRef.read, h1, Res.ofOption_some, Res.ok_bind]
    have := ih (pre ++ [f x v])
    simp only [List.append_assoc, List.singleton_append, List.length_append,
      List.length_cons, List.length_nil, Nat.zero_add] at this
    rw [show (pre ++ x :: xs).set pre.length (f x v) = pre ++ f x v :: xs by simp, this]
    rfl

end Verif.Tensor
