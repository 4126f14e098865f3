import Verif.Lemmas.Fold3
import Verif.Props.Access
import Verif.Props.Permute
/-
Lemmas for matrices given by their entries.
-/
namespace Verif.Tensor

open Verif Spec

variable {α : Type}

theorem _root_.Verif.Spec.IsMat.wf {t : Tensor α} {r c : Nat} {f : Nat → Nat → α} (h : IsMat t.dims t.data r c f) :
    t.WF := by
  obtain ⟨hd, hl, -⟩ := h
  show t.data.length = totalSize t.dims
  rw [hd, hl]; simp

/-- A matrix is given by its entries. -/
theorem _root_.Verif.Spec.IsMat.unique {t t' : Tensor α} {r c : Nat} {f g : Nat → Nat → α}
    (h : IsMat t.dims t.data r c f) (h' : IsMat t'.dims t'.data r c g)
    (e : ∀ i j, i < r → j < c → f i j = g i j) : t = t' := by
  apply ext_elem (IsMat.wf h) (IsMat.wf (t := t') h') (by rw [h.1, h'.1])
  intro idx hidx
  rw [h.1] at hidx
  obtain ⟨i, j, rfl, hi, hj⟩ := inB2 hidx
  rw [h.2.2 i j hi hj, h'.2.2 i j hi hj, e i j hi hj]

theorem _root_.Verif.Spec.IsMat.congr {t : Tensor α} {r c : Nat} {f g : Nat → Nat → α}
    (h : IsMat t.dims t.data r c f) (e : ∀ i j, i < r → j < c → f i j = g i j) :
    IsMat t.dims t.data r c g :=
  ⟨h.1, h.2.1, fun i j hi hj => by rw [h.2.2 i j hi hj, e i j hi hj]⟩

theorem exists_isMat [Zero α] (t : Tensor α) (wf : t.WF) (r c : Nat) (hd : t.dims = [r, c]) :
    ∃ f, IsMat t.dims t.data r c f := by
  refine ⟨fun i j => (elem t.dims t.data [i, j]).getD 0, hd, ?_, ?_⟩
  · rw [wf.length_eq (by simp [hd]), hd]; simp
  · intro i j hi hj
    obtain ⟨v, e, -⟩ := elem_some wf (js := [i, j]) (by rw [hd]; simp [hi, hj]) (by simp)
    simp [e]

theorem isMat_of_elem {t : Tensor α} (wf : t.WF) {r c : Nat} (hd : t.dims = [r, c])
    {f : Nat → Nat → α} (h : ∀ i j, i < r → j < c → elem t.dims t.data [i, j] = some (f i j)) :
    IsMat t.dims t.data r c f :=
  ⟨hd, by rw [wf.length_eq (by simp [hd]), hd]; simp, h⟩

theorem fill_isMat (r c : Nat) (v : α) :
    IsMat (fill [r, c] v).dims (fill [r, c] v).data r c fun _ _ => v :=
  ⟨rfl, by simp [fill], fun i j hi hj => (c06_fill [r, c] v [i, j] (by simp) (by simp [hi, hj])).2⟩

theorem norm_nat {d i : Nat} (h : i < d) : norm d (i : Int) = some i := by
  rw [c04_norm]; omega

theorem normAll2 {r c i j : Nat} (hi : i < r) (hj : j < c) :
    normAll [r, c] [(i : Int), (j : Int)] = some [i, j] := by
  simp [normAll, norm_nat hi, norm_nat hj]

theorem set2_isMat {t : Tensor α} {r c : Nat} {f : Nat → Nat → α}
    (h : IsMat t.dims t.data r c f) (i j : Nat) (hi : i < r) (hj : j < c) (v : α) :
    ∃ t', t.set2 i j v = .ok t' ∧
      IsMat t'.dims t'.data r c fun a b => if a = i ∧ b = j then v else f a b := by
  obtain ⟨t', e, hd, wf, h1, h2⟩ := (c05_write t (IsMat.wf h) [(i : Int), (j : Int)] v (by simp)
    (by simp)).1 [i, j] (by rw [h.1]; exact normAll2 hi hj)
  refine ⟨t', e, isMat_of_elem wf (by rw [hd, h.1]) ?_⟩
  intro a b ha hb
  by_cases hab : a = i ∧ b = j
  · obtain ⟨rfl, rfl⟩ := hab
    simp [h1]
  · rw [if_neg hab, h2 [a, b] (by simpa using hab), h.2.2 a b ha hb]

theorem eyeLoop_isMat [One α] (r c n i : Nat) (t : Tensor α) (f : Nat → Nat → α)
    (h : IsMat t.dims t.data r c f) (hr : i + n ≤ r) (hc : i + n ≤ c) :
    ∃ t', eyeLoop t i n = .ok t' ∧
      IsMat t'.dims t'.data r c fun a b => if a = b ∧ i ≤ a ∧ a < i + n then 1 else f a b := by
  induction n generalizing i t f with
  | zero =>
    exact ⟨t, rfl, h.congr fun a b _ _ => by rw [if_neg (by omega)]⟩
  | succ n ih =>
    obtain ⟨t1, e1, h1⟩ := set2_isMat h i i (by omega) (by omega) 1
    obtain ⟨t', e', h'⟩ := ih (i + 1) t1 _ h1 (by omega) (by omega)
    refine ⟨t', by simp [eyeLoop, e1, e'], h'.congr ?_⟩
    intro a b _ _
    by_cases hab : a = b
    · subst hab
      by_cases hai : a = i
      · subst hai; simp
      · by_cases hlt : i ≤ a ∧ a < i + (n + 1)
        · rw [if_pos ⟨rfl, by omega, by omega⟩, if_pos ⟨rfl, hlt⟩]
        · rw [if_neg (by omega), if_neg (by omega), if_neg (by omega)]
    · rw [if_neg (by omega), if_neg (by omega), if_neg (by omega)]

theorem eye_isMat [Zero α] [One α] (r c : Nat) :
    ∃ t : Tensor α, eye r c = .ok t ∧
      IsMat t.dims t.data r c fun a b => if a = b then 1 else 0 := by
  obtain ⟨t, e, h⟩ := eyeLoop_isMat r c (min r c) 0 _ _ (fill_isMat r c (0 : α)) (by omega) (by omega)
  refine ⟨t, e, h.congr ?_⟩
  intro a b ha hb
  by_cases hab : a = b
  · rw [if_pos hab, if_pos ⟨hab, by omega, by omega⟩]
  · rw [if_neg hab, if_neg (by omega)]

theorem transpose_isMat {t : Tensor α} {r c : Nat} {f : Nat → Nat → α}
    (h : IsMat t.dims t.data r c f) :
    ∃ t', transpose t = .ok t' ∧ IsMat t'.dims t'.data c r fun i j => f j i := by
  obtain ⟨b, e, wf, hd, hel⟩ := (c18_transpose t (IsMat.wf h)).1 r c h.1
  refine ⟨b, e, isMat_of_elem wf hd ?_⟩
  intro i j hi hj
  rw [hel j i hj hi, h.2.2 j i hj hi]

theorem adjoint_isMat (conj : α → α) {t : Tensor α} {r c : Nat} {f : Nat → Nat → α}
    (h : IsMat t.dims t.data r c f) :
    ∃ t', adjoint conj t = .ok t' ∧ IsMat t'.dims t'.data c r fun i j => conj (f j i) := by
  obtain ⟨b, e, wf, hd, hel⟩ := (c18_adjoint conj t (IsMat.wf h)).1 r c h.1
  refine ⟨b, e, isMat_of_elem wf hd ?_⟩
  intro i j hi hj
  rw [hel j i hj hi, h.2.2 j i hj hi]; rfl

theorem binop_isMat {β γ : Type} (op : α → β → γ) {a : Tensor α} {b : Tensor β} {r c : Nat}
    {f : Nat → Nat → α} {g : Nat → Nat → β} (ha : IsMat a.dims a.data r c f)
    (hb : IsMat b.dims b.data r c g) :
    ∃ t : Tensor γ, binopTT op a b = .ok t ∧ IsMat t.dims t.data r c fun i j => op (f i j) (g i j) := by
  refine ⟨_, binopTT_ok op a b (IsMat.wf ha) (by rw [ha.2.1, hb.2.1]), ha.1, ?_, ?_⟩
  · simp [ha.2.1, hb.2.1]
  · intro i j hi hj
    exact elem_zipWith op _ _ _ _ _ _ (ha.2.2 i j hi hj)
      (by have := hb.2.2 i j hi hj; rw [hb.1] at this; rw [ha.1]; exact this)

theorem mmult_isMat [CommSemiring α] {a b : Tensor α} {m n p : Nat} {f g : Nat → Nat → α}
    (ha : IsMat a.dims a.data m n f) (hb : IsMat b.dims b.data n p g) (hn : n ≠ 0) :
    ∃ t, mmult a b = .ok t ∧
      IsMat t.dims t.data m p fun i j => ∑ l ∈ Finset.range n, f i l * g l j := by
  obtain ⟨c, e, wf, hd, hel⟩ := doFold_elem (RingHom.id α) (fun _ => rfl) false a b
    (IsMat.wf ha) (IsMat.wf hb) [m] [] [] [p] n (-1) 0 ha.1 hb.1
    (by rw [ha.1]; simp [norm]) (by rw [hb.1]; simp [norm]) hn
  refine ⟨c, e, isMat_of_elem wf hd ?_⟩
  intro i j hi hj
  have := hel [i] [] [] [j] (by simp [hi]) trivial trivial (by simp [hj]) (fun l => f i l)
    (fun l => g l j) (fun l hl => ha.2.2 i l hi hl) (fun l hl => hb.2.2 l j hl hj)
  simpa [outIdx] using this

end Verif.Tensor
