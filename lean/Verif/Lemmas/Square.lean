import Verif.Lemmas.Matrix
import Verif.Spec.Expm
import Mathlib.Data.Matrix.Mul
/-
Lemmas for tensors which are square matrices.
-/
namespace Verif.Tensor

open Verif Spec

variable {α : Type} {m : Nat}

/-- The entries of a matrix with natural indices. -/
def ext [Zero α] (F : Matrix (Fin m) (Fin m) α) (i j : Nat) : α :=
  if h : i < m ∧ j < m then F ⟨i, h.1⟩ ⟨j, h.2⟩ else 0

theorem ext_fin [Zero α] (F : Matrix (Fin m) (Fin m) α) (i j : Fin m) : ext F i j = F i j := by
  rw [ext, dif_pos ⟨i.2, j.2⟩]

theorem _root_.Verif.Spec.IsSq.isMat [Zero α] {t : Tensor α} {F : Matrix (Fin m) (Fin m) α} (h : IsSq t F) :
    IsMat t.dims t.data m m (ext F) :=
  ⟨h.1, h.2.1, fun i j hi hj => by
    have := h.2.2 ⟨i, hi⟩ ⟨j, hj⟩
    rw [this, ← ext_fin F ⟨i, hi⟩ ⟨j, hj⟩]⟩

theorem _root_.Verif.Spec.IsMat.isSq {t : Tensor α} {f : Nat → Nat → α} {F : Matrix (Fin m) (Fin m) α}
    (h : IsMat t.dims t.data m m f) (e : ∀ i j : Fin m, f i j = F i j) : IsSq t F :=
  ⟨h.1, h.2.1, fun i j => by rw [h.2.2 i j i.2 j.2, e]⟩

theorem _root_.Verif.Spec.IsSq.wf {t : Tensor α} {F : Matrix (Fin m) (Fin m) α} (h : IsSq t F) : t.WF := by
  show t.data.length = totalSize t.dims
  rw [h.1, h.2.1]; simp

theorem _root_.Verif.Spec.IsSq.unique {t : Tensor α} {F G : Matrix (Fin m) (Fin m) α} (h : IsSq t F)
    (h' : IsSq t G) : F = G := by
  funext i j
  have := (h.2.2 i j).symm.trans (h'.2.2 i j)
  exact Option.some.inj this

theorem exists_isSq [Zero α] (t : Tensor α) (wf : t.WF) (hd : t.dims = [m, m]) :
    ∃ F : Matrix (Fin m) (Fin m) α, IsSq t F := by
  obtain ⟨f, hf⟩ := exists_isMat t wf m m hd
  exact ⟨fun i j => f i j, hf.isSq fun _ _ => rfl⟩

theorem mmult_isSq [CommSemiring α] {a b : Tensor α} {F G : Matrix (Fin m) (Fin m) α} (ha : IsSq a F)
    (hb : IsSq b G) (hm : m ≠ 0) : ∃ t, mmult a b = .ok t ∧ IsSq t (F * G) := by
  obtain ⟨t, e, h⟩ := mmult_isMat ha.isMat hb.isMat hm
  refine ⟨t, e, h.isSq fun i j => ?_⟩
  rw [Matrix.mul_apply, Finset.sum_range]
  exact Finset.sum_congr rfl fun l _ => by rw [ext_fin, ext_fin]

theorem add_isSq [AddGroup α] {a b : Tensor α} {F G : Matrix (Fin m) (Fin m) α} (ha : IsSq a F)
    (hb : IsSq b G) : ∃ t, binopTT (· + ·) a b = .ok t ∧ IsSq t (F + G) := by
  obtain ⟨t, e, h⟩ := binop_isMat (· + ·) ha.isMat hb.isMat
  exact ⟨t, e, h.isSq fun i j => by rw [ext_fin, ext_fin, Matrix.add_apply]⟩

theorem sub_isSq [AddGroup α] {a b : Tensor α} {F G : Matrix (Fin m) (Fin m) α} (ha : IsSq a F)
    (hb : IsSq b G) : ∃ t, binopTT (· - ·) a b = .ok t ∧ IsSq t (F - G) := by
  obtain ⟨t, e, h⟩ := binop_isMat (· - ·) ha.isMat hb.isMat
  exact ⟨t, e, h.isSq fun i j => by rw [ext_fin, ext_fin, Matrix.sub_apply]⟩

theorem unop_isSq {β : Type} (f : α → β) {a : Tensor α} {F : Matrix (Fin m) (Fin m) α} (ha : IsSq a F) :
    ∃ t, unop f a = .ok t ∧ IsSq t (F.map f) := by
  refine ⟨_, unop_ok f a ha.wf, ha.1, by rw [List.length_map, ha.2.1], fun i j => ?_⟩
  rw [elem_map, ha.2.2 i j, Option.map_some, Matrix.map_apply]

theorem smul_isSq [CommSemiring α] (c : α) {a : Tensor α} {F : Matrix (Fin m) (Fin m) α} (ha : IsSq a F) :
    ∃ t, binopNT (· * ·) c a = .ok t ∧ IsSq t (c • F) :=
  unop_isSq (fun x => c * x) ha

theorem div_isSq [Field α] (c : α) {a : Tensor α} {F : Matrix (Fin m) (Fin m) α} (ha : IsSq a F) :
    ∃ t, binopTN (· / ·) a c = .ok t ∧ IsSq t (c⁻¹ • F) := by
  obtain ⟨t, e, h⟩ := unop_isSq (fun x => x / c) ha
  refine ⟨t, e, ?_⟩
  have : F.map (fun x => x / c) = c⁻¹ • F := by
    funext i j
    simp [div_eq_inv_mul]
  rwa [← this]

theorem eye_isSq [Zero α] [One α] : ∃ t : Tensor α, eye m m = .ok t ∧ IsSq t (1 : Matrix (Fin m) (Fin m) α) := by
  obtain ⟨t, e, h⟩ := eye_isMat (α := α) m m
  refine ⟨t, e, h.isSq fun i j => ?_⟩
  rw [Matrix.one_apply]
  simp only [Fin.ext_iff]

end Verif.Tensor
