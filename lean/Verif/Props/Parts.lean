import Verif.Model.Parts
import Verif.Props.Arith
import Verif.Props.SparseExpr
import Verif.Lemmas.Fold3
/-
C82: real and imaginary parts.
-/
namespace Verif.Parts

open Verif Tensor Spec

variable {α : Type}

theorem toComplex2_ok (r i : Tensor α) (wf : r.WF) (h : r.data.length = i.data.length) :
    toComplex2 r i = .ok ⟨r.dims, r.data.zip i.data⟩ := by
  have hw : totalSize r.dims = r.data.length := wf.symm
  rw [toComplex2, hw, zipLoop_ok Prod.mk _ _ h]
  rfl

theorem toComplex_ok [Zero α] (r : Tensor α) (wf : r.WF) :
    toComplex r = .ok ⟨r.dims, r.data.map ofReal⟩ := by
  have hw : totalSize r.dims = r.data.length := wf.symm
  rw [toComplex, hw, mapLoop_ok]
  rfl

/-- C82: the parts have the dimensions of the tensor and its elements' parts. -/
theorem c82_parts (z : Tensor (α × α)) (wf : z.WF) :
    ∃ r i, real z = .ok r ∧ imag z = .ok i ∧ r.WF ∧ i.WF ∧ r.dims = z.dims ∧ i.dims = z.dims ∧
      ∀ idx, elem r.dims r.data idx = (elem z.dims z.data idx).map Prod.fst ∧
        elem i.dims i.data idx = (elem z.dims z.data idx).map Prod.snd := by
  obtain ⟨r, h1, h2, h3, h4⟩ := c32_unary Prod.fst z wf
  obtain ⟨i, g1, g2, g3, g4⟩ := c32_unary Prod.snd z wf
  exact ⟨r, i, h1, g1, h2, g2, h3, g3, fun idx => ⟨h4 idx, g4 idx⟩⟩

/-- C82: a complex tensor is recovered from its parts. -/
theorem c82_round_trip (z : Tensor (α × α)) (wf : z.WF) :
    (do let r ← real z
        let i ← imag z
        toComplex2 r i) = .ok z := by
  rw [real, imag, unop_ok _ z wf, Res.ok_bind, unop_ok _ z wf, Res.ok_bind,
    toComplex2_ok _ _ (by rw [Tensor.WF, List.length_map]; exact wf) (by simp)]
  have : (z.data.map Prod.fst).zip (z.data.map Prod.snd) = z.data := by
    rw [List.zip_map']
    simp only [Prod.mk.eta, List.map_id']
  rw [this]

/-- C82: the parts of a tensor which is made from parts, if these have the same dimensions.
Missing: other dimensions, which are not refused, see the negations. -/
theorem c82_make_partial (r i : Tensor α) (hr : r.WF) (hi : i.WF) (h : r.dims = i.dims) :
    ∃ z, toComplex2 r i = .ok z ∧ z.WF ∧ real z = .ok r ∧ imag z = .ok i := by
  have hl : r.data.length = i.data.length := by
    have h1 : r.data.length = totalSize r.dims := hr
    have h2 : i.data.length = totalSize i.dims := hi
    rw [h1, h2, h]
  have hwf : (⟨r.dims, r.data.zip i.data⟩ : Tensor (α × α)).WF := by
    rw [Tensor.WF, List.length_zip, ← hl, Nat.min_self]
    exact hr
  refine ⟨_, toComplex2_ok r i hr hl, hwf, ?_, ?_⟩
  · rw [real, unop_ok _ _ hwf, Res.ok.injEq]
    simp only [List.map_fst_zip (Nat.le_of_eq hl)]
  · rw [imag, unop_ok _ _ hwf, Res.ok.injEq, h]
    simp only [List.map_snd_zip (Nat.le_of_eq hl.symm)]

/-- C82 does not hold if the imaginary part has fewer elements: it is read beyond its end. -/
theorem c82_negation_short (r i : Tensor α) (hr : r.WF) (h : i.data.length < r.data.length) :
    toComplex2 r i = .ub := by
  have hw : totalSize r.dims = r.data.length := hr.symm
  rw [toComplex2, hw, runWrites_none]
  · rfl
  · refine ⟨(i.data.length, none), ?_, rfl⟩
    rw [zipLoop, List.mem_map]
    refine ⟨i.data.length, by simpa using h, ?_⟩
    rw [List.getElem?_eq_none (Nat.le_refl i.data.length)]
    cases r.data[i.data.length]? <;> rfl

/-- C82 does not hold if the imaginary part has more elements, or the same number in other dimensions:
there is no error, and the imaginary part of the result is another tensor. -/
theorem c82_negation_dimensions (r i : Tensor α) (hr : r.WF) (h : r.data.length ≤ i.data.length)
    (hd : r.dims ≠ i.dims) :
    ∃ z, toComplex2 r i = .ok z ∧ real z = .ok r ∧ ∃ j, imag z = .ok j ∧ j ≠ i ∧
      j.data = i.data.take r.data.length := by
  have hw : totalSize r.dims = r.data.length := hr.symm
  have hl : (i.data.take r.data.length).length = r.data.length := by
    rw [List.length_take, Nat.min_eq_left h]
  have he : toComplex2 r i = toComplex2 r ⟨r.dims, i.data.take r.data.length⟩ := by
    rw [toComplex2, toComplex2, hw]
    congr 1
    rw [zipLoop, zipLoop]
    congr 1
    refine List.map_congr_left fun k hk => ?_
    rw [List.mem_range] at hk
    rw [List.getElem?_take_of_lt hk]
  obtain ⟨z, h1, -, h3, h4⟩ := c82_make_partial r ⟨r.dims, i.data.take r.data.length⟩ hr
    (by rw [Tensor.WF, hl]; exact hr) rfl
  exact ⟨z, he.trans h1, h3, _, h4, fun e => hd (by rw [← e]), rfl⟩

/-- C82: a real tensor as a complex one. -/
theorem c82_embedding [Zero α] (r : Tensor α) (wf : r.WF) :
    ∃ z, toComplex r = .ok z ∧ z.WF ∧ real z = .ok r ∧ imag z = .ok (imagReal r) ∧
      toComplex2 r (imagReal r) = .ok z := by
  have hlen : (imagReal r).data.length = r.data.length := by
    have h1 : r.data.length = totalSize r.dims := wf
    rw [imagReal, Tensor.fill, List.length_replicate, h1]
  have hwf : (⟨r.dims, r.data.map ofReal⟩ : Tensor (α × α)).WF := by
    rw [Tensor.WF, List.length_map]; exact wf
  have hz : (imagReal r).data = r.data.map fun _ => (0 : α) := by
    have h1 : r.data.length = totalSize r.dims := wf
    rw [imagReal, Tensor.fill, List.map_const', h1]
  refine ⟨_, toComplex_ok r wf, hwf, ?_, ?_, ?_⟩
  · rw [real, unop_ok _ _ hwf]
    simp only [List.map_map, Function.comp_def, ofReal, List.map_id']
  · rw [imag, unop_ok _ _ hwf]
    simp only [List.map_map, Function.comp_def, ofReal]
    rw [← hz]
    rfl
  · rw [toComplex2_ok _ _ wf hlen.symm, hz]
    congr 2
    have := List.zip_map' (f := id) (g := fun _ => (0 : α)) (l := r.data)
    rw [List.map_id] at this
    exact this

/-- C82: conjugation. -/
theorem c82_conj [InvolutiveNeg α] (z : Tensor (α × α)) (wf : z.WF) :
    ∃ w, conj z = .ok w ∧ w.WF ∧ conj w = .ok z ∧ real w = real z ∧
      ∃ i, imag z = .ok i ∧ imag w = unop (- ·) i := by
  have hwf : (⟨z.dims, z.data.map conjNum⟩ : Tensor (α × α)).WF := by
    rw [Tensor.WF, List.length_map]; exact wf
  refine ⟨_, unop_ok _ z wf, hwf, ?_, ?_, _, unop_ok _ z wf, ?_⟩
  · rw [conj, unop_ok _ _ hwf]
    simp only [List.map_map, Function.comp_def, conjNum, neg_neg, Prod.mk.eta, List.map_id']
  · rw [real, unop_ok _ _ hwf, real, unop_ok _ _ wf]
    simp only [List.map_map, Function.comp_def, conjNum]
  · rw [imag, unop_ok _ _ hwf, unop_ok _ _ (by rw [Tensor.WF, List.length_map]; exact wf)]
    simp only [List.map_map, Function.comp_def, conjNum]

section sparse
variable [Zero α]

/-- C82 for sparse matrices: the parts of the matrix f are the matrices of the parts of its elements. -/
theorem c82_sparse (s : Sparse (α × α)) (r c : Nat) (f : Nat → Nat → α × α)
    (hs : IsCsr s.rows s.cols s.rowStart s.column s.data r c f) :
    (∃ u, realSp s = .ok u ∧
      IsCsr u.rows u.cols u.rowStart u.column u.data r c fun i j => (f i j).1) ∧
    (∃ u, imagSp s = .ok u ∧
      IsCsr u.rows u.cols u.rowStart u.column u.data r c fun i j => (f i j).2) :=
  ⟨Sparse.c37_map Prod.fst rfl s r c f hs, Sparse.c37_map Prod.snd rfl s r c f hs⟩

theorem c82_sparse_conj {α : Type} [SubtractionMonoid α] (s : Sparse (α × α)) (r c : Nat)
    (f : Nat → Nat → α × α) (hs : IsCsr s.rows s.cols s.rowStart s.column s.data r c f) :
    ∃ u, conjSp s = .ok u ∧
      IsCsr u.rows u.cols u.rowStart u.column u.data r c fun i j => ((f i j).1, -(f i j).2) :=
  Sparse.c37_map conjNum (by simp [conjNum]) s r c f hs

/-- C82: a real sparse matrix as a complex one; its imaginary part is the matrix zero. -/
theorem c82_sparse_embedding (s : Sparse α) (r c : Nat) (f : Nat → Nat → α)
    (hs : IsCsr s.rows s.cols s.rowStart s.column s.data r c f) :
    (∃ u, toComplexSp s = .ok u ∧
      IsCsr u.rows u.cols u.rowStart u.column u.data r c (fun i j => (f i j, 0)) ∧
      realSp u = .ok s) ∧
    IsCsr (imagRealSp s).rows (imagRealSp s).cols (imagRealSp s).rowStart (imagRealSp s).column
      (imagRealSp s).data r c fun _ _ => 0 := by
  constructor
  · obtain ⟨u, h1, h2⟩ := Sparse.c37_map ofReal rfl s r c f hs
    refine ⟨u, h1, h2, ?_⟩
    rw [Sparse.mapData, Sparse.make] at h1
    have hl := hs.2.2.1.len
    rw [Res.assert_bind, if_pos hl, Res.pure_eq, Res.ok.injEq] at h1
    rw [← h1, realSp, Sparse.mapData, Sparse.make, Res.assert_bind]
    simp only
    rw [if_pos hl]
    simp only [List.map_map, Function.comp_def, ofReal, List.map_id']
    rfl
  · rw [← hs.1, ← hs.2.1]
    exact Sparse.zeros_isCsr s.rows s.cols

/-- C82 does not hold of the comparison: imag(to_complex(s)) and imag(s) are both the matrix zero, but
they are not equal for all_equal if something is stored in s, because the former stores zeros. -/
theorem c82_negation_sparse [DecidableEq α] (s : Sparse α)
    (hs : ValidCsr s.rows s.cols s.rowStart s.column s.data) (h : s.column ≠ []) :
    ∃ z u d, toComplexSp s = .ok z ∧ imagSp z = .ok u ∧ Sparse.full u = .ok d ∧
      Sparse.full (imagRealSp s) = .ok d ∧ Sparse.allEqual u (imagRealSp s) = false := by
  obtain ⟨f, hf⟩ := Sparse.exists_isCsr s hs
  obtain ⟨⟨z, h1, h2, -⟩, h3⟩ := c82_sparse_embedding s _ _ f hf
  obtain ⟨-, u, h4, h5⟩ := c82_sparse z _ _ _ h2
  obtain ⟨d, e1, m1⟩ := Sparse.c35_full u _ _ _ h5
  obtain ⟨d', e2, m2⟩ := Sparse.c35_full _ _ _ _ h3
  refine ⟨z, u, d, h1, h4, e1, ?_, ?_⟩
  · rw [e2, IsMat.unique m2 m1 fun i j _ _ => rfl]
  · have hz : z.column = s.column := by
      rw [toComplexSp, Sparse.mapData, Sparse.make, Res.assert_bind] at h1
      split at h1
      · rw [Res.pure_eq, Res.ok.injEq] at h1
        rw [← h1]
      · cases h1
    have hu : u.column = s.column := by
      rw [imagSp, Sparse.mapData, Sparse.make, Res.assert_bind] at h4
      split at h4
      · rw [Res.pure_eq, Res.ok.injEq] at h4
        rw [← h4]
        exact hz
      · cases h4
    have hne : ¬ u.column = (imagRealSp s).column := by
      rw [hu]
      exact h
    rw [Sparse.allEqual]
    simp [hne]

end sparse

/-! The hypotheses can be met. -/

example : (⟨[2, 1], [(1, 2), (3, 4)]⟩ : Tensor (Int × Int)).WF := by decide
example : toComplex2 (⟨[2], [1, 3]⟩ : Tensor Int) ⟨[2], [2, 4]⟩ = .ok ⟨[2], [(1, 2), (3, 4)]⟩ := by decide
example : (⟨[2], [1, 3]⟩ : Tensor Int).WF ∧ ([2] : List Int).length < ([1, 3] : List Int).length := by
  decide
example : (⟨[2], [1, 3]⟩ : Tensor Int).WF ∧ (⟨[2, 1], [1, 3]⟩ : Tensor Int).WF ∧
    ([2] : List Nat) ≠ [2, 1] := by decide
example : ∃ s : Sparse Int, IsCsr s.rows s.cols s.rowStart s.column s.data 2 2
    (fun i j => if i = j then 1 else 0) := (Sparse.c36_eye 2 2).imp fun _ h => h.2

end Verif.Parts
