import Verif.Props.TraceFold
import Verif.Props.FloatReduce
import Verif.Props.Arith
import Mathlib.Data.Complex.Basic
/-
C139: functions of tensors and conversions of their elements.
-/
namespace Verif.Convert

open Verif Verif.Spec Verif.Tensor

variable {α β : Type}

/-- The tensor of the converted elements. -/
def conv (φ : α → β) (t : Tensor α) : Tensor β := ⟨t.dims, t.data.map φ⟩

theorem conv_wf {φ : α → β} {t : Tensor α} (wf : t.WF) : (conv φ t).WF := by
  show (t.data.map φ).length = totalSize t.dims
  rw [List.length_map]; exact wf

theorem conv_elem {φ : α → β} {t : Tensor α} {x : List Nat} {v : α} (h : elem t.dims t.data x = some v) :
    elem (conv φ t).dims (conv φ t).data x = some (φ v) := by
  show elem t.dims (t.data.map φ) x = _
  rw [Tensor.elem_map, h]
  rfl

theorem unop_conv (φ : α → β) {t : Tensor α} (wf : t.WF) : unop φ t = .ok (conv φ t) := unop_ok φ t wf

/-- C139: contractions of converted tensors. -/
theorem c139_fold [CommSemiring α] [CommSemiring β] (φ : α →+* β) (a b : Tensor α) (wfa : a.WF) (wfb : b.WF) (i j : Int) :
    (do let a' ← unop φ a; let b' ← unop φ b; fold a' i b' j) = (do let c ← fold a i b j; unop φ c) := by
  rw [unop_conv φ wfa, unop_conv φ wfb, Res.ok_bind, Res.ok_bind]
  rcases hi : Spec.norm a.dims.length i with _ | n
  · rw [c19_fold_positions a b i j (.inl hi), c19_fold_positions (conv φ a) (conv φ b) i j (.inl hi)]; rfl
  rcases hj : Spec.norm b.dims.length j with _ | m
  · rw [c19_fold_positions a b i j (.inr hj), c19_fold_positions (conv φ a) (conv φ b) i j (.inr hj)]; rfl
  obtain ⟨P, L, Q, hda, ha⟩ := c19_fold_covers a i n hi
  obtain ⟨R, L', S, hdb, hb⟩ := c19_fold_covers b j m hj
  obtain ⟨h1, h2⟩ := c19_fold a b wfa wfb i j P Q R S L L' hda hdb ha hb
  obtain ⟨h1', h2'⟩ := c19_fold (conv φ a) (conv φ b) (conv_wf wfa) (conv_wf wfb) i j P Q R S L L' hda hdb ha hb
  by_cases h : L ≠ L' ∨ L = 0
  · rw [h2 h, h2' h]; rfl
  push Not at h
  obtain ⟨c, e, wf, hd, hc⟩ := h1 h.1 h.2
  obtain ⟨c', e', wf', hd', hc'⟩ := h1' h.1 h.2
  rw [e, e', Res.ok_bind, unop_conv φ wf]
  rw [ext_elem wf' (conv_wf (φ := φ) wf) (by rw [hd']; exact hd.symm) fun idx hidx => ?_]
  rw [hd'] at hidx
  obtain ⟨x, hx, rfl⟩ := outIdx_of_inB hidx
  obtain ⟨y, z, rfl, hy, hz⟩ := inB_append_split hx
  obtain ⟨p, q, rfl, hp, hq⟩ := inB_append_split hy
  obtain ⟨r, s, rfl, hr, hs⟩ := inB_append_split hz
  obtain ⟨F, hF⟩ := total a wfa (by rw [hda]; simp)
  obtain ⟨G, hG⟩ := total b wfb (by rw [hdb]; simp)
  have kF : ∀ l < L, elem a.dims a.data (p ++ l :: q) = some (F (p ++ l :: q)) := fun l hl =>
    hF _ (by rw [hda]; exact hp.append ⟨hl, hq⟩)
  have kG : ∀ l < L, elem b.dims b.data (r ++ l :: s) = some (G (r ++ l :: s)) := fun l hl =>
    hG _ (by rw [hdb, ← h.1]; exact hr.append ⟨hl, hs⟩)
  rw [hc' p q r s hp hq hr hs (fun l => φ (F (p ++ l :: q))) (fun l => φ (G (r ++ l :: s)))
      (fun l hl => conv_elem (kF l hl)) (fun l hl => conv_elem (kG l hl)),
    conv_elem (hc p q r s hp hq hr hs _ _ kF kG), map_sum]
  simp only [map_mul]

/-- C139: products of matrices. -/
theorem c139_mmult [CommSemiring α] [CommSemiring β] (φ : α →+* β) (a b : Tensor α) (wfa : a.WF) (wfb : b.WF) :
    (do let a' ← unop φ a; let b' ← unop φ b; mmult a' b') = (do let c ← mmult a b; unop φ c) :=
  c139_fold φ a b wfa wfb (-1) 0

/-- C139: traces over two indices. -/
theorem c139_trace2 [AddCommMonoid α] [AddCommMonoid β] (φ : α →+ β) (a : Tensor α) (wf : a.WF) (i j : Int) :
    (do let a' ← unop φ a; trace2 a' i j) = (do let c ← trace2 a i j; unop φ c) := by
  rw [unop_conv φ wf, Res.ok_bind]
  by_cases hb : ((Spec.norm a.dims.length i = none ∨ Spec.norm a.dims.length j = none ∨
      Spec.norm a.dims.length i = Spec.norm a.dims.length j) ∨ i = -(a.dims.length : Int) ∨ j = -(a.dims.length : Int))
  · rcases hb with h | rfl | rfl
    · rw [c25_trace_positions a i j h, c25_trace_positions (conv φ a) i j h]; rfl
    · rw [c25_trace_minus_rank a]; exact c25_trace_minus_rank (conv φ a) j
    · rw [c134_trace_symmetric a, c134_trace_symmetric (conv φ a), c25_trace_minus_rank a]
      exact c25_trace_minus_rank (conv φ a) i
  · push Not at hb
    obtain ⟨⟨hi, hj, hne⟩, hir, hjr⟩ := hb
    obtain ⟨n, hi⟩ := Option.ne_none_iff_exists'.1 hi
    obtain ⟨m, hj⟩ := Option.ne_none_iff_exists'.1 hj
    obtain ⟨P, A, Q, B, R, hD, hpos⟩ := c25_trace_covers a i j n m hi hj (by rintro rfl; exact hne (hi.trans hj.symm))
    obtain ⟨c, e, wfc, hd, hc⟩ := c25_trace a wf i j P Q R A B hD hir hjr hpos
    obtain ⟨c', e', wfc', hd', hc'⟩ := c25_trace (conv φ a) (conv_wf wf) i j P Q R A B hD hir hjr hpos
    rw [e, e', Res.ok_bind, unop_conv φ wfc]
    rw [ext_elem wfc' (conv_wf (φ := φ) wfc) (by rw [hd']; exact hd.symm) fun idx hidx => ?_]
    rw [hd'] at hidx
    obtain ⟨x, hx, rfl⟩ := outIdx_of_inB hidx
    obtain ⟨y, r, rfl, hy, hr⟩ := inB_append_split hx
    obtain ⟨p, q, rfl, hp, hq⟩ := inB_append_split hy
    obtain ⟨F, hF⟩ := total a wf (by rw [hD]; simp)
    have kF : ∀ l < min A B, elem a.dims a.data (p ++ l :: (q ++ l :: r)) = some (F (p ++ l :: (q ++ l :: r))) :=
      fun l hl => hF _ (by rw [hD]; exact hp.append ⟨by omega, hq.append ⟨by omega, hr⟩⟩)
    rw [hc' p q r hp hq hr (fun l => φ (F (p ++ l :: (q ++ l :: r)))) (fun l hl => conv_elem (kF l hl)),
      conv_elem (hc p q r hp hq hr _ kF), map_sum]

/-- C139: permute, for any conversion. -/
theorem c139_permute (φ : α → β) (a : Tensor α) (wf : a.WF) (i j : Int) :
    (do let a' ← unop φ a; permute a' i j) = (do let c ← permute a i j; unop φ c) := by
  rw [unop_conv φ wf, Res.ok_bind]
  rcases hi : Spec.norm a.dims.length i with _ | n
  · rw [(c17_permute a wf i j).2 (.inl hi), (c17_permute (conv φ a) (conv_wf wf) i j).2 (.inl hi)]; rfl
  rcases hj : Spec.norm a.dims.length j with _ | m
  · rw [(c17_permute a wf i j).2 (.inr hj), (c17_permute (conv φ a) (conv_wf wf) i j).2 (.inr hj)]; rfl
  obtain ⟨c, e, wfc, hd, hc⟩ := permute_get a wf hi hj
  obtain ⟨c', e', wfc', hd', hc'⟩ := permute_get (conv φ a) (conv_wf wf) (i := i) (j := j) hi hj
  rw [e, e', Res.ok_bind, unop_conv φ wfc]
  rw [ext_elem wfc' (conv_wf (φ := φ) wfc) (by rw [hd']; exact hd.symm) fun idx hidx => ?_]
  rw [(hc' idx hidx).2]
  show elem a.dims (a.data.map φ) _ = elem c.dims (c.data.map φ) _
  rw [Tensor.elem_map, Tensor.elem_map, (hc idx (by rw [hd]; rw [hd'] at hidx; exact hidx)).2]

/-- C139: transposes. -/
theorem c139_transpose (φ : α → β) (a : Tensor α) (wf : a.WF) :
    (do let a' ← unop φ a; transpose a') = (do let c ← transpose a; unop φ c) := by
  rw [unop_conv φ wf, Res.ok_bind]
  by_cases h2 : a.dims.length = 2
  · obtain ⟨r, c, hd⟩ : ∃ r c, a.dims = [r, c] := by
      match a.dims, h2 with
      | [r, c], _ => exact ⟨r, c, rfl⟩
    obtain ⟨b, e, wfb, hdb, hb⟩ := (c18_transpose a wf).1 r c hd
    obtain ⟨b', e', wfb', hdb', hb'⟩ := (c18_transpose (conv φ a) (conv_wf wf)).1 r c hd
    rw [e, e', Res.ok_bind, unop_conv φ wfb]
    rw [ext_elem wfb' (conv_wf (φ := φ) wfb) (by rw [hdb']; exact hdb.symm) fun idx hidx => ?_]
    rw [hdb'] at hidx
    obtain ⟨y, x, rfl, hy, hx⟩ : ∃ y x, idx = [y, x] ∧ y < c ∧ x < r := by
      match idx, hidx with
      | [y, x], h => exact ⟨y, x, rfl, h.1, h.2.1⟩
    rw [hb' x y hx hy]
    show elem a.dims (a.data.map φ) _ = elem b.dims (b.data.map φ) _
    rw [Tensor.elem_map, Tensor.elem_map, hb x y hx hy]
  · rw [(c18_transpose a wf).2 h2, (c18_transpose (conv φ a) (conv_wf wf)).2 h2]; rfl

theorem foldl_map [AddCommMonoid α] [AddCommMonoid β] (φ : α →+ β) (l : List α) (s : α) :
    (l.map φ).foldl (· + ·) (φ s) = φ (l.foldl (· + ·) s) := by
  induction l generalizing s with
  | nil => rfl
  | cons x l ih => rw [List.map_cons, List.foldl_cons, List.foldl_cons, ← map_add, ih]

/-- C139: sums of all elements. -/
theorem c139_sum [AddCommMonoid α] [AddCommMonoid β] (φ : α →+ β) (a : Tensor α) (wf : a.WF) :
    (do let a' ← unop φ a; pure (sumAll a')) = .ok (φ (sumAll a)) := by
  rw [unop_conv φ wf]
  show Res.ok (sumAll (conv φ a)) = _
  have := foldl_map φ a.data 0
  rw [map_zero] at this
  exact congrArg Res.ok this

/-- A scalar product as a sum of products. -/
theorem scprod_list {α : Type} [Zero α] [Add α] [Mul α] (conj : α → α) (a b : Tensor α)
    (h : a.data.length ≤ b.data.length) :
    scprod conj a b = .ok ((List.zipWith (fun x y => x * conj y) a.data b.data).foldl (· + ·) 0) := by
  have e : a.data.zipIdx.map (fun (x, i) => (do
      let y ← b.data[i]?
      pure (x * conj y) : Option α)) =
      (List.zipWith (fun x y => x * conj y) a.data b.data).map some := by
    apply List.ext_getElem?
    intro i
    by_cases hi : i < a.data.length
    · have hb : i < b.data.length := by omega
      simp [List.getElem?_zipWith, hi, hb]
    · rw [List.getElem?_eq_none (by simp; omega), List.getElem?_eq_none (by simp; omega)]
  have key : ∀ (l : List α) z, accum z (l.map some) = some (l.foldl (· + ·) z) := by
    intro l
    induction l with
    | nil => intro z; rfl
    | cons x xs ih => intro z; simp [accum, ih]
  rw [scprod, e, key]
  rfl

/-- C139: scalar products, also if the second tensor is too small. -/
theorem c139_scprod [CommSemiring α] [CommSemiring β] (φ : α →+* β) (conj : α → α) (conj' : β → β)
    (h : ∀ x, conj' (φ x) = φ (conj x)) (a b : Tensor α) (wfa : a.WF) (wfb : b.WF) :
    (do let a' ← unop φ a; let b' ← unop φ b; scprod conj' a' b') = (do let c ← scprod conj a b; pure (φ c)) := by
  rw [unop_conv φ wfa, unop_conv φ wfb, Res.ok_bind, Res.ok_bind]
  rcases Nat.lt_or_ge b.data.length a.data.length with hl | hl
  · rw [c33_scprod_out_of_bounds conj a b hl, c33_scprod_out_of_bounds conj' (conv φ a) (conv φ b)
      (by simpa [conv] using hl)]
    rfl
  · rw [scprod_list conj a b hl, scprod_list conj' (conv φ a) (conv φ b) (by simpa [conv] using hl), Res.ok_bind]
    have := foldl_map φ.toAddMonoidHom (List.zipWith (fun x y => x * conj y) a.data b.data) 0
    rw [map_zero] at this
    refine congrArg Res.ok (Eq.trans ?_ this)
    congr 1
    show List.zipWith (fun x y => x * conj' y) (a.data.map φ) (b.data.map φ) = _
    rw [List.zipWith_map, List.map_zipWith]
    congr 1
    funext x y
    show φ x * conj' (φ y) = φ (x * conj y)
    rw [h, map_mul]

/-- C139: operators between two tensors. -/
theorem c139_operators (φ : α → β) (f : α → α → α) (g : β → β → β) (h : ∀ x y, φ (f x y) = g (φ x) (φ y)) (a b : Tensor α)
    (wfa : a.WF) (wfb : b.WF) :
    (do let a' ← unop φ a; let b' ← unop φ b; binopTT g a' b') = (do let c ← binopTT f a b; unop φ c) := by
  rw [unop_conv φ wfa, unop_conv φ wfb, Res.ok_bind, Res.ok_bind]
  by_cases hl : a.data.length = b.data.length
  · have wf : (⟨a.dims, List.zipWith f a.data b.data⟩ : Tensor α).WF := by
      show (List.zipWith f a.data b.data).length = totalSize a.dims
      rw [List.length_zipWith, ← hl, min_self]; exact wfa
    rw [binopTT_ok f a b wfa hl, binopTT_ok g (conv φ a) (conv φ b) (conv_wf wfa) (by simpa [conv] using hl), Res.ok_bind,
      unop_conv φ wf]
    show Res.ok (⟨a.dims, List.zipWith g (a.data.map φ) (b.data.map φ)⟩ : Tensor β) =
      .ok ⟨a.dims, (List.zipWith f a.data b.data).map φ⟩
    rw [List.zipWith_map, List.map_zipWith]
    simp only [h]
  · rw [((c32_tensor_tensor f a b wfa wfb).2 hl).1,
      ((c32_tensor_tensor g (conv φ a) (conv φ b) (conv_wf wfa) (conv_wf wfb)).2 (by simpa [conv] using hl)).1]
    rfl

/-- Complex numbers of real ones, and conjugates. -/
example (a b : Tensor ℝ) (wfa : a.WF) (wfb : b.WF) (i j : Int) :
    (do let a' ← unop Complex.ofRealHom a; let b' ← unop Complex.ofRealHom b; fold a' i b' j) =
      (do let c ← fold a i b j; unop Complex.ofRealHom c) := c139_fold _ a b wfa wfb i j

example (a b : Tensor ℂ) (wfa : a.WF) (wfb : b.WF) :
    (do let a' ← unop (starRingEnd ℂ) a; let b' ← unop (starRingEnd ℂ) b; mmult a' b') =
      (do let c ← mmult a b; unop (starRingEnd ℂ) c) := c139_mmult _ a b wfa wfb

/-- The real part of a trace is the trace of the real parts. -/
example (a : Tensor ℂ) (wf : a.WF) (i j : Int) :
    (do let a' ← unop Complex.reAddGroupHom.toIntLinearMap.toAddMonoidHom a; trace2 a' i j) =
      (do let c ← trace2 a i j; unop Complex.reAddGroupHom.toIntLinearMap.toAddMonoidHom c) := c139_trace2 _ a wf i j

/-- Scalar products of real vectors, as complex ones. -/
example (a b : Tensor ℝ) (wfa : a.WF) (wfb : b.WF) :
    (do let a' ← unop Complex.ofRealHom a; let b' ← unop Complex.ofRealHom b; scprod (starRingEnd ℂ) a' b') =
      (do let c ← scprod id a b; pure (Complex.ofRealHom c)) :=
  c139_scprod _ id (starRingEnd ℂ) (fun x => Complex.conj_ofReal x) a b wfa wfb

end Verif.Convert
