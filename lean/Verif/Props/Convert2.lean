import Verif.Props.Convert
import Verif.Props.Kron
import Verif.Props.Scale
/-
C139: foldin, kron and scale.
-/
namespace Verif.Convert

open Verif Verif.Spec Verif.Tensor

variable {α β : Type}

/-- C139: foldin, but for two vectors (C21). -/
theorem c139_foldin [CommSemiring α] [CommSemiring β] (φ : α →+* β) (a b : Tensor α) (wfa : a.WF) (wfb : b.WF) (i j : Int)
    (hne : ¬ (a.dims.length = 1 ∧ b.dims.length = 1)) :
    (do let a' ← unop φ a; let b' ← unop φ b; foldin a' i b' j) = (do let c ← foldin a i b j; unop φ c) := by
  rw [unop_conv φ wfa, unop_conv φ wfb, Res.ok_bind, Res.ok_bind]
  rcases hi : Spec.norm a.dims.length i with _ | n
  · rw [show foldin a i b j = .abort from foldin_norm_none _ _ _ _ _ _ (.inl hi),
      show foldin (conv φ a) i (conv φ b) j = .abort from foldin_norm_none _ _ _ _ _ _ (.inl hi)]; rfl
  rcases hj : Spec.norm b.dims.length j with _ | m
  · rw [show foldin a i b j = .abort from foldin_norm_none _ _ _ _ _ _ (.inr hj),
      show foldin (conv φ a) i (conv φ b) j = .abort from foldin_norm_none _ _ _ _ _ _ (.inr hj)]; rfl
  obtain ⟨P, L, Q, hda, ha⟩ := c19_fold_covers a i n hi
  obtain ⟨R, L', S, hdb, hb⟩ := c19_fold_covers b j m hj
  obtain ⟨h1, h2⟩ := c21_foldin_partial a b wfa wfb i j P Q R S L L' hda hdb ha hb hne
  obtain ⟨h1', h2'⟩ := c21_foldin_partial (conv φ a) (conv φ b) (conv_wf wfa) (conv_wf wfb) i j P Q R S L L' hda hdb ha hb hne
  by_cases h : L = L'
  swap
  · rw [h2 h, h2' h]; rfl
  obtain ⟨c, e, wf, hd, hc⟩ := h1 h
  obtain ⟨c', e', wf', hd', hc'⟩ := h1' h
  rw [e, e', Res.ok_bind, unop_conv φ wf]
  rw [ext_elem wf' (conv_wf (φ := φ) wf) (by rw [hd']; exact hd.symm) fun idx hidx => ?_]
  rw [hd'] at hidx
  obtain ⟨r, y, rfl, hr, hy⟩ := inB_append_split hidx
  obtain ⟨p, z, rfl, hp, hz⟩ := inB_append_split hy
  obtain ⟨q, s, rfl, hq, hs⟩ := inB_append_split hz
  obtain ⟨F, hF⟩ := total a wfa (by rw [hda]; simp)
  obtain ⟨G, hG⟩ := total b wfb (by rw [hdb]; simp)
  have kF : ∀ l < L, elem a.dims a.data (p ++ l :: q) = some (F (p ++ l :: q)) := fun l hl =>
    hF _ (by rw [hda]; exact hp.append ⟨hl, hq⟩)
  have kG : ∀ l < L, elem b.dims b.data (r ++ l :: s) = some (G (r ++ l :: s)) := fun l hl =>
    hG _ (by rw [hdb, ← h]; exact hr.append ⟨hl, hs⟩)
  rw [hc' p q r s hp hq hr hs (fun l => φ (F (p ++ l :: q))) (fun l => φ (G (r ++ l :: s)))
      (fun l hl => conv_elem (kF l hl)) (fun l hl => conv_elem (kG l hl)),
    conv_elem (hc p q r s hp hq hr hs _ _ kF kG), map_sum]
  simp only [map_mul]

/-- Tensors as in the theorem. -/
example : ∃ a b : Tensor ℕ, a.WF ∧ b.WF ∧
    ¬ (a.dims.length = 1 ∧ b.dims.length = 1) :=
  ⟨⟨[1, 2], [3, 4]⟩, ⟨[2], [5, 6]⟩, rfl, rfl, by simp⟩

theorem kron_matrices [Zero α] [Mul α] [Mul β] (φ : α → β) (h : ∀ x y, φ (x * y) = φ x * φ y) (a b : Tensor α) (wfa : a.WF) (wfb : b.WF)
    (ha : a.dims.length = 2) (hb : b.dims.length = 2) :
    (do let a' ← unop φ a; let b' ← unop φ b; kron a' b') = (do let c ← kron a b; unop φ c) := by
  rw [unop_conv φ wfa, unop_conv φ wfb, Res.ok_bind, Res.ok_bind]
  obtain ⟨r, c, hda⟩ := List.length_eq_two.1 ha
  obtain ⟨r', c', hdb⟩ := List.length_eq_two.1 hb
  obtain ⟨f, hf⟩ := exists_isMat a wfa r c hda
  obtain ⟨g, hg⟩ := exists_isMat b wfb r' c' hdb
  have hf' : IsMat (conv φ a).dims (conv φ a).data r c (fun i j => φ (f i j)) :=
    isMat_of_elem (t := conv φ a) (f := fun i j => φ (f i j)) (conv_wf wfa) hda fun i j hi hj => conv_elem (φ := φ) (hf.2.2 i j hi hj)
  have hg' : IsMat (conv φ b).dims (conv φ b).data r' c' (fun i j => φ (g i j)) :=
    isMat_of_elem (t := conv φ b) (f := fun i j => φ (g i j)) (conv_wf wfb) hdb fun i j hi hj => conv_elem (φ := φ) (hg.2.2 i j hi hj)
  obtain ⟨x, e, hx⟩ := kron_isMat hf hg
  obtain ⟨y, e', hy⟩ := kron_isMat hf' hg'
  rw [e, e', Res.ok_bind, unop_conv φ (IsMat.wf hx)]
  rw [ext_elem (IsMat.wf hy) (conv_wf (φ := φ) (IsMat.wf hx)) (by rw [hy.1]; exact hx.1.symm) fun idx hidx => ?_]
  rw [hy.1] at hidx
  obtain ⟨i, j, rfl⟩ := List.length_eq_two.1 hidx.length
  rw [hy.2.2 i j hidx.1 hidx.2.1, conv_elem (hx.2.2 i j hidx.1 hidx.2.1)]
  simp only [kronF, h]

theorem kron_vectors [Mul α] [Mul β] (φ : α → β) (h : ∀ x y, φ (x * y) = φ x * φ y) (a b : Tensor α) (wfa : a.WF) (wfb : b.WF)
    (ha : a.dims.length = 1) (hb : b.dims.length = 1) :
    (do let a' ← unop φ a; let b' ← unop φ b; kron a' b') = (do let c ← kron a b; unop φ c) := by
  rw [unop_conv φ wfa, unop_conv φ wfb, Res.ok_bind, Res.ok_bind]
  obtain ⟨n, hda⟩ := List.length_eq_one_iff.1 ha
  obtain ⟨m, hdb⟩ := List.length_eq_one_iff.1 hb
  obtain ⟨x, e, wf, hd, hx⟩ := c28_kron_vectors a b wfa wfb n m hda hdb
  obtain ⟨y, e', wf', hd', hy⟩ := c28_kron_vectors (conv φ a) (conv φ b) (conv_wf wfa) (conv_wf wfb) n m hda hdb
  rw [e, e', Res.ok_bind, unop_conv φ wf]
  have la : a.data.length = n := by rw [wfa.length_eq (by simp [hda]), hda]; simp
  have lb : b.data.length = m := by rw [wfb.length_eq (by simp [hdb]), hdb]; simp
  have lx : x.data.length = m * n := by rw [wf.length_eq (by simp [hd]), hd]; simp
  have ly : y.data.length = m * n := by rw [wf'.length_eq (by simp [hd']), hd']; simp
  have key : y.data = x.data.map φ := by
    apply List.ext_getElem?
    intro k
    by_cases hk : k < m * n
    · have hm : 0 < m := Nat.pos_of_mul_pos_right (Nat.zero_lt_of_lt hk)
      have h1 : k % m < m := Nat.mod_lt _ hm
      have h2 : k / m < n := Nat.div_lt_of_lt_mul hk
      have hb' := List.getElem?_eq_getElem (l := b.data) (i := k % m) (by omega)
      have ha' := List.getElem?_eq_getElem (l := a.data) (i := k / m) (by omega)
      have := hx (k % m) (k / m) _ _ hb' ha'
      have t := hy (k % m) (k / m) (φ (b.data[k % m]'(by omega))) (φ (a.data[k / m]'(by omega)))
        (by show (b.data.map φ)[k % m]? = _; rw [List.getElem?_map, hb']; rfl)
        (by show (a.data.map φ)[k / m]? = _; rw [List.getElem?_map, ha']; rfl)
      rw [Nat.mod_add_div] at this t
      rw [t, List.getElem?_map, this, ← h]
      rfl
    · rw [List.getElem?_eq_none (by omega), List.getElem?_eq_none (by rw [List.length_map]; omega)]
  refine congrArg Res.ok ?_
  obtain ⟨d, t⟩ := y
  obtain ⟨d', t'⟩ := x
  simp only at key hd hd'
  subst hd hd' key
  rfl

/-- C139: Kronecker products, also of tensors which are neither two vectors nor two matrices. -/
theorem c139_kron [Zero α] [Mul α] [Mul β] (φ : α → β) (h : ∀ x y, φ (x * y) = φ x * φ y) (a b : Tensor α) (wfa : a.WF) (wfb : b.WF)
    (h0 : a.dims ≠ [] ∨ b.dims ≠ []) :
    (do let a' ← unop φ a; let b' ← unop φ b; kron a' b') = (do let c ← kron a b; unop φ c) := by
  by_cases hl : a.dims.length ≠ b.dims.length ∨ 2 < a.dims.length
  · rw [unop_conv φ wfa, unop_conv φ wfb, Res.ok_bind, Res.ok_bind, c28_kron_rank a b hl,
      c28_kron_rank (conv φ a) (conv φ b) hl]
    rfl
  · push Not at hl
    have : a.dims.length ≠ 0 := by
      intro e
      rcases h0 with h0 | h0
      · exact h0 (List.length_eq_zero_iff.1 e)
      · exact h0 (List.length_eq_zero_iff.1 (hl.1 ▸ e))
    rcases (show a.dims.length = 1 ∨ a.dims.length = 2 by omega) with e | e
    · exact kron_vectors φ h a b wfa wfb e (hl.1 ▸ e)
    · exact kron_matrices φ h a b wfa wfb e (hl.1 ▸ e)

/-- Tensors as in the theorem. -/
example : ∃ a b : Tensor ℕ, a.WF ∧ b.WF ∧ (a.dims ≠ [] ∨ b.dims ≠ []) := ⟨⟨[1, 2], [3, 4]⟩, ⟨[2, 1], [5, 6]⟩, rfl, rfl, by simp⟩

/-- C139: scale, with any combination of types. -/
theorem c139_scale [Zero α] {γ α' β' γ' : Type} (φ : α → α') (ψ : β → β') (χ : γ → γ') (mul : α → β → γ) (mul' : α' → β' → γ')
    (h : ∀ x y, χ (mul x y) = mul' (φ x) (ψ y)) (t : Tensor α) (wft : t.WF) (ndx : Int) (v : Tensor β) (wfv : v.WF) :
    (do let t' ← unop φ t; let v' ← unop ψ v; scale mul' t' ndx v') = (do let c ← scale mul t ndx v; unop χ c) := by
  rw [unop_conv φ wft, unop_conv ψ wfv, Res.ok_bind, Res.ok_bind]
  rcases hi : Spec.norm t.dims.length ndx with _ | n
  · rw [c24_scale_position mul t ndx v hi, c24_scale_position mul' (conv φ t) ndx (conv ψ v) hi]; rfl
  obtain ⟨P, L, Q, hd, hn⟩ := c19_fold_covers t ndx n hi
  obtain ⟨h1, h2⟩ := c24_scale mul t wft ndx v P Q L hd hn
  obtain ⟨h1', h2'⟩ := c24_scale mul' (conv φ t) (conv_wf wft) ndx (conv ψ v) P Q L hd hn
  have hlen : (conv ψ v).data.length = v.data.length := List.length_map _
  by_cases hl : v.data.length = L
  swap
  · rw [h2 hl, h2' (by rw [hlen]; exact hl)]; rfl
  obtain ⟨c, e, wf, hc, hx⟩ := h1 hl
  obtain ⟨c', e', wf', hc', hx'⟩ := h1' (by rw [hlen]; exact hl)
  rw [e, e', Res.ok_bind, unop_conv χ wf]
  rw [ext_elem wf' (conv_wf (φ := χ) wf) (by rw [hc']; exact hc.symm) fun idx hidx => ?_]
  rw [hc'] at hidx
  have hidx : InB idx (P ++ L :: Q) := by rw [← hd]; exact hidx
  obtain ⟨p, y, rfl, hp, hy⟩ := inB_append_split hidx
  cases y with
  | nil => exact hy.elim
  | cons i q =>
    obtain ⟨hi, hq⟩ := hy
    obtain ⟨F, hF⟩ := total t wft (by rw [hd]; simp)
    have k := hF (p ++ i :: q) (by rw [hd]; exact hidx)
    have kv := List.getElem?_eq_getElem (l := v.data) (i := i) (by omega)
    rw [hx' p i q hp hi hq (φ (F (p ++ i :: q))) (ψ v.data[i]) (conv_elem k)
        (by show (v.data.map ψ)[i]? = _; rw [List.getElem?_map, kv]; rfl),
      conv_elem (hx p i q hp hi hq _ _ k kv), h]

/-- The scale of a real tensor with a complex vector. -/
example : ∀ x : ℝ, ∀ y : ℂ, id ((x : ℂ) * y) = (Complex.ofRealHom x) * id y := fun _ _ => rfl

end Verif.Convert
