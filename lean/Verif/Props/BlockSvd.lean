import Verif.Model.BlockSvd
import Verif.Lemmas.SliceMat
import Verif.Lemmas.SvdExists
import Verif.Props.Blocks
import Verif.Props.Eig
import Verif.Props.Sort
/-
C72: block_svd.
-/
namespace Verif.Svd

open Verif Tensor View Spec Blocks

variable {𝕜 : Type} [RCLike 𝕜]

theorem ifWanted_ok {γ : Type} {p : Option γ} {f : Nat → γ → Run γ} {P : γ → Prop}
    (h : ∀ t, p = some t → ∃ t', Finishes (fun n => f n t) (.ok t') ∧ P t') :
    ∃ p' : Option γ, Finishes (fun n => ifWanted p (f n)) (.ok p') ∧ p'.isSome = p.isSome ∧ ∀ t ∈ p', P t := by
  cases p with
  | none => exact ⟨none, Finishes.done _, rfl, by simp⟩
  | some t =>
    obtain ⟨t', h1, h2⟩ := h t rfl
    refine ⟨some t', ?_, rfl, by simpa using h2⟩
    exact Finishes.bind h1 (Finishes.done _)

/-- The state of the loop has the functions u, v and σ. -/
structure Holds (m n : Nat) (wantU wantV : Bool) (st : BlockS 𝕜 ℝ) (u v : Nat → Nat → 𝕜) (σ : Nat → ℝ) :
    Prop where
  s : IsVec st.s (min m n) σ
  hU : st.U.isSome = wantU
  hV : st.VT.isSome = wantV
  U : ∀ t ∈ st.U, IsMat t.dims t.data m (min m n) u
  V : ∀ t ∈ st.VT, IsMat t.dims t.data (min m n) n v

theorem written_run {α : Type} {rs : List Nat} {q p : Nat} {w u : Nat → Nat → α} {i l : Nat} :
    (if i ∈ rs ∧ l ∈ (List.range p).map (q + ·) then w (rs.idxOf i) (((List.range p).map (q + ·)).idxOf l)
      else u i l) = written rs q p w u i l := by
  rw [written]
  by_cases h : i ∈ rs ∧ q ≤ l ∧ l < q + p
  · rw [if_pos ⟨h.1, mem_run.2 h.2⟩, if_pos h, idxOf_run h.2]
  · rw [if_neg (fun e => h ⟨e.1, mem_run.1 e.2⟩), if_neg h]

/-- gesvd does what its manual says and succeeds. -/
def Works (g : Gesvd 𝕜 ℝ) : Prop :=
  ∀ jobu jobv m n a lda ldu ldv, GesvdAnswer jobu jobv m n a lda ldu ldv (g jobu jobv m n a lda ldu ldv) ∧
    (g jobu jobv m n a lda ldu ldv).info = 0

/-- What svd gives, C67. -/
theorem svd_works {g : Gesvd 𝕜 ℝ} (hg : Works g) {A : Tensor 𝕜} {m n : Nat} (hm : 0 < m) (hn : 0 < n)
    {a : Nat → Nat → 𝕜} (ha : IsMat A.dims A.data m n a) (wantU wantV economic : Bool) :
    ∃ s U VT Uf Vf σ, svd g A wantU wantV economic = .ok (s, U, VT) ∧ IsSvd m n a Uf Vf σ ∧
      IsVec s (min m n) σ ∧ U.isSome = wantU ∧ VT.isSome = wantV ∧
      (∀ u ∈ U, IsMat u.dims u.data m (if economic then min m n else m) Uf) ∧
      (∀ v ∈ VT, IsMat v.dims v.data (if economic then min m n else n) n Vf) := by
  obtain ⟨s, U, VT, h1, h2, h3, h4, h5, -, -, h8⟩ := c67_svd_partial g A hm hn wantU wantV economic
    (fun ju jv lda ldu ldv => (hg ju jv m n A.data lda ldu ldv).1) a ha
  obtain ⟨Uf, Vf, σ, h9, h10, h11, h12⟩ := h8 fun ju jv lda ldu ldv => (hg ju jv m n A.data lda ldu ldv).2
  refine ⟨s, U, VT, Uf, Vf, σ, h1, h9, ⟨h2, ?_, fun l hl => ?_⟩, h4, h5, h11, h12⟩
  · have : s.data.length = totalSize s.dims := h3
    rw [this, h2]
    simp [totalSize]
  · have := h10 l hl
    rw [h2] at this
    simpa [elem, InB, hl, colPos] using this

/-- A block with more than one element. -/
theorem blockLarge_ok {g : Gesvd 𝕜 ℝ} (hg : Works g) {m n q : Nat} (hm : 0 < m) (hn : 0 < n)
    {wantU wantV economic : Bool} {st : BlockS 𝕜 ℝ} {u v : Nat → Nat → 𝕜} {σ : Nat → ℝ} (hq : st.sndx = q)
    (hst : Holds m n wantU wantV st u v σ) {b : List Nat × List Nat} {B : Tensor 𝕜} {f : Nat → Nat → 𝕜}
    (hB : IsMat B.dims B.data b.1.length b.2.length f) (h1 : b.1 ≠ []) (h2 : b.2 ≠ []) (n1 : b.1.Nodup)
    (n2 : b.2.Nodup) (b1 : ∀ i ∈ b.1, i < m) (b2 : ∀ j ∈ b.2, j < n)
    (hroom : q + min b.1.length b.2.length ≤ min m n)
    (hsq : economic = true ∨ (wantU = true → b.1.length ≤ b.2.length) ∧
      (wantV = true → b.2.length ≤ b.1.length)) :
    ∃ st' w z τ, Finishes (fun fuel => blockLarge fuel g economic b B st) (.ok st') ∧
      st'.sndx = q + min b.1.length b.2.length ∧ IsSvd b.1.length b.2.length f w z τ ∧
      Holds m n wantU wantV st' (written b.1 q (min b.1.length b.2.length) w u)
        (fun l j => written b.2 q (min b.1.length b.2.length) (fun y l => z l y) (fun j l => v l j) j l)
        (fun l => if q ≤ l ∧ l < q + min b.1.length b.2.length then τ (l - q) else σ l) := by
  have l1 : 0 < b.1.length := List.length_pos_iff.2 h1
  have l2 : 0 < b.2.length := List.length_pos_iff.2 h2
  obtain ⟨s1, U1, V1, w, z, τ, e1, e2, e3, e4, e5, e6, e7⟩ := svd_works hg l1 l2 hB st.U.isSome st.VT.isSome
    economic
  set p := min b.1.length b.2.length with hp
  have hp0 : 0 < p := by omega
  have hK : 0 < min m n := by omega
  have hsize : s1.size = p := by rw [size, e3.2.1]
  have hlen : ((List.range p).map (q + ·)).length = p := by simp
  obtain ⟨s', f1, f2⟩ := assign_vec (s := s1) (h := τ) hst.s hK (valid_run hp0 hroom) (sel_run hp0) (run_nodup q p)
    (by rw [hlen]; exact e3)
  obtain ⟨U', f3, f4, f5⟩ := ifWanted_ok (p := st.U) (f := fun fuel U => do
      let Utemp ← Run.done (Res.ofOption U1)
      assign fuel U [.list (b.1.map Int.ofNat), .step q ((q : Int) + p - 1) 1] Utemp)
    (P := fun t => IsMat t.dims t.data m (min m n) (written b.1 q p w u)) (by
      intro t ht
      have hw : wantU = true := by rw [← hst.hU, ht]; rfl
      obtain ⟨U2, rfl⟩ : ∃ U2, U1 = some U2 := Option.isSome_iff_exists.1 (by rw [e4, ht]; rfl)
      have hU2 : IsMat U2.dims U2.data b.1.length ((List.range p).map (q + ·)).length w := by
        have := e6 U2 rfl
        rw [hlen]
        rcases hsq with rfl | hsq
        · simpa using this
        · have := hsq.1 hw
          rw [show (if economic = true then p else b.1.length) = p from by split <;> omega] at e6
          exact e6 U2 rfl
      obtain ⟨t', g1, g2⟩ := assign_mat (hst.U t ht) hm hK (valid_list b1) (valid_run hp0 hroom) rfl
        (sel_run hp0) n1 (run_nodup q p) hU2
      refine ⟨t', Finishes.bind (Finishes.done _) g1, g2.congr fun i j _ _ => written_run⟩)
  obtain ⟨V', f6, f7, f8⟩ := ifWanted_ok (p := st.VT) (f := fun fuel VT => do
      let Vtemp ← Run.done (Res.ofOption V1)
      assign fuel VT [.step q ((q : Int) + p - 1) 1, .list (b.2.map Int.ofNat)] Vtemp)
    (P := fun t => IsMat t.dims t.data (min m n) n
      (fun l j => written b.2 q p (fun y l => z l y) (fun j l => v l j) j l)) (by
      intro t ht
      have hw : wantV = true := by rw [← hst.hV, ht]; rfl
      obtain ⟨V2, rfl⟩ : ∃ V2, V1 = some V2 := Option.isSome_iff_exists.1 (by rw [e5, ht]; rfl)
      have hV2 : IsMat V2.dims V2.data ((List.range p).map (q + ·)).length b.2.length z := by
        have := e7 V2 rfl
        rw [hlen]
        rcases hsq with rfl | hsq
        · simpa using this
        · have := hsq.2 hw
          rw [show (if economic = true then p else b.2.length) = p from by split <;> omega] at e7
          exact e7 V2 rfl
      obtain ⟨t', g1, g2⟩ := assign_mat (hst.V t ht) hK hn (valid_run hp0 hroom) (valid_list b2)
        (sel_run hp0) rfl (run_nodup q p) n2 hV2
      refine ⟨t', Finishes.bind (Finishes.done _) g1, g2.congr fun i j _ _ => ?_⟩
      rw [← written_run]
      simp only [and_comm])
  refine ⟨⟨q + p, s', U', V'⟩, w, z, τ, ?_, rfl, e2, ⟨⟨f2.1, f2.2.1, fun l hl => ?_⟩, by rw [← hst.hU]; exact f4,
    by rw [← hst.hV]; exact f7, f5, f8⟩⟩
  · subst hq
    simp only [blockLarge, e1, Run.ok_bind, hsize]
    refine Finishes.bind f1 (Finishes.bind f3 (Finishes.bind f6 ?_))
    have : ((st.sndx : Int) + p - 1 + 1).toNat = st.sndx + p := by omega
    rw [this]
    exact Finishes.done _
  · rw [f2.2.2 l hl]
    beta_reduce
    by_cases h : q ≤ l ∧ l < q + p
    · rw [if_pos (mem_run.2 h), if_pos h, idxOf_run h]
    · rw [if_neg (fun e => h (mem_run.1 e)), if_neg h]

/-- A block with more rows than columns, or the other way round, if the whole decomposition is asked for. -/
theorem blockLarge_abort {g : Gesvd 𝕜 ℝ} (hg : Works g) {m n q : Nat} (hm : 0 < m) (hn : 0 < n)
    {wantU wantV economic : Bool} {st : BlockS 𝕜 ℝ} {u v : Nat → Nat → 𝕜} {σ : Nat → ℝ} (hq : st.sndx = q)
    (hst : Holds m n wantU wantV st u v σ) {b : List Nat × List Nat} {B : Tensor 𝕜} {f : Nat → Nat → 𝕜}
    (hB : IsMat B.dims B.data b.1.length b.2.length f) (h1 : b.1 ≠ []) (h2 : b.2 ≠ []) (n1 : b.1.Nodup)
    (n2 : b.2.Nodup) (b1 : ∀ i ∈ b.1, i < m) (b2 : ∀ j ∈ b.2, j < n)
    (hroom : q + min b.1.length b.2.length ≤ min m n)
    (hsq : ¬ (economic = true ∨ (wantU = true → b.1.length ≤ b.2.length) ∧
      (wantV = true → b.2.length ≤ b.1.length))) :
    Finishes (fun fuel => blockLarge fuel g economic b B st) .abort := by
  have l1 : 0 < b.1.length := List.length_pos_iff.2 h1
  have l2 : 0 < b.2.length := List.length_pos_iff.2 h2
  rw [not_or, Bool.not_eq_true] at hsq
  obtain ⟨rfl, hsq⟩ := hsq
  obtain ⟨s1, U1, V1, w, z, τ, e1, e2, e3, e4, e5, e6, e7⟩ := svd_works hg l1 l2 hB st.U.isSome st.VT.isSome
    false
  simp only [Bool.false_eq_true, if_false] at e6 e7
  set p := min b.1.length b.2.length with hp
  have hp0 : 0 < p := by omega
  have hK : 0 < min m n := by omega
  have hsize : s1.size = p := by rw [size, e3.2.1]
  have hlen : ((List.range p).map (q + ·)).length = p := by simp
  obtain ⟨s', f1, f2⟩ := assign_vec (s := s1) (h := τ) hst.s hK (valid_run hp0 hroom) (sel_run hp0) (run_nodup q p)
    (by rw [hlen]; exact e3)
  subst hq
  simp only [blockLarge, e1, Run.ok_bind, hsize]
  refine Finishes.bind f1 ?_
  by_cases hU : wantU = true → b.1.length ≤ b.2.length
  · obtain ⟨U', f3, -, -⟩ := ifWanted_ok (p := st.U) (f := fun fuel U => do
        let Utemp ← Run.done (Res.ofOption U1)
        assign fuel U [.list (b.1.map Int.ofNat), .step st.sndx ((st.sndx : Int) + p - 1) 1] Utemp)
      (P := fun _ => True) (by
        intro t ht
        have hw := hU (by rw [← hst.hU, ht]; rfl)
        obtain ⟨U2, rfl⟩ : ∃ U2, U1 = some U2 := Option.isSome_iff_exists.1 (by rw [e4, ht]; rfl)
        have hU2 : IsMat U2.dims U2.data b.1.length ((List.range p).map (st.sndx + ·)).length w := by
          have := e6 U2 rfl
          rw [hlen]
          rw [show b.1.length = p from by omega] at this ⊢
          exact this
        obtain ⟨t', g1, -⟩ := assign_mat (hst.U t ht) hm hK (valid_list b1) (valid_run hp0 hroom) rfl
          (sel_run hp0) n1 (run_nodup _ p) hU2
        exact ⟨t', Finishes.bind (Finishes.done _) g1, trivial⟩)
    refine Finishes.bind f3 (Finishes.bind_abort ?_)
    have hV : wantV = true ∧ b.1.length < b.2.length := by
      by_contra hc
      exact hsq ⟨hU, fun h => by by_contra h'; exact hc ⟨h, by omega⟩⟩
    obtain ⟨t, ht⟩ := Option.isSome_iff_exists.1 (hst.hV.trans hV.1)
    obtain ⟨V2, rfl⟩ : ∃ V2, V1 = some V2 := Option.isSome_iff_exists.1 (by rw [e5, ht]; rfl)
    rw [ht]
    refine Finishes.bind_abort (Finishes.bind (Finishes.done _) ?_)
    refine assign_mat_abort (hst.V t ht) hK hn (valid_run hp0 hroom) (valid_list b2)
      (sel_run hp0) rfl (run_nodup _ p) n2 (isMat_wf (e7 V2 rfl)) ?_
    rw [(e7 V2 rfl).2.1, hlen]
    intro e
    have := Nat.eq_of_mul_eq_mul_right l2 e
    omega
  · refine Finishes.bind_abort ?_
    rw [Classical.not_imp] at hU
    obtain ⟨t, ht⟩ := Option.isSome_iff_exists.1 (hst.hU.trans hU.1)
    obtain ⟨U2, rfl⟩ : ∃ U2, U1 = some U2 := Option.isSome_iff_exists.1 (by rw [e4, ht]; rfl)
    rw [ht]
    refine Finishes.bind_abort (Finishes.bind (Finishes.done _) ?_)
    refine assign_mat_abort (hst.U t ht) hm hK (valid_list b1) (valid_run hp0 hroom) rfl
      (sel_run hp0) n1 (run_nodup _ p) (isMat_wf (e6 U2 rfl)) ?_
    rw [(e6 U2 rfl).2.1, hlen]
    intro e
    have := Nat.eq_of_mul_eq_mul_left l1 e
    omega

/-- The decomposition of a number. -/
theorem one_isSvd {x : 𝕜} {f : Nat → Nat → 𝕜} (hf : f 0 0 = x) (hx : x ≠ 0) :
    IsSvd 1 1 f (fun _ _ => 1) (fun _ _ => x / ((‖x‖ : ℝ) : 𝕜)) fun _ => ‖x‖ := by
  have hn : ((‖x‖ : ℝ) : 𝕜) ≠ 0 := by
    rw [Ne, RCLike.ofReal_eq_zero, norm_eq_zero]
    exact hx
  have hu : x / ((‖x‖ : ℝ) : 𝕜) * starRingEnd 𝕜 (x / ((‖x‖ : ℝ) : 𝕜)) = 1 := by
    rw [RCLike.mul_conj, norm_div, RCLike.norm_ofReal, abs_norm, div_self (by simpa using hx)]
    simp
  refine ⟨⟨fun k l hk hl => ?_, fun k l hk hl => ?_⟩, ⟨fun k l hk hl => ?_, fun k l hk hl => ?_⟩,
    fun l _ => norm_nonneg x, fun k l _ _ => le_rfl, fun i j hi hj => ?_⟩
  · rw [if_pos (by omega)]
    simp
  · rw [if_pos (by omega)]
    simp
  · rw [if_pos (by omega), Finset.sum_range_one, mul_comm]
    exact hu
  · rw [if_pos (by omega), Finset.sum_range_one]
    exact hu
  · obtain rfl : i = 0 := by omega
    obtain rfl : j = 0 := by omega
    rw [min_self, Finset.sum_range_one, one_mul, mul_div_cancel₀ _ hn, hf]

theorem written_one {α : Type} {i0 q : Nat} {w u : Nat → Nat → α} {i l : Nat} :
    (if i = i0 ∧ l = q then w 0 0 else u i l) = written [i0] q 1 w u i l := by
  rw [written]
  by_cases h : i = i0 ∧ l = q
  · obtain ⟨rfl, rfl⟩ := h
    rw [if_pos ⟨rfl, rfl⟩, if_pos ⟨by simp, by omega, by omega⟩]
    simp
  · rw [if_neg h, if_neg]
    rintro ⟨h1, h2, h3⟩
    exact h ⟨by simpa using h1, by omega⟩

/-- A block with one element. -/
theorem blockSmall_ok {m n q : Nat} {wantU wantV : Bool} {st : BlockS 𝕜 ℝ} {u v : Nat → Nat → 𝕜} {σ : Nat → ℝ}
    (hq : st.sndx = q) (hst : Holds m n wantU wantV st u v σ) {b : List Nat × List Nat} {i0 j0 : Nat}
    (hb : b = ([i0], [j0])) {B : Tensor 𝕜} {f : Nat → Nat → 𝕜} (hB : IsMat B.dims B.data 1 1 f)
    (hi : i0 < m) (hj : j0 < n) (hroom : q + 1 ≤ min m n) :
    ∃ st', Finishes (fun _ => blockSmall (fun x => ‖x‖) (fun x : ℝ => (x : 𝕜)) b B st) (.ok st') ∧
      st'.sndx = q + 1 ∧
      Holds m n wantU wantV st' (written [i0] q 1 (fun _ _ => 1) u)
        (fun l j => written [j0] q 1 (fun _ _ => f 0 0 / ((‖f 0 0‖ : ℝ) : 𝕜)) (fun j l => v l j) j l)
        (fun l => if q ≤ l ∧ l < q + 1 then ‖f 0 0‖ else σ l) := by
  subst hb hq
  have hd : B.dataAt 0 = .ok (f 0 0) := by
    have := hB.2.2 0 0 (by norm_num) (by norm_num)
    rw [hB.1] at this
    have e : B.data[0]? = some (f 0 0) := by simpa [elem, InB, colPos] using this
    simp [dataAt, e]
  obtain ⟨s', f1, f2⟩ := Eig.set1_isVec hst.s (i := st.sndx) (by omega) ‖f 0 0‖
  obtain ⟨U', f3, f4, f5⟩ := ifWanted_ok (p := st.U) (f := fun _ U => Run.done (U.set2 i0 st.sndx 1))
    (P := fun t => IsMat t.dims t.data m (min m n) (written [i0] st.sndx 1 (fun _ _ => 1) u)) (by
      intro t ht
      obtain ⟨t', g1, g2⟩ := set2_isMat (hst.U t ht) i0 st.sndx hi (by omega) 1
      refine ⟨t', by rw [g1]; exact Finishes.done _, g2.congr fun i j _ _ => written_one (w := fun _ _ => 1)⟩)
  obtain ⟨V', f6, f7, f8⟩ := ifWanted_ok (p := st.VT)
    (f := fun _ VT => Run.done (VT.set2 st.sndx j0 (f 0 0 / ((‖f 0 0‖ : ℝ) : 𝕜))))
    (P := fun t => IsMat t.dims t.data (min m n) n
      (fun l j => written [j0] st.sndx 1 (fun _ _ => f 0 0 / ((‖f 0 0‖ : ℝ) : 𝕜)) (fun j l => v l j) j l)) (by
      intro t ht
      obtain ⟨t', g1, g2⟩ := set2_isMat (hst.V t ht) st.sndx j0 (by omega) hj (f 0 0 / ((‖f 0 0‖ : ℝ) : 𝕜))
      refine ⟨t', by rw [g1]; exact Finishes.done _, g2.congr fun i j _ _ => ?_⟩
      rw [← written_one (w := fun _ _ => f 0 0 / ((‖f 0 0‖ : ℝ) : 𝕜))]
      simp only [and_comm])
  refine ⟨⟨st.sndx + 1, s', U', V'⟩, ?_, rfl, ⟨⟨f2.1, f2.2.1, fun l hl => ?_⟩, by rw [← hst.hU]; exact f4,
    by rw [← hst.hV]; exact f7, f5, f8⟩⟩
  · simp only [blockSmall, hd, Run.ok_bind, f1, List.getElem?_cons_zero, Res.ofOption_some]
    exact Finishes.bind f3 (Finishes.bind f6 (Finishes.done _))
  · rw [f2.2.2 l hl]
    beta_reduce
    by_cases h : l = st.sndx
    · rw [if_pos h, if_pos (by omega)]
    · rw [if_neg h, if_neg (by omega)]

/-- The decomposition of a block as it is used by Part.step. -/
theorem IsSvd.ortho {r c : Nat} {f w z : Nat → Nat → 𝕜} {τ : Nat → ℝ} (h : IsSvd r c f w z τ) :
    Ortho r (min r c) w ∧ Ortho c (min r c) fun y l => z l y := by
  refine ⟨fun k l hk hl => h.left.1 k l (by omega) (by omega), fun k l hk hl => ?_⟩
  have := h.right.2 l k (by omega) (by omega)
  rw [show (if k = l then (1 : 𝕜) else 0) = if l = k then 1 else 0 from by simp only [eq_comm], ← this]
  exact Finset.sum_congr rfl fun j _ => mul_comm _ _

/-- What is needed of a block. -/
structure Good (m n : Nat) (a : Nat → Nat → 𝕜) (b : List Nat × List Nat) : Prop where
  n1 : b.1.Nodup
  n2 : b.2.Nodup
  b1 : ∀ i ∈ b.1, i < m
  b2 : ∀ j ∈ b.2, j < n
  nz : ∃ i ∈ b.1, ∃ j ∈ b.2, a i j ≠ 0

theorem Good.ne1 {m n : Nat} {a : Nat → Nat → 𝕜} {b : List Nat × List Nat} (h : Good m n a b) : b.1 ≠ [] := by
  obtain ⟨i, hi, -⟩ := h.nz
  exact List.ne_nil_of_mem hi

theorem Good.ne2 {m n : Nat} {a : Nat → Nat → 𝕜} {b : List Nat × List Nat} (h : Good m n a b) : b.2 ≠ [] := by
  obtain ⟨i, hi, j, hj, -⟩ := h.nz
  exact List.ne_nil_of_mem hj

/-- The block of A. -/
theorem Good.slice {A : Tensor 𝕜} {m n : Nat} (hm : 0 < m) (hn : 0 < n) {a : Nat → Nat → 𝕜}
    (ha : IsMat A.dims A.data m n a) {b : List Nat × List Nat} (h : Good m n a b) :
    ∃ B : Tensor 𝕜, Finishes (fun fuel => sliceT fuel A [.list (b.1.map Int.ofNat), .list (b.2.map Int.ofNat)])
      (.ok B) ∧ IsMat B.dims B.data b.1.length b.2.length fun x y => a (b.1.getD x 0) (b.2.getD y 0) :=
  slice_mat ha hm hn (valid_list h.b1) (valid_list h.b2) rfl rfl

/-- The body of the loop can write the decomposition of the block. -/
def Fits (wantU wantV economic : Bool) (b : List Nat × List Nat) : Prop :=
  economic = true ∨ (wantU = true → b.1.length ≤ b.2.length) ∧ (wantV = true → b.2.length ≤ b.1.length)

/-- The body of the loop. -/
theorem block_ok {g : Gesvd 𝕜 ℝ} (hg : Works g) {A : Tensor 𝕜} {m n q : Nat} (hm : 0 < m) (hn : 0 < n)
    {a : Nat → Nat → 𝕜} (ha : IsMat A.dims A.data m n a) {wantU wantV economic : Bool} {st : BlockS 𝕜 ℝ}
    {u v : Nat → Nat → 𝕜} {σ : Nat → ℝ} (hq : st.sndx = q) (hst : Holds m n wantU wantV st u v σ)
    {b : List Nat × List Nat} (hb : Good m n a b) (hroom : q + min b.1.length b.2.length ≤ min m n)
    (hsq : Fits wantU wantV economic b) :
    ∃ B st' w z τ,
      Finishes (fun fuel => sliceT fuel A [.list (b.1.map Int.ofNat), .list (b.2.map Int.ofNat)]) (.ok B) ∧
      Finishes (fun fuel => blockBody fuel g (fun x => ‖x‖) (fun x : ℝ => (x : 𝕜)) economic b B st) (.ok st') ∧
      st'.sndx = q + min b.1.length b.2.length ∧
      IsSvd b.1.length b.2.length (fun x y => a (b.1.getD x 0) (b.2.getD y 0)) w z τ ∧
      Holds m n wantU wantV st' (written b.1 q (min b.1.length b.2.length) w u)
        (fun l j => written b.2 q (min b.1.length b.2.length) (fun y l => z l y) (fun j l => v l j) j l)
        (fun l => if q ≤ l ∧ l < q + min b.1.length b.2.length then τ (l - q) else σ l) := by
  obtain ⟨B, e1, hB⟩ := hb.slice hm hn ha
  have hsize : B.size = b.1.length * b.2.length := hB.2.1
  have l1 : 0 < b.1.length := List.length_pos_iff.2 hb.ne1
  have l2 : 0 < b.2.length := List.length_pos_iff.2 hb.ne2
  by_cases hbig : B.size > 1
  · obtain ⟨st', w, z, τ, h1, h2, h3, h4⟩ := blockLarge_ok hg hm hn hq hst hB hb.ne1 hb.ne2 hb.n1 hb.n2
      hb.b1 hb.b2 hroom hsq
    refine ⟨B, st', w, z, τ, e1, ?_, h2, h3, h4⟩
    simp only [blockBody, if_pos hbig]
    exact h1
  · have hone : b.1.length * b.2.length = 1 := by
      have := Nat.mul_pos l1 l2
      omega
    have h1 := Nat.eq_one_of_mul_eq_one_right hone
    have h2 := Nat.eq_one_of_mul_eq_one_left hone
    obtain ⟨i0, hi0⟩ := List.length_eq_one_iff.1 h1
    obtain ⟨j0, hj0⟩ := List.length_eq_one_iff.1 h2
    obtain ⟨b1, b2⟩ := b
    simp only at hi0 hj0
    subst hi0 hj0
    obtain ⟨i, hi, j, hj, hne⟩ := hb.nz
    rw [List.mem_singleton] at hi hj
    subst hi hj
    obtain ⟨st', h1, h2, h3⟩ := blockSmall_ok hq hst rfl hB (hb.b1 i (by simp)) (hb.b2 j (by simp)) hroom
    refine ⟨B, st', fun _ _ => 1, fun _ _ => a i j / ((‖a i j‖ : ℝ) : 𝕜), fun _ => ‖a i j‖, e1, ?_, h2,
      one_isSvd rfl hne, h3⟩
    simp only [blockBody, if_neg hbig]
    exact h1

/-- One more block. -/
theorem block_part {m n q : Nat} {R C : Nat → Prop} {a A' u v w z : Nat → Nat → 𝕜} {σ τ : Nat → ℝ}
    (h : Part m n q R C A' u v σ) {b : List Nat × List Nat} (hb : Good m n a b) (hR : ∀ i ∈ b.1, ¬ R i)
    (hC : ∀ j ∈ b.2, ¬ C j)
    (hs : IsSvd b.1.length b.2.length (fun x y => a (b.1.getD x 0) (b.2.getD y 0)) w z τ) :
    Part m n (q + min b.1.length b.2.length) (fun i => R i ∨ i ∈ b.1) (fun j => C j ∨ j ∈ b.2)
      (fun i j => if i ∈ b.1 ∧ j ∈ b.2 then a i j else A' i j)
      (written b.1 q (min b.1.length b.2.length) w u)
      (fun l j => written b.2 q (min b.1.length b.2.length) (fun y l => z l y) (fun j l => v l j) j l)
      (fun l => if q ≤ l ∧ l < q + min b.1.length b.2.length then τ (l - q) else σ l) := by
  refine h.step hb.n1 hb.n2 hb.b1 hb.b2 hR hC (IsSvd.ortho hs).1 (IsSvd.ortho hs).2 hs.nonneg ?_ ?_
  · intro i hi j hj
    have l1 := List.idxOf_lt_length_of_mem hi
    have l2 := List.idxOf_lt_length_of_mem hj
    rw [if_pos ⟨hi, hj⟩, ← hs.eq _ _ l1 l2, getD_lt l1, getD_lt l2, List.getElem_idxOf, List.getElem_idxOf]
  · intro i _ j _ hij
    rw [if_neg hij]

/-- The number of singular values of the blocks. -/
def total (bl : List (List Nat × List Nat)) : Nat := (bl.map fun b => min b.1.length b.2.length).sum

open Classical in
/-- The loop. -/
theorem blockLoop_ok {g : Gesvd 𝕜 ℝ} (hg : Works g) {A : Tensor 𝕜} {m n : Nat} (hm : 0 < m) (hn : 0 < n)
    {a : Nat → Nat → 𝕜} (ha : IsMat A.dims A.data m n a) {wantU wantV economic : Bool}
    (bl : List (List Nat × List Nat)) (hb : ∀ b ∈ bl, Good m n a b)
    (hap : bl.Pairwise fun a b => (∀ r ∈ a.1, r ∉ b.1) ∧ ∀ c ∈ a.2, c ∉ b.2)
    (hsq : ∀ b ∈ bl, Fits wantU wantV economic b) {q : Nat}
    {st : BlockS 𝕜 ℝ} {R C : Nat → Prop} {A' u v : Nat → Nat → 𝕜} {σ : Nat → ℝ} (hq : st.sndx = q)
    (hst : Holds m n wantU wantV st u v σ) (hp : Part m n q R C A' u v σ)
    (hR : ∀ b ∈ bl, ∀ i ∈ b.1, ¬ R i) (hC : ∀ b ∈ bl, ∀ j ∈ b.2, ¬ C j) (hroom : q + total bl ≤ min m n) :
    ∃ st' R' C' u' v' σ',
      Finishes (fun fuel => blockLoop fuel g (fun x => ‖x‖) (fun x : ℝ => (x : 𝕜)) economic A bl st) (.ok st') ∧
      Holds m n wantU wantV st' u' v' σ' ∧
      Part m n (q + total bl) R' C'
        (fun i j => if ∃ b ∈ bl, i ∈ b.1 ∧ j ∈ b.2 then a i j else A' i j) u' v' σ' := by
  induction bl generalizing q st R C A' u v σ with
  | nil =>
    refine ⟨st, R, C, u, v, σ, Finishes.done _, hst, ?_⟩
    simpa [total] using hp
  | cons b bl ih =>
    have ht : total (b :: bl) = min b.1.length b.2.length + total bl := by simp [total]
    rw [ht] at hroom
    have hbb := hb b (by simp)
    obtain ⟨B, st', w, z, τ, h1, h2, h3, h4, h5⟩ := block_ok hg hm hn ha hq hst hbb (by omega)
      (hsq b (by simp))
    have h6 := block_part hp hbb (hR b (by simp)) (hC b (by simp)) h4
    rw [List.pairwise_cons] at hap
    obtain ⟨st'', R', C', u', v', σ', k1, k2, k3⟩ := ih (fun b' h' => hb b' (by simp [h'])) hap.2
      (fun b' h' => hsq b' (by simp [h'])) h3 h5 h6
      (by
        rintro b' h' i hi (hRi | hi')
        · exact hR b' (by simp [h']) i hi hRi
        · exact (hap.1 b' h').1 i hi' hi)
      (by
        rintro b' h' i hi (hRi | hi')
        · exact hC b' (by simp [h']) i hi hRi
        · exact (hap.1 b' h').2 i hi' hi)
      (by omega)
    refine ⟨st'', R', C', u', v', σ', ?_, k2, ?_⟩
    · exact Finishes.bind h1 (Finishes.bind h2 k1)
    · rw [ht, ← Nat.add_assoc]
      convert k3 using 3 with i j
      by_cases e1 : ∃ b' ∈ bl, i ∈ b'.1 ∧ j ∈ b'.2
      · obtain ⟨b', h', e⟩ := e1
        rw [if_pos ⟨b', by simp [h'], e⟩, if_pos ⟨b', h', e⟩]
      · rw [if_neg (c := ∃ b' ∈ bl, _) e1]
        by_cases e2 : i ∈ b.1 ∧ j ∈ b.2
        · rw [if_pos (c := _ ∧ _) e2, if_pos ⟨b, by simp, e2⟩]
        · rw [if_neg (c := _ ∧ _) e2, if_neg]
          rintro ⟨b', h', e⟩
          rcases List.mem_cons.1 h' with rfl | h'
          · exact e2 e
          · exact e1 ⟨b', h', e⟩

open Classical in
/-- The loop if one of the blocks does not fit. -/
theorem blockLoop_abort {g : Gesvd 𝕜 ℝ} (hg : Works g) {A : Tensor 𝕜} {m n : Nat} (hm : 0 < m) (hn : 0 < n)
    {a : Nat → Nat → 𝕜} (ha : IsMat A.dims A.data m n a) {wantU wantV economic : Bool}
    (bl : List (List Nat × List Nat)) (hb : ∀ b ∈ bl, Good m n a b)
    (hsq : ¬ ∀ b ∈ bl, Fits wantU wantV economic b) {q : Nat}
    {st : BlockS 𝕜 ℝ} {u v : Nat → Nat → 𝕜} {σ : Nat → ℝ} (hq : st.sndx = q)
    (hst : Holds m n wantU wantV st u v σ) (hroom : q + total bl ≤ min m n) :
    Finishes (fun fuel => blockLoop fuel g (fun x => ‖x‖) (fun x : ℝ => (x : 𝕜)) economic A bl st) .abort := by
  induction bl generalizing q st u v σ with
  | nil => exact absurd (by simp) hsq
  | cons b bl ih =>
    have ht : total (b :: bl) = min b.1.length b.2.length + total bl := by simp [total]
    rw [ht] at hroom
    have hbb := hb b (by simp)
    by_cases hf : Fits wantU wantV economic b
    · obtain ⟨B, st', w, z, τ, h1, h2, h3, h4, h5⟩ := block_ok hg hm hn ha hq hst hbb (by omega) hf
      refine Finishes.bind h1 (Finishes.bind h2 (ih (fun b' h' => hb b' (by simp [h'])) ?_ h3 h5 (by omega)))
      intro hall
      refine hsq fun b' h' => ?_
      rcases List.mem_cons.1 h' with rfl | h'
      · exact hf
      · exact hall b' h'
    · obtain ⟨B, e1, hB⟩ := hbb.slice hm hn ha
      refine Finishes.bind e1 (Finishes.bind_abort ?_)
      have l1 : 0 < b.1.length := List.length_pos_iff.2 hbb.ne1
      have l2 : 0 < b.2.length := List.length_pos_iff.2 hbb.ne2
      have hbig : B.size > 1 := by
        have hsize : B.size = b.1.length * b.2.length := hB.2.1
        by_contra hc
        have hone : b.1.length * b.2.length = 1 := by
          have := Nat.mul_pos l1 l2
          omega
        have k1 := Nat.eq_one_of_mul_eq_one_right hone
        have k2 := Nat.eq_one_of_mul_eq_one_left hone
        refine hf (.inr ⟨fun _ => by omega, fun _ => by omega⟩)
      simp only [blockBody, if_pos hbig]
      exact blockLarge_abort hg hm hn hq hst hB hbb.ne1 hbb.ne2 hbb.n1 hbb.n2 hbb.b1 hbb.b2 (by omega) hf

/-! ### The blocks of the matrix -/

/-- The elements other than zero. -/
def NonZero (m n : Nat) (a : Nat → Nat → 𝕜) (i j : Nat) : Prop := i < m ∧ j < n ∧ a i j ≠ 0

/-- |real(x)| + |imag(x)|. -/
noncomputable def mag1 (x : 𝕜) : ℝ := |RCLike.re x| + |RCLike.im x|

theorem mag1_pos {x : 𝕜} : 0 < mag1 x ↔ x ≠ 0 := by
  rw [mag1]
  constructor
  · rintro h rfl
    simp at h
  · intro h
    have h1 := abs_nonneg (RCLike.re x)
    have h2 := abs_nonneg (RCLike.im x)
    rcases lt_or_eq_of_le (add_nonneg h1 h2) with h3 | h3
    · exact h3
    · exfalso
      refine h (RCLike.ext ?_ ?_)
      · rw [map_zero, ← abs_eq_zero]
        linarith
      · rw [map_zero, ← abs_eq_zero]
        linarith

theorem above_nonZero {A : Tensor 𝕜} {m n : Nat} {a : Nat → Nat → 𝕜} (ha : IsMat A.dims A.data m n a) (i j : Nat) :
    Above mag1 0 A i j ↔ NonZero m n a i j := by
  constructor
  · rintro ⟨x, h1, h2⟩
    have hin : InB [i, j] A.dims := by
      by_contra hc
      rw [elem, if_neg hc] at h1
      cases h1
    rw [ha.1] at hin
    have := ha.2.2 i j hin.1 hin.2.1
    rw [h1, Option.some.injEq] at this
    exact ⟨hin.1, hin.2.1, this ▸ mag1_pos.1 h2⟩
  · rintro ⟨h1, h2, h3⟩
    exact ⟨a i j, ha.2.2 i j h1 h2, mag1_pos.2 h3⟩

/-- Rows and columns which are connected to others have elements other than zero. -/
theorem linked_active {m n : Nat} {a : Nat → Nat → 𝕜} {x y : Nat ⊕ Nat} (h : Linked (NonZero m n a) x y) :
    x = y ∨ (x.elim (· < m) (· < n) ∧ y.elim (· < m) (· < n)) := by
  induction h with
  | rel x y hxy =>
    obtain ⟨r, c, rfl, rfl, h1, h2, -⟩ := hxy
    exact .inr ⟨h1, h2⟩
  | refl x => exact .inl rfl
  | symm x y _ ih =>
    rcases ih with rfl | ⟨h1, h2⟩
    · exact .inl rfl
    · exact .inr ⟨h2, h1⟩
  | trans x y z _ _ ih1 ih2 =>
    rcases ih1 with rfl | ⟨h1, h2⟩
    · exact ih2
    · rcases ih2 with rfl | ⟨h3, h4⟩
      · exact .inr ⟨h1, h2⟩
      · exact .inr ⟨h1, h4⟩

theorem blocks_good {m n : Nat} {a : Nat → Nat → 𝕜} {bl : List (List Nat × List Nat)}
    (h : IsBlocks (NonZero m n a) bl) {b : List Nat × List Nat} (hb : b ∈ bl) : Good m n a b := by
  obtain ⟨r, c, h1, h2, h3, h4, h5⟩ := h.touched b hb
  obtain ⟨s1, s2⟩ := h.sorted b hb
  refine ⟨s1.imp fun h => Nat.ne_of_lt h, s2.imp fun h => Nat.ne_of_lt h, fun i hi => ?_, fun j hj => ?_,
    ⟨r, h1, c, h2, h5⟩⟩
  · rcases linked_active (h.whole b hb (.inl i) (.inl r) hi h1) with e | ⟨e, -⟩
    · rw [Sum.inl.inj e]
      exact h3
    · exact e
  · rcases linked_active (h.whole b hb (.inr j) (.inr c) hj h2) with e | ⟨e, -⟩
    · rw [Sum.inr.inj e]
      exact h4
    · exact e

/-- Lists without common elements. -/
theorem sum_length_le {bl : List (List Nat)} {m : Nat} (hn : ∀ l ∈ bl, l.Nodup) (hb : ∀ l ∈ bl, ∀ x ∈ l, x < m)
    (hap : bl.Pairwise fun a b => ∀ r ∈ a, r ∉ b) : (bl.map List.length).sum ≤ m := by
  have hnd : bl.flatten.Nodup := List.nodup_flatten.2 ⟨hn, hap.imp fun h => by
    intro x hx hy
    exact h x hx hy⟩
  have hsub : bl.flatten ⊆ List.range m := by
    intro x hx
    obtain ⟨l, hl, hx⟩ := List.mem_flatten.1 hx
    exact List.mem_range.2 (hb l hl x hx)
  have := (hnd.subperm hsub).length_le
  rwa [List.length_flatten, List.length_range] at this

theorem total_le {m n : Nat} {a : Nat → Nat → 𝕜} {bl : List (List Nat × List Nat)}
    (h : IsBlocks (NonZero m n a) bl) : total bl ≤ min m n := by
  have h1 : ∀ (l : List (List Nat × List Nat)), total l ≤ ((l.map Prod.fst).map List.length).sum ∧
      total l ≤ ((l.map Prod.snd).map List.length).sum := by
    intro l
    induction l with
    | nil => simp [total]
    | cons b l ih =>
      simp only [total, List.map_cons, List.sum_cons] at ih ⊢
      omega
  have h2 : ((bl.map Prod.fst).map List.length).sum ≤ m := by
    refine sum_length_le ?_ ?_ ?_
    · intro l hl
      obtain ⟨b, hb, rfl⟩ := List.mem_map.1 hl
      exact (blocks_good h hb).n1
    · intro l hl
      obtain ⟨b, hb, rfl⟩ := List.mem_map.1 hl
      exact (blocks_good h hb).b1
    · rw [List.pairwise_map]
      exact h.apart.imp fun h => h.1
  have h3 : ((bl.map Prod.snd).map List.length).sum ≤ n := by
    refine sum_length_le ?_ ?_ ?_
    · intro l hl
      obtain ⟨b, hb, rfl⟩ := List.mem_map.1 hl
      exact (blocks_good h hb).n2
    · intro l hl
      obtain ⟨b, hb, rfl⟩ := List.mem_map.1 hl
      exact (blocks_good h hb).b2
    · rw [List.pairwise_map]
      exact h.apart.imp fun h => h.2
  have := h1 bl
  omega

theorem fill_isMat {α : Type} (r c : Nat) (x : α) :
    IsMat (fill [r, c] x).dims (fill [r, c] x).data r c fun _ _ => x := by
  refine ⟨rfl, by simp [fill, totalSize], fun i j hi hj => ?_⟩
  exact (c06_fill [r, c] x [i, j] (by simp) ⟨hi, hj, trivial⟩).2

theorem fill_isVec {α : Type} (k : Nat) (x : α) : IsVec (fill [k] x) k fun _ => x := by
  refine ⟨rfl, by simp [fill, totalSize], fun l hl => ?_⟩
  simp [fill, totalSize, hl]

/-- The state before the loop. -/
theorem holds_zero {m n : Nat} {wantU wantV economic : Bool} (h : economic = true ∨ m = n) :
    Holds m n wantU wantV (⟨0, fill [min m n] 0,
      if wantU then some (fill [m, if economic then min m n else m] 0) else none,
      if wantV then some (fill [if economic then min m n else n, n] 0) else none⟩ : BlockS 𝕜 ℝ)
      (fun _ _ => 0) (fun _ _ => 0) fun _ => 0 := by
  have e1 : (if economic = true then min m n else m) = min m n := by
    rcases h with rfl | rfl
    · rfl
    · simp
  have e2 : (if economic = true then min m n else n) = min m n := by
    rcases h with rfl | rfl
    · rfl
    · simp
  rw [e1, e2]
  refine ⟨fill_isVec _ _, by cases wantU <;> rfl, by cases wantV <;> rfl, ?_, ?_⟩
  · cases wantU
    · simp
    · simpa using fill_isMat m (min m n) (0 : 𝕜)
  · cases wantV
    · simp
    · simpa using fill_isMat (min m n) n (0 : 𝕜)

/-- The order of the singular values. -/
theorem sorted_order {k : Nat} {t : Tensor ℝ} {σ : Nat → ℝ} (ht : IsVec t k σ) {ndx : List Int}
    (h : SortIndices t.data true ndx) :
    ∃ o : List Nat, ndx = o.map Int.ofNat ∧ o.Perm (List.range k) ∧
      ∀ x y, x ≤ y → y < k → σ (o.getD y 0) ≤ σ (o.getD x 0) := by
  obtain ⟨h1, w, h2, -, -, h3⟩ := c34_sort_indices t.data true ndx h
  have h3 := h3 rfl
  rw [ht.2.1] at h1
  have hnn : ∀ i ∈ ndx, ∃ x < k, i = Int.ofNat x := by
    intro i hi
    obtain ⟨x, hx, rfl⟩ := List.mem_map.1 (h1.mem_iff.1 hi)
    exact ⟨x, List.mem_range.1 hx, rfl⟩
  have e : ndx = (ndx.map Int.toNat).map Int.ofNat := by
    rw [List.map_map]
    conv_lhs => rw [← List.map_id ndx]
    refine List.map_congr_left fun i hi => ?_
    obtain ⟨x, -, rfl⟩ := hnn i hi
    simp
  have hp : (ndx.map Int.toNat).Perm (List.range k) := by
    have := h1.map Int.toNat
    rw [List.map_map] at this
    have e2 : (List.range k).map (Int.toNat ∘ fun i : Nat => (i : Int)) = List.range k := by
      conv_rhs => rw [← List.map_id (List.range k)]
      exact List.map_congr_left fun i _ => by simp
    rwa [e2] at this
  refine ⟨ndx.map Int.toNat, e, hp, fun x y hxy hy => ?_⟩
  have hlen : (ndx.map Int.toNat).length = k := by rw [hp.length_eq, List.length_range]
  have hw : ∀ z < k, w[z]? = some (σ ((ndx.map Int.toNat).getD z 0)) := by
    intro z hz
    have h4 := congrArg (fun l : List (Option ℝ) => l[z]?) h2
    simp only [List.getElem?_map] at h4
    have hz' : z < ndx.length := by
      rw [List.length_map] at hlen
      omega
    have hzl : z < (ndx.map Int.toNat).length := by omega
    rw [List.getElem?_eq_getElem hz', Option.map_some] at h4
    have h5 : (ndx.map Int.toNat).getD z 0 = ndx[z].toNat := by
      rw [getD_lt hzl]
      simp
    have h6 : ndx[z].toNat < k := by
      obtain ⟨x, hx, e⟩ := hnn _ (List.getElem_mem hz')
      rw [e]
      simpa using hx
    rw [h5]
    rw [ht.2.2 _ h6] at h4
    cases hwz : w[z]? with
    | none => simp [hwz] at h4
    | some r => simpa [hwz] using h4.symm
  rcases Nat.eq_or_lt_of_le hxy with rfl | hlt
  · exact le_rfl
  · have a1 := hw x (by omega)
    have a2 := hw y hy
    obtain ⟨l1, a1⟩ := List.getElem?_eq_some_iff.1 a1
    obtain ⟨l2, a2⟩ := List.getElem?_eq_some_iff.1 a2
    rw [← a1, ← a2]
    exact List.pairwise_iff_getElem.1 h3 x y l1 l2 hlt

/-- block_svd. -/
noncomputable abbrev bsvd (fuel : Nat) (g : Gesvd 𝕜 ℝ) (sort : List ℝ → List Int) (A : Tensor 𝕜)
    (wantU wantV economic : Bool) :=
  blockSvd fuel g mag1 (fun x => ‖x‖) (fun x : ℝ => (x : 𝕜)) sort A wantU wantV economic

theorem all_sel (d : Nat) : sel .all d = (List.range d).map Int.ofNat := rfl

/-- Reading the tensors in the order of the singular values. -/
theorem finish_ok {m n : Nat} (hm : 0 < m) (hn : 0 < n) {wantU wantV : Bool} {st : BlockS 𝕜 ℝ}
    {u v : Nat → Nat → 𝕜} {σ : Nat → ℝ} (hst : Holds m n wantU wantV st u v σ) {o : List Nat}
    (ho : o.Perm (List.range (min m n))) :
    ∃ s U VT, Finishes (fun fuel => (do
        let s ← sliceT fuel st.s [.list (o.map Int.ofNat)]
        let U ← ifWanted st.U fun U => sliceT fuel U [.all, .list (o.map Int.ofNat)]
        let VT ← ifWanted st.VT fun VT => sliceT fuel VT [.list (o.map Int.ofNat), .all]
        pure (s, U, VT) : Run (Tensor ℝ × Option (Tensor 𝕜) × Option (Tensor 𝕜)))) (.ok (s, U, VT)) ∧
      IsVec s (min m n) (fun l => σ (o.getD l 0)) ∧ U.isSome = wantU ∧ VT.isSome = wantV ∧
      (∀ t ∈ U, IsMat t.dims t.data m (min m n) fun i l => u i (o.getD l 0)) ∧
      (∀ t ∈ VT, IsMat t.dims t.data (min m n) n fun l j => v (o.getD l 0) j) := by
  have hK : 0 < min m n := by omega
  have hlen : o.length = min m n := by rw [ho.length_eq, List.length_range]
  have hbd : ∀ x ∈ o, x < min m n := fun x hx => List.mem_range.1 (ho.mem_iff.1 hx)
  obtain ⟨s, f1, f2⟩ := slice_vec hst.s hK (valid_list hbd) rfl
  rw [hlen] at f2
  obtain ⟨U, f3, f4, f5⟩ := ifWanted_ok (p := st.U) (f := fun fuel U => sliceT fuel U [.all, .list (o.map Int.ofNat)])
    (P := fun t => IsMat t.dims t.data m (min m n) fun i l => u i (o.getD l 0)) (by
      intro t ht
      obtain ⟨t', g1, g2⟩ := slice_mat (hst.U t ht) hm hK (r1 := .all) trivial (valid_list hbd) (all_sel m) rfl
      refine ⟨t', g1, ?_⟩
      rw [List.length_range, hlen] at g2
      refine g2.congr fun i j hi _ => ?_
      rw [getD_lt (by simpa using hi)]
      simp)
  obtain ⟨VT, f6, f7, f8⟩ := ifWanted_ok (p := st.VT)
    (f := fun fuel VT => sliceT fuel VT [.list (o.map Int.ofNat), .all])
    (P := fun t => IsMat t.dims t.data (min m n) n fun l j => v (o.getD l 0) j) (by
      intro t ht
      obtain ⟨t', g1, g2⟩ := slice_mat (hst.V t ht) hK hn (r2 := .all) (valid_list hbd) trivial rfl (all_sel n)
      refine ⟨t', g1, ?_⟩
      rw [List.length_range, hlen] at g2
      refine g2.congr fun i j _ hj => ?_
      rw [getD_lt (l := List.range n) (by simpa using hj)]
      simp)
  exact ⟨s, U, VT, Finishes.bind f1 (Finishes.bind f3 (Finishes.bind f6 (Finishes.done _))), f2,
    by rw [← hst.hU]; exact f4, by rw [← hst.hV]; exact f7, f5, f8⟩

/-- block_svd of a matrix with one block. -/
theorem bsvd_none {fuel : Nat} {g : Gesvd 𝕜 ℝ} {sort : List ℝ → List Int} {A : Tensor 𝕜} {m n : Nat}
    (hd : A.dims = [m, n]) {wantU wantV economic : Bool}
    (hf : (m ≠ n ∧ economic = false) ∨ findBlocks mag1 A 0 = .ok none) :
    bsvd fuel g sort A wantU wantV economic = Run.done (svd g A wantU wantV economic) := by
  rw [bsvd, blockSvd, dim0 hd, Run.ok_bind, dim1 hd, Run.ok_bind]
  split
  · rfl
  · rename_i hc
    rw [hf.resolve_left hc, Run.ok_bind]

/-- block_svd of a matrix with more blocks, or none. -/
theorem bsvd_some {fuel : Nat} {g : Gesvd 𝕜 ℝ} {sort : List ℝ → List Int} {A : Tensor 𝕜} {m n : Nat}
    (hd : A.dims = [m, n]) {wantU wantV economic : Bool} (hc : economic = true ∨ m = n)
    {bl : List (List Nat × List Nat)} (hl : bl.length ≠ 1) (hf : findBlocks mag1 A 0 = .ok (some bl)) :
    bsvd fuel g sort A wantU wantV economic = (do
        let st ← blockLoop fuel g (fun x => ‖x‖) (fun x : ℝ => (x : 𝕜)) economic A bl
          ⟨0, fill [min m n] 0,
            if wantU then some (fill [m, if economic then min m n else m] 0) else none,
            if wantV then some (fill [if economic then min m n else n, n] 0) else none⟩
        let s ← sliceT fuel st.s [.list (sort st.s.data)]
        let U ← ifWanted st.U fun U => sliceT fuel U [.all, .list (sort st.s.data)]
        let VT ← ifWanted st.VT fun VT => sliceT fuel VT [.list (sort st.s.data), .all]
        pure (s, U, VT)) := by
  rw [bsvd, blockSvd, dim0 hd, Run.ok_bind, dim1 hd, Run.ok_bind]
  rw [if_neg (by rcases hc with rfl | rfl <;> simp), hf, Run.ok_bind]
  simp only
  rw [if_neg fun h => hl h.1]

/-! ### C72 -/

/-- The blocks can be written: `economic`, or a square matrix which has one block, or whose blocks are
square (wide, if only U is wanted; tall, if only VT is wanted). -/
def Writable (m n : Nat) (a : Nat → Nat → 𝕜) (wantU wantV economic : Bool) : Prop :=
  economic = true ∨ m = n ∧ ∀ bl, IsBlocks (NonZero m n a) bl → bl.length ≠ 1 →
    ∀ b ∈ bl, (wantU = true → b.1.length ≤ b.2.length) ∧ (wantV = true → b.2.length ≤ b.1.length)

/-- C72: block_svd finishes, A = U S VT, the singular values are not negative and in decreasing order, and
the columns of U and the rows of VT are orthogonal; those of singular values other than zero have norm 1. -/
theorem c72_thin_partial {g : Gesvd 𝕜 ℝ} (hg : Works g) {sort : List ℝ → List Int}
    (hsort : ∀ v, SortIndices v true (sort v)) {A : Tensor 𝕜} {m n : Nat} (hm : 0 < m) (hn : 0 < n)
    {a : Nat → Nat → 𝕜} (ha : IsMat A.dims A.data m n a) {wantU wantV economic : Bool}
    (hw : Writable m n a wantU wantV economic) :
    ∃ s U VT u v σ, Finishes (fun fuel => bsvd fuel g sort A wantU wantV economic) (.ok (s, U, VT)) ∧
      IsThin m n a u v σ ∧ IsVec s (min m n) σ ∧ U.isSome = wantU ∧ VT.isSome = wantV ∧
      (∀ t ∈ U, IsMat t.dims t.data m (min m n) u) ∧ ∀ t ∈ VT, IsMat t.dims t.data (min m n) n v := by
  have hec : economic = true ∨ m = n := hw.imp id fun h => h.1
  obtain ⟨bl, hbl, hf⟩ := c56_blocks_zero mag1 A (isMat_wf ha) m n ha.1
  replace hbl : IsBlocks (NonZero m n a) bl := IsBlocks.congr hbl fun r c => above_nonZero ha r c
  by_cases h1 : bl.length = 1
  · rw [if_pos h1] at hf
    obtain ⟨s, U, VT, u, v, σ, e1, e2, e3, e4, e5, e6, e7⟩ := svd_works hg hm hn ha wantU wantV economic
    refine ⟨s, U, VT, u, v, σ, ?_, IsSvd.thin e2, e3, e4, e5, ?_, ?_⟩
    · simp only [bsvd_none ha.1 (.inr hf), e1]
      exact Finishes.done _
    · rwa [show (if economic = true then min m n else m) = min m n from by
        rcases hec with rfl | rfl <;> simp] at e6
    · rwa [show (if economic = true then min m n else n) = min m n from by
        rcases hec with rfl | rfl <;> simp] at e7
  · rw [if_neg h1] at hf
    classical
    obtain ⟨st, R, C, u, v, σ, k1, k2, k3⟩ := blockLoop_ok hg hm hn ha (wantU := wantU) (wantV := wantV)
      (economic := economic) bl (fun b hb => blocks_good hbl hb) hbl.apart
      (fun b hb => hw.imp id fun h => h.2 bl hbl h1 b hb) rfl (holds_zero hec) (Part.zero m n)
      (by simp) (by simp) (by simpa using total_le hbl)
    rw [Nat.zero_add] at k3
    obtain ⟨o, o1, o2, o3⟩ := sorted_order k2.s (hsort st.s.data)
    obtain ⟨s, U, VT, f1, f2, f3, f4, f5, f6⟩ := finish_ok hm hn k2 o2
    have k4 := k3.thin (total_le hbl) o2 o3
    refine ⟨s, U, VT, _, _, _, ?_, ⟨k4.left, k4.right, k4.leftUnit, k4.rightUnit, k4.nonneg, k4.decr, ?_⟩,
      f2, f3, f4, f5, f6⟩
    · simp only [bsvd_some ha.1 hec h1 hf]
      refine Finishes.bind k1 ?_
      rw [o1]
      exact f1
    · intro i j hi hj
      rw [← k4.eq i j hi hj]
      by_cases hz : a i j = 0
      · simp [hz]
      · obtain ⟨b, hb, h⟩ := hbl.cover i j ⟨hi, hj, hz⟩
        rw [if_pos ⟨b, hb, h⟩]

/-- C72: the singular values are the same as those of svd. -/
theorem c72_values_partial {g : Gesvd 𝕜 ℝ} (hg : Works g) {sort : List ℝ → List Int}
    (hsort : ∀ v, SortIndices v true (sort v)) {A : Tensor 𝕜} {m n : Nat} (hm : 0 < m) (hn : 0 < n)
    {a : Nat → Nat → 𝕜} (ha : IsMat A.dims A.data m n a) {wantU wantV economic : Bool}
    (hw : Writable m n a wantU wantV economic) (wantU' wantV' economic' : Bool) :
    ∃ s U VT U' VT', Finishes (fun fuel => bsvd fuel g sort A wantU wantV economic) (.ok (s, U, VT)) ∧
      svd g A wantU' wantV' economic' = .ok (s, U', VT') := by
  obtain ⟨s, U, VT, u, v, σ, h1, h2, h3, -⟩ := c72_thin_partial hg hsort hm hn ha hw
  obtain ⟨s', U', VT', u', v', σ', e1, e2, e3, -⟩ := svd_works hg hm hn ha wantU' wantV' economic'
  refine ⟨s, U, VT, U', VT', h1, ?_⟩
  rw [e1]
  have : s' = s := by
    obtain ⟨d, l⟩ := s
    obtain ⟨d', l'⟩ := s'
    obtain ⟨a1, a2, a3⟩ := h3
    obtain ⟨b1, b2, b3⟩ := e3
    simp only at a1 a2 a3 b1 b2 b3
    subst a1 b1
    congr 1
    refine List.ext_getElem? fun i => ?_
    by_cases hi : i < min m n
    · rw [a3 i hi, b3 i hi, h2.unique (IsSvd.thin e2) hi]
    · rw [List.getElem?_eq_none (by omega), List.getElem?_eq_none (by omega)]
  rw [this]

/-- C72: without U and VT, for all matrices. -/
theorem c72_values_only {g : Gesvd 𝕜 ℝ} (hg : Works g) {sort : List ℝ → List Int}
    (hsort : ∀ v, SortIndices v true (sort v)) {A : Tensor 𝕜} {m n : Nat} (hm : 0 < m) (hn : 0 < n)
    {a : Nat → Nat → 𝕜} (ha : IsMat A.dims A.data m n a) (economic : Bool) :
    ∃ s, Finishes (fun fuel => bsvd fuel g sort A false false economic) (.ok (s, none, none)) ∧
      svd g A false false economic = .ok (s, none, none) := by
  by_cases hr : m ≠ n ∧ economic = false
  · obtain ⟨s, U, VT, u, v, σ, e1, e2, e3, e4, e5, -⟩ := svd_works hg hm hn ha false false economic
    obtain rfl : U = none := by simpa using e4
    obtain rfl : VT = none := by simpa using e5
    refine ⟨s, ?_, e1⟩
    simp only [bsvd_none ha.1 (.inl hr), e1]
    exact Finishes.done _
  · have hw : Writable m n a false false economic := by
      rw [Writable]
      cases economic
      · right
        exact ⟨by simpa using hr, by simp⟩
      · simp
    obtain ⟨s, U, VT, u, v, σ, h1, -, -, h4, h5, -⟩ := c72_thin_partial hg hsort hm hn ha hw
    obtain ⟨s', U1, VT1, U', VT', h1', h2'⟩ := c72_values_partial hg hsort hm hn ha hw false false economic
    obtain rfl : U = none := by simpa using h4
    obtain rfl : VT = none := by simpa using h5
    have := h1.unique h1'
    simp only [Res.ok.injEq, Prod.mk.injEq] at this
    obtain ⟨rfl, -, -⟩ := this
    refine ⟨s, h1, ?_⟩
    obtain ⟨s2, U2, VT2, u2, v2, σ2, e1, e2, e3, e4, e5, -⟩ := svd_works hg hm hn ha false false economic
    rw [h2'] at e1
    simp only [Res.ok.injEq, Prod.mk.injEq] at e1
    obtain ⟨rfl, rfl, rfl⟩ := e1
    rw [h2', show U' = none from by simpa using e4, show VT' = none from by simpa using e5]

/-- C72: if svd gives no singular value 0, the columns of U and the rows of VT are orthonormal. -/
theorem c72_orthonormal_partial {g : Gesvd 𝕜 ℝ} (hg : Works g) {sort : List ℝ → List Int}
    (hsort : ∀ v, SortIndices v true (sort v)) {A : Tensor 𝕜} {m n : Nat} (hm : 0 < m) (hn : 0 < n)
    {a : Nat → Nat → 𝕜} (ha : IsMat A.dims A.data m n a) {wantU wantV economic : Bool}
    (hw : Writable m n a wantU wantV economic)
    (hr : ∀ s U VT, svd g A wantU wantV economic = .ok (s, U, VT) → (0 : ℝ) ∉ s.data) :
    ∃ s U VT u v σ, Finishes (fun fuel => bsvd fuel g sort A wantU wantV economic) (.ok (s, U, VT)) ∧
      IsThin m n a u v σ ∧ IsVec s (min m n) σ ∧ U.isSome = wantU ∧ VT.isSome = wantV ∧
      (∀ t ∈ U, IsMat t.dims t.data m (min m n) u) ∧ (∀ t ∈ VT, IsMat t.dims t.data (min m n) n v) ∧
      (∀ k l, k < min m n → l < min m n →
        ∑ i ∈ Finset.range m, starRingEnd 𝕜 (u i k) * u i l = if k = l then 1 else 0) ∧
      ∀ k l, k < min m n → l < min m n →
        ∑ j ∈ Finset.range n, v k j * starRingEnd 𝕜 (v l j) = if k = l then 1 else 0 := by
  obtain ⟨s, U, VT, u, v, σ, h1, h2, h3, h4, h5, h6, h7⟩ := c72_thin_partial hg hsort hm hn ha hw
  obtain ⟨s', U1, VT1, U', VT', h1', h2'⟩ := c72_values_partial hg hsort hm hn ha hw wantU wantV economic
  have hs := h1.unique h1'
  simp only [Res.ok.injEq, Prod.mk.injEq] at hs
  obtain ⟨rfl, -, -⟩ := hs
  have hne : ∀ l < min m n, σ l ≠ 0 := by
    intro l hl e
    have := h3.2.2 l hl
    rw [e] at this
    exact hr _ _ _ h2' (List.mem_of_getElem? this)
  exact ⟨s, U, VT, u, v, σ, h1, h2, h3, h4, h5, h6, h7, fun k l hk hl => h2.leftOrtho hk hl (hne k hk),
    fun k l hk hl => h2.rightOrtho hk hl (hne k hk)⟩

/-- C72: matrices which are not square, not `economic`: the same as svd. -/
theorem c72_rectangular (fuel : Nat) (g : Gesvd 𝕜 ℝ) (sort : List ℝ → List Int) (A : Tensor 𝕜) {m n : Nat}
    (hd : A.dims = [m, n]) (hmn : m ≠ n) (wantU wantV : Bool) :
    bsvd fuel g sort A wantU wantV false = Run.done (svd g A wantU wantV false) :=
  bsvd_none hd (.inl ⟨hmn, rfl⟩)

/-- C72 is false of square matrices with blocks which are not square, not `economic`: the program stops. -/
theorem c72_negation_blocks {g : Gesvd 𝕜 ℝ} (hg : Works g) {sort : List ℝ → List Int} {A : Tensor 𝕜} {n : Nat}
    (hn : 0 < n) {a : Nat → Nat → 𝕜} (ha : IsMat A.dims A.data n n a) {wantU wantV : Bool}
    (hw : ¬ Writable n n a wantU wantV false) :
    Finishes (fun fuel => bsvd fuel g sort A wantU wantV false) .abort := by
  simp only [Writable, Bool.false_eq_true, false_or, true_and, not_forall] at hw
  obtain ⟨bl', hbl', h1', b', hb', hw⟩ := hw
  obtain ⟨bl, hbl, hf⟩ := c56_blocks_zero mag1 A (isMat_wf ha) n n ha.1
  replace hbl : IsBlocks (NonZero n n a) bl := IsBlocks.congr hbl fun r c => above_nonZero ha r c
  have hperm := c56_unique _ _ _ hbl' hbl
  have h1 : bl.length ≠ 1 := by rw [← hperm.length_eq]; exact h1'
  rw [if_neg h1] at hf
  simp only [bsvd_some ha.1 (.inr rfl) h1 hf]
  refine Finishes.bind_abort (blockLoop_abort hg hn hn ha bl (fun b hb => blocks_good hbl hb) ?_ rfl
    (holds_zero (.inr rfl)) (by simpa using total_le hbl))
  intro hall
  have := hall b' (hperm.mem_iff.1 hb')
  simp only [Fits, Bool.false_eq_true, false_or] at this
  exact hw this

/-- C72 is false of matrices of zeros: the columns of U and the rows of VT are zero. -/
theorem c72_negation_zero (g : Gesvd 𝕜 ℝ) {sort : List ℝ → List Int}
    (hsort : ∀ v, SortIndices v true (sort v)) {A : Tensor 𝕜} {m n : Nat} (hm : 0 < m) (hn : 0 < n)
    (ha : IsMat A.dims A.data m n fun _ _ => 0) {economic : Bool} (hec : economic = true ∨ m = n) :
    ∃ s U VT, Finishes (fun fuel => bsvd fuel g sort A true true economic) (.ok (s, some U, some VT)) ∧
      IsMat U.dims U.data m (min m n) (fun _ _ => 0) ∧ IsMat VT.dims VT.data (min m n) n fun _ _ => 0 := by
  obtain ⟨bl, hbl, hf⟩ := c56_blocks_zero mag1 A (isMat_wf ha) m n ha.1
  replace hbl : IsBlocks (NonZero m n fun _ _ => (0 : 𝕜)) bl := IsBlocks.congr hbl fun r c => above_nonZero ha r c
  obtain rfl : bl = [] := by
    match bl, hbl with
    | [], _ => rfl
    | b :: _, hbl =>
      obtain ⟨r, c, -, -, -, -, h⟩ := hbl.touched b (by simp)
      exact absurd rfl h
  rw [if_neg (by simp)] at hf
  have hz : Holds m n true true _ _ _ _ := holds_zero (𝕜 := 𝕜) (wantU := true) (wantV := true) hec
  obtain ⟨o, o1, o2, -⟩ := sorted_order hz.s (hsort _)
  obtain ⟨s, U, VT, f1, f2, f3, f4, f5, f6⟩ := finish_ok hm hn hz o2
  obtain ⟨U, rfl⟩ := Option.isSome_iff_exists.1 f3
  obtain ⟨VT, rfl⟩ := Option.isSome_iff_exists.1 f4
  refine ⟨s, U, VT, ?_, f5 U rfl, f6 VT rfl⟩
  simp only [bsvd_some ha.1 hec (by simp : ([] : List (List Nat × List Nat)).length ≠ 1) hf]
  refine Finishes.bind (Finishes.done _) ?_
  rw [o1]
  exact f1

/-- If no singular value is zero, the decomposition of a square matrix is complete. -/
theorem thin_isSvd {n : Nat} {a u v : Nat → Nat → 𝕜} {σ : Nat → ℝ} (h : IsThin n n a u v σ)
    (hz : ∀ l < n, σ l ≠ 0) : IsSvd n n a u v σ := by
  have h1 : ∀ k l, k < n → l < n →
      ∑ i ∈ Finset.range n, starRingEnd 𝕜 (u i k) * u i l = if k = l then 1 else 0 := fun k l hk hl => by
    split
    · rename_i e
      subst e
      exact (h.leftUnit k (by omega)).resolve_right fun e => hz k hk e.1
    · exact h.left k l (by omega) (by omega) ‹_›
  have h2 : ∀ k l, k < n → l < n →
      ∑ j ∈ Finset.range n, v k j * starRingEnd 𝕜 (v l j) = if k = l then 1 else 0 := fun k l hk hl => by
    split
    · rename_i e
      subst e
      exact (h.rightUnit k (by omega)).resolve_right fun e => hz k hk e.1
    · exact h.right k l (by omega) (by omega) ‹_›
  refine ⟨⟨h1, fun k l hk hl => ?_⟩, ⟨fun k l hk hl => ?_, h2⟩, h.nonneg, h.decr, h.eq⟩
  · let M : Matrix (Fin n) (Fin n) 𝕜 := Matrix.of fun i j => u i j
    have e : M.conjTranspose * M = 1 := by
      ext x y
      have := h1 x y x.2 y.2
      rw [Finset.sum_range] at this
      simp only [Fin.val_inj] at this
      rw [Matrix.mul_apply, Matrix.one_apply, ← this]
      rfl
    have e0 : M * M.conjTranspose = 1 := mul_eq_one_comm.1 e
    have := congrFun (congrFun e0 ⟨k, hk⟩) ⟨l, hl⟩
    rw [Matrix.mul_apply, Matrix.one_apply] at this
    simp only [Fin.mk.injEq] at this
    rw [Finset.sum_range, ← this]
    rfl
  · let M : Matrix (Fin n) (Fin n) 𝕜 := Matrix.of fun i j => v i j
    have e : M * M.conjTranspose = 1 := by
      ext x y
      have := h2 x y x.2 y.2
      rw [Finset.sum_range] at this
      simp only [Fin.val_inj] at this
      rw [Matrix.mul_apply, Matrix.one_apply, ← this]
      rfl
    have e0 : M.conjTranspose * M = 1 := mul_eq_one_comm.1 e
    have := congrFun (congrFun e0 ⟨k, hk⟩) ⟨l, hl⟩
    rw [Matrix.mul_apply, Matrix.one_apply] at this
    simp only [Fin.mk.injEq] at this
    rw [Finset.sum_range, ← this]
    rfl

/-- C72: for a square matrix without singular values which are zero, block_svd gives a complete
decomposition, with unitary matrices. -/
theorem c72_square_partial {g : Gesvd 𝕜 ℝ} (hg : Works g) {sort : List ℝ → List Int}
    (hsort : ∀ v, SortIndices v true (sort v)) {A : Tensor 𝕜} {n : Nat} (hn : 0 < n)
    {a : Nat → Nat → 𝕜} (ha : IsMat A.dims A.data n n a) {economic : Bool}
    (hw : Writable n n a true true economic)
    (hr : ∀ s U VT, svd g A true true economic = .ok (s, U, VT) → (0 : ℝ) ∉ s.data) :
    ∃ s U VT u v σ,
      Finishes (fun fuel => bsvd fuel g sort A true true economic) (.ok (s, some U, some VT)) ∧
      IsSvd n n a u v σ ∧ IsVec s n σ ∧ IsMat U.dims U.data n n u ∧ IsMat VT.dims VT.data n n v := by
  obtain ⟨s, U, VT, u, v, σ, h1, h2, h3, h4, h5, h6, h7⟩ := c72_thin_partial hg hsort hn hn ha hw
  obtain ⟨s', U', VT', U'', VT'', f1, f2⟩ := c72_values_partial hg hsort hn hn ha hw true true economic
  obtain ⟨rfl, -⟩ : s = s' ∧ _ := by
    have := h1.unique f1
    simpa using this
  obtain ⟨U, rfl⟩ := Option.isSome_iff_exists.1 h4
  obtain ⟨VT, rfl⟩ := Option.isSome_iff_exists.1 h5
  rw [Nat.min_self] at h3 h6 h7
  refine ⟨s, U, VT, u, v, σ, h1, thin_isSvd h2 fun l hl e => ?_, h3, h6 U rfl, h7 VT rfl⟩
  have := h3.2.2 l hl
  rw [e] at this
  exact hr s _ _ f2 (List.mem_of_getElem? this)

/-- There is a routine which does what the manual of gesvd says. -/
theorem exists_works : ∃ g : Gesvd 𝕜 ℝ, Works g := by
  classical
  have hex : ∀ (m n lda : Nat) (a : List 𝕜), ∃ t : (Nat → Nat → 𝕜) × (Nat → Nat → 𝕜) × (Nat → ℝ),
      IsSvd m n (fun i j => a.getD (i + lda * j) 0) t.1 t.2.1 t.2.2 := fun m n lda a => by
    obtain ⟨U, V, σ, h⟩ := exists_isSvd m n (fun i j => a.getD (i + lda * j) (0 : 𝕜))
    exact ⟨⟨U, V, σ⟩, h⟩
  choose t ht using hex
  let buf : Nat → Nat → (Nat → Nat → 𝕜) → List 𝕜 := fun ld c f =>
    (List.range (ld * c)).map fun p => f (p % ld) (p / ld)
  have hbuf : ∀ ld r c f, r ≤ ld → Stores (buf ld c f) ld r c f := fun ld r c f hr i j hi hj => by
    have hlt : i + ld * j < ld * c := by
      have : ld * (j + 1) ≤ ld * c := Nat.mul_le_mul_left _ hj
      rw [Nat.mul_add] at this
      omega
    have h1 : (i + ld * j) % ld = i := by
      rw [Nat.add_mul_mod_self_left, Nat.mod_eq_of_lt (by omega)]
    have h2 : (i + ld * j) / ld = j := by
      rw [Nat.add_mul_div_left _ _ (by omega), Nat.div_eq_of_lt (by omega), Nat.zero_add]
    simp only [buf]
    rw [List.getElem?_map, List.getElem?_range hlt, Option.map_some, h1, h2]
  refine ⟨fun ju jv m n a lda ldu ldv => ⟨0, (List.range (min m n)).map (t m n lda a).2.2,
    buf ldu (jobSize ju (min m n) m) (t m n lda a).1, buf ldv n (t m n lda a).2.1⟩,
    fun ju jv m n a lda ldu ldv => ⟨fun hm hn hla hl hu hv => ⟨by simp, fun _ => by simp [buf],
      fun _ => by simp [buf], fun _ A hA => ?_⟩, rfl⟩⟩
  have h := ht m n lda a
  refine ⟨_, _, _, ⟨h.left, h.right, h.nonneg, h.decr, fun i j hi hj => ?_⟩, fun l hl => ?_, ?_, ?_⟩
  · rw [← h.eq i j hi hj, List.getD_eq_getElem?_getD, hA i j hi hj, Option.getD_some]
  · rw [List.getElem?_map, List.getElem?_range hl, Option.map_some]
  · by_cases hj : ju = .none
    · subst hj
      intro i j _ hj
      exact absurd hj (by simp [jobSize])
    · exact hbuf _ _ _ _ (hu hj)
  · exact hbuf _ _ _ _ hv

/-- The hypotheses about gesvd and sort_indices can be met. -/
example : ∃ (g : Gesvd 𝕜 ℝ) (sort : List ℝ → List Int), Works g ∧ ∀ v, SortIndices v true (sort v) := by
  obtain ⟨g, hg⟩ := exists_works (𝕜 := 𝕜)
  choose sort hs using fun v : List ℝ => sort_indices_exists v true
  exact ⟨g, sort, hg, hs⟩

/-- The rows 1 1 0, 0 0 1 and 0 0 1. -/
def mixed (i j : Nat) : ℝ := if (i = 0 ∧ j < 2) ∨ (i ≠ 0 ∧ j = 2) then 1 else 0

theorem mixed_blocks : IsBlocks (NonZero 3 3 mixed) [([0], [0, 1]), ([1, 2], [2])] := by
  have hs : ∀ r c, NonZero 3 3 mixed r c ↔ (r = 0 ∧ c < 2) ∨ ((r = 1 ∨ r = 2) ∧ c = 2) := fun r c => by
    unfold NonZero mixed
    simp only [ite_ne_right_iff, ne_eq, one_ne_zero, not_false_eq_true, and_true]
    omega
  have ht : ∀ r c, NonZero 3 3 mixed r c → Linked (NonZero 3 3 mixed) (.inl r) (.inr c) :=
    fun r c h => .rel _ _ ⟨r, c, rfl, rfl, h⟩
  have e0 := ht 0 0 ((hs _ _).2 (by omega))
  have e1 := ht 0 1 ((hs _ _).2 (by omega))
  have e2 := ht 1 2 ((hs _ _).2 (by omega))
  have e3 := ht 2 2 ((hs _ _).2 (by omega))
  refine ⟨fun r c h => ?_, by simp, ?_, ?_, by simp⟩
  · rw [hs] at h
    rcases h with ⟨rfl, h⟩ | ⟨h, rfl⟩
    · exact ⟨([0], [0, 1]), by simp, by simp, by simp; omega⟩
    · exact ⟨([1, 2], [2]), by simp, by simpa using h, by simp⟩
  · simp only [List.mem_cons, List.not_mem_nil, or_false, forall_eq_or_imp, forall_eq]
    exact ⟨⟨0, 0, by simp, by simp, (hs _ _).2 (by omega)⟩, ⟨1, 2, by simp, by simp, (hs _ _).2 (by omega)⟩⟩
  · simp only [List.mem_cons, List.not_mem_nil, or_false, forall_eq_or_imp, forall_eq]
    constructor
    · have key : ∀ x, Within ([0], [0, 1]) x → Linked (NonZero 3 3 mixed) (.inl 0) x := by
        rintro (x | x) h
        · obtain rfl : x = 0 := by simpa [Within] using h
          exact .refl _
        · have : x = 0 ∨ x = 1 := by simpa [Within] using h
          rcases this with rfl | rfl
          · exact e0
          · exact e1
      exact fun x y hx hy => .trans _ _ _ (.symm _ _ (key x hx)) (key y hy)
    · have key : ∀ x, Within ([1, 2], [2]) x → Linked (NonZero 3 3 mixed) (.inr 2) x := by
        rintro (x | x) h
        · have : x = 1 ∨ x = 2 := by simpa [Within] using h
          rcases this with rfl | rfl
          · exact .symm _ _ e2
          · exact .symm _ _ e3
        · obtain rfl : x = 2 := by simpa [Within] using h
          exact .refl _
      exact fun x y hx hy => .trans _ _ _ (.symm _ _ (key x hx)) (key y hy)

/-- A matrix to which C72 does not apply, with the tensor that has it. -/
theorem mixed_isMat : IsMat [3, 3] [1, 0, 0, 1, 0, 0, 0, 1, 1] 3 3 mixed := by
  refine ⟨rfl, rfl, fun i j hi hj => ?_⟩
  have h1 : i = 0 ∨ i = 1 ∨ i = 2 := by omega
  have h2 : j = 0 ∨ j = 1 ∨ j = 2 := by omega
  rcases h1 with rfl | rfl | rfl <;> rcases h2 with rfl | rfl | rfl <;>
    simp [elem, InB, colPos, mixed]

/-- block_svd of a square matrix stops the program if U or VT are wanted. -/
theorem c72_negation_mixed {g : Gesvd ℝ ℝ} (hg : Works g) (sort : List ℝ → List Int) (wantU wantV : Bool)
    (h : wantU = true ∨ wantV = true) :
    Finishes (fun fuel => bsvd fuel g sort ⟨[3, 3], [1, 0, 0, 1, 0, 0, 0, 1, 1]⟩ wantU wantV false) .abort := by
  refine c72_negation_blocks hg (by omega) mixed_isMat fun hw => ?_
  have := (hw.resolve_left (by simp)).2 _ mixed_blocks (by simp)
  have h1 := this ([0], [0, 1]) (by simp)
  have h2 := this ([1, 2], [2]) (by simp)
  rcases h with rfl | rfl
  · have := h2.1 rfl
    simp at this
  · have := h1.2 rfl
    simp at this

/-- The same matrix with `economic`. -/
example {g : Gesvd ℝ ℝ} (hg : Works g) {sort : List ℝ → List Int}
    (hsort : ∀ v, SortIndices v true (sort v)) : ∃ s U VT,
    Finishes (fun fuel => bsvd fuel g sort ⟨[3, 3], [1, 0, 0, 1, 0, 0, 0, 1, 1]⟩ true true true)
      (.ok (s, U, VT)) := by
  obtain ⟨s, U, VT, -, -, -, h, -⟩ := c72_thin_partial hg hsort
    (A := ⟨[3, 3], [1, 0, 0, 1, 0, 0, 0, 1, 1]⟩) (m := 3) (n := 3) (by omega) (by omega) mixed_isMat
    (wantU := true) (wantV := true) (economic := true) (.inl rfl)
  exact ⟨s, U, VT, h⟩

/-- A matrix without singular values which are zero. -/
example {g : Gesvd ℝ ℝ} (hg : Works g) : ∀ s U VT,
    svd g (⟨[1, 1], [2]⟩ : Tensor ℝ) true true true = .ok (s, U, VT) → (0 : ℝ) ∉ s.data := by
  obtain ⟨s, U, VT, u, v, σ, h1, h2, h3, -⟩ := svd_works hg
    (A := ⟨[1, 1], [2]⟩) (m := 1) (n := 1) (by omega) (by omega) two_isMat true true true
  intro s' U' VT' h h0
  rw [h1, Res.ok.injEq, Prod.mk.injEq] at h
  obtain ⟨rfl, -⟩ := h
  obtain ⟨l, hl⟩ := List.mem_iff_getElem?.1 h0
  have hlt : l < s.data.length := by
    by_contra hc
    rw [List.getElem?_eq_none (by omega)] at hl
    cases hl
  rw [h3.2.1] at hlt
  have := h3.2.2 l hlt
  have e : σ l = 0 := by
    rw [hl] at this
    simpa using this.symm
  obtain rfl : l = 0 := by simpa using hlt
  have := h2.eq 0 0 (by omega) (by omega)
  simp [e] at this

example (g : Gesvd ℝ ℝ) {sort : List ℝ → List Int} (hsort : ∀ v, SortIndices v true (sort v)) : ∃ s U VT,
    Finishes (fun fuel => bsvd fuel g sort ⟨[1, 1], [0]⟩ true true true) (.ok (s, some U, some VT)) ∧
      U.data = [0] := by
  obtain ⟨s, U, VT, h1, h2, -⟩ := c72_negation_zero g hsort (A := ⟨[1, 1], [0]⟩) (m := 1) (n := 1) (by omega)
    (by omega) ⟨rfl, rfl, fun i j hi hj => by
      obtain rfl : i = 0 := by omega
      obtain rfl : j = 0 := by omega
      simp [elem, InB, colPos]⟩ (economic := true) (.inl rfl)
  refine ⟨s, U, VT, h1, ?_⟩
  obtain ⟨d, l⟩ := U
  obtain ⟨rfl, hl, he⟩ := h2
  have := he 0 0 (by omega) (by omega)
  simp only [Nat.min_self, Nat.mul_one] at hl
  obtain ⟨x, rfl⟩ := List.length_eq_one_iff.1 hl
  simpa [elem, InB, colPos] using this

end Verif.Svd
