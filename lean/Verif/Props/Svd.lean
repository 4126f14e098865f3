import Verif.Lemmas.Svd
import Verif.Props.View
import Verif.Props.Fold
import Verif.Props.Scale
import Verif.Props.Arith
import Verif.Props.Dims
import Mathlib.Tactic.NormNum
/-
C67: singular value decomposition. C68: solution of equations with it.

`g` is the routine gesvd of LAPACK. What its manual says is the hypothesis `GesvdAnswer`.
-/
namespace Verif.Svd

open Verif Tensor View Spec Finset

variable {𝕜 : Type} [RCLike 𝕜]

/-- The call that svd makes. -/
def called {α β : Type} (g : Gesvd α β) (A : Tensor α) (m n : Nat) (wantU wantV economic : Bool) : Out α β :=
  g (job wantU economic) (job wantV economic) m n A.data m (if wantU then m else 1)
    (if wantV then (if economic then min m n else n) else 1)

theorem svd_eq {α β : Type} (g : Gesvd α β) (A : Tensor α) {m n : Nat} (hd : A.dims = [m, n]) (hm : 0 < m)
    (hn : 0 < n) (wantU wantV economic : Bool) :
    svd g A wantU wantV economic = .ok (⟨[min m n], (called g A m n wantU wantV economic).s⟩,
      (if wantU then some ⟨[m, if economic then min m n else m], (called g A m n wantU wantV economic).u⟩
        else none),
      (if wantV then some ⟨[if economic then min m n else n, n], (called g A m n wantU wantV economic).v⟩
        else none)) := by
  obtain ⟨dims, data⟩ := A
  simp only at hd
  subst hd
  have e0 : (⟨[m, n], data⟩ : Tensor α).dimension 0 = .ok m := dimension_nat _ 0 _ rfl
  have e1 : (⟨[m, n], data⟩ : Tensor α).dimension 1 = .ok n := dimension_nat _ 1 _ rfl
  simp only [svd, e0, e1, Res.ok_bind]
  rw [Res.assert_pos hm, Res.ok_bind, Res.assert_pos hn, Res.ok_bind, Res.assert_pos (by rfl), Res.ok_bind]
  rfl

theorem wf2 {α : Type} {d : List α} {a b : Nat} (h : d.length = a * b) :
    (⟨[a, b], d⟩ : Tensor α).WF := by
  show d.length = totalSize [a, b]
  rw [h]
  simp [totalSize]

theorem wf1 {α : Type} {d : List α} {a : Nat} (h : d.length = a) : (⟨[a], d⟩ : Tensor α).WF := by
  show d.length = totalSize [a]
  rw [h]
  simp [totalSize]

theorem isMat_stores {α : Type} {d : List α} {a b : Nat} {f : Nat → Nat → α} (h : d.length = a * b) :
    IsMat [a, b] d a b f ↔ Stores d a a b f := by
  refine ⟨fun hm i j hi hj => ?_, fun hs => ⟨rfl, h, fun i j hi hj => ?_⟩⟩
  · have := hm.2.2 i j hi hj
    simpa [elem, InB, hi, hj, colPos] using this
  · have := hs i j hi hj
    simpa [elem, InB, hi, hj, colPos] using this

/-- C67: svd. If gesvd does what its manual says, the result has the sizes of the documentation, and if
gesvd succeeds, A = U S VT with U and VT (the first columns and rows of) unitary matrices and S diagonal
with non-negative elements in decreasing order. -/
theorem c67_svd_partial (g : Gesvd 𝕜 ℝ) (A : Tensor 𝕜) {m n : Nat} (hm : 0 < m) (hn : 0 < n)
    (wantU wantV economic : Bool)
    (hg : ∀ jobu jobv lda ldu ldv,
      GesvdAnswer jobu jobv m n A.data lda ldu ldv (g jobu jobv m n A.data lda ldu ldv))
    (a : Nat → Nat → 𝕜) (ha : IsMat A.dims A.data m n a) :
    ∃ s U VT, svd g A wantU wantV economic = .ok (s, U, VT) ∧
      s.dims = [min m n] ∧ s.WF ∧ U.isSome = wantU ∧ VT.isSome = wantV ∧
      (∀ u ∈ U, u.WF ∧ u.dims = [m, if economic then min m n else m]) ∧
      (∀ v ∈ VT, v.WF ∧ v.dims = [if economic then min m n else n, n]) ∧
      ((∀ jobu jobv lda ldu ldv, (g jobu jobv m n A.data lda ldu ldv).info = 0) →
        ∃ Uf Vf σ, IsSvd m n a Uf Vf σ ∧ (∀ l < min m n, elem s.dims s.data [l] = some (σ l)) ∧
          (∀ u ∈ U, IsMat u.dims u.data m (if economic then min m n else m) Uf) ∧
          (∀ v ∈ VT, IsMat v.dims v.data (if economic then min m n else n) n Vf)) := by
  have hd := ha.1
  have hst : Stores A.data m m n a := by
    have := ha
    rw [ha.1] at this
    exact (isMat_stores ha.2.1).1 this
  have hcall := hg (job wantU economic) (job wantV economic) m (if wantU then m else 1)
    (if wantV then (if economic then min m n else n) else 1) hm hn le_rfl ha.2.1
    (by
      intro h
      cases wantU
      · exact absurd rfl h
      · simp)
    (by cases wantV <;> cases economic <;> simp [job, jobSize])
  obtain ⟨h1, h2, h3, h4⟩ := hcall
  have hu : ∀ u, wantU = true → u = (called g A m n wantU wantV economic).u →
      u.length = m * (if economic then min m n else m) := by
    rintro u rfl rfl
    rw [called, h2 (by cases economic <;> simp [job])]
    cases economic <;> simp [job, jobSize]
  have hv : ∀ v, wantV = true → v = (called g A m n wantU wantV economic).v →
      v.length = (if economic then min m n else n) * n := by
    rintro u rfl rfl
    rw [called, h3 (by cases economic <;> simp [job])]
    simp
  refine ⟨_, _, _, svd_eq g A hd hm hn wantU wantV economic, rfl, wf1 h1, by cases wantU <;> rfl,
    by cases wantV <;> rfl, ?_, ?_, ?_⟩
  · intro u h
    cases wantU
    · simp at h
    · obtain rfl : _ = u := by simpa using h
      exact ⟨wf2 (hu _ rfl rfl), rfl⟩
  · intro v h
    cases wantV
    · simp at h
    · obtain rfl : _ = v := by simpa using h
      exact ⟨wf2 (hv _ rfl rfl), rfl⟩
  · intro hi
    obtain ⟨U, V, σ, hs, s1, s2, s3⟩ := h4 (hi _ _ _ _ _) a hst
    refine ⟨U, V, σ, hs, fun l hl => ?_, ?_, ?_⟩
    · have := s1 l hl
      simpa [elem, InB, hl, colPos, called] using this
    · intro u h
      cases wantU
      · simp at h
      · obtain rfl : _ = u := by simpa using h
        refine (isMat_stores (hu _ rfl rfl)).2 ?_
        cases economic
        · exact s2
        · exact s2
    · intro v h
      cases wantV
      · simp at h
      · obtain rfl : _ = v := by simpa using h
        refine (isMat_stores (hv _ rfl rfl)).2 ?_
        cases economic
        · exact s3
        · exact s3

/-- C67: tensors which are not matrices, or which have no elements, stop the program. -/
theorem c67_refused {α β : Type} (g : Gesvd α β) (A : Tensor α) (wantU wantV economic : Bool)
    (h : ¬ ∃ m n, 0 < m ∧ 0 < n ∧ A.dims = [m, n]) : svd g A wantU wantV economic = .abort := by
  obtain ⟨dims, data⟩ := A
  match dims, h with
  | [], _ => rfl
  | [m], _ =>
    have e0 : (⟨[m], data⟩ : Tensor α).dimension 0 = .ok m := dimension_nat _ 0 _ rfl
    have e1 : (⟨[m], data⟩ : Tensor α).dimension 1 = .abort := rfl
    simp only [svd, e0, e1, Res.ok_bind, Res.abort_bind, Res.assert_bind]
    split <;> rfl
  | [m, n], h =>
    have e0 : (⟨[m, n], data⟩ : Tensor α).dimension 0 = .ok m := dimension_nat _ 0 _ rfl
    have e1 : (⟨[m, n], data⟩ : Tensor α).dimension 1 = .ok n := dimension_nat _ 1 _ rfl
    simp only [svd, e0, e1, Res.ok_bind, Res.assert_bind]
    by_cases hm : m > 0
    · by_cases hn : n > 0
      · exact absurd ⟨m, n, hm, hn, rfl⟩ h
      · rw [if_pos hm, if_neg hn]
    · rw [if_neg hm]
  | m :: n :: k :: l, _ =>
    have e0 : (⟨m :: n :: k :: l, data⟩ : Tensor α).dimension 0 = .ok m := dimension_nat _ 0 _ rfl
    have e1 : (⟨m :: n :: k :: l, data⟩ : Tensor α).dimension 1 = .ok n :=
      dimension_nat _ 1 _ rfl
    simp only [svd, e0, e1, Res.ok_bind, Res.assert_bind]
    have : ¬ (⟨m :: n :: k :: l, data⟩ : Tensor α).rank = 2 := by simp [rank]
    rw [if_neg this]
    split
    · split <;> rfl
    · rfl

/-- C67: svd does not look at info: the result is the same whatever gesvd reports. -/
theorem c67_failure_ignored {α β : Type} (g : Gesvd α β) (A : Tensor α) (wantU wantV economic : Bool)
    (i : Int) : svd (fun ju jv m n a lda ldu ldv => { g ju jv m n a lda ldu ldv with info := i }) A wantU
      wantV economic = svd g A wantU wantV economic := rfl

/-- C67: so it is false that the result of svd is always a decomposition, or that the program stops,
with a gesvd that does what its manual says. -/
theorem c67_negation_failure : ∃ (g : Gesvd ℝ ℝ) (A s u v : Tensor ℝ),
    (∀ jobu jobv m n a lda ldu ldv, GesvdAnswer jobu jobv m n a lda ldu ldv (g jobu jobv m n a lda ldu ldv)) ∧
    IsMat A.dims A.data 1 1 (fun _ _ => 1) ∧ svd g A true true true = .ok (s, some u, some v) ∧
    ∀ U V σ, elem s.dims s.data [0] = some (σ 0) → ¬ IsSvd 1 1 (fun _ _ => (1 : ℝ)) U V σ := by
  refine ⟨fun ju jv m n a lda ldu ldv => ⟨1, List.replicate (min m n) 0,
    List.replicate (ldu * jobSize ju (min m n) m) 0, List.replicate (ldv * n) 0⟩, ⟨[1, 1], [1]⟩, _, _, _,
    ?_, ?_, svd_eq _ _ rfl (by norm_num) (by norm_num) _ _ _, ?_⟩
  · intro ju jv m n a lda ldu ldv _ _ _ _ _ _
    refine ⟨by simp, fun _ => by simp, fun _ => by simp, fun h => ?_⟩
    simp at h
  · refine ⟨rfl, rfl, fun i j hi hj => ?_⟩
    obtain rfl : i = 0 := by omega
    obtain rfl : j = 0 := by omega
    simp [elem, InB, colPos]
  · intro U V σ h hs
    have e : σ 0 = 0 := by
      simp [elem, InB, colPos, called] at h
      exact h.symm
    have := hs.eq 0 0 (by norm_num) (by norm_num)
    simp [e] at this

/-! ### Parts of matrices -/

theorem sel_prefix (c d : Nat) :
    sel (.step 0 ((c : Int) - 1) 1) d = (List.range c).map Int.ofNat := by
  rw [sel]
  have e : (if (0 : Int) ≤ (c : Int) - 1 then (((c : Int) - 1 - 0) / 1 + 1).toNat else 0) = c := by
    split
    · rw [Int.ediv_one]
      omega
    · omega
  rw [e]
  refine List.map_congr_left fun k _ => ?_
  simp

theorem valid_prefix {c d : Nat} (h : c ≤ d) (hd : 0 < d) : Spec.Valid (.step 0 ((c : Int) - 1) 1) d := by
  simp only [Spec.Valid]
  omega

theorem picks_range {c k : Nat} (h : k < c) : ((List.range c).map Int.ofNat)[k]? = some ((k : Nat) : Int) := by
  simp [h]

theorem sliceT_finishes {α : Type} {t : Tensor α} {rs : List View.Spec} {s : Tensor α}
    (h : Finishes (fun n => slice n t rs) (.ok (s.dims.map Int.ofNat, s.data))) :
    Finishes (fun n => sliceT n t rs) (.ok s) := by
  obtain ⟨N, e⟩ := h
  refine ⟨N, fun n hn => ?_⟩
  simp only [sliceT, e n hn, Run.ok_bind, List.map_map]
  have : (Int.toNat ∘ Int.ofNat) = id := by
    funext x
    rfl
  rw [this, List.map_id]
  rfl

/-- t(range(), range(0,c-1)). -/
theorem slice_columns {α : Type} {t : Tensor α} {a b c : Nat} {f : Nat → Nat → α}
    (ht : IsMat t.dims t.data a b f) (ha : 0 < a) (hb : 0 < b) (hc : c ≤ b) :
    ∃ s : Tensor α, Finishes (fun n => sliceT n t [.all, .step 0 ((c : Int) - 1) 1]) (.ok s) ∧
      IsMat s.dims s.data a c f := by
  have wf : t.WF := by
    have := wf2 ht.2.1
    rw [← ht.1] at this
    exact this
  have hlim : limits t.dims t.data.length [.all, .step 0 ((c : Int) - 1) 1] = [a, b] := by
    simp [limits, ht.1]
  obtain ⟨s, h1, h2, h3, -, h5⟩ := c11_slice t wf [.all, .step 0 ((c : Int) - 1) 1] (by simp)
    (by rw [hlim]; simp; omega)
    (by rw [hlim]; exact ⟨trivial, valid_prefix hc hb, trivial⟩)
  rw [hlim] at h3 h5
  simp only [selAll, sel_prefix] at h3 h5
  have hd : s.dims = [a, c] := by
    rw [h3]
    simp [sel]
  refine ⟨s, sliceT_finishes h1, hd, ?_, fun i j hi hj => ?_⟩
  · have : s.data.length = totalSize s.dims := h2
    rw [this, hd]
    simp [totalSize]
  · rw [(h5 [i, j] [i, j] ⟨picks_range hi, picks_range hj, trivial⟩).2.2]
    have := ht.2.2 i j hi (by omega)
    rw [ht.1] at this
    exact this

/-- t(range(0,c-1), range()). -/
theorem slice_rows {α : Type} {t : Tensor α} {a b c : Nat} {f : Nat → Nat → α}
    (ht : IsMat t.dims t.data a b f) (ha : 0 < a) (hb : 0 < b) (hc : c ≤ a) :
    ∃ s : Tensor α, Finishes (fun n => sliceT n t [.step 0 ((c : Int) - 1) 1, .all]) (.ok s) ∧
      IsMat s.dims s.data c b f := by
  have wf : t.WF := by
    have := wf2 ht.2.1
    rw [← ht.1] at this
    exact this
  have hlim : limits t.dims t.data.length [.step 0 ((c : Int) - 1) 1, .all] = [a, b] := by
    simp [limits, ht.1]
  obtain ⟨s, h1, h2, h3, -, h5⟩ := c11_slice t wf [.step 0 ((c : Int) - 1) 1, .all] (by simp)
    (by rw [hlim]; simp; omega)
    (by rw [hlim]; exact ⟨valid_prefix hc ha, trivial, trivial⟩)
  rw [hlim] at h3 h5
  simp only [selAll, sel_prefix] at h3 h5
  have hd : s.dims = [c, b] := by
    rw [h3]
    simp [sel]
  refine ⟨s, sliceT_finishes h1, hd, ?_, fun i j hi hj => ?_⟩
  · have : s.data.length = totalSize s.dims := h2
    rw [this, hd]
    simp [totalSize]
  · rw [(h5 [i, j] [i, j] ⟨picks_range hi, picks_range hj, trivial⟩).2.2]
    have := ht.2.2 i j (by omega) hj
    rw [ht.1] at this
    exact this

/-- The vector with elements f(i). -/
def IsVec {α : Type} (t : Tensor α) (k : Nat) (f : Nat → α) : Prop :=
  t.dims = [k] ∧ t.data.length = k ∧ ∀ l < k, t.data[l]? = some (f l)

/-- t(range(0,c-1)). -/
theorem slice_vector {α : Type} {t : Tensor α} {a c : Nat} {f : Nat → α} (ht : IsVec t a f) (ha : 0 < a)
    (hc : c ≤ a) :
    ∃ s : Tensor α, Finishes (fun n => sliceT n t [.step 0 ((c : Int) - 1) 1]) (.ok s) ∧
      IsVec s c f := by
  have wf : t.WF := by
    have := wf1 ht.2.1
    rw [← ht.1] at this
    exact this
  have hlim : limits t.dims t.data.length [.step 0 ((c : Int) - 1) 1] = [a] := by
    simp [limits, ht.2.1]
  obtain ⟨s, h1, h2, h3, -, h5⟩ := c11_slice t wf [.step 0 ((c : Int) - 1) 1] (by simp)
    (by rw [hlim]; simp; omega)
    (by rw [hlim]; exact ⟨valid_prefix hc ha, trivial⟩)
  rw [hlim] at h3 h5
  simp only [selAll, sel_prefix] at h3 h5
  have hd : s.dims = [c] := by
    rw [h3]
    simp
  refine ⟨s, sliceT_finishes h1, hd, ?_, fun i hi => ?_⟩
  · have : s.data.length = totalSize s.dims := h2
    rw [this, hd]
    simp [totalSize]
  · have := (h5 [i] [i] ⟨picks_range hi, trivial⟩).2.2
    rw [hd] at this
    simp only [elem, InB, hi, show i < a by omega, and_self, if_true, colPos] at this
    simp at this
    rw [this]
    exact ht.2.2 i (by omega)

/-! ### The loop -/

theorem cutLoop_end {α β : Type} [LE β] [DecidableLE β] (fuel : Nat) (tol : β) (k i : Nat)
    (x : Tensor α × Tensor β × Tensor α) (h : ¬ i < x.2.1.size) : cutLoop fuel tol k i x = pure x := by
  cases k
  · rfl
  · rw [cutLoop, if_neg h]

/-- The loop leaves the part of the decomposition with the first r singular values, which are those
above the tolerance. -/
theorem cutLoop_spec {α : Type} {m n : Nat} {U V : Tensor α} {s : Tensor ℝ} {u v : Nat → Nat → α}
    {σ : Nat → ℝ} (hm : 0 < m) (hn : 0 < n) (tol : ℝ) (hU : IsMat U.dims U.data m (min m n) u)
    (hV : IsMat V.dims V.data (min m n) n v) (hs : IsVec s (min m n) σ)
    (hdec : ∀ k l, k ≤ l → l < min m n → σ l ≤ σ k) (k i : Nat) (hki : i + k = min m n)
    (hi : ∀ l < i, tol < σ l) :
    ∃ r U' s' V', Finishes (fun fuel => cutLoop fuel tol k i (U, s, V)) (.ok (U', s', V')) ∧
      r ≤ min m n ∧ (∀ l < r, tol < σ l) ∧ (∀ l, r ≤ l → l < min m n → σ l ≤ tol) ∧
      IsMat U'.dims U'.data m r u ∧ IsMat V'.dims V'.data r n v ∧ IsVec s' r σ := by
  induction k generalizing i with
  | zero =>
    refine ⟨min m n, U, s, V, ⟨0, fun _ _ => rfl⟩, le_rfl, fun l hl => hi l (by omega), fun l h1 h2 => ?_,
      hU, hV, hs⟩
    omega
  | succ k ih =>
    have hlt : i < s.size := by
      rw [size, hs.2.1]
      omega
    have hx : s.dataAt (i : Int) = .ok (σ i) := by
      rw [dataAt, if_neg (by omega), Int.toNat_natCast, hs.2.2 i (by omega)]
      rfl
    by_cases hc : σ i ≤ tol
    · obtain ⟨U', fU, hU'⟩ := slice_columns hU hm (by omega) (show i ≤ min m n by omega)
      obtain ⟨s', fs, hs'⟩ := slice_vector hs (by omega) (show i ≤ min m n by omega)
      obtain ⟨V', fV, hV'⟩ := slice_rows hV (by omega) hn (show i ≤ min m n by omega)
      obtain ⟨N1, e1⟩ := fU
      obtain ⟨N2, e2⟩ := fs
      obtain ⟨N3, e3⟩ := fV
      refine ⟨i, U', s', V', ⟨max N1 (max N2 N3), fun fuel hf => ?_⟩, by omega, hi,
        fun l h1 h2 => (hdec i l h1 h2).trans hc, hU', hV', hs'⟩
      have e1' := e1 fuel (by omega)
      have e2' := e2 fuel (by omega)
      have e3' := e3 fuel (by omega)
      simp only at e1' e2' e3'
      show cutLoop fuel tol (k + 1) i (U, s, V) = _
      rw [cutLoop, if_pos (show i < (U, s, V).2.1.size from hlt)]
      simp only [cut, hx, Run.ok_bind, if_pos hc, e1', e2', e3', Run.pure_eq]
      rw [cutLoop_end]
      · rfl
      · simp only [size, hs'.2.1]
        omega
    · obtain ⟨r, U', s', V', ⟨N, e⟩, h⟩ := ih (i + 1) (by omega) (fun l hl => by
        rcases Nat.lt_succ_iff_lt_or_eq.1 hl with h | rfl
        · exact hi l h
        · exact not_le.1 hc)
      refine ⟨r, U', s', V', ⟨N, fun fuel hf => ?_⟩, h⟩
      have e' := e fuel hf
      simp only at e'
      show cutLoop fuel tol (k + 1) i (U, s, V) = _
      rw [cutLoop, if_pos (show i < (U, s, V).2.1.size from hlt)]
      simp only [cut, hx, Run.ok_bind, if_neg hc, Run.pure_eq]
      exact e'

/-- The tolerance which is used. -/
noncomputable def usedTol (eps tol : ℝ) : ℝ := if tol ≤ 0 then eps else tol

/-- foldc(M, 0, B, 0) for a matrix. -/
theorem foldc_matrix {M B : Tensor 𝕜} {m r : Nat} {f : Nat → Nat → 𝕜} (hM : IsMat M.dims M.data m r f)
    (hB : B.WF) {rest : List Nat} (hd : B.dims = m :: rest) (hm : m ≠ 0) :
    ∃ X, foldc (starRingEnd 𝕜) M 0 B 0 = .ok X ∧ X.WF ∧ X.dims = r :: rest ∧
      ∀ j q, j < r → InB q rest → ∀ b : Nat → 𝕜, (∀ i < m, elem B.dims B.data (i :: q) = some (b i)) →
        elem X.dims X.data (j :: q) = some (∑ i ∈ Finset.range m, starRingEnd 𝕜 (f i j) * b i) := by
  have wf : M.WF := by
    have := wf2 hM.2.1
    rw [← hM.1] at this
    exact this
  obtain ⟨X, h1, h2, h3, h4⟩ := doFold_elem (starRingEnd 𝕜) RCLike.conj_conj true M B wf hB [] [r] [] rest m
    0 0 hM.1 hd (by rw [hM.1]; rfl) (by rw [hd]; exact norm_nat (i := 0) (by simp)) hm
  refine ⟨X, h1, h2, h3, fun j q hj hq b hb => ?_⟩
  have := h4 [] [j] [] q (by simp [InB]) (by simp [InB, hj]) (by simp [InB]) hq (fun i => f i j) b
    (fun i hi => hM.2.2 i j hi hj) (fun i hi => hb i hi)
  exact this

theorem foldc_empty {M B : Tensor 𝕜} {n : Nat} {rest rest' : List Nat} (hM : M.dims = n :: rest')
    (hd : B.dims = 0 :: rest) : foldc (starRingEnd 𝕜) M 0 B 0 = .abort := by
  obtain ⟨dm, datm⟩ := M
  obtain ⟨db, datb⟩ := B
  simp only at hM hd
  subst hM hd
  have := doFold_split (starRingEnd 𝕜) true [] rest' [] rest n 0 datm datb 0 0
    (norm_nat (i := 0) (by simp)) (norm_nat (i := 0) (by simp))
  rw [foldc]
  simp only [List.nil_append] at this
  rw [this, if_neg (by omega)]

/-- C68: what solve_with_svd computes, if gesvd succeeds and does what its manual says: r singular values
are above the tolerance, and the sum has r terms. -/
theorem c68_formula_partial (g : Gesvd 𝕜 ℝ) (A B : Tensor 𝕜) {m n : Nat} (hm : 0 < m) (hn : 0 < n)
    (hg : ∀ jobu jobv lda ldu ldv,
      GesvdAnswer jobu jobv m n A.data lda ldu ldv (g jobu jobv m n A.data lda ldu ldv))
    (hinfo : ∀ jobu jobv lda ldu ldv, (g jobu jobv m n A.data lda ldu ldv).info = 0)
    (a : Nat → Nat → 𝕜) (ha : IsMat A.dims A.data m n a) (hB : B.WF) {rest : List Nat}
    (hBd : B.dims = m :: rest) (eps tol : ℝ) :
    ∃ U V σ r, IsSvd m n a U V σ ∧ r ≤ min m n ∧ (∀ l < r, usedTol eps tol < σ l) ∧
      (∀ l, r ≤ l → l < min m n → σ l ≤ usedTol eps tol) ∧
      (0 < r → ∃ X : Tensor 𝕜, Finishes (fun fuel => solveWithSvd fuel g (starRingEnd 𝕜) (fun x => (x : 𝕜)) eps
          A B tol) (.ok X) ∧ X.WF ∧ X.dims = n :: rest ∧
        ∀ q, InB q rest → ∀ b : Nat → 𝕜, (∀ i < m, elem B.dims B.data (i :: q) = some (b i)) →
          ∀ j < n, elem X.dims X.data (j :: q) = some (∑ l ∈ Finset.range r, starRingEnd 𝕜 (V l j) *
            ((∑ i ∈ Finset.range m, starRingEnd 𝕜 (U i l) * b i) * ((1 / σ l : ℝ) : 𝕜)))) ∧
      (r = 0 → Finishes (fun fuel => solveWithSvd fuel g (starRingEnd 𝕜) (fun x => (x : 𝕜)) eps A B tol)
        .abort) := by
  obtain ⟨s, ou, ov, hsvd, hsd, hsw, hou, hov, -, -, hrest⟩ :=
    c67_svd_partial g A hm hn true true true hg a ha
  obtain ⟨u, rfl⟩ := Option.isSome_iff_exists.1 hou
  obtain ⟨v, rfl⟩ := Option.isSome_iff_exists.1 hov
  obtain ⟨U, V, σ, hsv, hσ, hU, hV⟩ := hrest hinfo
  have hU := hU u rfl
  have hV := hV v rfl
  simp only [if_true] at hU hV
  have hsl : s.data.length = min m n := by
    have : s.data.length = totalSize s.dims := hsw
    rw [this, hsd]
    simp [totalSize]
  have hs : IsVec s (min m n) σ := by
    refine ⟨hsd, hsl, fun l hl => ?_⟩
    have := hσ l hl
    rw [hsd] at this
    simpa [elem, InB, hl, colPos] using this
  obtain ⟨r, U', s', V', ⟨N, e⟩, h1, h2, h3, h4, h5, h6⟩ := cutLoop_spec hm hn (usedTol eps tol) hU hV hs
    hsv.decr (min m n) 0 (by omega) (fun l hl => absurd hl (by omega))
  obtain ⟨X, x1, x2, x3, x4⟩ := foldc_matrix h4 hB hBd (by omega)
  have ws' : s'.WF := by
    have := wf1 h6.2.1
    rw [← h6.1] at this
    exact this
  have hq : binopNT (· / ·) (1 : ℝ) s' = .ok ⟨s'.dims, s'.data.map fun x => 1 / x⟩ := unop_ok _ s' ws'
  obtain ⟨Y, y1, y2, y3, y4⟩ := (c24_scale (fun (x : 𝕜) (y : ℝ) => x * (y : 𝕜)) X x2 0
    (⟨s'.dims, s'.data.map fun x => 1 / x⟩ : Tensor ℝ) [] rest r x3
    (by rw [x3]; exact norm_nat (i := 0) (by simp))).1 (by simp [h6.2.1])
  rw [← c24_scale_inplace _ _ x2] at y1
  have hrun : ∀ fuel, N ≤ fuel → solveWithSvd fuel g (starRingEnd 𝕜) (fun x => (x : 𝕜)) eps A B tol
      = Run.done (foldc (starRingEnd 𝕜) V' 0 Y 0) := by
    intro fuel hf
    have e' := e fuel hf
    simp only [usedTol] at e'
    simp only [solveWithSvd, hsvd, Run.ok_bind, Res.ofOption_some, size, hsl, e', x1, hq]
    rw [y1]
    rfl
  rw [x3] at y3
  refine ⟨U, V, σ, r, hsv, h1, h2, h3, fun hr => ?_, fun hr => ?_⟩
  · obtain ⟨Z, z1, z2, z3, z4⟩ := foldc_matrix h5 y2 y3 (by omega)
    refine ⟨Z, ⟨N, fun fuel hf => by beta_reduce; rw [hrun fuel hf, z1]⟩, z2, z3, fun q hqr b hb j hj => ?_⟩
    refine z4 j q hj hqr _ fun l hl => ?_
    exact y4 [] l q (by simp [InB]) hl hqr _ _ (x4 l q hl hqr b hb) (by
      simp only [List.getElem?_map, h6.2.2 l hl, Option.map_some])
  · subst hr
    refine ⟨N, fun fuel hf => ?_⟩
    beta_reduce
    rw [hrun fuel hf, foldc_empty h5.1 y3]

/-- x is orthogonal to the kernel of the m x n matrix a. -/
def OrthKernel (m n : Nat) (a : Nat → Nat → 𝕜) (x : Nat → 𝕜) : Prop :=
  ∀ y : Nat → 𝕜, (∀ i < m, ∑ j ∈ Finset.range n, a i j * y j = 0) →
    ∑ j ∈ Finset.range n, starRingEnd 𝕜 (x j) * y j = 0

/-- C68: if A ≠ 0 and A enlarges the vectors orthogonal to its kernel by more than the tolerance,
solve_with_svd computes, for each column b of B, the vector with the smallest norm among those which minimize
‖A y - b‖. -/
theorem c68_least_squares_partial (g : Gesvd 𝕜 ℝ) (A B : Tensor 𝕜) {m n : Nat} (hm : 0 < m) (hn : 0 < n)
    (hg : ∀ jobu jobv lda ldu ldv,
      GesvdAnswer jobu jobv m n A.data lda ldu ldv (g jobu jobv m n A.data lda ldu ldv))
    (hinfo : ∀ jobu jobv lda ldu ldv, (g jobu jobv m n A.data lda ldu ldv).info = 0)
    (a : Nat → Nat → 𝕜) (ha : IsMat A.dims A.data m n a) (hB : B.WF) {rest : List Nat}
    (hBd : B.dims = m :: rest) (eps tol : ℝ) (heps : 0 < eps) (hne : ∃ i < m, ∃ j < n, a i j ≠ 0)
    (hgap : ∀ x : Nat → 𝕜, (∃ j < n, x j ≠ 0) → OrthKernel m n a x →
      usedTol eps tol ^ 2 * ∑ j ∈ Finset.range n, ‖x j‖ ^ 2
        < ∑ i ∈ Finset.range m, ‖∑ j ∈ Finset.range n, a i j * x j‖ ^ 2) :
    ∃ X : Tensor 𝕜, Finishes (fun fuel => solveWithSvd fuel g (starRingEnd 𝕜) (fun x => (x : 𝕜)) eps
        A B tol) (.ok X) ∧ X.WF ∧ X.dims = n :: rest ∧
      ∀ q, InB q rest → ∀ b : Nat → 𝕜, (∀ i < m, elem B.dims B.data (i :: q) = some (b i)) →
        ∃ x : Nat → 𝕜, (∀ j < n, elem X.dims X.data (j :: q) = some (x j)) ∧ ∀ y : Nat → 𝕜,
          ∑ i ∈ Finset.range m, ‖∑ j ∈ Finset.range n, a i j * x j - b i‖ ^ 2
            ≤ ∑ i ∈ Finset.range m, ‖∑ j ∈ Finset.range n, a i j * y j - b i‖ ^ 2 ∧
          (∑ i ∈ Finset.range m, ‖∑ j ∈ Finset.range n, a i j * y j - b i‖ ^ 2
            ≤ ∑ i ∈ Finset.range m, ‖∑ j ∈ Finset.range n, a i j * x j - b i‖ ^ 2 →
            ∑ j ∈ Finset.range n, ‖x j‖ ^ 2 ≤ ∑ j ∈ Finset.range n, ‖y j‖ ^ 2) := by
  obtain ⟨U, V, σ, r, hsv, h1, h2, h3, h4, -⟩ := c68_formula_partial g A B hm hn hg hinfo a ha hB hBd eps tol
  have ht : 0 < usedTol eps tol := by
    rw [usedTol]
    split
    · exact heps
    · exact not_le.1 (by assumption)
  have hz : ∀ l, r ≤ l → l < min m n → σ l = 0 := by
    intro l hl hl2
    by_contra hs
    obtain ⟨n1, n2⟩ := row_norm hsv hl2
    have hlt := hgap (fun j => starRingEnd 𝕜 (V l j)) (by
      by_contra hall
      push Not at hall
      rw [sum_eq_zero (fun j hj => by rw [hall j (mem_range.1 hj)]; simp)] at n1
      exact zero_ne_one n1) (by
      intro y hy
      simp only [RCLike.conj_conj]
      exact svd_kernel hsv hy hl2 hs)
    rw [n1, n2, mul_one] at hlt
    have := h3 l hl hl2
    have h0 := hsv.nonneg l hl2
    nlinarith
  have hr : 0 < r := by
    rcases Nat.eq_zero_or_pos r with h | h
    · obtain ⟨i, hi, j, hj, hne⟩ := hne
      refine absurd ?_ hne
      rw [hsv.eq i j hi hj]
      refine sum_eq_zero fun l hl => ?_
      rw [hz l (by omega) (mem_range.1 hl)]
      simp
    · exact h
  obtain ⟨X, x1, x2, x3, x4⟩ := h4 hr
  refine ⟨X, x1, x2, x3, fun q hq b hb => ⟨pinv m r U V σ b, x4 q hq b hb, fun y => ?_⟩⟩
  exact pinv_least hsv h1 (fun l hl => (ht.trans (h2 l hl)).ne') hz b y

/-- C68: if moreover the equations have a solution, X is a solution, and the one with the smallest
norm. -/
theorem c68_solution_partial (g : Gesvd 𝕜 ℝ) (A B : Tensor 𝕜) {m n : Nat} (hm : 0 < m) (hn : 0 < n)
    (hg : ∀ jobu jobv lda ldu ldv,
      GesvdAnswer jobu jobv m n A.data lda ldu ldv (g jobu jobv m n A.data lda ldu ldv))
    (hinfo : ∀ jobu jobv lda ldu ldv, (g jobu jobv m n A.data lda ldu ldv).info = 0)
    (a : Nat → Nat → 𝕜) (ha : IsMat A.dims A.data m n a) (hB : B.WF) {rest : List Nat}
    (hBd : B.dims = m :: rest) (eps tol : ℝ) (heps : 0 < eps) (hne : ∃ i < m, ∃ j < n, a i j ≠ 0)
    (hgap : ∀ x : Nat → 𝕜, (∃ j < n, x j ≠ 0) → OrthKernel m n a x →
      usedTol eps tol ^ 2 * ∑ j ∈ Finset.range n, ‖x j‖ ^ 2
        < ∑ i ∈ Finset.range m, ‖∑ j ∈ Finset.range n, a i j * x j‖ ^ 2) :
    ∃ X : Tensor 𝕜, Finishes (fun fuel => solveWithSvd fuel g (starRingEnd 𝕜) (fun x => (x : 𝕜)) eps
        A B tol) (.ok X) ∧ X.WF ∧ X.dims = n :: rest ∧
      ∀ q, InB q rest → ∀ b y : Nat → 𝕜, (∀ i < m, elem B.dims B.data (i :: q) = some (b i)) →
        (∀ i < m, ∑ j ∈ Finset.range n, a i j * y j = b i) →
        ∃ x : Nat → 𝕜, (∀ j < n, elem X.dims X.data (j :: q) = some (x j)) ∧
          (∀ i < m, ∑ j ∈ Finset.range n, a i j * x j = b i) ∧
          ∑ j ∈ Finset.range n, ‖x j‖ ^ 2 ≤ ∑ j ∈ Finset.range n, ‖y j‖ ^ 2 := by
  obtain ⟨X, x1, x2, x3, x4⟩ :=
    c68_least_squares_partial g A B hm hn hg hinfo a ha hB hBd eps tol heps hne hgap
  refine ⟨X, x1, x2, x3, fun q hq b y hb hy => ?_⟩
  obtain ⟨x, e1, e2⟩ := x4 q hq b hb
  obtain ⟨l1, l2⟩ := e2 y
  have hy0 : ∑ i ∈ Finset.range m, ‖∑ j ∈ Finset.range n, a i j * y j - b i‖ ^ 2 = 0 :=
    sum_eq_zero fun i hi => by rw [hy i (mem_range.1 hi)]; simp
  rw [hy0] at l1 l2
  have hnn : ∀ i ∈ Finset.range m, 0 ≤ ‖∑ j ∈ Finset.range n, a i j * x j - b i‖ ^ 2 :=
    fun i _ => by positivity
  have h0 := le_antisymm l1 (sum_nonneg hnn)
  refine ⟨x, e1, fun i hi => ?_, l2 h0.ge⟩
  have := (sum_eq_zero_iff_of_nonneg hnn).1 h0 i (mem_range.2 hi)
  exact sub_eq_zero.1 (by simpa using this)

/-- C68: if A enlarges no vector by more than the tolerance, the program stops. -/
theorem c68_small (g : Gesvd 𝕜 ℝ) (A B : Tensor 𝕜) {m n : Nat} (hm : 0 < m) (hn : 0 < n)
    (hg : ∀ jobu jobv lda ldu ldv,
      GesvdAnswer jobu jobv m n A.data lda ldu ldv (g jobu jobv m n A.data lda ldu ldv))
    (hinfo : ∀ jobu jobv lda ldu ldv, (g jobu jobv m n A.data lda ldu ldv).info = 0)
    (a : Nat → Nat → 𝕜) (ha : IsMat A.dims A.data m n a) (hB : B.WF) {rest : List Nat}
    (hBd : B.dims = m :: rest) (eps tol : ℝ) (heps : 0 < eps)
    (hsmall : ∀ x : Nat → 𝕜, ∑ i ∈ Finset.range m, ‖∑ j ∈ Finset.range n, a i j * x j‖ ^ 2
      ≤ usedTol eps tol ^ 2 * ∑ j ∈ Finset.range n, ‖x j‖ ^ 2) :
    Finishes (fun fuel => solveWithSvd fuel g (starRingEnd 𝕜) (fun x => (x : 𝕜)) eps A B tol) .abort := by
  obtain ⟨U, V, σ, r, hsv, h1, h2, h3, -, h5⟩ := c68_formula_partial g A B hm hn hg hinfo a ha hB hBd eps tol
  have ht : 0 < usedTol eps tol := by
    rw [usedTol]
    split
    · exact heps
    · exact not_le.1 (by assumption)
  refine h5 ?_
  by_contra hr
  have hl : 0 < min m n := by omega
  obtain ⟨n1, n2⟩ := row_norm hsv hl
  have := hsmall fun j => starRingEnd 𝕜 (V 0 j)
  rw [n1, n2, mul_one] at this
  have := h2 0 (by omega)
  nlinarith

/-- C68: so it is false that solve_with_svd gives the pseudoinverse of every matrix: for the zero matrix,
whose pseudoinverse is zero, the program stops. -/
theorem c68_negation_zero (g : Gesvd 𝕜 ℝ) (A B : Tensor 𝕜) {m n : Nat} (hm : 0 < m) (hn : 0 < n)
    (hg : ∀ jobu jobv lda ldu ldv,
      GesvdAnswer jobu jobv m n A.data lda ldu ldv (g jobu jobv m n A.data lda ldu ldv))
    (hinfo : ∀ jobu jobv lda ldu ldv, (g jobu jobv m n A.data lda ldu ldv).info = 0)
    (ha : IsMat A.dims A.data m n fun _ _ => 0) (hB : B.WF) {rest : List Nat}
    (hBd : B.dims = m :: rest) (eps tol : ℝ) (heps : 0 < eps) :
    Finishes (fun fuel => solveWithSvd fuel g (starRingEnd 𝕜) (fun x => (x : 𝕜)) eps A B tol) .abort := by
  refine c68_small g A B hm hn hg hinfo _ ha hB hBd eps tol heps fun x => ?_
  simp only [zero_mul, sum_const_zero, norm_zero, ne_eq, OfNat.ofNat_ne_zero, not_false_eq_true, zero_pow]
  exact mul_nonneg (sq_nonneg _) (sum_nonneg fun j _ => sq_nonneg _)

/-- C68: for real tensors the contraction does not conjugate, as in the model with the identity. -/
theorem c68_real {α : Type} [CommSemiring α] (a b : Tensor α) (wfa : a.WF) (wfb : b.WF) (i j : Int) :
    foldc (RingHom.id α) a i b j = foldcRR a i b j := by
  rw [c20_foldc (RingHom.id α) (fun _ => rfl) a b wfa wfb, unop_ok _ a wfa, Res.ok_bind]
  have : a.data.map (RingHom.id α) = a.data := by
    conv_rhs => rw [← List.map_id a.data]
    rfl
  rw [this]
  rfl

/-! ### Examples -/

/-- A gesvd for the 1 x 1 matrix (2). -/
def gTwo : Gesvd ℝ ℝ := fun ju _ m n _ _ ldu ldv =>
  ⟨0, [2], List.replicate (ldu * jobSize ju (min m n) m) 1, List.replicate (ldv * n) 1⟩

theorem gTwo_answer (ju jv : Job) (lda ldu ldv : Nat) :
    GesvdAnswer ju jv 1 1 [(2 : ℝ)] lda ldu ldv (gTwo ju jv 1 1 [2] lda ldu ldv) := by
  intro _ _ _ hl hu hv
  simp only [List.length_cons, List.length_nil] at hl
  obtain rfl : lda = 1 := by omega
  refine ⟨rfl, fun _ => by simp [gTwo], fun _ => by simp [gTwo], fun _ A hA => ?_⟩
  have h00 : A 0 0 = 2 := by
    have := hA 0 0 (by norm_num) (by norm_num)
    simpa using this.symm
  have hun : IsUnitary 1 fun _ _ => (1 : ℝ) := by
    refine ⟨fun k l hk hl => ?_, fun k l hk hl => ?_⟩
    · obtain rfl : k = 0 := by omega
      obtain rfl : l = 0 := by omega
      simp
    · obtain rfl : k = 0 := by omega
      obtain rfl : l = 0 := by omega
      simp
  refine ⟨fun _ _ => 1, fun _ _ => 1, fun _ => 2, ⟨hun, hun, fun _ _ => by norm_num, fun _ _ _ _ => le_rfl,
    fun i j hi hj => ?_⟩, fun l hl => ?_, fun i j hi hj => ?_, fun i j hi hj => ?_⟩
  · obtain rfl : i = 0 := by omega
    obtain rfl : j = 0 := by omega
    simp [h00]
  · obtain rfl : l = 0 := by simpa using hl
    rfl
  · obtain rfl : i = 0 := by omega
    cases ju
    · simp [jobSize] at hj
    · simp only [jobSize] at hj
      obtain rfl : j = 0 := by omega
      have : 1 ≤ ldu := hu (by simp)
      simp only [gTwo, jobSize, Nat.min_self]
      rw [List.getElem?_replicate, if_pos]
      omega
    · simp only [jobSize] at hj
      obtain rfl : j = 0 := by omega
      have : 1 ≤ ldu := hu (by simp)
      simp only [gTwo, jobSize]
      rw [List.getElem?_replicate, if_pos]
      omega
  · obtain rfl : j = 0 := by omega
    simp only [gTwo]
    rw [List.getElem?_replicate, if_pos]
    omega

theorem two_isMat : IsMat [1, 1] [(2 : ℝ)] 1 1 fun _ _ => 2 := by
  refine ⟨rfl, rfl, fun i j hi hj => ?_⟩
  obtain rfl : i = 0 := by omega
  obtain rfl : j = 0 := by omega
  simp [elem, InB, colPos]

/-- The decomposition of the matrix (2). -/
example (wantU wantV economic : Bool) : ∃ s U VT,
    svd gTwo (⟨[1, 1], [2]⟩ : Tensor ℝ) wantU wantV economic = .ok (s, U, VT) ∧ s.dims = [1] :=
  let ⟨s, U, VT, h1, h2, _⟩ := c67_svd_partial gTwo ⟨[1, 1], [2]⟩ (by norm_num) (by norm_num) wantU wantV
    economic gTwo_answer _ two_isMat
  ⟨s, U, VT, h1, h2⟩

theorem two_gap (x : Nat → ℝ) (hx : ∃ j < 1, x j ≠ 0) :
    usedTol (1 / 4) 0 ^ 2 * ∑ j ∈ Finset.range 1, ‖x j‖ ^ 2
      < ∑ _i ∈ Finset.range 1, ‖∑ j ∈ Finset.range 1, (2 : ℝ) * x j‖ ^ 2 := by
  obtain ⟨j, hj, hne⟩ := hx
  obtain rfl : j = 0 := by omega
  have : 0 < ‖x 0‖ ^ 2 := by positivity
  simp only [usedTol, le_refl, if_true, sum_range_one, norm_mul, Real.norm_ofNat]
  nlinarith

/-- The equation 2 x = b. -/
example (b : ℝ) : ∃ X : Tensor ℝ, Finishes (fun fuel => solveWithSvd fuel gTwo (starRingEnd ℝ) (fun x => (x : ℝ))
    (1 / 4) ⟨[1, 1], [2]⟩ ⟨[1], [b]⟩ 0) (.ok X) ∧ X.dims = [1] ∧ ∃ x, X.data = [x] ∧ 2 * x = b := by
  obtain ⟨X, h1, h2, h3, h4⟩ := c68_solution_partial gTwo ⟨[1, 1], [2]⟩ ⟨[1], [b]⟩ (by norm_num)
    (by norm_num) gTwo_answer (fun _ _ _ _ _ => rfl) _ two_isMat (wf1 rfl) (rest := []) rfl (1 / 4) 0
    (by norm_num) ⟨0, by norm_num, 0, by norm_num, by norm_num⟩ (fun x hx _ => two_gap x hx)
  obtain ⟨x, e1, e2, -⟩ := h4 [] (by simp [InB]) (fun _ => b) (fun _ => b / 2) (fun i hi => by
    obtain rfl : i = 0 := by omega
    simp [elem, InB, colPos]) (fun i hi => by
    simp
    ring)
  have hl : X.data.length = 1 := by
    have : X.data.length = totalSize X.dims := h2
    rw [this, h3]
    rfl
  obtain ⟨y, hy⟩ := List.length_eq_one_iff.1 hl
  have := e1 0 (by norm_num)
  rw [h3, hy] at this
  simp [elem, InB, colPos] at this
  refine ⟨X, h1, h3, y, hy, ?_⟩
  have := e2 0 (by norm_num)
  simp at this
  subst_vars
  linarith

/-- With a large tolerance the program stops. -/
example (b : ℝ) : Finishes (fun fuel => solveWithSvd fuel gTwo (starRingEnd ℝ) (fun x => (x : ℝ))
    (1 / 4) ⟨[1, 1], [2]⟩ ⟨[1], [b]⟩ 3) .abort := by
  refine c68_small gTwo ⟨[1, 1], [2]⟩ ⟨[1], [b]⟩ (by norm_num)
    (by norm_num) gTwo_answer (fun _ _ _ _ _ => rfl) _ two_isMat (wf1 rfl) (rest := []) rfl (1 / 4) 3
    (by norm_num) fun x => ?_
  have : 0 ≤ ‖x 0‖ ^ 2 := by positivity
  have e : usedTol (1 / 4) 3 = 3 := by
    rw [usedTol, if_neg (by norm_num)]
  simp only [e, sum_range_one, norm_mul, Real.norm_ofNat]
  nlinarith

end Verif.Svd
