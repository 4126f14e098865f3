import Verif.Model.Arpack
import Verif.Spec.Eigs
import Verif.Lemmas.SliceMat
import Verif.Props.BlockSvd
import Verif.Props.Eig
import Verif.Props.Sort
import Mathlib.LinearAlgebra.Matrix.DotProduct
/-
C73: eigs for matrices of up to four rows.
-/
namespace Verif.Arpack

open Verif Tensor View Spec Svd Eig
open scoped ComplexOrder

variable {α : Type}

/-- The functions over numbers that eigs uses. -/
noncomputable def num (back : ℂ → α) (sort : List ℝ → List Int) : Num α ℝ ℂ :=
  ⟨Complex.re, Complex.im, fun z => ‖z‖, back, sort⟩

/-- The keys order the eigenvalues. -/
theorem keys_eq {t : Int} (h0 : 0 ≤ t) (h5 : t ≤ 5) : ∃ key : ℂ → ℝ,
    (∀ z w, key z ≤ key w ↔ MayPrecede t z w) ∧
    ∀ v : List ℂ, keys Complex.re Complex.im (fun z => ‖z‖) t v = v.map key := by
  obtain rfl | rfl | rfl | rfl | rfl | rfl : t = 0 ∨ t = 1 ∨ t = 2 ∨ t = 3 ∨ t = 4 ∨ t = 5 := by omega
  all_goals exact ⟨_, fun z w => by simp [MayPrecede], fun v => rfl⟩

/-- The first k positions that sort_indices returns. -/
theorem sorted_chosen {t : Int} {key : ℂ → ℝ} (hkey : ∀ z w, key z ≤ key w ↔ MayPrecede t z w) {n k : Nat}
    {D : List ℂ} {ev : Nat → ℂ} (hl : D.length = n) (hD : ∀ l < n, D[l]? = some (ev l)) (hk : k ≤ n)
    {out : List Int} (hs : SortIndices (D.map key) false out) :
    ∃ E : List Nat, readN out 0 k = .ok (E.map Int.ofNat) ∧ E.length = k ∧
      Chosen t n ev k (fun l => E.getD l 0) ∧ InOrder t k fun l => ev (E.getD l 0) := by
  obtain ⟨h1, w, h2, h3, h4, -⟩ := c34_sort_indices _ _ _ hs
  have h4 := h4 rfl
  rw [List.length_map, hl] at h1
  obtain ⟨N, hN⟩ : ∃ N, N = out.map Int.toNat := ⟨_, rfl⟩
  have hout : out = N.map Int.ofNat := by
    rw [hN, List.map_map]
    refine (List.map_id _).symm.trans (List.map_congr_left fun i hi => ?_)
    obtain ⟨x, -, rfl⟩ := List.mem_map.1 (h1.mem_iff.1 hi)
    rfl
  have hperm : N.Perm (List.range n) := by
    have := h1.map Int.toNat
    rw [List.map_map, ← hN] at this
    refine this.trans (List.Perm.of_eq ?_)
    refine (List.map_congr_left fun i _ => ?_).trans (List.map_id _)
    rfl
  have hlen : N.length = n := by rw [hperm.length_eq, List.length_range]
  have hlt : ∀ x ∈ N, x < n := fun x hx => List.mem_range.1 (hperm.mem_iff.1 hx)
  have hnd : N.Nodup := hperm.nodup_iff.2 List.nodup_range
  have hord : ∀ p q (hp : p < N.length) (hq : q < N.length), p ≤ q → MayPrecede t (ev N[p]) (ev N[q]) := by
    intro p q hp hq hpq
    rw [← hkey]
    have hwl : w.length = N.length := by
      have := congrArg List.length h2
      rw [List.length_map, List.length_map] at this
      rw [← this, hout, List.length_map]
    have hget : ∀ p (hp : p < N.length), w[p]'(by omega) = key (ev N[p]) := by
      intro p hp
      have h5 : (out.map fun i => (D.map key)[i.toNat]?)[p]? = (w.map some)[p]? := by rw [h2]
      rw [hout, List.map_map, List.getElem?_map, List.getElem?_map, List.getElem?_eq_getElem hp,
        List.getElem?_eq_getElem (show p < w.length by omega)] at h5
      simp only [Option.map_some, Option.some.injEq, Function.comp_apply, Int.ofNat_eq_natCast, Int.toNat_natCast,
        List.getElem?_map, hD _ (hlt _ (List.getElem_mem hp))] at h5
      exact h5.symm
    rcases Nat.lt_or_eq_of_le hpq with hpq | rfl
    · rw [← hget p hp, ← hget q hq]
      exact List.pairwise_iff_getElem.1 h4 p q _ _ hpq
    · exact le_refl _
  have hE : ∀ l < k, (N.take k).getD l 0 = N.getD l 0 := by
    intro l hl
    simp [List.getD, hl]
  have hEg : ∀ l (_ : l < k), (N.take k).getD l 0 = N[l]'(by rw [hlen]; omega) := fun l hl => by
    rw [hE l hl, getD_lt (by rw [hlen]; omega)]
  refine ⟨N.take k, ?_, by rw [List.length_take]; omega, ⟨fun l hl => ?_, fun l m hl hm e => ?_, fun j hj hne l hl => ?_⟩,
    fun l m hlm hm => ?_⟩
  · rw [readN, if_pos (by rw [hout, List.length_map]; omega), hout, List.drop_zero, List.map_take]
  · beta_reduce
    rw [hEg l hl]
    exact hlt _ (List.getElem_mem _)
  · beta_reduce at e
    rw [hEg l hl, hEg m hm] at e
    exact (hnd.getElem_inj_iff).1 e
  · beta_reduce
    rw [hEg l hl]
    have hj' : j ∈ N := hperm.mem_iff.2 (List.mem_range.2 hj)
    obtain ⟨p, hp, rfl⟩ := List.mem_iff_getElem.1 hj'
    refine hord l p _ hp ?_
    by_contra hc
    exact hne p (by omega) (hEg p (by omega))
  · beta_reduce
    rw [hEg l (by omega), hEg m hm]
    exact hord l m _ _ hlm

theorem map_isVec {β : Type} {t : Tensor α} {n : Nat} {f : Nat → α} (h : IsVec t n f) (g : α → β) :
    IsVec (⟨t.dims, t.data.map g⟩ : Tensor β) n fun l => g (f l) :=
  ⟨h.1, by simp [h.2.1], fun l hl => by simp [h.2.2 l hl]⟩

theorem map_isMat {β : Type} {t : Tensor α} {m n : Nat} {f : Nat → Nat → α} (h : IsMat t.dims t.data m n f)
    (g : α → β) : IsMat t.dims (t.data.map g) m n fun i j => g (f i j) :=
  ⟨h.1, by simp [h.2.1], fun i j hi hj => by
    have := h.2.2 i j hi hj
    simp only [elem] at this ⊢
    split at this
    · rename_i hb
      rw [if_pos hb, List.getElem?_map, this, Option.map_some]
    · simp at this⟩

/-- The case n <= 4 of eigs, from the results of eig. -/
theorem small_ok {back : ℂ → α} {sort : List ℝ → List Int} (hs : ∀ v, SortIndices v false (sort v)) {t : Int}
    (h0 : 0 ≤ t) (h5 : t ≤ 5) {n k : Nat} (hk0 : 0 < k) (hk : k ≤ n) {D : Tensor ℂ} {R Lo : Option (Tensor ℂ)}
    {eig : Bool → Bool → Res (Tensor ℂ × Option (Tensor ℂ) × Option (Tensor ℂ))} {wantV : Bool} (wantC : Bool)
    (he : eig false wantV = .ok (D, R, Lo)) {ev : Nat → ℂ} (hD : IsVec D n ev) (hL : Lo.isSome = wantV)
    {v : Nat → Nat → ℂ} (hv : ∀ l ∈ Lo, IsMat l.dims l.data n n v) :
    ∃ e values vectors, Chosen t n ev k e ∧ InOrder t k (fun l => ev (e l)) ∧
      Finishes (fun fuel => small fuel (num back sort) eig t k wantV wantC)
        (.ok ⟨values, vectors, if wantC then some true else none⟩) ∧
      IsVec values k (fun l => back (ev (e l))) ∧ vectors.isSome = wantV ∧
      ∀ V ∈ vectors, IsMat V.dims V.data n k fun i l => back (v i (e l)) := by
  obtain ⟨key, hkey, hkeys⟩ := keys_eq h0 h5
  obtain ⟨E, e1, e2, e3, e4⟩ := sorted_chosen hkey hD.2.1 hD.2.2 hk (hs (D.data.map key))
  have hElt : ∀ x ∈ E, x < n := by
    intro x hx
    obtain ⟨p, hp, rfl⟩ := List.mem_iff_getElem.1 hx
    have := e3.lt p (by omega)
    rwa [getD_lt hp] at this
  obtain ⟨V, v1, v2, v3⟩ := ifWanted_ok (p := Lo)
    (f := fun fuel l => sliceT fuel l [.all, .list (E.map Int.ofNat)])
    (P := fun V => IsMat V.dims V.data n k fun i l => v i (E.getD l 0)) (by
      intro l hl
      obtain ⟨s, s1, s2⟩ := slice_mat (L1 := List.range n) (L2 := E) (hv l hl) (by omega) (by omega) (r1 := .all)
        (r2 := .list (E.map Int.ofNat)) trivial (valid_list hElt) rfl rfl
      refine ⟨s, s1, ?_⟩
      rw [List.length_range, e2] at s2
      exact s2.congr fun i j hi hj => by
        rw [getD_lt (show i < (List.range n).length by simpa using hi), List.getElem_range])
  obtain ⟨s, s1, s2⟩ := slice_vec (L := E) (r := .list (E.map Int.ofNat)) hD (by omega) (valid_list hElt) rfl
  rw [e2] at s2
  refine ⟨fun l => E.getD l 0, _, V.map fun v => ⟨v.dims, v.data.map back⟩, e3, e4, ?_, map_isVec s2 back, ?_, ?_⟩
  · refine Finishes.bind (a := (D, R, Lo)) (by rw [he]; exact Finishes.done _) ?_
    refine Finishes.bind (a := E.map Int.ofNat) ?_ ?_
    · have : readN ((num back sort).sort (keys (num back sort).re (num back sort).im (num back sort).abs t D.data)) 0 k
          = .ok (E.map Int.ofNat) := by
        simp only [num]
        rw [hkeys, e1]
      rw [this]
      exact Finishes.done _
    · refine Finishes.bind v1 ?_
      refine Finishes.bind s1 ?_
      exact Finishes.done _
  · rw [Option.isSome_map, v2, hL]
  · intro W hW
    obtain ⟨W', hW', rfl⟩ := Option.map_eq_some_iff.1 hW
    exact map_isMat (v3 W' hW') back

/-- The conditions that eigs checks. -/
theorem c73_refused {L α β γ : Type} [Zero α] [Add α] [Mul α] [Neg β] [One β] (fuel : Nat) (complex : Bool)
    (N : Num α β γ) (eig : Tensor α → Bool → Bool → Res (Tensor γ × Option (Tensor γ) × Option (Tensor γ)))
    (junk : Nat → α) (lib : Lib L α β) (l : L) (A : Tensor α) (t : Int) (neig : Nat)
    (vectors : Option (Tensor α)) (wantC : Bool) (h : ¬ ∃ n, A.dims = [n, n] ∧ 0 < neig ∧ neig ≤ n) :
    eigs fuel complex N eig junk lib l A t neig vectors wantC = .done .abort := by
  obtain ⟨dims, data⟩ := A
  match dims, h with
  | [], _ => rfl
  | [_], _ => rfl
  | [a, b], h =>
    have e1 : (⟨[a, b], data⟩ : Tensor α).dimension 1 = .ok b := rfl
    have e0 : (⟨[a, b], data⟩ : Tensor α).dimension 0 = .ok a := rfl
    simp only [eigs, e1, e0, Run.ok_bind]
    by_cases hab : a = b
    · subst hab
      rw [if_neg (by simp [Tensor.rank]), if_pos]
      by_contra hc
      exact h ⟨a, rfl, by omega, by omega⟩
    · rw [if_pos (Or.inr hab)]
  | a :: b :: c :: d, _ =>
    have e1 : (⟨a :: b :: c :: d, data⟩ : Tensor α).dimension 1 = .ok b := by
      simp [Tensor.dimension, Tensor.rank, Res.assert]
      rw [if_pos (by omega)]
      rfl
    have e0 : (⟨a :: b :: c :: d, data⟩ : Tensor α).dimension 0 = .ok a := by
      simp [Tensor.dimension, Tensor.rank, Res.assert]
      rw [if_pos (by omega)]
      rfl
    simp only [eigs, e1, e0, Run.ok_bind]
    rw [if_pos (Or.inl (by simp [Tensor.rank]))]

theorem eigs_small {L α β γ : Type} [Zero α] [Add α] [Mul α] [Neg β] [One β] (fuel : Nat) (complex : Bool)
    (N : Num α β γ) (eig : Tensor α → Bool → Bool → Res (Tensor γ × Option (Tensor γ) × Option (Tensor γ)))
    (junk : Nat → α) (lib : Lib L α β) (l : L) (A : Tensor α) (t : Int) {neig n : Nat}
    (vectors : Option (Tensor α)) (wantC : Bool) (hd : A.dims = [n, n]) (hk0 : 0 < neig) (hk : neig ≤ n)
    (hn : n ≤ 4) :
    eigs fuel complex N eig junk lib l A t neig vectors wantC
      = small fuel N (eig A) t neig vectors.isSome wantC := by
  obtain ⟨dims, data⟩ := A
  obtain rfl : dims = [n, n] := hd
  have e1 : (⟨[n, n], data⟩ : Tensor α).dimension 1 = .ok n := rfl
  have e0 : (⟨[n, n], data⟩ : Tensor α).dimension 0 = .ok n := rfl
  simp only [eigs, e1, e0, Run.ok_bind]
  rw [if_neg (by simp [Tensor.rank]), if_neg (by omega), if_pos hn]

/-- The eigenvectors of a normal matrix on the left are eigenvectors. -/
theorem normal_right {n : Nat} {a : Nat → Nat → ℂ} (ha : IsNormal n a) {ev : ℂ} {u : Nat → ℂ}
    (h : IsLeft n a ev u) : IsRight n a ev u := by
  refine ⟨h.1, ?_⟩
  let A : Matrix (Fin n) (Fin n) ℂ := Matrix.of fun i j => a i j
  let x : Fin n → ℂ := fun i => u i
  have hA : A * A.conjTranspose = A.conjTranspose * A := by
    ext i j
    have := ha i i.2 j j.2
    rw [Finset.sum_range, Finset.sum_range] at this
    simpa [Matrix.mul_apply, A, Matrix.conjTranspose_apply] using this
  let B : Matrix (Fin n) (Fin n) ℂ := A - ev • (1 : Matrix (Fin n) (Fin n) ℂ)
  have hB : B.conjTranspose * B = B * B.conjTranspose := by
    simp only [B, Matrix.conjTranspose_sub, Matrix.conjTranspose_smul, Matrix.conjTranspose_one]
    simp only [sub_mul, mul_sub, Matrix.smul_mul, Matrix.mul_smul, Matrix.one_mul, Matrix.mul_one, hA, smul_smul,
      mul_comm ev (star ev)]
    abel
  have hleft : B.conjTranspose.mulVec x = 0 := by
    funext j
    have := congrArg (starRingEnd ℂ) (h.2 j j.2)
    rw [Finset.sum_range, map_sum] at this
    simp only [B, Matrix.conjTranspose_sub, Matrix.conjTranspose_smul, Matrix.conjTranspose_one, Matrix.sub_mulVec,
      Matrix.smul_mulVec, Matrix.one_mulVec, Pi.sub_apply, Pi.smul_apply, smul_eq_mul, Pi.zero_apply]
    rw [sub_eq_zero]
    simp only [map_mul, Complex.conj_conj] at this
    simp only [Matrix.mulVec, dotProduct, Matrix.conjTranspose_apply, A, Matrix.of_apply, x]
    rw [show star ev = starRingEnd ℂ ev from rfl, ← this]
    refine Finset.sum_congr rfl fun i _ => ?_
    rw [mul_comm]
    rfl
  have hright : B.mulVec x = 0 := by
    have e : dotProduct (star (B.mulVec x)) (B.mulVec x) = 0 := by
      rw [Matrix.star_mulVec, ← Matrix.dotProduct_mulVec, Matrix.mulVec_mulVec, hB, ← Matrix.mulVec_mulVec, hleft]
      simp
    exact dotProduct_star_self_eq_zero.1 e
  intro i hi
  have := congrFun hright ⟨i, hi⟩
  simp only [B, Matrix.sub_mulVec, Matrix.smul_mulVec, Matrix.one_mulVec, Pi.sub_apply, Pi.smul_apply, smul_eq_mul,
    Pi.zero_apply, sub_eq_zero] at this
  rw [Finset.sum_range]
  exact this

/-- Eigenvalues have eigenvectors. -/
theorem spectrum_right {n : Nat} {a : Nat → Nat → ℂ} {ev : Nat → ℂ} (h : IsSpectrum n a ev) {j : Nat} (hj : j < n) :
    ∃ u, IsRight n a (ev j) u := by
  have h0 : ((Matrix.of fun i j : Fin n => a i j).charpoly).eval (ev j) = 0 := by
    rw [h, Polynomial.eval_prod]
    exact Finset.prod_eq_zero (Finset.mem_univ ⟨j, hj⟩) (by simp)
  rw [Matrix.eval_charpoly] at h0
  obtain ⟨x, hx, e⟩ := Matrix.exists_mulVec_eq_zero_iff.2 h0
  refine ⟨fun i => if hi : i < n then x ⟨i, hi⟩ else 0, ?_, fun i hi => ?_⟩
  · obtain ⟨i, hi⟩ := Function.ne_iff.1 hx
    exact ⟨i, i.2, by simpa using hi⟩
  · have := congrFun e ⟨i, hi⟩
    rw [Matrix.sub_mulVec, Pi.sub_apply, Pi.zero_apply, sub_eq_zero] at this
    rw [Finset.sum_range]
    simp only [Fin.is_lt, dif_pos, Fin.eta, hi]
    simp only [Matrix.scalar_apply, Matrix.mulVec_diagonal] at this
    rw [this]
    rfl

/-- The eigenvalues of a real symmetric matrix are real. -/
theorem symmetric_real {n : Nat} {a : Nat → Nat → ℝ} (ha : ∀ i < n, ∀ j < n, a i j = a j i) {ev : ℂ}
    {u : Nat → ℂ} (h : IsRight n (fun i j => (a i j : ℂ)) ev u) : ev.im = 0 := by
  obtain ⟨⟨p, hp, hne⟩, h⟩ := h
  have e1 : ∑ i ∈ Finset.range n, ∑ j ∈ Finset.range n, starRingEnd ℂ (u i) * ((a i j : ℂ) * u j)
      = ev * ∑ i ∈ Finset.range n, starRingEnd ℂ (u i) * u i := by
    rw [Finset.mul_sum]
    refine Finset.sum_congr rfl fun i hi => ?_
    rw [← Finset.mul_sum, h i (Finset.mem_range.1 hi)]
    ring
  have e2 : starRingEnd ℂ (∑ i ∈ Finset.range n, ∑ j ∈ Finset.range n, starRingEnd ℂ (u i) * ((a i j : ℂ) * u j))
      = ∑ i ∈ Finset.range n, ∑ j ∈ Finset.range n, starRingEnd ℂ (u i) * ((a i j : ℂ) * u j) := by
    rw [map_sum, Finset.sum_comm]
    simp only [map_sum]
    rw [Finset.sum_comm]
    conv_lhs => rw [Finset.sum_comm]
    refine Finset.sum_congr rfl fun i hi => Finset.sum_congr rfl fun j hj => ?_
    rw [ha i (Finset.mem_range.1 hi) j (Finset.mem_range.1 hj)]
    simp only [map_mul, Complex.conj_conj, Complex.conj_ofReal]
    ring
  have e3 : ∑ i ∈ Finset.range n, starRingEnd ℂ (u i) * u i = ((∑ i ∈ Finset.range n, Complex.normSq (u i) : ℝ) : ℂ) := by
    rw [Complex.ofReal_sum]
    exact Finset.sum_congr rfl fun i _ => (Complex.normSq_eq_conj_mul_self).symm
  have hpos : 0 < ∑ i ∈ Finset.range n, Complex.normSq (u i) :=
    Finset.sum_pos' (fun i _ => Complex.normSq_nonneg _) ⟨p, Finset.mem_range.2 hp, Complex.normSq_pos.2 hne⟩
  rw [e1, e3, map_mul, Complex.conj_ofReal] at e2
  have e4 := mul_right_cancel₀ (Complex.ofReal_ne_zero.2 hpos.ne') e2
  exact Complex.conj_eq_iff_im.1 e4

theorem symmetric_normal {n : Nat} {a : Nat → Nat → ℝ} (ha : ∀ i < n, ∀ j < n, a i j = a j i) :
    IsNormal n fun i j => (a i j : ℂ) := by
  intro i hi j hj
  refine Finset.sum_congr rfl fun k hk => ?_
  rw [Finset.mem_range] at hk
  simp only [Complex.conj_ofReal]
  rw [ha i hi k hk, ha j hj k hk]

/-- C73: eigs of a complex matrix of n <= 4 rows, if zgeev does what its manual says and succeeds: the
numbers are k of the eigenvalues, those of the type that is asked for, in order. The vectors are
eigenvectors on the left; if the matrix is normal, they are eigenvectors. -/
theorem c73_complex_partial {L : Type} (g : Zgeev ℂ) (sort : List ℝ → List Int)
    (hs : ∀ v, SortIndices v false (sort v)) (junk : Nat → ℂ) (lib : Lib L ℂ ℝ) (l : L) (A : Tensor ℂ) {n k : Nat}
    (hn : n ≤ 4) (hk0 : 0 < k) (hk : k ≤ n) {t : Int} (h0 : 0 ≤ t) (h5 : t ≤ 5) (vectors : Option (Tensor ℂ))
    (wantC : Bool) (a : Nat → Nat → ℂ) (ha : IsMat A.dims A.data n n a)
    (hg : ZgeevAnswer vectors.isSome false n A.data n n n (g vectors.isSome false n A.data n n n))
    (hinfo : (g vectors.isSome false n A.data n n n).info = 0) :
    ∃ ev e values V, IsSpectrum n a ev ∧ Chosen t n ev k e ∧ InOrder t k (fun l => ev (e l)) ∧
      Finishes (fun fuel => eigs fuel true (num id sort) (eigComplex g) junk lib l A t k vectors wantC)
        (.ok ⟨values, V, if wantC then some true else none⟩) ∧
      IsVec values k (fun l => ev (e l)) ∧ V.isSome = vectors.isSome ∧
      ∀ v ∈ V, ∃ u, IsMat v.dims v.data n k u ∧ ∀ l < k, (IsLeft n a (ev (e l)) fun i => u i l) ∧
        (IsNormal n a → IsRight n a (ev (e l)) fun i => u i l) := by
  obtain ⟨D, R, Lo, ev, h1, h2, h3, -, h4, -, h6⟩ := c69_complex_partial g A (by omega) false vectors.isSome a ha hg
    hinfo
  obtain ⟨v, hv, hleft⟩ : ∃ v, (∀ l ∈ Lo, IsMat l.dims l.data n n v) ∧
      ∀ l ∈ Lo, ∀ j < n, IsLeft n a (ev j) fun i => v i j := by
    cases Lo with
    | none => exact ⟨fun _ _ => 0, by simp, by simp⟩
    | some T =>
      obtain ⟨v, v1, v2⟩ := h6 T rfl
      exact ⟨v, by simpa using v1, by simpa using v2⟩
  obtain ⟨e, values, V, f1, f2, f3, f4, f5, f6⟩ := small_ok (back := id) hs h0 h5 hk0 hk wantC h1 h2 h4 hv
  refine ⟨ev, e, values, V, h3, f1, f2, ?_, f4, f5, fun w hw => ⟨_, f6 w hw, fun l hl => ?_⟩⟩
  · rw [funext fun fuel => eigs_small fuel true (num id sort) (eigComplex g) junk lib l A t vectors wantC ha.1 hk0 hk
      hn]
    exact f3
  · obtain ⟨T, hT⟩ : ∃ T, Lo = some T := by
      rw [← Option.isSome_iff_exists, h4, ← f5]
      exact Option.isSome_iff_exists.2 ⟨w, hw⟩
    have := hleft T (by simp [hT]) (e l) (f1.lt l hl)
    exact ⟨this, fun hN => normal_right hN this⟩

/-- C73: eigs of a real matrix of n <= 4 rows, if dgeev does what its manual says and succeeds: it gives
the real parts of k eigenvalues, those of the type that is asked for, in order, and the real parts of
eigenvectors on the left. -/
theorem c73_real_partial {L : Type} (g : Dgeev ℝ) (sort : List ℝ → List Int)
    (hs : ∀ v, SortIndices v false (sort v)) (junk : Nat → ℝ) (lib : Lib L ℝ ℝ) (l : L) (A : Tensor ℝ) {n k : Nat}
    (hn : n ≤ 4) (hk0 : 0 < k) (hk : k ≤ n) {t : Int} (h0 : 0 ≤ t) (h5 : t ≤ 5) (vectors : Option (Tensor ℝ))
    (wantC : Bool) (a : Nat → Nat → ℝ) (ha : IsMat A.dims A.data n n a)
    (hg : DgeevAnswer vectors.isSome false n A.data n n n (g vectors.isSome false n A.data n n n))
    (hinfo : (g vectors.isSome false n A.data n n n).info = 0) :
    ∃ (ev : Nat → ℂ) (e : Nat → Nat) (values : Tensor ℝ) (V : Option (Tensor ℝ)),
      IsSpectrum n (fun i j => (a i j : ℂ)) ev ∧ Chosen t n ev k e ∧ InOrder t k (fun l => ev (e l)) ∧
      Finishes (fun fuel => eigs fuel false (num Complex.re sort)
          (eigReal g (fun x y => (⟨x, y⟩ : ℂ)) fun x => -x) junk lib l A t k vectors wantC)
        (.ok ⟨values, V, if wantC then some true else none⟩) ∧
      IsVec values k (fun l => (ev (e l)).re) ∧ V.isSome = vectors.isSome ∧
      ∀ v ∈ V, ∃ u : Nat → Nat → ℂ, (IsMat v.dims v.data n k fun i l => (u i l).re) ∧
        ∀ l < k, (IsLeft n (fun i j => (a i j : ℂ)) (ev (e l)) fun i => u i l) ∧
          ((ev (e l)).im = 0 → ∀ i < n, (u i l).im = 0) := by
  obtain ⟨D, R, Lo, ev, h1, h2, h3, -, h4, -, h6⟩ := c69_real_partial g A (by omega) false vectors.isSome a ha hg
    hinfo
  obtain ⟨v, hv, hleft⟩ : ∃ v, (∀ l ∈ Lo, IsMat l.dims l.data n n v) ∧
      ∀ l ∈ Lo, ∀ j < n, (IsLeft n (fun i j => (a i j : ℂ)) (ev j) fun i => v i j) ∧
        ((ev j).im = 0 → ∀ i < n, (v i j).im = 0) := by
    cases Lo with
    | none => exact ⟨fun _ _ => 0, by simp, by simp⟩
    | some T =>
      obtain ⟨v, v1, v2⟩ := h6 T rfl
      exact ⟨v, by simpa using v1, fun l hl => v2⟩
  obtain ⟨e, values, V, f1, f2, f3, f4, f5, f6⟩ := small_ok (back := Complex.re) hs h0 h5 hk0 hk wantC h1 h2 h4 hv
  refine ⟨ev, e, values, V, h3, f1, f2, ?_, f4, f5, fun w hw => ⟨fun i l => v i (e l), f6 w hw, fun l hl => ?_⟩⟩
  · rw [funext fun fuel => eigs_small fuel false (num Complex.re sort)
      (eigReal g (fun x y => (⟨x, y⟩ : ℂ)) fun x => -x) junk lib l A t vectors wantC ha.1 hk0 hk hn]
    exact f3
  · obtain ⟨T, hT⟩ : ∃ T, Lo = some T := by
      rw [← Option.isSome_iff_exists, h4, ← f5]
      exact Option.isSome_iff_exists.2 ⟨w, hw⟩
    exact hleft T (by simp [hT]) (e l) (f1.lt l hl)

/-- C73: if the matrix is real and symmetric, the numbers are k of the eigenvalues, those of the type
that is asked for, in order, with their eigenvectors. -/
theorem c73_symmetric_partial {L : Type} (g : Dgeev ℝ) (sort : List ℝ → List Int)
    (hs : ∀ v, SortIndices v false (sort v)) (junk : Nat → ℝ) (lib : Lib L ℝ ℝ) (l : L) (A : Tensor ℝ) {n k : Nat}
    (hn : n ≤ 4) (hk0 : 0 < k) (hk : k ≤ n) {t : Int} (h0 : 0 ≤ t) (h5 : t ≤ 5) (vectors : Option (Tensor ℝ))
    (wantC : Bool) (a : Nat → Nat → ℝ) (ha : IsMat A.dims A.data n n a) (hsym : ∀ i < n, ∀ j < n, a i j = a j i)
    (hg : DgeevAnswer vectors.isSome false n A.data n n n (g vectors.isSome false n A.data n n n))
    (hinfo : (g vectors.isSome false n A.data n n n).info = 0) :
    ∃ (w : Nat → ℝ) (e : Nat → Nat) (values : Tensor ℝ) (V : Option (Tensor ℝ)),
      IsSpectrum n (fun i j => (a i j : ℂ)) (fun j => (w j : ℂ)) ∧ Chosen t n (fun j => (w j : ℂ)) k e ∧
      InOrder t k (fun l => (w (e l) : ℂ)) ∧
      Finishes (fun fuel => eigs fuel false (num Complex.re sort)
          (eigReal g (fun x y => (⟨x, y⟩ : ℂ)) fun x => -x) junk lib l A t k vectors wantC)
        (.ok ⟨values, V, if wantC then some true else none⟩) ∧
      IsVec values k (fun l => w (e l)) ∧ V.isSome = vectors.isSome ∧
      ∀ v ∈ V, ∃ u : Nat → Nat → ℝ, IsMat v.dims v.data n k u ∧
        ∀ l < k, IsRight n (fun i j => (a i j : ℂ)) (w (e l)) fun i => (u i l : ℂ) := by
  obtain ⟨ev, e, values, V, h1, h2, h3, h4, h6, h7, h8⟩ := c73_real_partial g sort hs junk lib l A hn hk0 hk h0 h5
    vectors wantC a ha hg hinfo
  have him : ∀ j < n, ((ev j).re : ℂ) = ev j := by
    intro j hj
    obtain ⟨u, hu⟩ := spectrum_right h1 hj
    exact Complex.ext (by simp) (by simp [symmetric_real hsym hu])
  refine ⟨fun j => (ev j).re, e, values, V, ?_, ⟨h2.lt, h2.inj, fun j hj hne l hl => ?_⟩, fun l m hlm hm => ?_, h4, h6,
    h7, fun v hv => ?_⟩
  · rw [IsSpectrum, h1]
    refine Finset.prod_congr rfl fun j _ => ?_
    rw [him j j.2]
  · rw [him j hj, him _ (h2.lt l hl)]
    exact h2.first j hj hne l hl
  · beta_reduce
    rw [him _ (h2.lt l (by omega)), him _ (h2.lt m hm)]
    exact h3 l m hlm hm
  · obtain ⟨u, u1, u2⟩ := h8 v hv
    refine ⟨_, u1, fun l hl => ?_⟩
    obtain ⟨u3, u4⟩ := u2 l hl
    have u4 := u4 (by rw [← him _ (h2.lt l hl)]; simp)
    have hre : ∀ i < n, ((u i l).re : ℂ) = u i l := fun i hi => Complex.ext (by simp) (by simp [u4 i hi])
    obtain ⟨⟨i, hi, hne⟩, h⟩ := normal_right (symmetric_normal hsym) u3
    refine ⟨⟨i, hi, by beta_reduce; rw [hre i hi]; exact hne⟩, fun i hi => ?_⟩
    beta_reduce
    rw [him _ (h2.lt l hl), hre i hi, ← h i hi]
    exact Finset.sum_congr rfl fun j hj => by rw [hre j (Finset.mem_range.1 hj)]

/-- C73: it is false that the vectors are eigenvectors: for the matrix {0,1;0,0}, and whatever zgeev
computes, eigs returns, without any sign of failure, vectors that are not. -/
theorem c73_negation_left {L : Type} (g : Zgeev ℂ) (sort : List ℝ → List Int)
    (hs : ∀ v, SortIndices v false (sort v)) (junk : Nat → ℂ) (lib : Lib L ℂ ℝ) (l : L) {k : Nat}
    (hk0 : 0 < k) (hk : k ≤ 2) {t : Int} (h0 : 0 ≤ t) (h5 : t ≤ 5) (V0 : Tensor ℂ)
    (hg : ZgeevAnswer true false 2 [0, 0, 1, 0] 2 2 2 (g true false 2 [0, 0, 1, 0] 2 2 2))
    (hinfo : (g true false 2 [0, 0, 1, 0] 2 2 2).info = 0) :
    ∃ values v u, Finishes (fun fuel => eigs fuel true (num id sort) (eigComplex g) junk lib l ⟨[2, 2], [0, 0, 1, 0]⟩
        t k (some V0) true) (.ok ⟨values, some v, some true⟩) ∧ IsMat v.dims v.data 2 k u ∧
      ∀ l < k, ∀ ev, ¬ IsRight 2 nilp ev fun i => u i l := by
  have hm : IsMat [2, 2] [(0 : ℂ), 0, 1, 0] 2 2 nilp := by
    refine ⟨rfl, rfl, fun i j hi hj => ?_⟩
    rcases (show i = 0 ∨ i = 1 by omega) with rfl | rfl <;>
      rcases (show j = 0 ∨ j = 1 by omega) with rfl | rfl <;> simp [elem, InB, colPos, nilp]
  obtain ⟨ev, e, values, V, -, -, -, h4, -, h6, h7⟩ := c73_complex_partial g sort hs junk lib l
    ⟨[2, 2], [0, 0, 1, 0]⟩ (by norm_num) hk0 hk h0 h5 (some V0) true nilp hm hg hinfo
  obtain ⟨v, rfl⟩ := Option.isSome_iff_exists.1 h6
  obtain ⟨u, u1, u2⟩ := h7 v rfl
  refine ⟨values, v, u, h4, u1, fun l hl z hr => ?_⟩
  obtain ⟨-, h8, h9⟩ := nilp_left (u2 l hl).1
  have := hr.2 0 (by norm_num)
  simp [nilp, Finset.sum_range_succ, h8] at this
  exact h9 this

/-- C73: it is false that the numbers are eigenvalues: for the rotation {0,-1;1,0}, and whatever dgeev
computes, eigs returns, without any sign of failure, numbers that are not. -/
theorem c73_negation_real {L : Type} (g : Dgeev ℝ) (sort : List ℝ → List Int)
    (hs : ∀ v, SortIndices v false (sort v)) (junk : Nat → ℝ) (lib : Lib L ℝ ℝ) (l : L) {k : Nat}
    (hk0 : 0 < k) (hk : k ≤ 2) {t : Int} (h0 : 0 ≤ t) (h5 : t ≤ 5) (vectors : Option (Tensor ℝ))
    (hg : DgeevAnswer vectors.isSome false 2 [0, 1, -1, 0] 2 2 2 (g vectors.isSome false 2 [0, 1, -1, 0] 2 2 2))
    (hinfo : (g vectors.isSome false 2 [0, 1, -1, 0] 2 2 2).info = 0) :
    ∃ values V w, Finishes (fun fuel => eigs fuel false (num Complex.re sort)
        (eigReal g (fun x y => (⟨x, y⟩ : ℂ)) fun x => -x) junk lib l ⟨[2, 2], [0, 1, -1, 0]⟩ t k vectors true)
        (.ok ⟨values, V, some true⟩) ∧ IsVec values k w ∧
      ∀ l < k, ∀ u, ¬ IsRight 2 (fun i j => (rot i j : ℂ)) (w l) u := by
  obtain ⟨ev, e, values, V, h1, h2, h3, h4, h5, -, -⟩ := c73_real_partial g sort hs junk lib l
    ⟨[2, 2], [0, 1, -1, 0]⟩ (by norm_num) hk0 hk h0 h5 vectors true rot rot_isMat hg hinfo
  refine ⟨values, V, _, h4, h5, fun l hl u hu => ?_⟩
  obtain ⟨⟨i, hi, hne⟩, hu⟩ := hu
  have e0 := hu 0 (by norm_num)
  have e1 := hu 1 (by norm_num)
  simp [rot, Finset.sum_range_succ] at e0 e1
  have hx : (1 + ((ev (e l)).re : ℂ) * (ev (e l)).re) ≠ 0 := by
    intro hc
    have := congrArg Complex.re hc
    simp at this
    nlinarith [mul_self_nonneg (ev (e l)).re]
  have z0 : u 0 = 0 := by
    have : (1 + ((ev (e l)).re : ℂ) * (ev (e l)).re) * u 0 = 0 := by
      linear_combination ((ev (e l)).re : ℂ) * (-e0) + e1
    exact (mul_eq_zero.1 this).resolve_left hx
  have z1 : u 1 = 0 := by
    rw [z0] at e0
    simpa using e0
  rcases (show i = 0 ∨ i = 1 by omega) with rfl | rfl
  · exact hne z0
  · exact hne z1

/-- C73: a type that is not one of the enumeration is not refused: the behaviour is undefined. -/
theorem c73_undefined_type {back : ℂ → α} {sort : List ℝ → List Int} (hs : ∀ v, SortIndices v false (sort v))
    {t : Int} (ht : t < 0 ∨ 5 < t) {k : Nat} (hk0 : 0 < k)
    {eig : Bool → Bool → Res (Tensor ℂ × Option (Tensor ℂ) × Option (Tensor ℂ))} {wantV : Bool}
    {r : Tensor ℂ × Option (Tensor ℂ) × Option (Tensor ℂ)} (he : eig false wantV = .ok r) (fuel : Nat) (wantC : Bool) :
    small fuel (num back sort) eig t k wantV wantC = .done .ub := by
  have h1 : keys Complex.re Complex.im (fun z => ‖z‖) t r.1.data = [] := by
    simp only [keys]
    rw [if_neg (by omega), if_neg (by omega), if_neg (by omega), if_neg (by omega), if_neg (by omega),
      if_neg (by omega)]
  have h2 : sort [] = [] := by
    have := hs []
    simpa [SortIndices] using this
  simp only [small, he, Run.ok_bind, num, h1, h2]
  rw [readN, if_neg (by simp; omega)]
  rfl

/-! ### Cases in which the hypotheses hold -/

/-- A sort_indices. -/
theorem exists_sort : ∃ sort : List ℝ → List Int, ∀ v, SortIndices v false (sort v) :=
  ⟨fun v => Classical.choose (sort_indices_exists v false),
    fun v => Classical.choose_spec (sort_indices_exists v false)⟩

/-- A zgeev for the matrix {0,1;0,0}. -/
def gNilp : Zgeev ℂ := fun _ _ _ _ _ _ _ => ⟨0, [0, 0], [0, 1, 0, 1], [1, 0, 1, 0]⟩

theorem gNilp_answer (wantL : Bool) :
    ZgeevAnswer wantL false 2 [0, 0, 1, 0] 2 2 2 (gNilp wantL false 2 [0, 0, 1, 0] 2 2 2) := by
  intro _ _ _ _ _
  refine ⟨rfl, fun _ => rfl, fun _ => rfl, fun _ A hA => ⟨fun _ => 0, fun j hj => ?_, ?_,
    fun _ => ⟨fun i _ => if i = 1 then 1 else 0, fun i j hi hj => ?_,
      fun j hj => ⟨⟨1, by norm_num, by simp⟩, fun i hi => ?_⟩⟩, by simp⟩⟩
  · rcases (show j = 0 ∨ j = 1 by omega) with rfl | rfl <;> rfl
  · have h00 := hA 0 0 (by norm_num) (by norm_num)
    have h01 := hA 0 1 (by norm_num) (by norm_num)
    have h10 := hA 1 0 (by norm_num) (by norm_num)
    have h11 := hA 1 1 (by norm_num) (by norm_num)
    simp at h00 h01 h10 h11
    rw [IsSpectrum, Matrix.charpoly_fin_two, Fin.prod_univ_two]
    simp [Matrix.trace_fin_two, Matrix.det_fin_two, ← h00, ← h01, ← h10, ← h11]
    ring
  · rcases (show i = 0 ∨ i = 1 by omega) with rfl | rfl <;>
      rcases (show j = 0 ∨ j = 1 by omega) with rfl | rfl <;> simp [gNilp]
  · have h10 := hA 1 0 (by norm_num) (by norm_num)
    have h11 := hA 1 1 (by norm_num) (by norm_num)
    simp at h10 h11
    rcases (show i = 0 ∨ i = 1 by omega) with rfl | rfl <;> simp [Finset.sum_range_succ, ← h10, ← h11]

/-- {0,1;0,0} meets the hypotheses of `c73_negation_left`. -/
example (lib : Lib Unit ℂ ℝ) (V0 : Tensor ℂ) : ∃ sort values v u,
    Finishes (fun fuel => eigs fuel true (num id sort) (eigComplex gNilp) (fun _ => 0) lib () ⟨[2, 2], [0, 0, 1, 0]⟩ 0 1
      (some V0) true) (.ok ⟨values, some v, some true⟩) ∧ IsMat v.dims v.data 2 1 u ∧
      ∀ l < 1, ∀ ev, ¬ IsRight 2 nilp ev fun i => u i l :=
  let ⟨sort, hs⟩ := exists_sort
  ⟨sort, c73_negation_left gNilp sort hs _ lib () (by norm_num) (by norm_num) (by norm_num) (by norm_num) V0
    (gNilp_answer true) rfl⟩

/-- The rotation meets those of `c73_negation_real`. -/
example (lib : Lib Unit ℝ ℝ) (vectors : Option (Tensor ℝ)) : ∃ sort values V w,
    Finishes (fun fuel => eigs fuel false (num Complex.re sort) (eigReal gRot (fun x y => (⟨x, y⟩ : ℂ)) fun x => -x)
      (fun _ => 0) lib () ⟨[2, 2], [0, 1, -1, 0]⟩ 2 2 vectors true) (.ok ⟨values, V, some true⟩) ∧ IsVec values 2 w ∧
      ∀ l < 2, ∀ u, ¬ IsRight 2 (fun i j => (rot i j : ℂ)) (w l) u :=
  let ⟨sort, hs⟩ := exists_sort
  ⟨sort, c73_negation_real gRot sort hs _ lib () (by norm_num) (by norm_num) (by norm_num) (by norm_num) vectors
    (gRot_answer _ _) rfl⟩

/-- The diagonal matrix {x,0;0,y}, which is symmetric: eigs finds the larger of x, y. -/
def gDiag (x y : ℝ) : Dgeev ℝ := fun _ _ _ _ _ _ _ => ⟨0, [x, y], [0, 0], [1, 0, 0, 1], [1, 0, 0, 1]⟩

def diag2 (x y : ℝ) (i j : Nat) : ℝ := if i = j then (if i = 0 then x else y) else 0

theorem diag2_isMat (x y : ℝ) : IsMat [2, 2] [x, 0, 0, y] 2 2 (diag2 x y) := by
  refine ⟨rfl, rfl, fun i j hi hj => ?_⟩
  rcases (show i = 0 ∨ i = 1 by omega) with rfl | rfl <;>
    rcases (show j = 0 ∨ j = 1 by omega) with rfl | rfl <;> simp [elem, InB, colPos, diag2]

theorem gDiag_answer (x y : ℝ) (wantL : Bool) :
    DgeevAnswer wantL false 2 [x, 0, 0, y] 2 2 2 (gDiag x y wantL false 2 [x, 0, 0, y] 2 2 2) := by
  intro _ _ _ _ _
  refine ⟨rfl, rfl, fun _ => rfl, fun _ => rfl, fun _ A hA => ⟨fun j => if j = 0 then x else y, fun _ => 0,
    fun j hj => ?_, ⟨by simp, by simp⟩, ?_, fun _ => ⟨fun i j => if i = j then 1 else 0, fun i j hi hj => ?_,
      fun j hj => ⟨⟨j, hj, by simp [packed, Complex.ext_iff]⟩, fun i hi => ?_⟩⟩, by simp⟩⟩
  · rcases (show j = 0 ∨ j = 1 by omega) with rfl | rfl <;> simp [gDiag]
  all_goals
    have h00 := hA 0 0 (by norm_num) (by norm_num)
    have h01 := hA 0 1 (by norm_num) (by norm_num)
    have h10 := hA 1 0 (by norm_num) (by norm_num)
    have h11 := hA 1 1 (by norm_num) (by norm_num)
    simp at h00 h01 h10 h11
  · have ex : ∀ x : ℝ, (⟨x, 0⟩ : ℂ) = (x : ℂ) := fun x => rfl
    rw [IsSpectrum, Matrix.charpoly_fin_two, Fin.prod_univ_two]
    simp [Matrix.trace_fin_two, Matrix.det_fin_two, ← h00, ← h01, ← h10, ← h11, ex]
    ring
  · rcases (show i = 0 ∨ i = 1 by omega) with rfl | rfl <;>
      rcases (show j = 0 ∨ j = 1 by omega) with rfl | rfl <;> simp [gDiag]
  · rcases (show i = 0 ∨ i = 1 by omega) with rfl | rfl <;>
      rcases (show j = 0 ∨ j = 1 by omega) with rfl | rfl <;>
      simp [packed, Complex.ext_iff, Finset.sum_range_succ, ← h00, ← h01, ← h10, ← h11]

example (x y : ℝ) (lib : Lib Unit ℝ ℝ) (vectors : Option (Tensor ℝ)) : ∃ sort values V w,
    Finishes (fun fuel => eigs fuel false (num Complex.re sort)
      (eigReal (gDiag x y) (fun x y => (⟨x, y⟩ : ℂ)) fun x => -x) (fun _ => 0) lib () ⟨[2, 2], [x, 0, 0, y]⟩ 2 1 vectors
      false) (.ok ⟨values, V, none⟩) ∧ IsVec values 1 w := by
  obtain ⟨sort, hs⟩ := exists_sort
  obtain ⟨w, e, values, V, -, -, -, h1, h2, -⟩ := c73_symmetric_partial (gDiag x y) sort hs (fun _ => 0) lib ()
    ⟨[2, 2], [x, 0, 0, y]⟩ (k := 1) (t := 2) (by norm_num) (by norm_num) (by norm_num) (by norm_num) (by norm_num)
    vectors false (diag2 x y) (diag2_isMat x y) (by
      intro i _ j _
      simp only [diag2]
      by_cases h : i = j
      · rw [h]
      · rw [if_neg h, if_neg (Ne.symm h)]) (gDiag_answer x y _) rfl
  exact ⟨sort, values, V, _, h1, h2⟩

end Verif.Arpack
