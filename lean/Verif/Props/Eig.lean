import Verif.Spec.Eig
import Verif.Lemmas.Svd
import Verif.Props.Svd
import Verif.Lemmas.Matrix
import Verif.Props.Dims
import Mathlib.Tactic.NormNum
import Mathlib.LinearAlgebra.Matrix.Charpoly.Coeff
/-
C69: eigenvalues and eigenvectors. C70: those of Hermitian matrices. C71: solution of equations.

`g` is the routine of LAPACK. What its manual says is a hypothesis.
-/
namespace Verif.Eig

open Verif Tensor Spec Finset Svd

/-! ### Checks -/

theorem checks_ok {α : Type} (A : Tensor α) {n : Nat} (hd : A.dims = [n, n]) (hn : 0 < n) :
    checks A = .ok n := by
  obtain ⟨dims, data⟩ := A
  simp only at hd
  subst hd
  have e0 : (⟨[n, n], data⟩ : Tensor α).dimension 0 = .ok n := dimension_nat _ 0 _ rfl
  have e1 : (⟨[n, n], data⟩ : Tensor α).dimension 1 = .ok n := dimension_nat _ 1 _ rfl
  simp only [checks, e0, e1, Res.ok_bind]
  rw [Res.assert_pos hn, Res.ok_bind, Res.assert_pos (by rfl), Res.ok_bind, Res.assert_pos trivial, Res.ok_bind]

theorem checks_abort {α : Type} (A : Tensor α) (h : ¬ ∃ n, 0 < n ∧ A.dims = [n, n]) :
    checks A = .abort := by
  obtain ⟨dims, data⟩ := A
  match dims, h with
  | [], _ => rfl
  | [m], _ =>
    have e0 : (⟨[m], data⟩ : Tensor α).dimension 0 = .ok m := dimension_nat _ 0 _ rfl
    have : ¬ (⟨[m], data⟩ : Tensor α).rank = 2 := by simp [rank]
    simp only [checks, e0, Res.ok_bind, Res.assert_bind]
    rw [if_neg this]
    split <;> rfl
  | [m, n], h =>
    have e0 : (⟨[m, n], data⟩ : Tensor α).dimension 0 = .ok m := dimension_nat _ 0 _ rfl
    have e1 : (⟨[m, n], data⟩ : Tensor α).dimension 1 = .ok n := dimension_nat _ 1 _ rfl
    simp only [checks, e0, e1, Res.ok_bind, Res.assert_bind]
    by_cases hm : m > 0
    · rw [if_pos hm, if_pos (by rfl)]
      by_cases hn : m = n
      · subst hn
        exact absurd ⟨m, hm, rfl⟩ h
      · rw [if_neg hn]
    · rw [if_neg hm]
  | m :: n :: k :: l, _ =>
    have e0 : (⟨m :: n :: k :: l, data⟩ : Tensor α).dimension 0 = .ok m := dimension_nat _ 0 _ rfl
    simp only [checks, e0, Res.ok_bind, Res.assert_bind]
    have : ¬ (⟨m :: n :: k :: l, data⟩ : Tensor α).rank = 2 := by simp [rank]
    rw [if_neg this]
    split <;> rfl

/-- C69: tensors which are not square matrices, or have no elements, stop the program. -/
theorem c69_refused {β γ : Type} [Zero β] [DecidableEq β] (g : Dgeev β) (g' : Zgeev γ) (mk : β → β → γ)
    (neg : β → β) (A : Tensor β) (A' : Tensor γ) (wantR wantL : Bool) :
    ((¬ ∃ n, 0 < n ∧ A.dims = [n, n]) → eigReal g mk neg A wantR wantL = .abort) ∧
    ((¬ ∃ n, 0 < n ∧ A'.dims = [n, n]) → eigComplex g' A' wantR wantL = .abort) := by
  refine ⟨fun h => ?_, fun h => ?_⟩
  · simp only [eigReal, checks_abort A h, Res.abort_bind]
  · simp only [eigComplex, checks_abort A' h, Res.abort_bind]

/-- C70: the same for eig_sym. -/
theorem c70_refused {α β : Type} (g : Syev α β) (A : Tensor α) (want : Bool)
    (h : ¬ ∃ n, 0 < n ∧ A.dims = [n, n]) : eigSym g A want = .abort := by
  simp only [eigSym, checks_abort A h, Res.abort_bind]

/-! ### Conjugate pairs -/

theorem get2_isMat {α : Type} {t : Tensor α} {r c : Nat} {f : Nat → Nat → α} (h : IsMat t.dims t.data r c f)
    {i j : Nat} (hi : i < r) (hj : j < c) : t.get2 (i : Int) (j : Int) = .ok (f i j) := by
  obtain ⟨v, e2, e1⟩ := (c04_read t (IsMat.wf h) [(i : Int), (j : Int)] (by simp) (by simp)).1 [i, j]
    (by rw [h.1]; exact normAll2 hi hj)
  have e3 := h.2.2 i j hi hj
  rw [e3] at e2
  rw [show t.get2 (i : Int) (j : Int) = t.get [(i : Int), (j : Int)] from rfl, e1]
  simp_all

theorem set1_isVec {α : Type} {t : Tensor α} {n : Nat} {f : Nat → α} (h : IsVec t n f) {i : Nat}
    (hi : i < n) (v : α) : ∃ t', t.set1 (i : Int) v = .ok t' ∧
      IsVec t' n fun l => if l = i then v else f l := by
  obtain ⟨hd, hl, hf⟩ := h
  refine ⟨⟨t.dims, t.data.set i v⟩, ?_, hd, by simp [hl], fun l hl' => ?_⟩
  · simp only [set1, size, hl, normalizeIndex_eq, norm_nat hi, Res.ok_bind, dataSet]
    rw [if_neg (by omega), Int.toNat_natCast, if_pos hi]
  · simp only [List.getElem?_set]
    by_cases e : i = l
    · subst e
      simp [hl, hi]
    · rw [if_neg e, if_neg (fun h => e h.symm), hf l hl']

/-- The columns i and i+1 after the loop over j. -/
theorem pairLoop_spec {n : Nat} {real : Tensor ℝ} {V : Nat → Nat → ℝ} (hr : IsMat real.dims real.data n n V)
    {i : Nat} (hi : i + 1 < n) (k j : Nat) (hk : j + k = n) (T : Tensor ℂ) (F : Nat → Nat → ℂ)
    (hT : IsMat T.dims T.data n n F) :
    ∃ T', pairLoop (fun x y => (⟨x, y⟩ : ℂ)) (fun x => -x) real i k j T = .ok T' ∧
      IsMat T'.dims T'.data n n fun a b => if j ≤ a ∧ b = i then ⟨V a i, V a (i + 1)⟩
        else if j ≤ a ∧ b = i + 1 then ⟨V a i, - V a (i + 1)⟩ else F a b := by
  induction k generalizing j T F with
  | zero => exact ⟨T, rfl, hT.congr fun a b ha _ => by rw [if_neg (by omega), if_neg (by omega)]⟩
  | succ k ih =>
    obtain ⟨T1, e1, h1⟩ := set2_isMat hT j i (by omega) (by omega) (⟨V j i, V j (i + 1)⟩ : ℂ)
    obtain ⟨T2, e2, h2⟩ := set2_isMat h1 j (i + 1) (by omega) hi (⟨V j i, - V j (i + 1)⟩ : ℂ)
    obtain ⟨T', e', h'⟩ := ih (j + 1) (by omega) T2 _ h2
    refine ⟨T', ?_, h'.congr fun a b ha hb => ?_⟩
    · have g2 := get2_isMat hr (i := j) (j := i + 1) (by omega) hi
      push_cast at e2 g2
      simp only [pairLoop, get2_isMat hr (i := j) (j := i) (by omega) (by omega), g2, Res.ok_bind, e1, e2]
      exact e'
    · by_cases haj : a = j
      · subst haj
        by_cases hbi : b = i
        · subst hbi
          simp
        · by_cases hbi1 : b = i + 1
          · subst hbi1
            simp
          · simp [hbi, hbi1]
      · by_cases hja : j ≤ a
        · have : j + 1 ≤ a := by omega
          simp [hja, this, haj]
        · have : ¬ j + 1 ≤ a := by omega
          simp [hja, this, haj]

/-- The state of the vectors that are wanted before the step i: the columns before i are final. -/
def VecState (n : Nat) (wi : Nat → ℝ) (i : Nat) (want : Bool) (buf : List ℝ)
    (x : Option (Tensor ℝ × Tensor ℂ)) : Prop :=
  if want then ∃ T : Tensor ℂ, x = some (⟨[n, n], buf⟩, T) ∧ ∀ V, Stores buf n n n V →
    IsMat T.dims T.data n n fun a b => if b < i then packed wi V a b else ⟨V a b, 0⟩
  else x = none

theorem pairs_step {n : Nat} {wr wi : Nat → ℝ} (hc : ConjPairs n wr wi) {i : Nat} (hi : i < n)
    (hw : 0 < wi i) {want : Bool} {buf : List ℝ} (hb : want = true → buf.length = n * n)
    {x : Option (Tensor ℝ × Tensor ℂ)} (hx : VecState n wi i want buf x) :
    ∃ y, pairs (fun x y => (⟨x, y⟩ : ℂ)) (fun x => -x) i n x = .ok y ∧ VecState n wi (i + 2) want buf y := by
  obtain ⟨h1, -, h3⟩ := hc.1 i hi hw
  cases want
  · simp only [VecState, Bool.false_eq_true, if_false] at hx ⊢
    subst hx
    exact ⟨none, rfl, rfl⟩
  · simp only [VecState, if_true] at hx ⊢
    obtain ⟨T, rfl, hT⟩ := hx
    have hlen := hb rfl
    have hst : Stores buf n n n fun a b => (buf[a + n * b]?).getD 0 := by
      intro a b ha hb
      have : a + n * b < buf.length := by
        rw [hlen]
        calc a + n * b < n + n * b := by omega
          _ = n * (b + 1) := by ring
          _ ≤ n * n := Nat.mul_le_mul_left _ hb
      simp [this]
    obtain ⟨T', e, hT'⟩ := pairLoop_spec (real := ⟨[n, n], buf⟩) ((isMat_stores hlen).2 hst) h1 n 0 (by omega) T _ (hT _ hst)
    refine ⟨some (⟨[n, n], buf⟩, T'), ?_, T', rfl, fun V hV => hT'.congr fun a b ha hb => ?_⟩
    · simp only [pairs, e, Res.ok_bind]
    · have hVe : ∀ a b, a < n → b < n → (buf[a + n * b]?).getD 0 = V a b := by
        intro a b ha hb
        rw [hV a b ha hb]
        rfl
      simp only [Nat.zero_le, true_and]
      by_cases e1 : b = i
      · subst e1
        rw [if_pos rfl, if_pos (by omega), packed, if_pos hw, hVe a b ha hb, hVe a (b + 1) ha h1]
      · by_cases e2 : b = i + 1
        · subst e2
          rw [if_neg e1, if_pos rfl, if_pos (by omega), packed, if_neg (by rw [h3]; linarith),
            if_pos (by rw [h3]; linarith), hVe a i ha hi, hVe a (i + 1) ha h1, Nat.add_sub_cancel]
        · rw [if_neg e1, if_neg e2]
          by_cases e3 : b < i
          · rw [if_pos e3, if_pos (by omega), packed, packed]
            have hb1 : 0 < wi b → b + 1 < n := fun h => (hc.1 b hb h).1
            split
            · rename_i hp
              rw [hVe a b ha hb, hVe a (b + 1) ha (hb1 hp)]
            · split
              · rw [hVe a b ha hb, hVe a (b - 1) ha (by omega)]
              · rw [hVe a b ha hb]
          · rw [if_neg e3, if_neg (by omega), hVe a b ha hb]

theorem vecState_next {n : Nat} {wi : Nat → ℝ} {i : Nat} (hw : wi i = 0) {want : Bool}
    {buf : List ℝ} {x : Option (Tensor ℝ × Tensor ℂ)} (hx : VecState n wi i want buf x) :
    VecState n wi (i + 1) want buf x := by
  cases want
  · exact hx
  · simp only [VecState, if_true] at hx ⊢
    obtain ⟨T, rfl, hT⟩ := hx
    refine ⟨T, rfl, fun V hV => (hT V hV).congr fun a b _ _ => ?_⟩
    by_cases e : b = i
    · subst e
      simp [packed, hw]
    · by_cases e2 : b < i
      · rw [if_pos e2, if_pos (by omega)]
      · rw [if_neg e2, if_neg (by omega)]

/-- The loop over i. -/
theorem unpack_spec {n : Nat} {wr wi : Nat → ℝ} (hc : ConjPairs n wr wi) {real imag : Tensor ℝ}
    (hr : IsVec real n wr) (him : IsVec imag n wi) {wantL wantR : Bool} {bl br : List ℝ}
    (hbl : wantL = true → bl.length = n * n) (hbr : wantR = true → br.length = n * n)
    (k i : Nat) (hk : n ≤ i + k) (hprev : ∀ p, i = p + 1 → i ≤ n → ¬ 0 < wi p)
    (T : Tensor ℂ) (hT : IsVec T n fun l => if l < i then ⟨wr l, wi l⟩ else ⟨wr l, 0⟩)
    (L R : Option (Tensor ℝ × Tensor ℂ)) (hL : VecState n wi i wantL bl L) (hR : VecState n wi i wantR br R) :
    ∃ T' L' R', unpack (fun x y => (⟨x, y⟩ : ℂ)) (fun x => -x) real imag n k i (T, L, R) = .ok (T', L', R') ∧
      IsVec T' n (fun l => ⟨wr l, wi l⟩) ∧ (∃ m, n ≤ m ∧ VecState n wi m wantL bl L') ∧
      ∃ m, n ≤ m ∧ VecState n wi m wantR br R' := by
  have hend : n ≤ i → IsVec T n (fun l => ⟨wr l, wi l⟩) := by
    intro hni
    refine ⟨hT.1, hT.2.1, fun l hl => ?_⟩
    rw [hT.2.2 l hl]
    beta_reduce
    rw [if_pos (by omega)]
  induction k generalizing i T L R with
  | zero => exact ⟨T, L, R, rfl, hend (by omega), ⟨i, by omega, hL⟩, ⟨i, by omega, hR⟩⟩
  | succ k ih =>
    by_cases hi : i < n
    · have hx : imag.dataAt (i : Int) = .ok (wi i) := by
        rw [dataAt, if_neg (by omega), Int.toNat_natCast, him.2.2 i hi]
        rfl
      have hy : real.dataAt (i : Int) = .ok (wr i) := by
        rw [dataAt, if_neg (by omega), Int.toNat_natCast, hr.2.2 i hi]
        rfl
      have hnn : ¬ wi i < 0 := by
        intro h
        obtain ⟨p, hp, hpos⟩ := hc.2 i hi h
        exact hprev p hp (by omega) hpos
      by_cases hz : wi i = 0
      · have hT1 : IsVec T n fun l => if l < i + 1 then ⟨wr l, wi l⟩ else ⟨wr l, 0⟩ := by
          refine ⟨hT.1, hT.2.1, fun l hl => ?_⟩
          rw [hT.2.2 l hl]
          beta_reduce
          by_cases e : l = i
          · subst e
            simp [hz]
          · by_cases e2 : l < i
            · rw [if_pos e2, if_pos (by omega)]
            · rw [if_neg e2, if_neg (by omega)]
        obtain ⟨T', L', R', e, h⟩ := ih (i + 1) (by omega) (fun p hp _ => by
          obtain rfl : p = i := by omega
          rw [hz]
          exact lt_irrefl 0) T hT1 L R (vecState_next hz hL) (vecState_next hz hR) (fun hni => by
          refine ⟨hT1.1, hT1.2.1, fun l hl => ?_⟩
          rw [hT1.2.2 l hl]
          beta_reduce
          rw [if_pos (by omega)])
        refine ⟨T', L', R', ?_, h⟩
        rw [unpack, if_pos hi, hx, Res.ok_bind, if_neg (by simpa using hz)]
        exact e
      · have hpos : 0 < wi i := lt_of_le_of_ne (not_lt.1 hnn) (Ne.symm hz)
        obtain ⟨h1, h2, h3⟩ := hc.1 i hi hpos
        obtain ⟨T1, t1, hT1⟩ := set1_isVec hT hi (⟨wr i, wi i⟩ : ℂ)
        obtain ⟨T2, t2, hT2⟩ := set1_isVec hT1 h1 (⟨wr i, - wi i⟩ : ℂ)
        obtain ⟨L1, l1, hL1⟩ := pairs_step hc hi hpos hbl hL
        obtain ⟨R1, r1, hR1⟩ := pairs_step hc hi hpos hbr hR
        have hT3 : IsVec T2 n fun l => if l < i + 2 then ⟨wr l, wi l⟩ else ⟨wr l, 0⟩ := by
          refine ⟨hT2.1, hT2.2.1, fun l hl => ?_⟩
          rw [hT2.2.2 l hl]
          beta_reduce
          by_cases e : l = i + 1
          · subst e
            simp [h2, h3]
          · by_cases e1 : l = i
            · subst e1
              simp
            · by_cases e2 : l < i
              · rw [if_neg e, if_neg e1, if_pos e2, if_pos (by omega)]
              · rw [if_neg e, if_neg e1, if_neg e2, if_neg (by omega)]
        obtain ⟨T', L', R', e, h⟩ := ih (i + 2) (by omega) (fun p hp _ => by
          obtain rfl : p = i + 1 := by omega
          rw [h3]
          linarith) T2 hT3 L1 R1 hL1 hR1 (fun hni => by
          refine ⟨hT3.1, hT3.2.1, fun l hl => ?_⟩
          rw [hT3.2.2 l hl]
          beta_reduce
          rw [if_pos (by omega)])
        refine ⟨T', L', R', ?_, h⟩
        push_cast at t2
        rw [unpack, if_pos hi, hx, Res.ok_bind, if_pos hz, hy, Res.ok_bind, t1, Res.ok_bind, t2, Res.ok_bind,
          l1, Res.ok_bind, r1, Res.ok_bind]
        exact e
    · refine ⟨T, L, R, ?_, hend (by omega), ⟨i, by omega, hL⟩, ⟨i, by omega, hR⟩⟩
      rw [unpack, if_neg hi]

theorem toC_isVec {n : Nat} {t : Tensor ℝ} {f : Nat → ℝ} (h : IsVec t n f) :
    IsVec (toC (fun x y => (⟨x, y⟩ : ℂ)) t) n fun l => ⟨f l, 0⟩ := by
  refine ⟨h.1, by simp [toC, h.2.1], fun l hl => ?_⟩
  simp [toC, h.2.2 l hl]

theorem toC_isMat {n : Nat} {t : Tensor ℝ} {f : Nat → Nat → ℝ} (h : IsMat t.dims t.data n n f) :
    IsMat (toC (fun x y => (⟨x, y⟩ : ℂ)) t).dims (toC (fun x y => (⟨x, y⟩ : ℂ)) t).data n n
      fun a b => ⟨f a b, 0⟩ := by
  refine ⟨h.1, by simp [toC, h.2.1], fun i j hi hj => ?_⟩
  have := elem_map (fun x => (⟨x, 0⟩ : ℂ)) t.dims t.data [i, j]
  rw [h.2.2 i j hi hj] at this
  exact this

/-- What is left in the tensors. -/
theorem vecState_end {n m : Nat} (hm : n ≤ m) {wi : Nat → ℝ} {want : Bool} {buf : List ℝ}
    {x : Option (Tensor ℝ × Tensor ℂ)} (hx : VecState n wi m want buf x) :
    (x.map (·.2)).isSome = want ∧ ∀ T ∈ x.map (·.2), ∀ V, Stores buf n n n V →
      IsMat T.dims T.data n n fun a b => packed wi V a b := by
  cases want
  · simp only [VecState, Bool.false_eq_true, if_false] at hx
    subst hx
    exact ⟨rfl, by simp⟩
  · simp only [VecState, if_true] at hx
    obtain ⟨T, rfl, hT⟩ := hx
    refine ⟨rfl, fun T' h V hV => ?_⟩
    obtain rfl : T = T' := by simpa using h
    exact (hT V hV).congr fun a b _ hb => by rw [if_pos (by omega)]

theorem packed_im {wi : Nat → ℝ} {V : Nat → Nat → ℝ} {i j : Nat} (h : wi j = 0) : (packed wi V i j).im = 0 := by
  simp [packed, h]

/-- C69: eig of a real matrix, if dgeev does what its manual says and succeeds: the numbers are the
eigenvalues, the columns of R are eigenvectors, A R = R D, and those of L are eigenvectors on the left,
Lᴴ A = D Lᴴ. The vectors for real eigenvalues are real. -/
theorem c69_real_partial (g : Dgeev ℝ) (A : Tensor ℝ) {n : Nat} (hn : 0 < n) (wantR wantL : Bool)
    (a : Nat → Nat → ℝ) (ha : IsMat A.dims A.data n n a)
    (hg : DgeevAnswer wantL wantR n A.data n n n (g wantL wantR n A.data n n n))
    (hinfo : (g wantL wantR n A.data n n n).info = 0) :
    ∃ D R L ev, eigReal g (fun x y => (⟨x, y⟩ : ℂ)) (fun x => -x) A wantR wantL = .ok (D, R, L) ∧
      IsVec D n ev ∧ IsSpectrum n (fun i j => (a i j : ℂ)) ev ∧ R.isSome = wantR ∧ L.isSome = wantL ∧
      (∀ r ∈ R, ∃ v, IsMat r.dims r.data n n v ∧
        ∀ j < n, (IsRight n (fun i j => (a i j : ℂ)) (ev j) fun i => v i j) ∧
          ((ev j).im = 0 → ∀ i < n, (v i j).im = 0)) ∧
      (∀ l ∈ L, ∃ v, IsMat l.dims l.data n n v ∧
        ∀ j < n, (IsLeft n (fun i j => (a i j : ℂ)) (ev j) fun i => v i j) ∧
          ((ev j).im = 0 → ∀ i < n, (v i j).im = 0)) := by
  have hst : Stores A.data n n n a := by
    have := ha
    rw [ha.1] at this
    exact (isMat_stores ha.2.1).1 this
  obtain ⟨h1, h2, h3, h4, h5⟩ := hg hn le_rfl ha.2.1 le_rfl le_rfl
  obtain ⟨wr, wi, w1, w2, w3, w4, w5⟩ := h5 hinfo a hst
  generalize ho : g wantL wantR n A.data n n n = o at *
  have hr : IsVec (⟨[n], o.wr⟩ : Tensor ℝ) n wr := ⟨rfl, h1, fun l hl => (w1 l hl).1⟩
  have him : IsVec (⟨[n], o.wi⟩ : Tensor ℝ) n wi := ⟨rfl, h2, fun l hl => (w1 l hl).2⟩
  have hvec : ∀ (want : Bool) (buf : List ℝ), (want = true → buf.length = n * n) →
      VecState n wi 0 want buf (if want then some ((⟨[n, n], buf⟩ : Tensor ℝ),
        toC (fun x y => (⟨x, y⟩ : ℂ)) ⟨[n, n], buf⟩) else none) := by
    intro want buf hb
    cases want
    · rfl
    · simp only [VecState, if_true]
      refine ⟨_, rfl, fun V hV => ?_⟩
      refine (toC_isMat (t := ⟨[n, n], buf⟩) ((isMat_stores (hb rfl)).2 hV)).congr fun a b _ _ => ?_
      rw [if_neg (by omega)]
  obtain ⟨T, L, R, e, hT, ⟨m1, hm1, hL⟩, ⟨m2, hm2, hR⟩⟩ := unpack_spec w2 hr him h3 h4 n 0 (by omega)
    (fun p hp => by omega) _ (by
      have := toC_isVec hr
      refine ⟨this.1, this.2.1, fun l hl => ?_⟩
      rw [this.2.2 l hl]
      beta_reduce
      rw [if_neg (by omega)]) _ _ (hvec wantL o.vl h3) (hvec wantR o.vr h4)
  obtain ⟨l1, l2⟩ := vecState_end hm1 hL
  obtain ⟨r1, r2⟩ := vecState_end hm2 hR
  refine ⟨T, R.map (·.2), L.map (·.2), _, ?_, hT, w3, r1, l1, fun r hr' => ?_, fun l hl' => ?_⟩
  · simp only [eigReal, checks_ok A ha.1 hn, Res.ok_bind, ho]
    rw [e]
    rfl
  · have hw : wantR = true := by
      rw [← r1]
      exact Option.isSome_iff_exists.2 ⟨r, hr'⟩
    obtain ⟨V, v1, v2⟩ := w5 hw
    exact ⟨_, r2 r hr' V v1, fun j hj => ⟨v2 j hj, fun h i _ => packed_im h⟩⟩
  · have hw : wantL = true := by
      rw [← l1]
      exact Option.isSome_iff_exists.2 ⟨l, hl'⟩
    obtain ⟨V, v1, v2⟩ := w4 hw
    exact ⟨_, l2 l hl' V v1, fun j hj => ⟨v2 j hj, fun h i _ => packed_im h⟩⟩

/-- C69: the same for a complex matrix. -/
theorem c69_complex_partial (g : Zgeev ℂ) (A : Tensor ℂ) {n : Nat} (hn : 0 < n) (wantR wantL : Bool)
    (a : Nat → Nat → ℂ) (ha : IsMat A.dims A.data n n a)
    (hg : ZgeevAnswer wantL wantR n A.data n n n (g wantL wantR n A.data n n n))
    (hinfo : (g wantL wantR n A.data n n n).info = 0) :
    ∃ D R L ev, eigComplex g A wantR wantL = .ok (D, R, L) ∧
      IsVec D n ev ∧ IsSpectrum n a ev ∧ R.isSome = wantR ∧ L.isSome = wantL ∧
      (∀ r ∈ R, ∃ v, IsMat r.dims r.data n n v ∧ ∀ j < n, IsRight n a (ev j) fun i => v i j) ∧
      (∀ l ∈ L, ∃ v, IsMat l.dims l.data n n v ∧ ∀ j < n, IsLeft n a (ev j) fun i => v i j) := by
  have hst : Stores A.data n n n a := by
    have := ha
    rw [ha.1] at this
    exact (isMat_stores ha.2.1).1 this
  obtain ⟨h1, h3, h4, h5⟩ := hg hn le_rfl ha.2.1 le_rfl le_rfl
  obtain ⟨ev, w1, w3, w4, w5⟩ := h5 hinfo a hst
  generalize ho : g wantL wantR n A.data n n n = o at *
  refine ⟨_, _, _, ev, by simp only [eigComplex, checks_ok A ha.1 hn, Res.ok_bind, ho]; rfl, ⟨rfl, h1, w1⟩, w3,
    by cases wantR <;> rfl, by cases wantL <;> rfl, fun r hr => ?_, fun l hl => ?_⟩
  · cases wantR
    · simp at hr
    · obtain rfl : _ = r := by simpa using hr
      obtain ⟨V, v1, v2⟩ := w5 rfl
      exact ⟨V, (isMat_stores (h4 rfl)).2 v1, v2⟩
  · cases wantL
    · simp at hl
    · obtain rfl : _ = l := by simpa using hl
      obtain ⟨V, v1, v2⟩ := w4 rfl
      exact ⟨V, (isMat_stores (h3 rfl)).2 v1, v2⟩

/-- The matrix {0,1;0,0}. -/
def nilp (i j : Nat) : ℂ := if i = 0 ∧ j = 1 then 1 else 0

theorem nilp_left {ev : ℂ} {u : Nat → ℂ} (h : IsLeft 2 nilp ev u) : ev = 0 ∧ u 0 = 0 ∧ u 1 ≠ 0 := by
  obtain ⟨⟨i, hi, hne⟩, h2⟩ := h
  have e0 := h2 0 (by norm_num)
  have e1 := h2 1 (by norm_num)
  simp [nilp, sum_range_succ] at e0 e1
  have hev : ev = 0 := by
    by_contra hev
    have h0 : u 0 = 0 := by tauto
    have h1 : u 1 = 0 := by
      rw [h0] at e1
      simp at e1
      tauto
    have : i = 0 ∨ i = 1 := by omega
    rcases this with rfl | rfl
    · exact hne h0
    · exact hne h1
  subst hev
  simp at e1
  refine ⟨rfl, e1, ?_⟩
  have : i = 0 ∨ i = 1 := by omega
  rcases this with rfl | rfl
  · exact absurd e1 hne
  · exact hne

/-- C69: it is false that L A = D L, as the documentation says: for the matrix {0,1;0,0} and whatever
zgeev or dgeev compute, it is not so. -/
theorem c69_negation_left {l : Nat → Nat → ℂ} {ev : Nat → ℂ}
    (h : ∀ j < 2, IsLeft 2 nilp (ev j) fun i => l i j) :
    ¬ ∀ i < 2, ∀ j < 2, ∑ k ∈ Finset.range 2, l i k * nilp k j = ev i * l i j := by
  intro hall
  obtain ⟨-, -, h2⟩ := nilp_left (h 0 (by norm_num))
  obtain ⟨e1, -, -⟩ := nilp_left (h 1 (by norm_num))
  have := hall 1 (by norm_num) 1 (by norm_num)
  simp [nilp, sum_range_succ, e1] at this
  exact h2 this

/-- C69: eig does not look at info. -/
theorem c69_failure_ignored {β γ : Type} [Zero β] [DecidableEq β] (g : Dgeev β) (g' : Zgeev γ)
    (mk : β → β → γ) (neg : β → β) (A : Tensor β) (A' : Tensor γ) (wantR wantL : Bool) (i : Int) :
    eigReal (fun jl jr n a lda ll lr => { g jl jr n a lda ll lr with info := i }) mk neg A wantR wantL
      = eigReal g mk neg A wantR wantL ∧
    eigComplex (fun jl jr n a lda ll lr => { g' jl jr n a lda ll lr with info := i }) A' wantR wantL
      = eigComplex g' A' wantR wantL := ⟨rfl, rfl⟩

/-! ### Hermitian matrices -/

variable {𝕜 : Type} [RCLike 𝕜]

/-- C70: eig_sym, if syev or heev does what its manual says and succeeds. `upper a` is the Hermitian
matrix with the upper triangle of A. -/
theorem c70_upper_partial (g : Syev 𝕜 ℝ) (A : Tensor 𝕜) {n : Nat} (hn : 0 < n) (want : Bool)
    (a : Nat → Nat → 𝕜) (ha : IsMat A.dims A.data n n a)
    (hg : SyevAnswer want n A.data n (g want n A.data n)) (hinfo : (g want n A.data n).info = 0) :
    ∃ D V w v, eigSym g A want = .ok (D, V) ∧ IsVec D n w ∧ IsEigSym n (upper a) v w ∧ V.isSome = want ∧
      ∀ t ∈ V, IsMat t.dims t.data n n v := by
  have hst : Stores A.data n n n a := by
    have := ha
    rw [ha.1] at this
    exact (isMat_stores ha.2.1).1 this
  obtain ⟨h1, h2, h3⟩ := hg hn le_rfl ha.2.1
  obtain ⟨v, w, e1, e2, e3⟩ := h3 hinfo a hst
  generalize ho : g want n A.data n = o at *
  refine ⟨_, _, w, v, by simp only [eigSym, checks_ok A ha.1 hn, Res.ok_bind, ho]; rfl, ⟨rfl, h1, e2⟩, e1,
    by cases want <;> rfl, fun t ht => ?_⟩
  cases want
  · simp at ht
  · obtain rfl : _ = t := by simpa using ht
    simp only [ha.1]
    exact (isMat_stores (h2.trans ha.2.1)).2 (e3 rfl)

/-- The matrix is Hermitian (symmetric, if it is real). -/
def IsHerm (n : Nat) (a : Nat → Nat → 𝕜) : Prop := ∀ i j, i < n → j < n → a i j = starRingEnd 𝕜 (a j i)

theorem upper_herm {n : Nat} {a : Nat → Nat → 𝕜} (h : IsHerm n a) {i j : Nat} (hi : i < n) (hj : j < n) :
    upper a i j = a i j := by
  rw [upper]
  split
  · rfl
  · split
    · exact (h i j hi hj).symm
    · obtain rfl : i = j := by omega
      exact RCLike.conj_eq_iff_re.1 (h i i hi hi).symm

/-- C70: for a Hermitian matrix, A V = V D and Vᴴ A = D Vᴴ, V is unitary, D is real and increases. -/
theorem c70_hermitian_partial (g : Syev 𝕜 ℝ) (A : Tensor 𝕜) {n : Nat} (hn : 0 < n) (want : Bool)
    (a : Nat → Nat → 𝕜) (ha : IsMat A.dims A.data n n a) (hh : IsHerm n a)
    (hg : SyevAnswer want n A.data n (g want n A.data n)) (hinfo : (g want n A.data n).info = 0) :
    ∃ D V w v, eigSym g A want = .ok (D, V) ∧ IsVec D n w ∧ IsEigSym n a v w ∧ V.isSome = want ∧
      (∀ t ∈ V, IsMat t.dims t.data n n v) ∧
      ∀ i j, i < n → j < n →
        ∑ k ∈ range n, starRingEnd 𝕜 (v k i) * a k j = (w i : 𝕜) * starRingEnd 𝕜 (v j i) := by
  obtain ⟨D, V, w, v, e1, e2, e3, e4, e5⟩ := c70_upper_partial g A hn want a ha hg hinfo
  have heq : ∀ i j, i < n → j < n → ∑ k ∈ range n, a i k * v k j = v i j * (w j : 𝕜) := by
    intro i j hi hj
    rw [← e3.eq i j hi hj]
    exact sum_congr rfl fun k hk => by rw [upper_herm hh hi (mem_range.1 hk)]
  refine ⟨D, V, w, v, e1, e2, ⟨e3.unitary, e3.incr, heq⟩, e4, e5, fun i j hi hj => ?_⟩
  have := congrArg (starRingEnd 𝕜) (heq j i hj hi)
  rw [map_sum, map_mul, RCLike.conj_ofReal] at this
  rw [mul_comm, ← this]
  refine sum_congr rfl fun k hk => ?_
  rw [map_mul, hh k j (mem_range.1 hk) hj]
  ring

/-- C70: matrices which are not Hermitian are not refused: for {0,1;0,0} and whatever syev computes, the
program goes on, and A V = V D is false. -/
theorem c70_negation_not_hermitian (g : Syev 𝕜 ℝ) (A : Tensor 𝕜)
    (ha : IsMat A.dims A.data 2 2 fun i j => if i = 0 ∧ j = 1 then 1 else 0)
    (hg : SyevAnswer true 2 A.data 2 (g true 2 A.data 2)) (hinfo : (g true 2 A.data 2).info = 0) :
    ∃ D V w v, eigSym g A true = .ok (D, some V) ∧ IsVec D 2 w ∧ IsMat V.dims V.data 2 2 v ∧
      ¬ ∀ i j, i < 2 → j < 2 →
        ∑ k ∈ range 2, (if i = 0 ∧ k = 1 then (1 : 𝕜) else 0) * v k j = v i j * (w j : 𝕜) := by
  obtain ⟨D, V, w, v, e1, e2, e3, e4, e5⟩ := c70_upper_partial g A (by norm_num) true _ ha hg hinfo
  obtain ⟨V, rfl⟩ := Option.isSome_iff_exists.1 e4
  refine ⟨D, V, w, v, e1, e2, e5 V rfl, fun hall => ?_⟩
  have a0 := hall 0 0 (by norm_num) (by norm_num)
  have a1 := hall 1 0 (by norm_num) (by norm_num)
  have b0 := e3.eq 0 0 (by norm_num) (by norm_num)
  have b1 := e3.eq 1 0 (by norm_num) (by norm_num)
  have u := e3.unitary.1 0 0 (by norm_num) (by norm_num)
  simp [upper, sum_range_succ] at a0 a1 b0 b1 u
  have h0 : v 0 0 = 0 := by
    rw [b1]
    rcases a1 with h | h <;> simp [h]
  have h1 : v 1 0 = 0 := by
    rw [a0, h0]
    simp
  simp [h0, h1] at u

/-- C70: eig_sym does not look at info. -/
theorem c70_failure_ignored {α β : Type} (g : Syev α β) (A : Tensor α) (want : Bool) (i : Int) :
    eigSym (fun j n a lda => { g j n a lda with info := i }) A want = eigSym g A want := rfl

/-! ### Equations -/

variable {α : Type} [Field α]

theorem regular_unique {n : Nat} {a : Nat → Nat → α} (h : Regular n a) {x y : Nat → α}
    (e : ∀ i < n, ∑ j ∈ range n, a i j * x j = ∑ j ∈ range n, a i j * y j) : ∀ j < n, x j = y j := by
  intro j hj
  have := h (fun j => x j - y j) (fun i hi => by
    simp only [mul_sub, sum_sub_distrib]
    rw [e i hi, sub_self]) j hj
  exact sub_eq_zero.1 this

/-- The program after the checks. The rank of A is not checked. -/
theorem solve_eq (g : Gesv α) (A B : Tensor α) {n : Nat} {more rest : List Nat} (hA : A.dims = n :: n :: more)
    (hB : B.dims = n :: rest) (hn : 0 < n) (hl : n * n ≤ A.data.length) :
    solve g A B = if (g n (B.data.length / n) A.data n B.data n).info = 0
      then .ok ⟨B.dims, (g n (B.data.length / n) A.data n B.data n).b⟩ else .abort := by
  have e0 : A.dimension 0 = .ok n := dimension_nat A 0 n (by rw [hA]; rfl)
  have e1 : A.dimension 1 = .ok n := dimension_nat A 1 n (by rw [hA]; rfl)
  have e2 : B.dimension 0 = .ok n := dimension_nat B 0 n (by rw [hB]; rfl)
  simp only [solve, e0, e1, e2, Res.ok_bind]
  rw [Res.assert_pos trivial, Res.ok_bind, Res.ok_bind, if_neg (by omega), if_neg (by simp only [size]; omega)]
  rfl

/-- C71: solve. If gesv does what its manual says: if the matrix is regular, the result has the
dimensions of B and A X = B, and X is the only solution; if not, the program stops. -/
theorem c71_solve_partial (g : Gesv α) (A B : Tensor α) {n : Nat} {rest : List Nat} (hn : 0 < n)
    (a : Nat → Nat → α) (ha : IsMat A.dims A.data n n a) (wB : B.WF) (hB : B.dims = n :: rest)
    (hg : GesvAnswer n (B.data.length / n) A.data n B.data n (g n (B.data.length / n) A.data n B.data n)) :
    (Regular n a → ∃ X : Tensor α, solve g A B = .ok X ∧ X.WF ∧ X.dims = B.dims ∧
      ∀ q, InB q rest → ∀ b : Nat → α, (∀ i < n, elem B.dims B.data (i :: q) = some (b i)) →
        ∃ x : Nat → α, (∀ j < n, elem X.dims X.data (j :: q) = some (x j)) ∧
          (∀ i < n, ∑ j ∈ range n, a i j * x j = b i) ∧
          ∀ y : Nat → α, (∀ i < n, ∑ j ∈ range n, a i j * y j = b i) → ∀ j < n, y j = x j) ∧
    (¬ Regular n a → solve g A B = .abort) := by
  have hst : Stores A.data n n n a := by
    have := ha
    rw [ha.1] at this
    exact (isMat_stores ha.2.1).1 this
  have hbl : B.data.length = n * prod rest := by
    rw [wB.length_eq (by simp [hB]), hB, prod_cons]
  have hdiv : B.data.length / n = prod rest := by
    rw [hbl, Nat.mul_div_cancel_left _ hn]
  rw [hdiv] at hg
  have hsB : Stores B.data n n (prod rest) fun i c => (B.data[i + n * c]?).getD 0 := by
    intro i c hi hc
    have : i + n * c < B.data.length := by
      rw [hbl]
      calc i + n * c < n + n * c := by omega
        _ = n * (c + 1) := by ring
        _ ≤ n * prod rest := Nat.mul_le_mul_left _ hc
    simp [this]
  obtain ⟨h1, h2⟩ := hg hn le_rfl le_rfl (by rw [ha.2.1]) (by rw [hbl])
  obtain ⟨h3, h4⟩ := h2 a _ hst hsB
  rw [solve_eq g A B ha.1 hB hn (by rw [ha.2.1]), hdiv]
  have hel : ∀ (l : List α) i q, i < n → InB q rest → elem B.dims l (i :: q) = l[i + n * colPos rest q]? := by
    intro l i q hi hq
    rw [hB]
    simp [elem, hi, hq, colPos]
  constructor
  · intro hreg
    have hi : (g n (prod rest) A.data n B.data n).info = 0 := by
      by_contra hne
      exact h4 hne hreg
    obtain ⟨-, X, hX, hsol⟩ := h3 hi
    rw [if_pos hi]
    refine ⟨_, rfl, by
      show (g n (prod rest) A.data n B.data n).b.length = totalSize B.dims
      rw [h1]
      exact wB, rfl, fun q hq b hb => ?_⟩
    have hc := colPos_lt hq
    refine ⟨fun j => X j (colPos rest q), fun j hj => ?_, fun i hi => ?_, fun y hy => ?_⟩
    · simp only
      rw [hel _ j q hj hq]
      exact hX j _ hj hc
    · rw [hsol i _ hi hc]
      have := hb i hi
      rw [hel _ i q hi hq] at this
      rw [this]
      rfl
    · refine regular_unique hreg fun i hi => ?_
      rw [hy i hi, hsol i _ hi hc]
      have := hb i hi
      rw [hel _ i q hi hq] at this
      rw [this]
      rfl
  · intro hreg
    have hi : ¬ (g n (prod rest) A.data n B.data n).info = 0 := fun h => hreg (h3 h).1
    rw [if_neg hi]

/-- C71: A must have at least two indices, the first two dimensions must be equal, and equal to the first
one of B. -/
theorem c71_refused {α : Type} (g : Gesv α) (A B : Tensor α)
    (h : ¬ ∃ n more rest, A.dims = n :: n :: more ∧ B.dims = n :: rest) : solve g A B = .abort := by
  obtain ⟨da, data⟩ := A
  obtain ⟨db, datb⟩ := B
  have hB0 : ∀ m l, db = m :: l → (⟨db, datb⟩ : Tensor α).dimension 0 = .ok m := by
    rintro m l rfl
    exact dimension_nat _ 0 _ rfl
  match da, db, h, hB0 with
  | [], _, _, _ => rfl
  | m :: l, [], _, _ =>
    have e0 : (⟨m :: l, data⟩ : Tensor α).dimension 0 = .ok m := dimension_nat _ 0 _ rfl
    have e1 : (⟨[], datb⟩ : Tensor α).dimension 0 = .abort := rfl
    simp only [solve, e0, e1, Res.ok_bind, Res.abort_bind]
  | [m], k :: l, _, hB0 =>
    have e0 : (⟨[m], data⟩ : Tensor α).dimension 0 = .ok m := dimension_nat _ 0 _ rfl
    have e1 : (⟨[m], data⟩ : Tensor α).dimension 1 = .abort := rfl
    simp only [solve, e0, e1, hB0 k l rfl, Res.ok_bind, Res.abort_bind]
  | m :: n :: more, k :: l, h, hB0 =>
    have e0 : (⟨m :: n :: more, data⟩ : Tensor α).dimension 0 = .ok m := dimension_nat _ 0 _ rfl
    have e1 : (⟨m :: n :: more, data⟩ : Tensor α).dimension 1 = .ok n := dimension_nat _ 1 _ rfl
    simp only [solve, e0, e1, hB0 k l rfl, Res.ok_bind, Res.assert_bind]
    by_cases hmn : m = n
    · subst hmn
      by_cases hmk : m = k
      · subst hmk
        exact absurd ⟨m, more, l, rfl, rfl⟩ h
      · rw [if_pos rfl, if_neg hmk]
    · rw [if_neg hmn]

/-- C71: tensors with more than two indices are not refused: what gesv does is the only difference to
the matrix with the first n * n elements. -/
theorem c71_negation_rank (g : Gesv α) (A B : Tensor α) {n : Nat} {more rest : List Nat} (hn : 0 < n)
    (hA : A.dims = n :: n :: more) (a : Nat → Nat → α) (hl : n * n ≤ A.data.length)
    (ha : Stores A.data n n n a) (wB : B.WF) (hB : B.dims = n :: rest) (hreg : Regular n a)
    (hg : GesvAnswer n (B.data.length / n) A.data n B.data n (g n (B.data.length / n) A.data n B.data n)) :
    ∃ X, solve g A B = .ok X := by
  have hbl : B.data.length = n * prod rest := by
    rw [wB.length_eq (by simp [hB]), hB, prod_cons]
  have hdiv : B.data.length / n = prod rest := by
    rw [hbl, Nat.mul_div_cancel_left _ hn]
  rw [hdiv] at hg
  have hsB : Stores B.data n n (prod rest) fun i c => (B.data[i + n * c]?).getD 0 := by
    intro i c hi hc
    have : i + n * c < B.data.length := by
      rw [hbl]
      calc i + n * c < n + n * c := by omega
        _ = n * (c + 1) := by ring
        _ ≤ n * prod rest := Nat.mul_le_mul_left _ hc
    simp [this]
  obtain ⟨h1, h2⟩ := hg hn le_rfl le_rfl hl (by rw [hbl])
  obtain ⟨-, h4⟩ := h2 a _ ha hsB
  rw [solve_eq g A B hA hB hn hl, hdiv, if_pos (by
    by_contra hne
    exact h4 hne hreg)]
  exact ⟨_, rfl⟩

/-- C71: for matrices without elements, the number of right hand sides is a quotient by zero. -/
theorem c71_undefined {α : Type} (g : Gesv α) (A B : Tensor α) {more rest : List Nat}
    (hA : A.dims = 0 :: 0 :: more) (hB : B.dims = 0 :: rest) : solve g A B = .ub := by
  have e0 : A.dimension 0 = .ok 0 := dimension_nat A 0 0 (by rw [hA]; rfl)
  have e1 : A.dimension 1 = .ok 0 := dimension_nat A 1 0 (by rw [hA]; rfl)
  have e2 : B.dimension 0 = .ok 0 := dimension_nat B 0 0 (by rw [hB]; rfl)
  simp only [solve, e0, e1, e2, Res.ok_bind]
  rw [Res.assert_pos trivial, Res.ok_bind, Res.ok_bind, if_pos trivial]

/-! ### Examples -/

/-- Pairs are unpacked: the rotation {0,-1;1,0}, with pairs of rational numbers for complex ones. -/
example : eigReal (fun _ _ _ _ _ _ _ => ⟨0, [0, 0], [1, -1], [1, 0, 0, -1], [1, 0, 0, -1]⟩)
    (fun x y : ℚ => (x, y)) (fun x => -x) ⟨[2, 2], [0, 1, -1, 0]⟩ true false
    = .ok (⟨[2], [(0, 1), (0, -1)]⟩, some ⟨[2, 2], [(1, 0), (0, -1), (1, 0), (0, 1)]⟩, none) := by
  decide +kernel

/-- A dgeev for the rotation. -/
def gRot : Dgeev ℝ := fun _ _ _ _ _ _ _ => ⟨0, [0, 0], [1, -1], [1, 0, 0, -1], [1, 0, 0, -1]⟩

def rot (i j : Nat) : ℝ := if i = 0 ∧ j = 1 then -1 else if i = 1 ∧ j = 0 then 1 else 0

theorem rot_isMat : IsMat [2, 2] [(0 : ℝ), 1, -1, 0] 2 2 rot := by
  refine ⟨rfl, rfl, fun i j hi hj => ?_⟩
  rcases (show i = 0 ∨ i = 1 by omega) with rfl | rfl <;>
    rcases (show j = 0 ∨ j = 1 by omega) with rfl | rfl <;> simp [elem, InB, colPos, rot]

theorem rot_spectrum : IsSpectrum 2 (fun i j => (rot i j : ℂ))
    fun j => ⟨0, if j = 0 then 1 else -1⟩ := by
  have e1 : (⟨0, 1⟩ : ℂ) = Complex.I := rfl
  have e2 : (⟨0, -1⟩ : ℂ) = - Complex.I := by
    apply Complex.ext <;> simp
  rw [IsSpectrum, Matrix.charpoly_fin_two, Fin.prod_univ_two]
  simp [Matrix.trace_fin_two, Matrix.det_fin_two, rot, e1, e2]
  ring_nf
  rw [← Polynomial.C_pow, Complex.I_sq]
  simp
  ring

theorem gRot_answer (wantL wantR : Bool) :
    DgeevAnswer wantL wantR 2 [0, 1, -1, 0] 2 2 2 (gRot wantL wantR 2 [0, 1, -1, 0] 2 2 2) := by
  intro _ _ _ _ _
  refine ⟨rfl, rfl, fun _ => rfl, fun _ => rfl, fun _ A hA => ?_⟩
  have hrs : Stores [(0 : ℝ), 1, -1, 0] 2 2 2 rot := (isMat_stores rfl).1 rot_isMat
  have hAr : ∀ i j, i < 2 → j < 2 → A i j = rot i j := by
    intro i j hi hj
    have := hA i j hi hj
    rw [hrs i j hi hj] at this
    exact (Option.some.inj this).symm
  have a00 : A 0 0 = 0 := by rw [hAr 0 0 (by norm_num) (by norm_num)]; simp [rot]
  have a01 : A 0 1 = -1 := by rw [hAr 0 1 (by norm_num) (by norm_num)]; simp [rot]
  have a10 : A 1 0 = 1 := by rw [hAr 1 0 (by norm_num) (by norm_num)]; simp [rot]
  have a11 : A 1 1 = 0 := by rw [hAr 1 1 (by norm_num) (by norm_num)]; simp [rot]
  have h10 : ¬ (1 : ℝ) < 0 := by norm_num
  let V : Nat → Nat → ℝ := fun i j => if i = 0 ∧ j = 0 then 1 else if i = 1 ∧ j = 1 then -1 else 0
  have hV : Stores [(1 : ℝ), 0, 0, -1] 2 2 2 V := by
    intro i j hi hj
    rcases (show i = 0 ∨ i = 1 by omega) with rfl | rfl <;>
      rcases (show j = 0 ∨ j = 1 by omega) with rfl | rfl <;> simp [V]
  refine ⟨fun _ => 0, fun j => if j = 0 then 1 else -1, fun j hj => ?_, ⟨fun j hj h => ?_, fun j hj h => ?_⟩,
    ?_, fun _ => ⟨V, hV, fun j hj => ⟨⟨0, by norm_num, ?_⟩, fun i hi => ?_⟩⟩,
    fun _ => ⟨V, hV, fun j hj => ⟨⟨0, by norm_num, ?_⟩, fun i hi => ?_⟩⟩⟩
  · rcases (show j = 0 ∨ j = 1 by omega) with rfl | rfl <;> simp [gRot]
  · rcases (show j = 0 ∨ j = 1 by omega) with rfl | rfl
    · simp
    · norm_num at h
  · rcases (show j = 0 ∨ j = 1 by omega) with rfl | rfl
    · norm_num at h
    · exact ⟨0, rfl, by norm_num⟩
  · have := rot_spectrum
    rw [IsSpectrum] at this ⊢
    rw [← this]
    congr 1
    ext i j
    simp [hAr i j i.2 j.2]
  · rcases (show j = 0 ∨ j = 1 by omega) with rfl | rfl
    · simp [packed, V, Complex.ext_iff, h10]
    · simp [packed, V, Complex.ext_iff, h10]
  · rcases (show j = 0 ∨ j = 1 by omega) with rfl | rfl <;>
      rcases (show i = 0 ∨ i = 1 by omega) with rfl | rfl <;>
      simp [packed, V, Complex.ext_iff, h10, sum_range_succ, a00, a01, a10, a11]
  · rcases (show j = 0 ∨ j = 1 by omega) with rfl | rfl
    · simp [packed, V, Complex.ext_iff, h10]
    · simp [packed, V, Complex.ext_iff, h10]
  · rcases (show j = 0 ∨ j = 1 by omega) with rfl | rfl <;>
      rcases (show i = 0 ∨ i = 1 by omega) with rfl | rfl <;>
      simp [packed, V, Complex.ext_iff, h10, sum_range_succ, a00, a01, a10, a11]

/-- The rotation meets the hypotheses of `c69_real_partial`. -/
example (wantR wantL : Bool) : ∃ D R L,
    eigReal gRot (fun x y => (⟨x, y⟩ : ℂ)) (fun x => -x) ⟨[2, 2], [0, 1, -1, 0]⟩ wantR wantL = .ok (D, R, L) ∧
      D.dims = [2] :=
  let ⟨D, R, L, _, h, hD, _⟩ := c69_real_partial gRot ⟨[2, 2], [0, 1, -1, 0]⟩ (by norm_num) wantR wantL rot
    rot_isMat (gRot_answer wantL wantR) rfl
  ⟨D, R, L, h, hD.1⟩

theorem one_isMat {α : Type} (x : α) : IsMat [1, 1] [x] 1 1 fun _ _ => x := by
  refine ⟨rfl, rfl, fun i j hi hj => ?_⟩
  obtain rfl : i = 0 := by omega
  obtain rfl : j = 0 := by omega
  simp [elem, InB, colPos]

theorem one_stores {α : Type} {x : α} {A : Nat → Nat → α} (h : Stores [x] 1 1 1 A) : A 0 0 = x := by
  have := h 0 0 (by norm_num) (by norm_num)
  simpa using this.symm

theorem one_stores' {α : Type} (x : α) : Stores [x] 1 1 1 fun _ _ => x := (isMat_stores rfl).1 (one_isMat x)

/-- A 1 x 1 matrix, complex. -/
example (x : ℂ) : ∃ D R L ev, eigComplex (fun _ _ _ _ _ _ _ => ⟨0, [x], [1], [1]⟩) ⟨[1, 1], [x]⟩ true true
    = .ok (D, R, L) ∧ IsVec D 1 ev := by
  obtain ⟨D, R, L, ev, h1, h2, -⟩ := c69_complex_partial (fun _ _ _ _ _ _ _ => ⟨0, [x], [1], [1]⟩)
    ⟨[1, 1], [x]⟩ (by norm_num) true true _ (one_isMat x) (by
      intro _ _ _ _ _
      refine ⟨rfl, fun _ => rfl, fun _ => rfl, fun _ A hA => ⟨fun _ => x, fun j hj => ?_, ?_,
        fun _ => ⟨fun _ _ => 1, one_stores' 1, fun j hj => ⟨⟨0, by norm_num, by simp⟩, fun i hi => ?_⟩⟩,
        fun _ => ⟨fun _ _ => 1, one_stores' 1, fun j hj => ⟨⟨0, by norm_num, by simp⟩, fun i hi => ?_⟩⟩⟩⟩
      · obtain rfl : j = 0 := by omega
        rfl
      · rw [IsSpectrum, Matrix.charpoly, Matrix.det_fin_one]
        simp [Matrix.charmatrix, one_stores hA]
      · obtain rfl : i = 0 := by omega
        simp [one_stores hA]
      · obtain rfl : i = 0 := by omega
        simp [one_stores hA]) rfl
  exact ⟨D, R, L, ev, h1, h2⟩

/-- A 1 x 1 matrix, symmetric. -/
example (x : ℝ) : ∃ D V w, eigSym (fun _ _ _ _ => ⟨0, [x], [1]⟩) (⟨[1, 1], [x]⟩ : Tensor ℝ) true
    = .ok (D, V) ∧ IsVec D 1 w := by
  obtain ⟨D, V, w, v, h1, h2, -⟩ := c70_hermitian_partial (fun _ _ _ _ => ⟨0, [x], [1]⟩)
    (⟨[1, 1], [x]⟩ : Tensor ℝ) (by norm_num) true _ (one_isMat x) (fun _ _ _ _ => by simp) (by
      intro _ _ _
      refine ⟨rfl, rfl, fun _ A hA => ⟨fun _ _ => 1, fun _ => x, ⟨⟨fun k l hk hl => ?_, fun k l hk hl => ?_⟩,
        fun _ _ _ _ => le_rfl, fun i j hi hj => ?_⟩, fun j hj => ?_, fun _ => one_stores' 1⟩⟩
      · obtain rfl : k = 0 := by omega
        obtain rfl : l = 0 := by omega
        simp
      · obtain rfl : k = 0 := by omega
        obtain rfl : l = 0 := by omega
        simp
      · obtain rfl : i = 0 := by omega
        simp [upper, one_stores hA]
      · obtain rfl : j = 0 := by omega
        rfl) rfl
  exact ⟨D, V, w, h1, h2⟩

/-- The equations 2 x = b, for a right hand side with three columns. -/
example (b c d : ℚ) : ∃ X, solve (fun _ _ _ _ b _ => ⟨0, b.map (· / 2)⟩) (⟨[1, 1], [2]⟩ : Tensor ℚ)
    ⟨[1, 3], [b, c, d]⟩ = .ok X ∧ X.dims = [1, 3] := by
  obtain ⟨X, h1, -, h3, -⟩ := (c71_solve_partial (fun _ _ _ _ b _ => ⟨0, b.map (· / 2)⟩)
    (⟨[1, 1], [2]⟩ : Tensor ℚ) ⟨[1, 3], [b, c, d]⟩ (rest := [3]) (by norm_num) _ (one_isMat 2) rfl rfl (by
      intro _ _ _ _ _
      refine ⟨by simp, fun A B hA hB => ⟨fun _ => ⟨fun x hx j hj => ?_, fun i c => B i c / 2,
        fun i c hi hc => ?_, fun i c hi hc => ?_⟩, fun h => absurd rfl h⟩⟩
      · obtain rfl : j = 0 := by omega
        have := hx 0 (by norm_num)
        simpa [one_stores hA] using this
      · have := hB i c hi hc
        simp only [List.getElem?_map, this, Option.map_some]
      · obtain rfl : i = 0 := by omega
        simp [one_stores hA]
        ring)).1 (by
      intro x hx j hj
      obtain rfl : j = 0 := by omega
      have := hx 0 (by norm_num)
      simpa using this)
  exact ⟨X, h1, h3⟩

end Verif.Eig
