import Verif.Lemmas.CgsFl
import Verif.Props.Arith
/-
C133: the conjugate gradient method in doubles.
-/
namespace Verif.CgsFl

open Verif Verif.Spec Fl Rounding Tensor FiniteResults CgsFl.Spec PowerFl Fused GemmFl

/-- A vector of `n` doubles. -/
def Vec (n : Nat) (v : Tensor Fl) : Prop := v.WF ∧ v.data.length = n ∧ ∀ x ∈ v.data, x.WF

theorem elt_eq {v : Tensor Fl} {i : Nat} (h : i < v.data.length) : elt v i = v.data[i].val := by
  rw [elt, List.getD_eq_getElem?_getD, List.getElem?_eq_getElem h, Option.getD_some]

section
variable [Rounding]

/-- `x + a * p`, `x - a * p`. -/
noncomputable def addTo (x : Tensor Fl) (a : Fl) (p : Tensor Fl) : Tensor Fl :=
  ⟨x.dims, List.zipWith (fun u v : Fl => u + v) x.data (p.data.map fun v => a * v)⟩

noncomputable def subFrom (x : Tensor Fl) (a : Fl) (p : Tensor Fl) : Tensor Fl :=
  ⟨x.dims, List.zipWith (fun u v : Fl => u - v) x.data (p.data.map fun v => a * v)⟩

noncomputable def prod2 (x y : Tensor Fl) : Fl := (List.zipWith (fun u v : Fl => u * v) x.data y.data).foldl (· + ·) 0

theorem addTo_vec {n : Nat} {x p : Tensor Fl} (a : Fl) (hx : Vec n x) (hp : Vec n p) : Vec n (addTo x a p) := by
  obtain ⟨h1, h2, h3⟩ := hx
  obtain ⟨-, h5, -⟩ := hp
  have hl : (addTo x a p).data.length = n := by simp [addTo, h2, h5]
  refine ⟨?_, hl, fun y hy => ?_⟩
  · rw [Tensor.WF, hl, ← h2]
    exact h1
  · obtain ⟨i, hi⟩ := List.mem_iff_getElem?.1 hy
    simp only [addTo, List.getElem?_zipWith, List.getElem?_map] at hi
    cases h6 : x.data[i]? with
    | none => rw [h6] at hi; simp at hi
    | some u =>
      cases h7 : p.data[i]? with
      | none => rw [h6, h7] at hi; simp at hi
      | some v =>
        rw [h6, h7] at hi
        simp at hi
        rw [← hi]
        exact add_wf (h3 u (List.mem_of_getElem? h6)) (mul_wf _ _)

theorem subFrom_vec {n : Nat} {x p : Tensor Fl} (a : Fl) (hx : Vec n x) (hp : Vec n p) : Vec n (subFrom x a p) := by
  obtain ⟨h1, h2, h3⟩ := hx
  obtain ⟨-, h5, -⟩ := hp
  have hl : (subFrom x a p).data.length = n := by simp [subFrom, h2, h5]
  refine ⟨?_, hl, fun y hy => ?_⟩
  · rw [Tensor.WF, hl, ← h2]
    exact h1
  · obtain ⟨i, hi⟩ := List.mem_iff_getElem?.1 hy
    simp only [subFrom, List.getElem?_zipWith, List.getElem?_map] at hi
    cases h6 : x.data[i]? with
    | none => rw [h6] at hi; simp at hi
    | some u =>
      cases h7 : p.data[i]? with
      | none => rw [h6, h7] at hi; simp at hi
      | some v =>
        rw [h6, h7] at hi
        simp at hi
        rw [← hi]
        exact add_wf (h3 u (List.mem_of_getElem? h6)) (neg_wf (mul_wf _ _))

theorem loop_succ {n : Nat} (c15 : Fl) {A : Tensor Fl → Res (Tensor Fl)} (tol : Fl) (k : Nat) {x r p Ap : Tensor Fl} (rs : Fl)
    (used : Nat) (hist : List (Tensor Fl × Tensor Fl)) (hx : Vec n x) (hr : Vec n r) (hp : Vec n p) (hA : A p = .ok Ap)
    (hAp : Vec n Ap) :
    loop c15 A tol (k + 1) x r p rs used hist =
      if Fl.abs (prod2 p Ap) < c15 * Fl.abs rs then .abort
      else
        let x' := addTo x (rs / prod2 p Ap) p
        let r' := subFrom r (rs / prod2 p Ap) Ap
        if Fl.sqrt (Fl.abs (prod2 r' r')) < tol then .ok ⟨x', r', used + 1, true, (x', r') :: hist⟩
        else loop c15 A tol k x' r' (addTo r' (prod2 r' r' / rs) p) (prod2 r' r') (used + 1) ((x', r') :: hist) := by
  have hs : ∀ {a b : Tensor Fl}, Vec n a → Vec n b → scprod id a b = .ok (prod2 a b) := fun {a b} ha hb =>
    scprod_fold id a b (by rw [ha.2.1, hb.2.1])
  have hm : ∀ (a : Fl) {b : Tensor Fl}, Vec n b → binopNT (· * ·) a b = .ok ⟨b.dims, b.data.map fun v => a * v⟩ :=
    fun a {b} hb => unop_ok _ b hb.1
  have hadd : ∀ (a : Fl) {y q : Tensor Fl}, Vec n y → Vec n q →
      binopTT (· + ·) y ⟨q.dims, q.data.map fun v => a * v⟩ = .ok (addTo y a q) := fun a {y q} hy hq =>
    binopTT_ok _ _ _ hy.1 (by simp [hy.2.1, hq.2.1])
  have hsub : ∀ (a : Fl) {y q : Tensor Fl}, Vec n y → Vec n q →
      binopTT (· - ·) y ⟨q.dims, q.data.map fun v => a * v⟩ = .ok (subFrom y a q) := fun a {y q} hy hq =>
    binopTT_ok _ _ _ hy.1 (by simp [hy.2.1, hq.2.1])
  have hx' := addTo_vec (rs / prod2 p Ap) hx hp
  have hr' := subFrom_vec (rs / prod2 p Ap) hr hAp
  rw [loop, hA, Res.ok_bind, hs hp hAp, Res.ok_bind]
  simp only [Res.ok_bind]
  split
  · rfl
  rw [hm _ hp, Res.ok_bind, c32_inplace _ _ _ _ hx.1 (by simp), hadd _ hx hp, Res.ok_bind, hm _ hAp, Res.ok_bind,
    c32_inplace _ _ _ _ hr.1 (by simp), hsub _ hr hAp, Res.ok_bind, hs hr' hr', Res.ok_bind]
  split
  · rfl
  rw [hm _ hp, Res.ok_bind, hadd _ hr' hp, Res.ok_bind]

/-! ### The end of the program -/

theorem loop_ends {n : Nat} (c15 : Fl) {A : Tensor Fl → Res (Tensor Fl)} (hA : IsMap n A) (tol : Fl) :
    ∀ (k : Nat) (x r p : Tensor Fl) (rs : Fl) (used : Nat) (hist : List (Tensor Fl × Tensor Fl)), Vec n x → Vec n r →
      Vec n p → loop c15 A tol k x r p rs used hist = .abort ∨
        ∃ out, loop c15 A tol k x r p rs used hist = .ok out ∧ Vec n out.x ∧ out.used ≤ used + k := by
  intro k
  induction k with
  | zero => exact fun x r p rs used hist hx _ _ => Or.inr ⟨_, rfl, hx, le_refl _⟩
  | succ k ih =>
    intro x r p rs used hist hx hr hp
    obtain ⟨Ap, h1, h2, h3, h4⟩ := hA p hp.1 hp.2.1 hp.2.2
    rw [loop_succ c15 tol k rs used hist hx hr hp h1 ⟨h2, h3, h4⟩]
    have hx' := addTo_vec (rs / prod2 p Ap) hx hp
    have hr' := subFrom_vec (rs / prod2 p Ap) hr ⟨h2, h3, h4⟩
    split
    · exact Or.inl rfl
    · simp only
      split
      · exact Or.inr ⟨_, rfl, hx', by show used + 1 ≤ _; omega⟩
      · rcases ih _ _ _ (prod2 (subFrom r (rs / prod2 p Ap) Ap) (subFrom r (rs / prod2 p Ap) Ap)) (used + 1)
          ((addTo x (rs / prod2 p Ap) p, subFrom r (rs / prod2 p Ap) Ap) :: hist) hx' hr' (addTo_vec _ hr' hp) with h | ⟨out, h, h5, h6⟩
        · exact Or.inl h
        · exact Or.inr ⟨out, h, h5, by omega⟩

/-- The start of `solve`. -/
theorem solve_eq {n : Nat} (c15 deftol : Fl) {A : Tensor Fl → Res (Tensor Fl)} {b x : Tensor Fl} (hb : Vec n b) (hbd : b.dims = [n])
    (start : Tensor Fl) (maxiter : Int) (tol : Fl) {Ax : Tensor Fl} (h1 : A x = .ok Ax) (hAx : Vec n Ax) :
    let r : Tensor Fl := ⟨b.dims, List.zipWith (fun u v : Fl => u - v) b.data Ax.data⟩
    let τ := if tol ≤ 0 then deftol else tol
    Vec n r ∧ solve c15 deftol A b (some x) start maxiter tol =
      if τ < Fl.sqrt (Fl.abs (prod2 r r)) then
        loop c15 A τ ((if maxiter = 0 then (n : Int) else maxiter) + 1).toNat x r r (prod2 r r) 1 [(x, r)]
      else .ok ⟨x, r, 1, false, [(x, r)]⟩ := by
  intro r τ
  have hl : r.data.length = n := by simp [r, hb.2.1, hAx.2.1]
  have hr : Vec n r := by
    refine ⟨?_, hl, fun y hy => ?_⟩
    · rw [Tensor.WF, hl, ← hb.2.1]
      exact hb.1
    · obtain ⟨i, hi⟩ := List.mem_iff_getElem?.1 hy
      simp only [r, List.getElem?_zipWith] at hi
      cases h6 : b.data[i]? with
      | none => rw [h6] at hi; simp at hi
      | some u =>
        cases h7 : Ax.data[i]? with
        | none => rw [h6, h7] at hi; simp at hi
        | some v =>
          rw [h6, h7] at hi
          simp at hi
          rw [← hi]
          exact add_wf (hb.2.2 u (List.mem_of_getElem? h6)) (neg_wf (hAx.2.2 v (List.mem_of_getElem? h7)))
  refine ⟨hr, ?_⟩
  have hlim : limit b maxiter = .ok (if maxiter = 0 then (n : Int) else maxiter) := by
    rw [limit]
    split
    · simp [Tensor.dimension, Tensor.rank, hbd, Res.assert_bind]
    · rfl
  have e1 : binopTT (· - ·) b Ax = .ok r := binopTT_ok _ _ _ hb.1 (by rw [hb.2.1, hAx.2.1])
  have e2 : scprod id r r = .ok (prod2 r r) := scprod_fold id r r (le_refl _)
  rw [solve, hlim]
  simp only [Res.ok_bind, Option.getD_some]
  rw [h1, Res.ok_bind, e1, Res.ok_bind, e2, Res.ok_bind]

/-- C133: with a map from vectors of `n` doubles to such vectors, `cgs` either stops the program, which it does if the matrix is
singular or not positive, or ends with a vector of `n` numbers after at most `maxiter` + 2 uses of the map, whatever the
numbers, NaN and infinities included. -/
theorem c133_ends (c15 deftol tol : Fl) (A : Tensor Fl → Res (Tensor Fl)) (n : Nat) (hA : IsMap n A) (b x : Tensor Fl)
    (hb : b.dims = [n]) (hbn : b.data.length = n) (hbw : ∀ y ∈ b.data, y.WF) (hx : x.WF) (hxn : x.data.length = n)
    (hxw : ∀ y ∈ x.data, y.WF) (start : Tensor Fl) (maxiter : Nat) :
    solve c15 deftol A b (some x) start maxiter tol = .abort ∨
      ∃ out, solve c15 deftol A b (some x) start maxiter tol = .ok out ∧ out.x.data.length = n ∧
        out.used ≤ (if maxiter = 0 then n else maxiter) + 2 := by
  obtain ⟨Ax, h1, h2, h3, h4⟩ := hA x hx hxn hxw
  have hbv : Vec n b := ⟨by rw [Tensor.WF, hb, hbn]; simp [totalSize], hbn, hbw⟩
  obtain ⟨hr, hs⟩ := solve_eq c15 deftol hbv hb start maxiter tol h1 ⟨h2, h3, h4⟩
  rw [hs]
  have hk : ((if (maxiter : Int) = 0 then (n : Int) else maxiter) + 1).toNat = (if maxiter = 0 then n else maxiter) + 1 := by
    split <;> split <;> omega
  rw [hk]
  generalize (if tol ≤ 0 then deftol else tol) = τ
  split
  · rcases loop_ends c15 hA _ _ x _ _ _ 1 _ ⟨hx, hxn, hxw⟩ hr hr with h | ⟨out, h, h5, h6⟩
    · exact Or.inl h
    · exact Or.inr ⟨out, h, h5.2.1, by omega⟩
  · exact Or.inr ⟨_, rfl, hxn, by show 1 ≤ _; omega⟩

/-! ### The residual which is updated and the true one -/

omit [Rounding] in
theorem e51 : (2 : ℝ) ^ (-51 : ℤ) = 4 * eps := by
  rw [eps, show (4 : ℝ) = 2 ^ (2 : ℤ) by norm_num, ← zpow_add₀ (by norm_num)]
  norm_num

omit [Rounding] in
theorem e1074 : (2 : ℝ) ^ (-1074 : ℤ) = 2 * tinyErr := by
  rw [tinyErr, show (2 : ℝ) * 2 ^ (-1075 : ℤ) = 2 ^ (1 : ℤ) * 2 ^ (-1075 : ℤ) by norm_num, ← zpow_add₀ (by norm_num)]
  norm_num

omit [Rounding] in
/-- One iteration, in real numbers. -/
theorem step_gap {n : ℕ} {M : Fin n → ℝ} {x x' p : Fin n → ℝ} {b r r' w a m γ X R E F : ℝ} (hm : ∑ j, |M j| ≤ m) (hγ : 0 ≤ γ)
    (hE : 0 ≤ E) (hF : 0 ≤ F)
    (hx : ∀ j, |x' j - (x j + a * p j)| ≤ E) (hp : ∀ j, |a * p j| ≤ F)
    (hr : |r' - (r - a * w)| ≤ R) (hw : |w - ∑ j, M j * p j| ≤ γ * ∑ j, |M j| * |p j|)
    (h : |b - ∑ j, M j * x j - r| ≤ X) :
    |b - ∑ j, M j * x' j - r'| ≤ X + (m * (E + γ * F) + R) := by
  have h1 : |∑ j, M j * (x' j - (x j + a * p j))| ≤ m * E := by
    refine (Finset.abs_sum_le_sum_abs _ _).trans ?_
    calc ∑ j, |M j * (x' j - (x j + a * p j))| ≤ ∑ j, |M j| * E := by
          refine Finset.sum_le_sum fun j _ => ?_
          rw [abs_mul]
          exact mul_le_mul_of_nonneg_left (hx j) (abs_nonneg _)
      _ = (∑ j, |M j|) * E := (Finset.sum_mul _ _ _).symm
      _ ≤ m * E := mul_le_mul_of_nonneg_right hm hE
  have h2 : |a * (w - ∑ j, M j * p j)| ≤ γ * (m * F) := by
    rw [abs_mul]
    refine (mul_le_mul_of_nonneg_left hw (abs_nonneg _)).trans ?_
    rw [mul_left_comm, Finset.mul_sum]
    refine mul_le_mul_of_nonneg_left ?_ hγ
    calc ∑ j, |a| * (|M j| * |p j|) ≤ ∑ j, |M j| * F := by
          refine Finset.sum_le_sum fun j _ => ?_
          rw [mul_left_comm, ← abs_mul a]
          exact mul_le_mul_of_nonneg_left (hp j) (abs_nonneg _)
      _ = (∑ j, |M j|) * F := (Finset.sum_mul _ _ _).symm
      _ ≤ m * F := mul_le_mul_of_nonneg_right hm hF
  have e : b - ∑ j, M j * x' j - r' = (b - ∑ j, M j * x j - r) - ∑ j, M j * (x' j - (x j + a * p j)) +
      a * (w - ∑ j, M j * p j) - (r' - (r - a * w)) := by
    have : ∑ j, M j * (x' j - (x j + a * p j)) = ∑ j, M j * x' j - ∑ j, M j * x j - a * ∑ j, M j * p j := by
      rw [Finset.mul_sum, ← Finset.sum_sub_distrib, ← Finset.sum_sub_distrib]
      exact Finset.sum_congr rfl fun j _ => by ring
    rw [this]
    ring
  rw [e]
  have h3 := abs_sub (b - ∑ j, M j * x j - r - ∑ j, M j * (x' j - (x j + a * p j)) + a * (w - ∑ j, M j * p j))
    (r' - (r - a * w))
  have h4 := abs_add_le (b - ∑ j, M j * x j - r - ∑ j, M j * (x' j - (x j + a * p j))) (a * (w - ∑ j, M j * p j))
  have h5 := abs_sub (b - ∑ j, M j * x j - r) (∑ j, M j * (x' j - (x j + a * p j)))
  linarith [show m * (E + γ * F) = m * E + γ * (m * F) by ring]

theorem loop_hist {n : Nat} (c15 : Fl) {A : Tensor Fl → Res (Tensor Fl)} (hA : IsMap n A) (tol : Fl) :
    ∀ (k : Nat) (x r p : Tensor Fl) (rs : Fl) (used : Nat) (hist : List (Tensor Fl × Tensor Fl)) (out : Out), Vec n x →
      Vec n r → Vec n p → loop c15 A tol k x r p rs used hist = .ok out → ∀ q ∈ hist, q ∈ out.hist := by
  intro k
  induction k with
  | zero =>
    intro x r p rs used hist out _ _ _ h q hq
    cases h
    exact hq
  | succ k ih =>
    intro x r p rs used hist out hx hr hp h q hq
    obtain ⟨Ap, h1, h2, h3, h4⟩ := hA p hp.1 hp.2.1 hp.2.2
    rw [loop_succ c15 tol k rs used hist hx hr hp h1 ⟨h2, h3, h4⟩] at h
    have hx' := addTo_vec (rs / prod2 p Ap) hx hp
    have hr' := subFrom_vec (rs / prod2 p Ap) hr ⟨h2, h3, h4⟩
    split at h
    · cases h
    · simp only at h
      split at h
      · cases h
        exact List.mem_cons_of_mem _ hq
      · exact ih _ _ _ _ _ _ out hx' hr' (addTo_vec _ hr' hp) h q (List.mem_cons_of_mem _ hq)

theorem loop_gap {n : Nat} (c15 : Fl) {A : Tensor Fl → Res (Tensor Fl)} (hA : IsMap n A) (tol : Fl)
    {M : Fin n → Fin n → ℝ} {γ m X R : ℝ} (hM : Multiplies A M γ) (hγ : 0 ≤ γ) (hm : ∀ i, ∑ j, |M i j| ≤ m) (b : Tensor Fl) :
    ∀ (k : Nat) (x r p : Tensor Fl) (rs : Fl) (used : Nat) (hist : List (Tensor Fl × Tensor Fl)) (out : Out), Vec n x →
      Vec n r → Vec n p → (x, r) ∈ hist → loop c15 A tol k x r p rs used hist = .ok out →
      (∀ q ∈ out.hist, Bounded q.1 X ∧ Bounded q.2 R) →
      (∀ i : Fin n, |elt b i - ∑ j, M i j * elt x j - elt r i| ≤ used * drift m γ X R) →
      Vec n out.x ∧ Vec n out.r ∧ (∀ i : Fin n, |elt b i - ∑ j, M i j * elt out.x j - elt out.r i| ≤ out.used * drift m γ X R) ∧
        (out.conv = true → Fl.sqrt (Fl.abs (prod2 out.r out.r)) < tol) := by
  intro k
  induction k with
  | zero =>
    intro x r p rs used hist out hx hr _ _ h hB hg
    cases h
    exact ⟨hx, hr, hg, by simp⟩
  | succ k ih =>
    intro x r p rs used hist out hx hr hp hmem h hB hg
    obtain ⟨Ap, h1, h2, h3, h4⟩ := hA p hp.1 hp.2.1 hp.2.2
    rw [loop_succ c15 tol k rs used hist hx hr hp h1 ⟨h2, h3, h4⟩] at h
    have hx' := addTo_vec (rs / prod2 p Ap) hx hp
    have hr' := subFrom_vec (rs / prod2 p Ap) hr ⟨h2, h3, h4⟩
    have hist' : ∀ q ∈ (addTo x (rs / prod2 p Ap) p, subFrom r (rs / prod2 p Ap) Ap) :: hist, q ∈ out.hist := by
      split at h
      · cases h
      · simp only at h
        split at h
        · cases h
          exact fun q hq => hq
        · exact loop_hist c15 hA tol _ _ _ _ _ _ _ _ hx' hr' (addTo_vec _ hr' hp) h
    have B1 := hB _ (hist' _ (List.mem_cons_self ..))
    have B0 := hB _ (hist' _ (List.mem_cons_of_mem _ hmem))
    have hstep : ∀ i : Fin n, |elt b i - ∑ j, M i j * elt (addTo x (rs / prod2 p Ap) p) j -
        elt (subFrom r (rs / prod2 p Ap) Ap) i| ≤ (used + 1 : ℕ) * drift m γ X R := by
      generalize hal : rs / prod2 p Ap = a at *
      have wa : a.WF := hal ▸ div_wf _ _
      have hjx : ∀ j : Fin n, (j : ℕ) < x.data.length := fun j => by rw [hx.2.1]; exact j.2
      have hjp : ∀ j : Fin n, (j : ℕ) < p.data.length := fun j => by rw [hp.2.1]; exact j.2
      have hjr : ∀ j : Fin n, (j : ℕ) < r.data.length := fun j => by rw [hr.2.1]; exact j.2
      have hjA : ∀ j : Fin n, (j : ℕ) < Ap.data.length := fun j => by rw [h3]; exact j.2
      have hjx' : ∀ j : Fin n, (j : ℕ) < (addTo x a p).data.length := fun j => by rw [hx'.2.1]; exact j.2
      have hjr' : ∀ j : Fin n, (j : ℕ) < (subFrom r a Ap).data.length := fun j => by rw [hr'.2.1]; exact j.2
      have ex : ∀ j : Fin n, (addTo x a p).data[(j : ℕ)]'(hjx' j) = x.data[(j : ℕ)]'(hjx j) + a * p.data[(j : ℕ)]'(hjp j) := by
        intro j
        simp only [addTo, List.getElem_zipWith, List.getElem_map]
      have er : ∀ j : Fin n, (subFrom r a Ap).data[(j : ℕ)]'(hjr' j) =
          r.data[(j : ℕ)]'(hjr j) - a * Ap.data[(j : ℕ)]'(hjA j) := by
        intro j
        simp only [subFrom, List.getElem_zipWith, List.getElem_map]
      have ux : ∀ j : Fin n, a.Finite ∧ (p.data[(j : ℕ)]'(hjp j)).Finite ∧
          |elt (addTo x a p) j - (elt x j + a.val * elt p j)| ≤ 4 * eps * X + 2 * tinyErr ∧
          |a.val * elt p j| ≤ 3 * X + 2 * tinyErr := by
        intro j
        have b0 := B0.1 _ (List.getElem_mem (hjx j))
        have b1 := B1.1 _ (List.getElem_mem (hjx' j))
        rw [elt_eq (hjx' j), elt_eq (hjx j), elt_eq (hjp j), ex]
        rw [ex] at b1
        exact update_add b0.1 b0.2 wa (hp.2.2 _ (List.getElem_mem (hjp j))) b1.1 b1.2
      have ur : ∀ j : Fin n, (Ap.data[(j : ℕ)]'(hjA j)).Finite ∧
          |elt (subFrom r a Ap) j - (elt r j - a.val * elt Ap j)| ≤ 4 * eps * R + 2 * tinyErr := by
        intro j
        have b0 := B0.2 _ (List.getElem_mem (hjr j))
        have b1 := B1.2 _ (List.getElem_mem (hjr' j))
        rw [elt_eq (hjr' j), elt_eq (hjr j), elt_eq (hjA j), er]
        rw [er] at b1
        exact update_sub b0.1 b0.2 wa (h4 _ (List.getElem_mem (hjA j))) b1.1 b1.2
      have fp : AllFinite p := fun y hy => by
        obtain ⟨i, hi, rfl⟩ := List.mem_iff_getElem.1 hy
        exact (ux ⟨i, by rw [← hp.2.1]; exact hi⟩).2.1
      have fA : AllFinite Ap := fun y hy => by
        obtain ⟨i, hi, rfl⟩ := List.mem_iff_getElem.1 hy
        exact (ur ⟨i, by rw [← h3]; exact hi⟩).1
      have hte := tinyErr_pos
      have hep := eps_pos
      intro i
      have hX : 0 ≤ X := (abs_nonneg _).trans (B0.1 _ (List.getElem_mem (hjx i))).2
      have := step_gap (hm i) hγ (by positivity) (by positivity) (fun j => (ux j).2.2.1) (fun j => (ux j).2.2.2) (ur i).2
        (hM p Ap h1 fp fA i) (hg i)
      refine this.trans (le_of_eq ?_)
      rw [drift, e51, e1074]
      push_cast
      ring
    split at h
    · cases h
    · simp only at h
      split at h
      · rename_i hlt
        cases h
        exact ⟨hx', hr', hstep, fun _ => hlt⟩
      · exact ih _ _ _ _ _ _ out hx' hr' (addTo_vec _ hr' hp) (List.mem_cons_self ..) h hB hstep

/-- C133: the vector `r` of the program, on which its test is made, and the true residual `b - A x` of the result differ by at
most `used` times `drift`, if all numbers of the vectors x, r of all iterations are finite, those of x at most X and those of
r at most R. If the test ended the loop, this bounds the true residual.

Missing: convergence in exact arithmetic within n iterations (C57) does not hold in doubles, and is not claimed; a bound
in terms of the matrix only does not exist (`c133_negation_start`). -/
theorem c133_residual_partial (c15 deftol tol τ : Fl) (A : Tensor Fl → Res (Tensor Fl)) (n : Nat) (hA : IsMap n A)
    (M : Fin n → Fin n → ℝ) (γ m X R : ℝ) (hM : Multiplies A M γ) (hγ : 0 ≤ γ) (hm : ∀ i, ∑ j, |M i j| ≤ m)
    (b x : Tensor Fl) (hb : b.dims = [n]) (hbn : b.data.length = n) (hbw : ∀ y ∈ b.data, y.WF) (hx : x.WF)
    (hxn : x.data.length = n) (hxw : ∀ y ∈ x.data, y.WF) (start : Tensor Fl) (maxiter : Int)
    (hτ : τ = if tol ≤ 0 then deftol else tol) (ht : τ.Finite) (out : Out)
    (h : solve c15 deftol A b (some x) start maxiter tol = .ok out)
    (hB : ∀ q ∈ out.hist, Bounded q.1 X ∧ Bounded q.2 R) :
    (∀ i : Fin n, |elt b i - ∑ j, M i j * elt out.x j - elt out.r i| ≤ out.used * drift m γ X R) ∧
      (out.conv = true → ∀ i : Fin n, |elt b i - ∑ j, M i j * elt out.x j| ≤
        (1 + 2 ^ (-50 : ℤ)) * τ.val + 2 ^ (-535 : ℤ) + out.used * drift m γ X R) := by
  obtain ⟨Ax, h1, h2, h3, h4⟩ := hA x hx hxn hxw
  have hbv : Vec n b := ⟨by rw [Tensor.WF, hb, hbn]; simp [totalSize], hbn, hbw⟩
  obtain ⟨hr, hs⟩ := solve_eq c15 deftol hbv hb start maxiter tol h1 ⟨h2, h3, h4⟩
  rw [hs, ← hτ] at h
  generalize hrd : (⟨b.dims, List.zipWith (fun u v : Fl => u - v) b.data Ax.data⟩ : Tensor Fl) = r at *
  have hx0 : Vec n x := ⟨hx, hxn, hxw⟩
  have hmem : (x, r) ∈ out.hist := by
    split at h
    · exact loop_hist c15 hA τ _ _ _ _ _ _ _ _ hx0 hr hr h _ (List.mem_singleton.2 rfl)
    · cases h
      exact List.mem_singleton.2 rfl
  have B0 := hB _ hmem
  have hjb : ∀ j : Fin n, (j : ℕ) < b.data.length := fun j => by rw [hbn]; exact j.2
  have hjx : ∀ j : Fin n, (j : ℕ) < x.data.length := fun j => by rw [hxn]; exact j.2
  have hjA : ∀ j : Fin n, (j : ℕ) < Ax.data.length := fun j => by rw [h3]; exact j.2
  have hjr : ∀ j : Fin n, (j : ℕ) < r.data.length := fun j => by rw [hr.2.1]; exact j.2
  have er : ∀ j : Fin n, r.data[(j : ℕ)]'(hjr j) = b.data[(j : ℕ)]'(hjb j) - Ax.data[(j : ℕ)]'(hjA j) := by
    intro j
    subst hrd
    simp only [List.getElem_zipWith]
  have u : ∀ j : Fin n, (Ax.data[(j : ℕ)]'(hjA j)).Finite ∧ |elt r j - (elt b j - elt Ax j)| ≤ 2 * eps * R := by
    intro j
    have b0 := B0.2 _ (List.getElem_mem (hjr j))
    rw [elt_eq (hjr j), elt_eq (hjb j), elt_eq (hjA j), er]
    rw [er] at b0
    exact (sub_real (hbw _ (List.getElem_mem (hjb j))) (h4 _ (List.getElem_mem (hjA j))) b0.1 b0.2).2
  have fx : AllFinite x := fun y hy => (B0.1 y hy).1
  have fA : AllFinite Ax := fun y hy => by
    obtain ⟨i, hi, rfl⟩ := List.mem_iff_getElem.1 hy
    exact (u ⟨i, by rw [← h3]; exact hi⟩).1
  have hte := tinyErr_pos
  have hep := eps_pos
  have hg : ∀ i : Fin n, |elt b i - ∑ j, M i j * elt x j - elt r i| ≤ (1 : ℕ) * drift m γ X R := by
    intro i
    have hX : 0 ≤ X := (abs_nonneg _).trans (B0.1 _ (List.getElem_mem (hjx i))).2
    have hR : 0 ≤ R := (abs_nonneg _).trans (B0.2 _ (List.getElem_mem (hjr i))).2
    have hm0 : 0 ≤ m := (Finset.sum_nonneg fun j _ => abs_nonneg _).trans (hm i)
    have k1 := hM x Ax h1 fx fA i
    have k2 : ∑ j, |M i j| * |elt x j| ≤ m * X := by
      calc ∑ j, |M i j| * |elt x j| ≤ ∑ j, |M i j| * X := by
            refine Finset.sum_le_sum fun j _ => mul_le_mul_of_nonneg_left ?_ (abs_nonneg _)
            rw [elt_eq (hjx j)]
            exact (B0.1 _ (List.getElem_mem (hjx j))).2
        _ = (∑ j, |M i j|) * X := (Finset.sum_mul _ _ _).symm
        _ ≤ m * X := mul_le_mul_of_nonneg_right (hm i) hX
    have k3 := mul_le_mul_of_nonneg_left k2 hγ
    have k4 := (u i).2
    have k5 : elt b i - ∑ j, M i j * elt x j - elt r i =
        (elt Ax i - ∑ j, M i j * elt x j) - (elt r i - (elt b i - elt Ax i)) := by ring
    have k6 := abs_sub (elt Ax i - ∑ j, M i j * elt x j) (elt r i - (elt b i - elt Ax i))
    rw [k5, drift, e51, e1074, Nat.cast_one, one_mul]
    have p1 : 0 ≤ m * (eps * X) := by positivity
    have p2 : 0 ≤ γ * (m * X) := by positivity
    have p3 : 0 ≤ m * ((1 + γ) * tinyErr) := by positivity
    have p4 : 0 ≤ eps * R := by positivity
    linarith [show m * ((4 * eps + 3 * γ) * X + (1 + γ) * (2 * tinyErr)) + 4 * eps * R + 2 * tinyErr =
      4 * (m * (eps * X)) + 3 * (γ * (m * X)) + 2 * (m * ((1 + γ) * tinyErr)) + 4 * (eps * R) + 2 * tinyErr by ring]
  have key : Vec n out.r ∧ (∀ i : Fin n, |elt b i - ∑ j, M i j * elt out.x j - elt out.r i| ≤ out.used * drift m γ X R) ∧
      (out.conv = true → Fl.sqrt (Fl.abs (prod2 out.r out.r)) < τ) := by
    split at h
    · exact (loop_gap c15 hA τ hM hγ hm b _ x r r _ 1 _ out hx0 hr hr (List.mem_singleton.2 rfl) h hB hg).2
    · cases h
      exact ⟨hr, hg, by simp⟩
  obtain ⟨v1, v2, v3⟩ := key
  refine ⟨v2, fun hc i => ?_⟩
  have k1 := v2 i
  have hi : (i : ℕ) < out.r.data.length := by rw [v1.2.1]; exact i.2
  have k2 := (norm_lt v1.2.2 ht (v3 hc) _ (List.getElem_mem hi)).2
  rw [← elt_eq hi] at k2
  have k3 := abs_add_le (elt b i - ∑ j, M i j * elt out.x j - elt out.r i) (elt out.r i)
  rw [sub_add_cancel] at k3
  linarith

/-- C133: the result may be wrong although the test has ended the loop. For the equation x = 1 and the start -3 2^59, the program
returns 0 after one iteration, for all tolerances up to 1. -/
theorem c133_negation_start (c15 deftol tol : Fl) (start : Tensor Fl) (maxiter : Nat) (hc : c15.Finite) (hc0 : 0 ≤ c15.val)
    (hc1 : c15.val ≤ 1) (ht : tol.Finite) (ht0 : 0 < tol.val) (ht1 : tol.val ≤ 1) :
    ∃ out, solve c15 deftol pure ⟨[1], [fin 1]⟩ (some ⟨[1], [fin (-(3 * 2 ^ 59))]⟩) start maxiter tol = .ok out ∧
      out.x = ⟨[1], [fin 0]⟩ ∧ out.conv = true ∧ out.used = 2 := by
  have dc : IsDouble ((3 : ℝ) * 2 ^ 59) := ⟨3, 59, by norm_num, by norm_num, by norm_num, by norm_num⟩
  have dq : IsDouble ((3 : ℝ) * 2 ^ 59 * (3 * 2 ^ 59)) := ⟨9, 118, by norm_num, by norm_num, by norm_num, by norm_num⟩
  have d1 : IsDouble (1 : ℝ) := ⟨1, 0, by norm_num, by norm_num, by norm_num, by norm_num⟩
  have c0 : (0 : ℝ) < 3 * 2 ^ 59 := by positivity
  have hr : rnd (1 + 3 * 2 ^ 59) = 3 * 2 ^ 59 := by
    rw [rnd_eq_of (m := 3 * 2 ^ 51) (e := 8) (by norm_num) (by norm_num) (by norm_num) (by norm_num) (by norm_num)]
    norm_num
  have c1 : (1 : ℝ) < 3 * 2 ^ 59 := by norm_num
  generalize (3 : ℝ) * 2 ^ 59 = c at *
  have q0 : 0 < c * c := by positivity
  have p0 : fin 1 - fin (-c) = fin c := by
    show add (fin 1) (negate (fin (-c))) = _
    rw [negate, if_neg (by linarith), neg_neg]
    exact add_fin dc hr c0.ne'
  have p1 : fin c * fin c = fin (c * c) := mul_fin dq (rnd_exact (.inl dq)) q0.ne'
  have p2 : (0 : Fl) + fin (c * c) = fin (c * c) := zero_add_fin dq q0.ne'
  have p3 : fin (c * c) / fin (c * c) = fin 1 := by
    have hl := abs_lt.1 d1.lt
    show div _ _ = _
    rw [div, if_neg (by simp), if_neg (by simp [isInf]), if_neg (by simp [isInf]),
      if_neg (show ¬ (fin (c * c)).val = 0 from q0.ne'), if_neg (show ¬ (fin (c * c)).val = 0 from q0.ne')]
    show Fl.round (c * c / (c * c)) = _
    rw [div_self q0.ne', Fl.round, rnd_exact (.inl d1), if_neg (not_le.2 hl.2), if_neg (not_le.2 hl.1), if_neg one_ne_zero]
  have p4 : fin 1 * fin c = fin c := mul_fin dc (by rw [one_mul]; exact rnd_exact (.inl dc)) c0.ne'
  have p5 : fin (-c) + fin c = fin 0 := by
    have := add_fin_zero (-c)
    rwa [neg_neg] at this
  have p6 : fin c - fin c = fin 0 := by
    show add (fin c) (negate (fin c)) = _
    rw [negate, if_neg c0.ne']
    exact add_fin_zero c
  have v1 : Vec 1 (⟨[1], [fin 1]⟩ : Tensor Fl) := ⟨rfl, rfl, by simpa [Fl.WF] using d1⟩
  have v2 : Vec 1 (⟨[1], [fin (-c)]⟩ : Tensor Fl) := ⟨rfl, rfl, by simpa [Fl.WF] using dc.neg⟩
  have v3 : Vec 1 (⟨[1], [fin c]⟩ : Tensor Fl) := ⟨rfl, rfl, by simpa [Fl.WF] using dc⟩
  have htol : ¬ tol ≤ 0 := by
    rw [le_finite ht finite_zero]
    exact not_le.2 ht0
  obtain ⟨-, hs⟩ := solve_eq c15 deftol (A := pure) v1 rfl start maxiter tol (x := ⟨[1], [fin (-c)]⟩) rfl v2
  have er : (⟨[1], List.zipWith (fun u v : Fl => u - v) [fin 1] [fin (-c)]⟩ : Tensor Fl) = ⟨[1], [fin c]⟩ := by
    show (⟨[1], [fin 1 - fin (-c)]⟩ : Tensor Fl) = _
    rw [p0]
  have epr : prod2 (⟨[1], [fin c]⟩ : Tensor Fl) ⟨[1], [fin c]⟩ = fin (c * c) := by
    show (0 : Fl) + fin c * fin c = _
    rw [p1, p2]
  rw [er, epr, if_neg htol] at hs
  have e1 : Fl.abs (fin (c * c)) = fin (c * c) := by
    show fin |c * c| = _
    rw [abs_of_pos q0]
  have e2 : Fl.sqrt (fin (c * c)) = fin c := by
    have hl := abs_lt.1 dc.lt
    rw [Fl.sqrt, if_neg (by linarith), if_neg q0.ne', Real.sqrt_mul_self c0.le, Fl.round, rnd_exact (.inl dc),
      if_neg (not_le.2 hl.2), if_neg (not_le.2 hl.1), if_neg c0.ne']
  have fc : (fin c).Finite := dc
  have hlt : tol < fin c := by
    rw [lt_finite ht fc]
    exact lt_of_le_of_lt ht1 c1
  have hk : ((if (maxiter : Int) = 0 then ((1 : ℕ) : Int) else maxiter) + 1).toNat = (if maxiter = 0 then 1 else maxiter) + 1 := by
    split <;> split <;> omega
  rw [e1, e2, if_pos hlt, hk, loop_succ (n := 1) c15 tol _ _ _ _ v2 v3 v3 (A := pure) rfl v3, epr, p3] at hs
  have fq : (fin (c * c)).Finite := dq
  have hge : ¬ Fl.abs (fin (c * c)) < c15 * Fl.abs (fin (c * c)) := by
    rw [e1]
    have h1 : c15.val * (c * c) ≤ c * c := mul_le_of_le_one_left q0.le hc1
    have h2 : rnd (c15.val * (c * c)) ≤ c * c := rnd_le (.inl dq) h1
    have h3 : 0 ≤ rnd (c15.val * (c * c)) := rnd_nonneg (by positivity)
    obtain ⟨f, e⟩ := mul_finite hc fq (by
      show |rnd (c15.val * (c * c))| < _
      rw [abs_of_nonneg h3]
      exact lt_of_le_of_lt (h2.trans (le_abs_self _)) dq.lt)
    rw [lt_finite fq f, e]
    exact not_lt.2 h2
  have ex : addTo (⟨[1], [fin (-c)]⟩ : Tensor Fl) (fin 1) ⟨[1], [fin c]⟩ = ⟨[1], [fin 0]⟩ := by
    show (⟨[1], [fin (-c) + fin 1 * fin c]⟩ : Tensor Fl) = _
    rw [p4, p5]
  have er' : subFrom (⟨[1], [fin c]⟩ : Tensor Fl) (fin 1) ⟨[1], [fin c]⟩ = ⟨[1], [fin 0]⟩ := by
    show (⟨[1], [fin c - fin 1 * fin c]⟩ : Tensor Fl) = _
    rw [p4, p6]
  have ez : prod2 (⟨[1], [fin 0]⟩ : Tensor Fl) ⟨[1], [fin 0]⟩ = fin 0 := by
    show (0 : Fl) + fin 0 * fin 0 = _
    have : fin 0 * fin 0 = fin 0 := by
      show mul (fin 0) (fin 0) = _
      simp [mul, isInf, val, zeroS]
    rw [this]
    show add (fin 0) (fin 0) = _
    simp [add, val]
  have e0 : Fl.sqrt (Fl.abs (fin 0)) < tol := by
    have : Fl.sqrt (Fl.abs (fin 0)) = 0 := by
      show Fl.sqrt (fin |0|) = fin 0
      rw [abs_zero, Fl.sqrt, if_neg (lt_irrefl _), if_pos rfl]
    rw [this, lt_finite finite_zero ht]
    exact ht0
  rw [if_neg hge] at hs
  simp only [ex, er', ez, if_pos e0] at hs
  exact ⟨_, hs, rfl, rfl, rfl⟩

/-! ### Examples -/

omit [Rounding] in
/-- The identity. -/
theorem pure_isMap (n : Nat) : IsMap n pure := fun v h1 h2 h3 => ⟨v, rfl, h1, h2, h3⟩

omit [Rounding] in
theorem pure_multiplies : Multiplies (n := 1) pure (fun _ _ => 1) 0 := by
  intro v w h _ _ i
  cases h
  rw [Finset.univ_unique, Finset.sum_singleton, one_mul, Subsingleton.elim i default, sub_self, abs_zero, zero_mul]

example (c15 deftol tol : Fl) (x : ℝ) (hx : IsDouble x) (start : Tensor Fl) (maxiter : Nat) :=
  c133_ends c15 deftol tol pure 1 (pure_isMap 1) ⟨[1], [nan]⟩ ⟨[1], [fin x]⟩ rfl rfl (by simp [Fl.WF]) rfl rfl
    (by simpa [Fl.WF] using hx) start maxiter

/-- The hypotheses of c133_residual_partial can be met: the start is the solution, and the tolerance positive. -/
example (c15 deftol tol : Fl) (start : Tensor Fl) (ht : tol.Finite) (ht0 : 0 < tol.val) :
    ∃ out, solve c15 deftol pure ⟨[1], [fin 1]⟩ (some ⟨[1], [fin 1]⟩) start 1 tol = .ok out ∧
      ∀ q ∈ out.hist, Bounded q.1 1 ∧ Bounded q.2 0 := by
  have d1 : IsDouble (1 : ℝ) := ⟨1, 0, by norm_num, by norm_num, by norm_num, by norm_num⟩
  have v1 : Vec 1 (⟨[1], [fin 1]⟩ : Tensor Fl) := ⟨rfl, rfl, by simpa [Fl.WF] using d1⟩
  obtain ⟨-, hs⟩ := solve_eq c15 deftol (A := pure) v1 rfl start 1 tol (x := ⟨[1], [fin 1]⟩) rfl v1
  have htol : ¬ tol ≤ 0 := by
    rw [le_finite ht finite_zero]
    exact not_le.2 ht0
  have p6 : fin 1 - fin 1 = fin 0 := by
    show add (fin 1) (negate (fin 1)) = _
    rw [negate, if_neg one_ne_zero]
    exact add_fin_zero 1
  have er : (⟨[1], List.zipWith (fun u v : Fl => u - v) [fin 1] [fin 1]⟩ : Tensor Fl) = ⟨[1], [fin 0]⟩ := by
    show (⟨[1], [fin 1 - fin 1]⟩ : Tensor Fl) = _
    rw [p6]
  have ez : prod2 (⟨[1], [fin 0]⟩ : Tensor Fl) ⟨[1], [fin 0]⟩ = fin 0 := by
    show (0 : Fl) + fin 0 * fin 0 = _
    have : fin 0 * fin 0 = fin 0 := by
      show mul (fin 0) (fin 0) = _
      simp [mul, isInf, val, zeroS]
    rw [this]
    show add (fin 0) (fin 0) = _
    simp [add, val]
  have e0 : Fl.sqrt (Fl.abs (fin 0)) = 0 := by
    show Fl.sqrt (fin |0|) = fin 0
    rw [abs_zero, Fl.sqrt, if_neg (lt_irrefl _), if_pos rfl]
  have hn : ¬ tol < (0 : Fl) := by
    rw [lt_finite ht finite_zero]
    exact not_lt.2 ht0.le
  rw [er, ez, e0, if_neg htol, if_neg hn] at hs
  refine ⟨_, hs, fun q hq => ?_⟩
  rw [List.mem_singleton.1 hq]
  refine ⟨fun y hy => ?_, fun y hy => ?_⟩
  · rw [List.mem_singleton.1 hy]
    exact ⟨d1, by simp [val]⟩
  · rw [List.mem_singleton.1 hy]
    exact ⟨isDouble_zero, by simp [val]⟩

end

end Verif.CgsFl
