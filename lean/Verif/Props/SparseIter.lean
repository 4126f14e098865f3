import Verif.Model.SparseIter
import Verif.Props.SparseMult
import Verif.Props.Power
import Verif.Props.CgsMatrix
/-
C81: iterative methods for sparse matrices.
-/
namespace Verif.SparseIter

open Verif Tensor Spec

theorem bind_congr {α β : Type} {x : Res α} {f g : α → Res β} (h : ∀ a, x = .ok a → f a = g a) :
    x >>= f = x >>= g := by
  cases x with
  | ok a => exact h a rfl
  | abort => rfl
  | ub => rfl

theorem bind_ok {α β : Type} {x : Res α} {f : α → Res β} {b : β} (h : x >>= f = .ok b) :
    ∃ a, x = .ok a ∧ f a = .ok b := by
  cases x with
  | ok a => exact ⟨a, rfl, h⟩
  | abort => cases h
  | ub => cases h

section
variable {α β γ : Type}

theorem binopTT_wf {f : α → β → γ} {a : Tensor α} {b : Tensor β} {c : Tensor γ} (wf : a.WF)
    (h : binopTT f a b = .ok c) : c.WF := by
  by_cases hl : a.data.length = b.data.length
  · rw [binopTT_ok f a b wf hl, Res.ok.injEq] at h
    rw [← h]
    show (List.zipWith f a.data b.data).length = totalSize a.dims
    rw [List.length_zipWith, ← hl, Nat.min_self]
    exact wf
  · rw [binopTT, Tensor.size, Tensor.size, Res.assert_bind, if_neg hl] at h
    cases h

theorem unop_wf {f : α → γ} {a : Tensor α} {c : Tensor γ} (wf : a.WF) (h : unop f a = .ok c) : c.WF := by
  rw [unop_ok f a wf, Res.ok.injEq] at h
  rw [← h]
  show (a.data.map f).length = totalSize a.dims
  rw [List.length_map]
  exact wf

theorem inplaceTT_wf {f : α → α → α} {a b c : Tensor α} (wf : a.WF)
    (h : inplaceTT f a false b = .ok c) : c.WF := by
  rw [c32_inplace f a b false wf (fun h => by cases h)] at h
  exact binopTT_wf wf h

end

section
variable {α β : Type} [Zero α] [Add α] [Sub α] [Mul α] [Div α] [DecidableEq α] [Zero β] [LT β]
  [DecidableLT β]

omit [Zero β] in
theorem cgs_loop_congr (N : Cgs.Num α β) {A B : Tensor α → Res (Tensor α)}
    (hAB : ∀ t, t.WF → A t = B t) (tol : β) (k : Nat) :
    ∀ (x r p : Tensor α) (rsold : α) (used : Nat), x.WF → r.WF → p.WF →
      Cgs.loop N A tol k x r p rsold used = Cgs.loop N B tol k x r p rsold used := by
  induction k with
  | zero => intros; rfl
  | succ k ih =>
    intro x r p rsold used hx hr hp
    rw [Cgs.loop, Cgs.loop, hAB p hp]
    refine bind_congr fun Ap hAp => bind_congr fun beta _ => ?_
    split
    · rfl
    refine bind_congr fun alpha _ => bind_congr fun t1 ht1 => bind_congr fun x' hx' =>
      bind_congr fun t2 ht2 => bind_congr fun r' hr' => bind_congr fun rsnew _ => ?_
    split
    · rfl
    refine bind_congr fun gamma _ => bind_congr fun t3 ht3 => bind_congr fun p' hp' => ?_
    exact ih x' r' p' rsnew (used + 1) (inplaceTT_wf hx hx') (inplaceTT_wf hr hr')
      (binopTT_wf (inplaceTT_wf hr hr') hp')

theorem cgs_congr [LE β] [DecidableLE β] (N : Cgs.Num α β) (deftol : β)
    {A B : Tensor α → Res (Tensor α)} (hAB : ∀ t, t.WF → A t = B t) (b : Tensor α) (hb : b.WF) (xstart : Option (Tensor α))
    (start : Tensor α) (hx : (xstart.getD start).WF) (maxiter : Int) (tol : β) :
    Cgs.solve N deftol A b xstart start maxiter tol = Cgs.solve N deftol B b xstart start maxiter tol := by
  rw [Cgs.solve, Cgs.solve]
  refine bind_congr fun m _ => ?_
  simp only
  rw [hAB _ hx]
  refine bind_congr fun Ax _ => bind_congr fun r hr => bind_congr fun rsold _ => ?_
  have hr' := binopTT_wf hb hr
  rw [cgs_loop_congr N hAB _ _ _ r r rsold 1 hx hr' hr']

variable [Mul β]

omit [Sub α] [Zero β] [LT β] [DecidableLT β] [Mul β] in
theorem unit_wf {N : Power.Num α β} {v w : Tensor α} (hv : v.WF) (h : Power.unit N v = .ok w) :
    w.WF := by
  rw [Power.unit] at h
  obtain ⟨s, _, h⟩ := bind_ok h
  split at h
  · cases h
  · rw [c32_inplace_number_partial _ v hv, binopTN] at h
    exact unop_wf hv h

theorem power_loop_congr (N : Power.Num α β) {A B : Tensor α → Res (Tensor α)}
    (hAB : ∀ t, t.WF → A t = B t) (hB : ∀ t u, t.WF → B t = .ok u → u.WF) (tol : β) (k : Nat) :
    ∀ (old : Option α) (v : Tensor α) (used : Nat), v.WF →
      Power.loop N A tol k old v used = Power.loop N B tol k old v used := by
  induction k with
  | zero => intro old v used _; cases old <;> rfl
  | succ k ih =>
    intro old v used hv
    rw [Power.loop, Power.loop, hAB v hv]
    refine bind_congr fun w hw => bind_congr fun eig _ => bind_congr fun t _ => bind_congr fun t' _ =>
      bind_congr fun v' hv' => ?_
    rw [ih (some eig) v' (used + 1) (unit_wf (hB v w hv hw) hv')]

theorem power_congr [LE β] [DecidableLE β] (N : Power.Num α β) (deftol : β)
    {A B : Tensor α → Res (Tensor α)} (hAB : ∀ t, t.WF → A t = B t)
    (hB : ∀ t u, t.WF → B t = .ok u → u.WF) (dims : Nat) (vector : Option (Tensor α))
    (hv : ∀ v, vector = some v → v.WF) (start : Tensor α) (hs : start.WF) (iter : Nat) (tol : β) :
    Power.power N deftol A dims vector start iter tol =
      Power.power N deftol B dims vector start iter tol := by
  cases vector with
  | none => rfl
  | some v =>
    rw [Power.power, Power.power]
    simp only [Res.ok_bind]
    refine bind_congr fun v' hv' => ?_
    have : v'.WF := by
      split at hv'
      · exact unit_wf hs hv'
      · exact unit_wf (hv v rfl) hv'
    exact power_loop_congr N hAB hB _ _ none v' 0 this

end

section
variable {α β : Type} [CommRing α]

/-- The product with a sparse matrix is the product with the matrix which `full` gives. -/
theorem map_eq {s : Sparse α} (hs : ValidCsr s.rows s.cols s.rowStart s.column s.data)
    (h0 : s.cols ≠ 0) {d : Tensor α} (hd : Sparse.full s = .ok d) (t : Tensor α) (wf : t.WF) :
    sparseMap s false t = Cgs.matrixMap d false t := by
  obtain ⟨f, hf⟩ := Sparse.exists_isCsr s hs
  obtain ⟨d', e1, m1⟩ := Sparse.c35_full s _ _ f hf
  rw [hd, Res.ok.injEq] at e1
  subst e1
  rw [sparseMap, if_neg (by simp), Cgs.matrixMap, if_neg (by simp)]
  match hdims : t.dims with
  | [] =>
    rw [Sparse.mmultST, Tensor.dimension, Tensor.rank, hdims, Tensor.mmult,
      Tensor.c19_fold_positions _ _ _ _ (Or.inr (by rw [hdims]; rfl))]
    rfl
  | x :: ds =>
    by_cases hx : x = s.cols
    · subst hx
      obtain ⟨u, d', h1, h2, h3⟩ := Sparse.c39_dense s hs t wf ds hdims h0
      rw [hd, Res.ok.injEq] at h2
      rw [h1, h2, h3]
    · rw [(Sparse.c39_sparse_tensor s t wf _ _ f hf x ds hdims).2 hx, Tensor.mmult]
      exact ((Tensor.c19_fold d t (IsMat.wf m1) wf (-1) 0 [s.rows] [] [] ds s.cols x
        m1.1 hdims (by rw [m1.1]; simp [Spec.norm]) (by rw [hdims]; simp [Spec.norm])).2 (Or.inl (Ne.symm hx))).symm

theorem map_wf {s : Sparse α} (hs : ValidCsr s.rows s.cols s.rowStart s.column s.data)
    (t u : Tensor α) (wf : t.WF) (h : sparseMap s false t = .ok u) : u.WF := by
  obtain ⟨f, hf⟩ := Sparse.exists_isCsr s hs
  rw [sparseMap, if_neg (by simp)] at h
  match hdims : t.dims with
  | [] =>
    rw [Sparse.mmultST, Tensor.dimension, Tensor.rank, hdims] at h
    cases h
  | x :: ds =>
    by_cases hx : x = s.cols
    · obtain ⟨u', h1, h2, _⟩ := (Sparse.c39_sparse_tensor s t wf _ _ f hf x ds hdims).1 hx
      rw [h1, Res.ok.injEq] at h
      rwa [← h]
    · rw [(Sparse.c39_sparse_tensor s t wf _ _ f hf x ds hdims).2 hx] at h
      cases h

variable [Div α] [DecidableEq α] [Zero β] [LinearOrder β]

/-- C81: cgs of a sparse matrix gives what cgs of the same dense matrix gives, for all right hand sides
and starting points, also if the program stops. -/
theorem c81_cgs (N : Cgs.Num α β) (deftol : β) {s : Sparse α}
    (hs : ValidCsr s.rows s.cols s.rowStart s.column s.data) (h0 : s.cols ≠ 0) {d : Tensor α}
    (hd : Sparse.full s = .ok d) (b : Tensor α) (hb : b.WF) (xstart : Option (Tensor α))
    (start : Tensor α) (hx : (xstart.getD start).WF) (maxiter : Int) (tol : β) :
    cgs N deftol s b xstart start maxiter tol =
      Cgs.solve N deftol (Cgs.matrixMap d false) b xstart start maxiter tol :=
  cgs_congr N deftol (fun t ht => map_eq hs h0 hd t ht) b hb xstart start hx maxiter tol

variable [Mul β]

/-- C81: eig_power_right of a sparse matrix gives what it gives for the same dense matrix. -/
theorem c81_power_right (N : Power.Num α β) (deftol : β) {s : Sparse α}
    (hs : ValidCsr s.rows s.cols s.rowStart s.column s.data) (h0 : s.cols ≠ 0) {d : Tensor α}
    (hd : Sparse.full s = .ok d) (vector : Option (Tensor α)) (hv : ∀ v, vector = some v → v.WF)
    (start : Tensor α) (hst : start.WF) (iter : Nat) (tol : β) :
    eigPower N deftol false s vector start iter tol =
      Power.eigPower N deftol false d vector start iter tol := by
  obtain ⟨f, hf⟩ := Sparse.exists_isCsr s hs
  obtain ⟨d', e1, m1⟩ := Sparse.c35_full s _ _ f hf
  rw [hd, Res.ok.injEq] at e1
  subst e1
  have hr : d.dimension 0 = .ok s.rows := by
    have := dimension_nat d 0 s.rows (by rw [m1.1]; rfl)
    rwa [Nat.cast_zero] at this
  have hc : d.dimension 1 = .ok s.cols := by
    have := dimension_nat d 1 s.cols (by rw [m1.1]; rfl)
    rwa [Nat.cast_one] at this
  rw [eigPower, Power.eigPower, hr, Res.ok_bind, hc, Res.ok_bind]
  refine bind_congr fun _ _ => ?_
  exact power_congr N deftol (fun t ht => map_eq hs h0 hd t ht)
    (fun t u ht h => map_wf hs t u ht ((map_eq hs h0 hd t ht).trans h)) _ vector hv start hst iter tol

/-- C81 does not hold for eig_power_left: whatever the sparse matrix and the vector, there is no
result; the product stops the program. (The vector zero is divided by zero before.) -/
theorem c81_negation_power_left (N : Power.Num α β) (deftol : β) (s : Sparse α)
    (vector : Option (Tensor α)) (start : Tensor α) (iter : Nat) (tol : β) :
    (∀ out, eigPower N deftol true s vector start iter tol ≠ .ok out) ∧
    ∀ v w, vector = some v → v.data.length = s.cols → Power.unit N v = .ok w →
      eigPower N deftol true s vector start iter tol = .abort := by
  have hl : ∀ tol k old v used, Power.loop N (sparseMap s true) tol (k + 1) old v used = .abort := by
    intro tol k old v used
    rw [Power.loop, sparseMap, if_pos rfl, Sparse.c39_tensor_sparse_aborts]
    rfl
  refine ⟨fun out h => ?_, fun v w hv hlen hw => ?_⟩
  · rw [eigPower] at h
    obtain ⟨_, _, h⟩ := bind_ok h
    cases vector with
    | none => cases h
    | some v =>
      rw [Power.power] at h
      simp only [Res.ok_bind] at h
      obtain ⟨v', _, h⟩ := bind_ok h
      rw [hl] at h
      cases h
  · rw [eigPower, Res.assert_bind]
    split
    · subst hv
      rw [Power.power]
      have hsz : (if v.size ≠ s.cols then start else v) = v := if_neg (by simpa [Tensor.size] using hlen)
      simp only [Res.ok_bind, hsz, hw, hl]
    · rfl

end

/-- C81 with what C57 says of dense matrices: if the sparse matrix is Hermitian with its spectrum above
1e-15, cgs ends with the default number of iterations, with any start, within the tolerance. -/
theorem c81_cgs_converges {𝕜 : Type} [RCLike 𝕜] [DecidableEq 𝕜] {m : Nat} (deftol : ℝ)
    (hdef : 0 < deftol) (s : Sparse 𝕜) (f : Nat → Nat → 𝕜)
    (hs : IsCsr s.rows s.cols s.rowStart s.column s.data m m f) (hm : m ≠ 0) (e : List Nat)
    (hsym : ∀ i j : Fin m, f i j = starRingEnd 𝕜 (f j i))
    (hpos : ∀ v : Fin m → 𝕜, 1e-15 * ∑ i, ‖v i‖ ^ 2 ≤
      RCLike.re (∑ i : Fin m, (∑ l : Fin m, f i l * v l) * starRingEnd 𝕜 (v i)))
    (b start : Fin (prod e * m) → 𝕜) (xs : Option (Fin (prod e * m) → 𝕜)) (maxiter : Int)
    (hmax : maxiter = 0 ∨ m ≤ maxiter + 1) (tol : ℝ) :
    ∃ out x, cgs (Cgs.exact 𝕜) deftol s ⟨m :: e, List.ofFn b⟩
        (xs.map fun x => ⟨m :: e, List.ofFn x⟩) ⟨m :: e, List.ofFn start⟩ maxiter tol = .ok out ∧
      out.x = ⟨m :: e, List.ofFn x⟩ ∧
      Real.sqrt (∑ j : Fin (prod e), ∑ i : Fin m, ‖b (finProdFinEquiv (j, i)) -
        ∑ l : Fin m, f i l * x (finProdFinEquiv (j, l))‖ ^ 2) ≤ if tol ≤ 0 then deftol else tol := by
  obtain ⟨d, hd, hdm⟩ := Sparse.c35_full s m m f hs
  have hwf : ∀ v : Fin (prod e * m) → 𝕜, (⟨m :: e, List.ofFn v⟩ : Tensor 𝕜).WF := fun v => by
    rw [Tensor.WF, List.length_ofFn, totalSize_cons, Nat.mul_comm]
  rw [c81_cgs (Cgs.exact 𝕜) deftol hs.2.2.1 (by rw [hs.2.1]; exact hm) hd _ (hwf b) _ _
    (by cases xs with
      | none => exact hwf start
      | some x => exact hwf x)]
  exact Cgs.c57_matrix_converges deftol hdef d f hdm hm e hsym hpos b start xs maxiter hmax tol

/-! The hypotheses can be met: the unit matrix. -/

example : ∃ s : Sparse ℝ, IsCsr s.rows s.cols s.rowStart s.column s.data 2 2
      (fun i j => if i = j then 1 else 0) ∧ (∃ d, Sparse.full s = .ok d) := by
  obtain ⟨s, -, h⟩ := Sparse.c36_eye (α := ℝ) 2 2
  obtain ⟨d, hd, -⟩ := Sparse.c35_full s 2 2 _ h
  exact ⟨s, h, d, hd⟩

example : (∀ i j : Fin 2, (if i.val = j.val then (1 : ℝ) else 0) =
      starRingEnd ℝ (if j.val = i.val then (1 : ℝ) else 0)) ∧
    ∀ v : Fin 2 → ℝ, 1e-15 * ∑ i, ‖v i‖ ^ 2 ≤
      RCLike.re (∑ i : Fin 2, (∑ l : Fin 2, (if i.val = l.val then (1 : ℝ) else 0) * v l) *
        starRingEnd ℝ (v i)) := by
  refine ⟨fun i j => ?_, fun v => ?_⟩
  · rw [show (if i.val = j.val then (1 : ℝ) else 0) = if j.val = i.val then 1 else 0 by simp only [eq_comm]]
    rfl
  · simp [Fin.sum_univ_two]
    nlinarith [mul_self_nonneg (v 0), mul_self_nonneg (v 1)]

example : Power.unit (⟨id, fun x => |x|, id, fun x => x, id⟩ : Power.Num ℚ ℚ) ⟨[2], [1, 0]⟩ =
    .ok ⟨[2], [1, 0]⟩ := by decide +kernel

end Verif.SparseIter
