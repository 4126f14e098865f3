import Verif.Props.SparseExpr
import Verif.Props.SparseMult
import Verif.Props.Kron
import Verif.Props.Arith
import Verif.Props.Reduce
/-
C125: laws of sparse matrices.
-/
namespace Verif.Sparse

open Verif Verif.Spec

variable {α : Type}

/-- The arrays of the sparse matrix are consistent. -/
abbrev Good (s : Sparse α) : Prop := ValidCsr s.rows s.cols s.rowStart s.column s.data

/-- The sparse matrix with the entries `f`. -/
abbrev Has [Zero α] (s : Sparse α) (r c : Nat) (f : Nat → Nat → α) : Prop :=
  IsCsr s.rows s.cols s.rowStart s.column s.data r c f

theorem csr_congr [Zero α] {s : Sparse α} {r c : Nat} {f g : Nat → Nat → α} (h : Has s r c f)
    (e : ∀ i j, i < r → j < c → f i j = g i j) : Has s r c g := by
  refine ⟨h.1, h.2.1, h.2.2.1, fun i j hi hj => ?_⟩
  rw [← e i j hi hj]
  exact h.2.2.2 i j hi hj

/-- The entry of a tensor, zero if there is none. -/
def at0 [Zero α] (t : Tensor α) (idx : List Nat) : α := (elem t.dims t.data idx).getD 0

theorem at0_eq [Zero α] {t : Tensor α} (wf : t.WF) {idx : List Nat} (hi : InB idx t.dims) (hne : idx ≠ []) :
    elem t.dims t.data idx = some (at0 t idx) := by
  obtain ⟨v, e, -⟩ := Tensor.elem_some wf hi hne
  rw [at0, e]; rfl

theorem mmult_at [CommSemiring α] {s : Sparse α} {t : Tensor α} {r c : Nat} {f : Nat → Nat → α} {ds : List Nat}
    (hs : Has s r c f) (wf : t.WF) (hd : t.dims = c :: ds) :
    ∃ u, mmultST s t = .ok u ∧ u.WF ∧ u.dims = r :: ds ∧
      ∀ i is, i < r → InB is ds →
        elem u.dims u.data (i :: is) = some (∑ j ∈ Finset.range c, f i j * at0 t (j :: is)) := by
  obtain ⟨u, e, w, d, h⟩ := (c39_sparse_tensor s t wf r c f hs c ds hd).1 rfl
  refine ⟨u, e, w, d, fun i is hi his => h i is hi his _ fun j hj => ?_⟩
  exact at0_eq wf (by rw [hd]; exact ⟨hj, his⟩) (by simp)

theorem ext_cons {u v : Tensor α} {r : Nat} {ds : List Nat} (wu : u.WF) (wv : v.WF) (du : u.dims = r :: ds)
    (dv : v.dims = r :: ds)
    (h : ∀ i is, i < r → InB is ds → elem u.dims u.data (i :: is) = elem v.dims v.data (i :: is)) : u = v := by
  refine tensor_ext wu wv (by rw [du, dv]) (by simp [du]) fun idx hidx => ?_
  rw [du] at hidx
  match idx, hidx with
  | i :: is, hidx => exact h i is hidx.1 hidx.2

theorem binop_at [Zero α] (op : α → α → α) {u v : Tensor α} (wu : u.WF) (wv : v.WF) (hd : u.dims = v.dims) :
    ∃ w, Tensor.binopTT op u v = .ok w ∧ w.WF ∧ w.dims = u.dims ∧
      ∀ idx, InB idx u.dims → idx ≠ [] → elem w.dims w.data idx = some (op (at0 u idx) (at0 v idx)) := by
  obtain ⟨w, e, -, ww, d, h⟩ := (Tensor.c32_tensor_tensor op u v wu wv).1 hd
  exact ⟨w, e, ww, d, fun idx hi hne => h idx _ _ (at0_eq wu hi hne) (at0_eq wv (by rw [← hd]; exact hi) hne)⟩

/-- C125: the sum is commutative and associative, also for the stored arrays. -/
theorem c125_add [CommSemiring α] [DecidableEq α] (a b c : Sparse α) (ha : Good a) (hb : Good b) (hc : Good c)
    (r : a.rows = b.rows ∧ b.rows = c.rows) (k : a.cols = b.cols ∧ b.cols = c.cols) :
    (∃ s, binop (· + ·) a b = .ok s ∧ binop (· + ·) b a = .ok s) ∧
    ∃ s, (do let x ← binop (· + ·) a b; binop (· + ·) x c) = .ok s ∧
      (do let y ← binop (· + ·) b c; binop (· + ·) a y) = .ok s := by
  obtain ⟨f, hf⟩ := exists_isCsr a ha
  obtain ⟨g, hg⟩ := exists_isCsr b hb
  obtain ⟨h, hh⟩ := exists_isCsr c hc
  rw [← r.1, ← k.1] at hg
  rw [r.1, k.1] at hg
  have hf : Has a c.rows c.cols f := by rw [← r.2, ← k.2, ← r.1, ← k.1]; exact hf
  have hg : Has b c.rows c.cols g := by rw [← r.2, ← k.2]; exact hg
  obtain ⟨x, ex, hx, zx⟩ := c37_binop (· + ·) (add_zero 0) a b _ _ f g hf hg
  obtain ⟨x', ex', hx', zx'⟩ := c37_binop (· + ·) (add_zero 0) b a _ _ g f hg hf
  obtain ⟨y, ey, hy, -⟩ := c37_binop (· + ·) (add_zero 0) b c _ _ g h hg hh
  obtain ⟨u, eu, hu, zu⟩ := c37_binop (· + ·) (add_zero 0) x c _ _ _ h hx hh
  obtain ⟨v, ev, hv, zv⟩ := c37_binop (· + ·) (add_zero 0) a y _ _ f _ hf hy
  refine ⟨⟨x, ex, ?_⟩, ⟨u, by simp [ex, eu], ?_⟩⟩
  · rw [ex', csr_unique hx' (csr_congr hx fun i j _ _ => add_comm _ _) zx' zx]
  · simp only [ey, Res.ok_bind, ev]
    rw [csr_unique hv (csr_congr hu fun i j _ _ => add_assoc _ _ _) zv zu]

/-- C125: a - a has no stored elements, and a + 0 is a without its stored zeros. -/
theorem c125_zero [CommRing α] [DecidableEq α] (a : Sparse α) (ha : Good a) :
    binop (· - ·) a a = .ok (zeros a.rows a.cols) ∧
    ((∀ v ∈ a.data, v ≠ 0) → binop (· + ·) a (zeros a.rows a.cols) = .ok a) := by
  obtain ⟨f, hf⟩ := exists_isCsr a ha
  have hz := zeros_isCsr (α := α) a.rows a.cols
  constructor
  · obtain ⟨x, ex, hx, zx⟩ := c37_binop (· - ·) (sub_zero 0) a a _ _ f f hf hf
    rw [ex, csr_unique hx (csr_congr hz fun i j _ _ => (sub_self _).symm) zx (by simp [zeros])]
  · intro z
    obtain ⟨x, ex, hx, zx⟩ := c37_binop (· + ·) (add_zero 0) a (zeros a.rows a.cols) _ _ f _ hf hz
    rw [ex, csr_unique (csr_congr hx fun i j _ _ => add_zero _) hf zx z]

/-- C125: the adjoint (and, with conj = id, the transpose) of a sum, also for the stored arrays. -/
theorem c125_adjoint_add [CommSemiring α] [DecidableEq α] (conj : α →+* α) (a b : Sparse α) (ha : Good a) (hb : Good b)
    (hr : a.rows = b.rows) (hc : a.cols = b.cols) :
    ∃ s, binop (· + ·) a b = .ok s ∧
      ∀ x y z, Adjoint conj a (.ok x) → Adjoint conj b (.ok y) → Adjoint conj s (.ok z) →
        binop (· + ·) x y = .ok z := by
  obtain ⟨f, hf⟩ := exists_isCsr a ha
  obtain ⟨g, hg⟩ := exists_isCsr b hb
  have hf : Has a b.rows b.cols f := by rw [← hr, ← hc]; exact hf
  obtain ⟨s, es, hs, -⟩ := c37_binop (· + ·) (add_zero 0) a b _ _ f g hf hg
  refine ⟨s, es, fun x y z ox oy oz => ?_⟩
  obtain ⟨_, e1, hx, -⟩ := (c40_adjoint conj (map_zero conj) a _ _ f hf).2 _ ox
  cases e1
  obtain ⟨_, e1, hy, -⟩ := (c40_adjoint conj (map_zero conj) b _ _ g hg).2 _ oy
  cases e1
  obtain ⟨_, e1, hz, zz⟩ := (c40_adjoint conj (map_zero conj) s _ _ _ hs).2 _ oz
  cases e1
  obtain ⟨w, ew, hw, zw⟩ := c37_binop (· + ·) (add_zero 0) x y _ _ _ _ hx hy
  rw [ew, csr_unique hw (csr_congr hz fun i j _ _ => map_add conj _ _) zw zz]

/-- C125: products with sums of sparse matrices and of tensors. -/
theorem c125_mmult_add [CommSemiring α] [DecidableEq α] (a b : Sparse α) (x y : Tensor α) (ha : Good a) (hb : Good b)
    (wx : x.WF) (wy : y.WF) (hr : a.rows = b.rows) (hc : a.cols = b.cols) (ds : List Nat)
    (dx : x.dims = a.cols :: ds) (dy : y.dims = a.cols :: ds) :
    (∃ u, (do let s ← binop (· + ·) a b; mmultST s x) = .ok u ∧
      (do let p ← mmultST a x; let q ← mmultST b x; Tensor.binopTT (· + ·) p q) = .ok u) ∧
    ∃ u, (do let z ← Tensor.binopTT (· + ·) x y; mmultST a z) = .ok u ∧
      (do let p ← mmultST a x; let q ← mmultST a y; Tensor.binopTT (· + ·) p q) = .ok u := by
  obtain ⟨f, hf⟩ := exists_isCsr a ha
  obtain ⟨g, hg⟩ := exists_isCsr b hb
  have hg : Has b a.rows a.cols g := by rw [hr, hc]; exact hg
  obtain ⟨s, es, hs, -⟩ := c37_binop (· + ·) (add_zero 0) a b _ _ f g hf hg
  obtain ⟨p, ep, wp, dp, kp⟩ := mmult_at hf wx dx
  obtain ⟨q, eq, wq, dq, kq⟩ := mmult_at hg wx dx
  obtain ⟨q', eq', wq', dq', kq'⟩ := mmult_at hf wy dy
  obtain ⟨u, eu, wu, du, ku⟩ := mmult_at hs wx dx
  obtain ⟨z, ez, wz, dz, kz⟩ := binop_at (· + ·) wx wy (by rw [dx, dy])
  obtain ⟨v, ev, wv, dv, kv⟩ := mmult_at hf wz (by rw [dz, dx])
  obtain ⟨w, ew, ww, dw, kw⟩ := binop_at (· + ·) wp wq (by rw [dp, dq])
  obtain ⟨w', ew', ww', dw', kw'⟩ := binop_at (· + ·) wp wq' (by rw [dp, dq'])
  have val : ∀ {t : Tensor α} {idx v}, elem t.dims t.data idx = some v → at0 t idx = v := by
    intro t idx v h; rw [at0, h]; rfl
  refine ⟨⟨u, by simp [es, eu], ?_⟩, ⟨v, by simp [ez, ev], ?_⟩⟩
  · simp only [ep, eq, Res.ok_bind, ew]
    congr 1
    refine ext_cons ww wu (by rw [dw, dp]) du fun i is hi his => ?_
    rw [kw _ (by rw [dp]; exact ⟨hi, his⟩) (by simp), ku i is hi his, val (kp i is hi his), val (kq i is hi his),
      ← Finset.sum_add_distrib]
    congr 1
    exact Finset.sum_congr rfl fun j _ => (add_mul _ _ _).symm
  · simp only [ep, eq', Res.ok_bind, ew']
    congr 1
    refine ext_cons ww' wv (by rw [dw', dp]) dv fun i is hi his => ?_
    rw [kw' _ (by rw [dp]; exact ⟨hi, his⟩) (by simp), kv i is hi his, val (kp i is hi his), val (kq' i is hi his),
      ← Finset.sum_add_distrib]
    congr 1
    refine Finset.sum_congr rfl fun j hj => ?_
    rw [val (kz (j :: is) (by rw [dx]; exact ⟨Finset.mem_range.1 hj, his⟩) (by simp)), mul_add]

/-- C125: the product with a multiple of a sparse matrix, and with the unit matrix. -/
theorem c125_mmult_scale [CommSemiring α] [DecidableEq α] (a : Sparse α) (x : Tensor α) (ha : Good a) (wx : x.WF)
    (ds : List Nat) (k : α) (dx : x.dims = a.cols :: ds) :
    (∃ u, (do let s ← mapData (· * k) a; mmultST s x) = .ok u ∧
      (do let p ← mmultST a x; Tensor.binopTN (· * ·) p k) = .ok u) ∧
    (do let e ← eye a.cols a.cols; mmultST e x) = .ok x := by
  obtain ⟨f, hf⟩ := exists_isCsr a ha
  obtain ⟨s, es, hs⟩ := c37_map (· * k) (zero_mul k) a _ _ f hf
  obtain ⟨p, ep, wp, dp, kp⟩ := mmult_at hf wx dx
  obtain ⟨u, eu, wu, du, ku⟩ := mmult_at hs wx dx
  obtain ⟨w, ew, ww, dw, kw⟩ := (Tensor.c32_tensor_number (· * ·) p k p k wp wp).1
  constructor
  · refine ⟨u, by simp [es, eu], ?_⟩
    simp only [ep, Res.ok_bind, ew]
    congr 1
    refine ext_cons ww wu (by rw [dw, dp]) du fun i is hi his => ?_
    rw [kw, kp i is hi his, ku i is hi his, Option.map_some, Finset.sum_mul]
    congr 1
    exact Finset.sum_congr rfl fun j _ => by ring
  · obtain ⟨e, ee, he⟩ := c36_eye (α := α) a.cols a.cols
    obtain ⟨v, ev, wv, dv, kv⟩ := mmult_at he wx dx
    simp only [ee, Res.ok_bind, ev]
    congr 1
    refine ext_cons wv wx dv dx fun i is hi his => ?_
    rw [kv i is hi his, at0_eq wx (by rw [dx]; exact ⟨hi, his⟩) (by simp), Finset.sum_eq_single i]
    · simp
    · intro j _ hj; simp [Ne.symm hj]
    · intro h; exact absurd (Finset.mem_range.2 hi) h

/-- C125: mmult(kron(a,b), kron(x,y)) = kron(mmult(a,x), mmult(b,y)). -/
theorem c125_mmult_kron [CommSemiring α] (a b : Sparse α) (x y : Tensor α) (ha : Good a) (hb : Good b) (wx : x.WF)
    (wy : y.WF) (n m : Nat) (dx : x.dims = [a.cols, n]) (dy : y.dims = [b.cols, m]) (h0 : a.cols ≠ 0) (h1 : b.cols ≠ 0) :
    ∃ u, (do let s ← kron a b; let z ← Tensor.kron x y; mmultST s z) = .ok u ∧
      (do let p ← mmultST a x; let q ← mmultST b y; Tensor.kron p q) = .ok u := by
  obtain ⟨f, hf⟩ := exists_isCsr a ha
  obtain ⟨g, hg⟩ := exists_isCsr b hb
  obtain ⟨s, es, hs⟩ := c38_kron a b _ _ _ _ f g hf hg
  obtain ⟨_, fa, fb, fs, e1, e2, e3, e4, e5⟩ := c38_full_kron a b ha hb
  rw [es] at e1
  cases e1
  obtain ⟨fx, mx⟩ := Tensor.exists_isMat x wx _ _ dx
  obtain ⟨fy, my⟩ := Tensor.exists_isMat y wy _ _ dy
  obtain ⟨z, ez, mz⟩ := Tensor.kron_isMat mx my
  obtain ⟨p, d1, p1, p2, p3⟩ := c39_dense a ha x wx [n] dx h0
  rw [e2] at p2
  cases p2
  obtain ⟨q, d2, q1, q2, q3⟩ := c39_dense b hb y wy [m] dy h1
  rw [e3] at q2
  cases q2
  have hcols : s.cols = b.cols * a.cols := hs.2.1
  obtain ⟨u, d3, u1, u2, u3⟩ := c39_dense s hs.2.2.1 z (IsMat.wf mz) [m * n] (by rw [mz.1, hcols])
    (by rw [hcols]; exact Nat.mul_ne_zero h1 h0)
  rw [e4] at u2
  cases u2
  obtain ⟨fa', ea, ma⟩ := c35_full a _ _ f hf
  rw [e2] at ea
  cases ea
  obtain ⟨fb', eb, mb⟩ := c35_full b _ _ g hg
  rw [e3] at eb
  cases eb
  obtain ⟨R, r1, r2⟩ := Tensor.c28_mixed_product fa fb x y (IsMat.wf ma) (IsMat.wf mb) wx wy _ _ _ _ _ _ ma.1 dx mb.1 dy
    h0 h1
  refine ⟨u, by simp [es, ez, u1], ?_⟩
  simp only [e5, ez, Res.ok_bind, u3] at r1
  simp only [p3, q3, Res.ok_bind] at r2
  simp only [p1, q1, Res.ok_bind]
  rw [r2, ← r1]

/-- C125: scprod(mmult(a,x), y) = scprod(x, mmult(adjoint(a), y)) for vectors. -/
theorem c125_scprod [CommSemiring α] [DecidableEq α] (conj : α →+* α) (hconj : ∀ x, conj (conj x) = x) (a b : Sparse α)
    (x y : Tensor α) (ha : Good a) (wx : x.WF) (wy : y.WF) (dx : x.dims = [a.cols]) (dy : y.dims = [a.rows])
    (hb : Adjoint conj a (.ok b)) :
    ∃ v, (do let u ← mmultST a x; Tensor.scprod conj u y) = .ok v ∧
      (do let u ← mmultST b y; Tensor.scprod conj x u) = .ok v := by
  obtain ⟨f, hf⟩ := exists_isCsr a ha
  obtain ⟨_, e1, hB, -⟩ := (c40_adjoint conj (map_zero conj) a _ _ f hf).2 _ hb
  cases e1
  obtain ⟨p, ep, wp, dp, kp⟩ := mmult_at hf wx dx
  obtain ⟨q, eq, wq, dq, kq⟩ := mmult_at hB wy dy
  have len : ∀ {t : Tensor α} {n}, t.WF → t.dims = [n] → t.data.length = n := by
    intro t n w d
    have w : t.data.length = Tensor.totalSize t.dims := w
    rw [w, d]; simp [Tensor.totalSize]
  have get : ∀ {t : Tensor α} {n}, t.WF → t.dims = [n] → ∀ i < n, t.data[i]? = some (at0 t [i]) := by
    intro t n w d i hi
    have := at0_eq w (idx := [i]) (by rw [d]; exact ⟨hi, trivial⟩) (by simp)
    rw [elem, if_pos (by rw [d]; exact ⟨hi, trivial⟩), d] at this
    simpa using this
  have val : ∀ {t : Tensor α} {idx v}, elem t.dims t.data idx = some v → at0 t idx = v := by
    intro t idx v h; rw [at0, h]; rfl
  have s1 := Tensor.c33_scprod conj p y ((len wp dp).trans (len wy dy).symm) (fun i => at0 p [i]) (fun i => at0 y [i])
  have s2 := Tensor.c33_scprod conj x q ((len wx dx).trans (len wq dq).symm) (fun i => at0 x [i]) (fun i => at0 q [i])
  rw [len wp dp] at s1
  rw [len wx dx] at s2
  have s1 := s1 (get wp dp) (get wy dy)
  have s2 := s2 (get wx dx) (get wq dq)
  refine ⟨_, by simp only [ep, Res.ok_bind]; exact s1, ?_⟩
  simp only [eq, Res.ok_bind, s2]
  congr 1
  have h1 : ∀ i ∈ Finset.range a.cols, at0 x [i] * conj (at0 q [i]) =
      ∑ j ∈ Finset.range a.rows, at0 x [i] * (f j i * conj (at0 y [j])) := by
    intro i hi
    rw [val (kq i [] (Finset.mem_range.1 hi) trivial), map_sum, Finset.mul_sum]
    exact Finset.sum_congr rfl fun j _ => by rw [map_mul, hconj]
  have h2 : ∀ j ∈ Finset.range a.rows, at0 p [j] * conj (at0 y [j]) =
      ∑ i ∈ Finset.range a.cols, at0 x [i] * (f j i * conj (at0 y [j])) := by
    intro j hj
    rw [val (kp j [] (Finset.mem_range.1 hj) trivial), Finset.sum_mul]
    exact Finset.sum_congr rfl fun i _ => by ring
  rw [Finset.sum_congr rfl h1, Finset.sum_congr rfl h2, Finset.sum_comm]

/-- C125: expressions which mean the same matrix have the same full() and the same products with tensors. -/
theorem c125_expressions [CommSemiring α] [DecidableEq α] (e e' : Expr α) (r c : Nat) (f g : Nat → Nat → α)
    (h : e.Means r c f) (h' : e'.Means r c g) (hfg : ∀ i j, i < r → j < c → f i j = g i j) (s s' : Sparse α)
    (hs : e.Eval (.ok s)) (hs' : e'.Eval (.ok s')) :
    full s = full s' ∧ ∀ t : Tensor α, t.WF → t.dims ≠ [] → mmultST s t = mmultST s' t := by
  obtain ⟨_, e1, k⟩ := (c36_expressions e r c f h).2 _ hs
  cases e1
  obtain ⟨_, e1, k'⟩ := (c36_expressions e' r c g h').2 _ hs'
  cases e1
  have k' : Has s' r c f := csr_congr k' fun i j hi hj => (hfg i j hi hj).symm
  constructor
  · obtain ⟨t, et, mt⟩ := c35_full s r c f k
    obtain ⟨t', et', mt'⟩ := c35_full s' r c f k'
    rw [et, et', IsMat.unique mt mt' fun _ _ _ _ => rfl]
  · intro t wt hne
    match hd : t.dims, hne with
    | d :: ds, _ =>
      by_cases hdc : d = c
      · subst hdc
        obtain ⟨u, eu, wu, du, ku⟩ := mmult_at k wt hd
        obtain ⟨v, ev, wv, dv, kv⟩ := mmult_at k' wt hd
        rw [eu, ev, ext_cons wu wv du dv fun i is hi his => by rw [ku i is hi his, kv i is hi his]]
      · rw [(c39_sparse_tensor s t wt r c f k d ds hd).2 hdc, (c39_sparse_tensor s' t wt r c f k' d ds hd).2 hdc]

/-- C125: kron of sparse matrices is associative, and commutes with adjoints (transposes with conj = id). -/
theorem c125_kron [CommSemiring α] [DecidableEq α] (conj : α →+* α) (a b c : Sparse α) (ha : Good a) (hb : Good b)
    (hc : Good c) :
    (∃ s s' d, (do let x ← kron a b; kron x c) = .ok s ∧ (do let y ← kron b c; kron a y) = .ok s' ∧
      full s = .ok d ∧ full s' = .ok d) ∧
    ∃ s, kron a b = .ok s ∧ ∀ x y z, Adjoint conj a (.ok x) → Adjoint conj b (.ok y) → Adjoint conj s (.ok z) →
      ∃ w d, kron x y = .ok w ∧ full w = .ok d ∧ full z = .ok d := by
  obtain ⟨f, hf⟩ := exists_isCsr a ha
  obtain ⟨g, hg⟩ := exists_isCsr b hb
  obtain ⟨h, hh⟩ := exists_isCsr c hc
  obtain ⟨x, ex, hx⟩ := c38_kron a b _ _ _ _ f g hf hg
  obtain ⟨y, ey, hy⟩ := c38_kron b c _ _ _ _ g h hg hh
  obtain ⟨s, es, hs⟩ := c38_kron x c _ _ _ _ _ h hx hh
  obtain ⟨s', es', hs'⟩ := c38_kron a y _ _ _ _ f _ hf hy
  constructor
  · obtain ⟨d, ed, md⟩ := c35_full s _ _ _ hs
    obtain ⟨d', ed', md'⟩ := c35_full s' _ _ _ hs'
    refine ⟨s, s', d, by simp [ex, es], by simp [ey, es'], ed, ?_⟩
    rw [ed']
    congr 1
    rw [← Nat.mul_assoc, ← Nat.mul_assoc] at md
    refine IsMat.unique md' md fun i j _ _ => ?_
    simp only [Nat.div_div_eq_div_mul, Nat.mod_mul_right_mod, Nat.mod_mul_right_div_self, mul_assoc]
  · refine ⟨x, ex, fun p q z op oq oz => ?_⟩
    obtain ⟨_, e1, hp, -⟩ := (c40_adjoint conj (map_zero conj) a _ _ f hf).2 _ op
    cases e1
    obtain ⟨_, e1, hq, -⟩ := (c40_adjoint conj (map_zero conj) b _ _ g hg).2 _ oq
    cases e1
    obtain ⟨_, e1, hz, -⟩ := (c40_adjoint conj (map_zero conj) x _ _ _ hx).2 _ oz
    cases e1
    obtain ⟨w, ew, hw⟩ := c38_kron p q _ _ _ _ _ _ hp hq
    obtain ⟨d, ed, md⟩ := c35_full w _ _ _ hw
    obtain ⟨d', ed', md'⟩ := c35_full z _ _ _ hz
    refine ⟨w, d, ew, ed, ?_⟩
    rw [ed', IsMat.unique md' md fun i j _ _ => map_mul conj _ _]

/-! The hypotheses can be met. -/

example : Good (zeros 2 3 : Sparse Int) ∧ (zeros 2 3 : Sparse Int).cols ≠ 0 :=
  ⟨(zeros_isCsr 2 3).2.2.1, by simp [zeros]⟩

example : ∃ s : Sparse Int, eye 2 2 = .ok s ∧ Good s ∧ s.cols = 2 ∧ ∃ b, Adjoint (RingHom.id Int) s (.ok b) := by
  obtain ⟨s, e, h⟩ := c36_eye (α := Int) 2 2
  obtain ⟨⟨out, k1⟩, k2⟩ := c40_adjoint (RingHom.id Int) rfl s _ _ _ h
  obtain ⟨b, rfl, -⟩ := k2 out k1
  exact ⟨s, e, h.2.2.1, h.2.1, b, k1⟩

example : ∃ f, (Expr.binop (· + ·) (.eye 2 2) (.zeros 2 2) : Expr Int).Means 2 2 f ∧
    (Expr.eye 2 2 : Expr Int).Means 2 2 fun i j => f i j := by
  refine ⟨_, .binop _ _ _ 2 2 _ _ rfl (.eye 2 2) (.zeros 2 2), ?_⟩
  simpa using Expr.Means.eye (α := Int) 2 2

end Verif.Sparse
