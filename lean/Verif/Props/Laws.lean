import Verif.Props.Kron
import Verif.Props.Scale
import Verif.Props.Trace
import Verif.Props.Fold
import Verif.Props.Reduce
import Mathlib.Algebra.Order.BigOperators.Ring.Finset
import Mathlib.Algebra.Order.Chebyshev
import Mathlib.Analysis.SpecialFunctions.Pow.NNReal
/-
C123: laws between the functions of matrices: kron, transpose, adjoint, trace, scale, diag, fold, foldc,
scprod, norm2 and matrix_norminf.
-/
namespace Verif.Tensor

open Verif Spec

variable {α β γ : Type}

theorem kronF_split [Mul α] {ia ka : Nat} (fb fa : Nat → Nat → α) (x y : Nat) :
    kronF ia ka fb fa x y = fb (x / ia) (y / ka) * fa (x % ia) (y % ka) := rfl

theorem fold00_isMat [CommSemiring α] (conj : α →+* α) (hc : ∀ x, conj (conj x) = x) (c : Bool) {a b : Tensor α}
    {m n p : Nat} {f g : Nat → Nat → α} (ha : IsMat a.dims a.data n m f) (hb : IsMat b.dims b.data n p g)
    (hn : n ≠ 0) :
    ∃ t, doFold conj c a 0 b 0 = .ok t ∧ IsMat t.dims t.data m p fun i j =>
      ∑ l ∈ Finset.range n, (if c then conj (f l i) else f l i) * g l j := by
  obtain ⟨t, e, wf, hd, hel⟩ := doFold_elem conj hc c a b
    (IsMat.wf ha) (IsMat.wf hb) [] [m] [] [p] n 0 0 ha.1 hb.1
    (by rw [ha.1]; simp [Spec.norm]) (by rw [hb.1]; simp [Spec.norm]) hn
  refine ⟨t, e, isMat_of_elem wf hd ?_⟩
  intro i j hi hj
  have := hel [] [i] [] [j] trivial (by simp [hi]) trivial (by simp [hj]) (fun l => f l i)
    (fun l => g l j) (fun l hl => ha.2.2 l i hl hi) (fun l hl => hb.2.2 l j hl hj)
  cases c <;> simpa [outIdx] using this

theorem fold11_isMat [CommSemiring α] {a b : Tensor α}
    {m n p : Nat} {f g : Nat → Nat → α} (ha : IsMat a.dims a.data m n f) (hb : IsMat b.dims b.data p n g)
    (hn : n ≠ 0) :
    ∃ t, fold a (-1) b (-1) = .ok t ∧ IsMat t.dims t.data m p fun i j =>
      ∑ l ∈ Finset.range n, f i l * g j l := by
  obtain ⟨t, e, wf, hd, hel⟩ := doFold_elem (RingHom.id α) (fun _ => rfl) false a b
    (IsMat.wf ha) (IsMat.wf hb) [m] [] [p] [] n (-1) (-1) ha.1 hb.1
    (by rw [ha.1]; simp [Spec.norm]) (by rw [hb.1]; simp [Spec.norm]) hn
  refine ⟨t, e, isMat_of_elem wf hd ?_⟩
  intro i j hi hj
  have := hel [i] [] [j] [] (by simp [hi]) trivial (by simp [hj]) trivial (fun l => f i l)
    (fun l => g j l) (fun l hl => ha.2.2 i l hi hl) (fun l hl => hb.2.2 j l hj hl)
  simpa [outIdx] using this

theorem scale1_isMat (mul : α → β → γ) {a : Tensor α} {v : Tensor β} {m n : Nat} {f : Nat → Nat → α} {g : Nat → β}
    (ha : IsMat a.dims a.data m n f) (hl : v.data.length = n) (hv : ∀ j < n, v.data[j]? = some (g j)) :
    ∃ t, scale mul a (-1) v = .ok t ∧ IsMat t.dims t.data m n fun i j => mul (f i j) (g j) := by
  obtain ⟨t, e, wf, hd, hel⟩ := (c24_scale mul a (IsMat.wf ha) (-1) v [m] [] n ha.1 (by rw [ha.1]; simp [Spec.norm])).1 hl
  refine ⟨t, e, isMat_of_elem wf (by rw [hd, ha.1]) fun i j hi hj => ?_⟩
  exact hel [i] j [] (by simp [hi]) hj trivial _ _ (ha.2.2 i j hi hj) (hv j hj)

theorem scale0_isMat (mul : α → β → γ) {a : Tensor α} {v : Tensor β} {m n : Nat} {f : Nat → Nat → α} {g : Nat → β}
    (ha : IsMat a.dims a.data m n f) (hl : v.data.length = m) (hv : ∀ j < m, v.data[j]? = some (g j)) :
    ∃ t, scale mul a 0 v = .ok t ∧ IsMat t.dims t.data m n fun i j => mul (f i j) (g i) := by
  obtain ⟨t, e, wf, hd, hel⟩ := (c24_scale mul a (IsMat.wf ha) 0 v [] [n] m ha.1 (by rw [ha.1]; simp [Spec.norm])).1 hl
  refine ⟨t, e, isMat_of_elem wf (by rw [hd, ha.1]) fun i j hi hj => ?_⟩
  exact hel [] i [j] trivial hi (by simp [hj]) _ _ (ha.2.2 i j hi hj) (hv i hi)

theorem diag0_isMat [Zero α] {v : Tensor α} {n : Nat} {g : Nat → α} (hl : v.data.length = n)
    (hv : ∀ j < n, v.data[j]? = some (g j)) :
    ∃ t, diagSquare v 0 = .ok t ∧ IsMat t.dims t.data n n fun i j => if i = j then g i else 0 := by
  subst hl
  obtain ⟨t, e, h⟩ := c27_diag v 0 v.data.length v.data.length (by simp) g hv
  refine ⟨t, by simpa [diagSquare, size] using e, h.congr fun i j _ _ => ?_⟩
  unfold diagEntry
  by_cases hij : i = j
  · subst hij; simp
  · rw [if_neg (by omega), if_neg hij]

/-- C123: kron is associative. -/
theorem c123_kron_associative [CommSemiring α] (A B C : Tensor α) (wfA : A.WF) (wfB : B.WF) (wfC : C.WF)
    (a1 a2 b1 b2 c1 c2 : Nat) (hA : A.dims = [a1, a2]) (hB : B.dims = [b1, b2]) (hC : C.dims = [c1, c2]) :
    ∃ R, (do let x ← kron A B; kron x C) = .ok R ∧ (do let y ← kron B C; kron A y) = .ok R := by
  obtain ⟨fA, hA⟩ := exists_isMat A wfA _ _ hA
  obtain ⟨fB, hB⟩ := exists_isMat B wfB _ _ hB
  obtain ⟨fC, hC⟩ := exists_isMat C wfC _ _ hC
  obtain ⟨x, ex, hx⟩ := kron_isMat hA hB
  obtain ⟨y, ey, hy⟩ := kron_isMat hB hC
  obtain ⟨R, eR, hR⟩ := kron_isMat hx hC
  obtain ⟨S, eS, hS⟩ := kron_isMat hA hy
  refine ⟨R, by simp [ex, eR], ?_⟩
  simp only [ey, Res.ok_bind, eS]
  congr 1
  rw [← Nat.mul_assoc, ← Nat.mul_assoc] at hR
  refine IsMat.unique hS hR fun i j _ _ => ?_
  simp only [kronF, Nat.div_div_eq_div_mul, Nat.mod_mul_right_mod, Nat.mod_mul_right_div_self, mul_assoc]

/-- C123: transpose and adjoint of Kronecker products. -/
theorem c123_kron_transpose [CommSemiring α] (conj : α →+* α) (A B : Tensor α) (wfA : A.WF) (wfB : B.WF)
    (a1 a2 b1 b2 : Nat) (hA : A.dims = [a1, a2]) (hB : B.dims = [b1, b2]) :
    (∃ R, (do let x ← kron A B; transpose x) = .ok R ∧
      (do let x ← transpose A; let y ← transpose B; kron x y) = .ok R) ∧
    ∃ R, (do let x ← kron A B; adjoint conj x) = .ok R ∧
      (do let x ← adjoint conj A; let y ← adjoint conj B; kron x y) = .ok R := by
  obtain ⟨fA, hA⟩ := exists_isMat A wfA _ _ hA
  obtain ⟨fB, hB⟩ := exists_isMat B wfB _ _ hB
  obtain ⟨x, ex, hx⟩ := kron_isMat hA hB
  constructor
  · obtain ⟨R, eR, hR⟩ := transpose_isMat hx
    obtain ⟨u, eu, hu⟩ := transpose_isMat hA
    obtain ⟨v, ev, hv⟩ := transpose_isMat hB
    obtain ⟨S, eS, hS⟩ := kron_isMat hu hv
    refine ⟨R, by simp [ex, eR], ?_⟩
    simp only [eu, ev, Res.ok_bind, eS]
    congr 1
    exact IsMat.unique hS hR fun i j _ _ => rfl
  · obtain ⟨R, eR, hR⟩ := adjoint_isMat conj hx
    obtain ⟨u, eu, hu⟩ := adjoint_isMat conj hA
    obtain ⟨v, ev, hv⟩ := adjoint_isMat conj hB
    obtain ⟨S, eS, hS⟩ := kron_isMat hu hv
    refine ⟨R, by simp [ex, eR], ?_⟩
    simp only [eu, ev, Res.ok_bind, eS]
    congr 1
    exact IsMat.unique hS hR fun i j _ _ => by simp [kronF]

/-- C123: the Kronecker product of identities is the identity. -/
theorem c123_kron_eye [CommSemiring α] (n m : Nat) :
    ∃ R : Tensor α, (do let x ← eye n n; let y ← eye m m; kron x y) = .ok R ∧ eye (m * n) (m * n) = .ok R := by
  obtain ⟨x, ex, hx⟩ := eye_isMat (α := α) n n
  obtain ⟨y, ey, hy⟩ := eye_isMat (α := α) m m
  obtain ⟨R, eR, hR⟩ := kron_isMat hx hy
  obtain ⟨S, eS, hS⟩ := eye_isMat (α := α) (m * n) (m * n)
  refine ⟨R, by simp [ex, ey, eR], ?_⟩
  rw [eS]
  congr 1
  refine IsMat.unique hS hR fun i j _ _ => ?_
  have : i = j ↔ i / m = j / m ∧ i % m = j % m := by
    constructor
    · rintro rfl; simp
    · rintro ⟨h1, h2⟩
      rw [← Nat.div_add_mod i m, h1, h2, Nat.div_add_mod]
  simp only [kronF, this]
  by_cases h1 : i / m = j / m <;> by_cases h2 : i % m = j % m <;> simp [h1, h2]

/-- C123: the Kronecker product is additive in each argument. -/
theorem c123_kron_add [CommSemiring α] (A A' B : Tensor α) (wfA : A.WF) (wfA' : A'.WF) (wfB : B.WF)
    (a1 a2 b1 b2 : Nat) (hA : A.dims = [a1, a2]) (hA' : A'.dims = [a1, a2]) (hB : B.dims = [b1, b2]) :
    (∃ R, (do let s ← binopTT (· + ·) A A'; kron s B) = .ok R ∧
      (do let x ← kron A B; let y ← kron A' B; binopTT (· + ·) x y) = .ok R) ∧
    ∃ R, (do let s ← binopTT (· + ·) A A'; kron B s) = .ok R ∧
      (do let x ← kron B A; let y ← kron B A'; binopTT (· + ·) x y) = .ok R := by
  obtain ⟨fA, hA⟩ := exists_isMat A wfA _ _ hA
  obtain ⟨fA', hA'⟩ := exists_isMat A' wfA' _ _ hA'
  obtain ⟨fB, hB⟩ := exists_isMat B wfB _ _ hB
  obtain ⟨s, es, hs⟩ := binop_isMat (· + ·) hA hA'
  constructor
  · obtain ⟨R, eR, hR⟩ := kron_isMat hs hB
    obtain ⟨x, ex, hx⟩ := kron_isMat hA hB
    obtain ⟨y, ey, hy⟩ := kron_isMat hA' hB
    obtain ⟨S, eS, hS⟩ := binop_isMat (· + ·) hx hy
    refine ⟨R, by simp only [es, eR, Res.ok_bind], ?_⟩
    simp only [ex, ey, Res.ok_bind, eS]
    congr 1
    exact IsMat.unique hS hR fun i j _ _ => by simp [kronF, add_mul]
  · obtain ⟨R, eR, hR⟩ := kron_isMat hB hs
    obtain ⟨x, ex, hx⟩ := kron_isMat hB hA
    obtain ⟨y, ey, hy⟩ := kron_isMat hB hA'
    obtain ⟨S, eS, hS⟩ := binop_isMat (· + ·) hx hy
    refine ⟨R, by simp only [es, eR, Res.ok_bind], ?_⟩
    simp only [ex, ey, Res.ok_bind, eS]
    congr 1
    exact IsMat.unique hS hR fun i j _ _ => by simp [kronF, mul_add]

/-- C123: trace of the Kronecker product of two square matrices, of the sum of two matrices, of a multiple, of a
transposed matrix and of the identity. -/
theorem c123_trace [CommSemiring α] (A B : Tensor α) (wfA : A.WF) (wfB : B.WF) (k : α) :
    (∀ n m, A.dims = [n, n] → B.dims = [m, m] → ∃ s t, trace A = .ok s ∧ trace B = .ok t ∧
      (do let x ← kron A B; trace x) = .ok (s * t)) ∧
    (∀ n m, A.dims = [n, m] → B.dims = [n, m] → ∃ s t, trace A = .ok s ∧ trace B = .ok t ∧
      (do let x ← binopTT (· + ·) A B; trace x) = .ok (s + t) ∧
      (do let x ← binopTN (· * ·) A k; trace x) = .ok (s * k) ∧
      (do let x ← transpose A; trace x) = .ok s) ∧
    ∀ n m : Nat, (do let x ← eye n m; trace x) = .ok ((min n m : Nat) : α) := by
  refine ⟨fun n m hA hB => ?_, fun n m hA hB => ?_, fun n m => ?_⟩
  · obtain ⟨fA, hA⟩ := exists_isMat A wfA _ _ hA
    obtain ⟨fB, hB⟩ := exists_isMat B wfB _ _ hB
    obtain ⟨x, ex, hx⟩ := kron_isMat hA hB
    refine ⟨_, _, trace_isMat hA, trace_isMat hB, ?_⟩
    rw [ex, Res.ok_bind, trace_isMat hx, Nat.min_self, Nat.min_self, Nat.min_self, sum_range_mul, Finset.sum_mul_sum]
    congr 1
    refine Finset.sum_congr rfl fun j _ => Finset.sum_congr rfl fun i hi => ?_
    exact kronF_pos _ _ (Finset.mem_range.1 hi) (Finset.mem_range.1 hi)
  · obtain ⟨fA, hA⟩ := exists_isMat A wfA _ _ hA
    obtain ⟨fB, hB⟩ := exists_isMat B wfB _ _ hB
    obtain ⟨x, ex, hx⟩ := binop_isMat (· + ·) hA hB
    obtain ⟨y, ey, hy⟩ := transpose_isMat hA
    have hk : IsMat A.dims (A.data.map (· * k)) n m fun i j => fA i j * k := by
      refine ⟨hA.1, by simp [hA.2.1], fun i j hi hj => ?_⟩
      have := elem_map (· * k) A.dims A.data [i, j]
      rw [hA.2.2 i j hi hj] at this
      simpa using this
    refine ⟨_, _, trace_isMat hA, trace_isMat hB, ?_, ?_, ?_⟩
    · simp only [ex, Res.ok_bind]
      rw [trace_isMat hx, Finset.sum_add_distrib]
    · rw [binopTN, unop_ok _ A wfA, Res.ok_bind, trace_isMat hk, Finset.sum_mul]
    · rw [ey, Res.ok_bind, trace_isMat hy, Nat.min_comm]
  · obtain ⟨x, ex, hx⟩ := eye_isMat (α := α) n m
    rw [ex, Res.ok_bind, trace_isMat hx]
    simp

/-- C123: scale(A,-1,v) = A diag(v) and scale(A,0,v) = diag(v) A. -/
theorem c123_scale [CommSemiring α] (A v : Tensor α) (wfA : A.WF) (m n : Nat) (hA : A.dims = [m, n]) :
    (v.data.length = n → n ≠ 0 → ∃ R, scale (· * ·) A (-1) v = .ok R ∧
      (do let d ← diagSquare v 0; mmult A d) = .ok R) ∧
    (v.data.length = m → m ≠ 0 → ∃ R, scale (· * ·) A 0 v = .ok R ∧
      (do let d ← diagSquare v 0; mmult d A) = .ok R) := by
  obtain ⟨f, hA⟩ := exists_isMat A wfA _ _ hA
  have hv : ∀ k, v.data.length = k → ∀ j < k, v.data[j]? = some (v.data[j]?.getD 0) := by
    intro k hk j hj
    rw [List.getElem?_eq_getElem (by omega)]; rfl
  constructor
  · intro hl hn
    obtain ⟨R, eR, hR⟩ := scale1_isMat (· * ·) hA hl (hv _ hl)
    obtain ⟨d, ed, hd⟩ := diag0_isMat hl (hv _ hl)
    obtain ⟨S, eS, hS⟩ := mmult_isMat hA hd hn
    refine ⟨R, eR, ?_⟩
    rw [ed, Res.ok_bind, eS]
    congr 1
    refine IsMat.unique hS hR fun i j hi hj => ?_
    rw [Finset.sum_eq_single j]
    · simp
    · intro l _ hl; simp [hl]
    · intro h; exact absurd (Finset.mem_range.2 hj) h
  · intro hl hn
    obtain ⟨R, eR, hR⟩ := scale0_isMat (· * ·) hA hl (hv _ hl)
    obtain ⟨d, ed, hd⟩ := diag0_isMat hl (hv _ hl)
    obtain ⟨S, eS, hS⟩ := mmult_isMat hd hA hn
    refine ⟨R, eR, ?_⟩
    rw [ed, Res.ok_bind, eS]
    congr 1
    refine IsMat.unique hS hR fun i j hi hj => ?_
    rw [Finset.sum_eq_single i]
    · simp [mul_comm]
    · intro l _ hl; simp [Ne.symm hl]
    · intro h; exact absurd (Finset.mem_range.2 hi) h

/-- C123: fold(A,0,B,0) = mmult(transpose(A),B), fold(A,-1,B,-1) = mmult(A,transpose(B)) and
foldc(A,0,B,0) = mmult(adjoint(A),B). -/
theorem c123_fold [CommSemiring α] (conj : α →+* α) (hc : ∀ x, conj (conj x) = x) (A B : Tensor α) (wfA : A.WF)
    (wfB : B.WF) (m n p : Nat) (hn : n ≠ 0) :
    (A.dims = [n, m] → B.dims = [n, p] →
      (∃ R, fold A 0 B 0 = .ok R ∧ (do let x ← transpose A; mmult x B) = .ok R) ∧
      ∃ R, foldc conj A 0 B 0 = .ok R ∧ (do let x ← adjoint conj A; mmult x B) = .ok R) ∧
    (A.dims = [m, n] → B.dims = [p, n] →
      ∃ R, fold A (-1) B (-1) = .ok R ∧ (do let x ← transpose B; mmult A x) = .ok R) := by
  refine ⟨fun hA hB => ?_, fun hA hB => ?_⟩
  · obtain ⟨f, hA⟩ := exists_isMat A wfA _ _ hA
    obtain ⟨g, hB⟩ := exists_isMat B wfB _ _ hB
    constructor
    · obtain ⟨R, eR, hR⟩ := fold00_isMat (RingHom.id α) (fun _ => rfl) false hA hB hn
      obtain ⟨x, ex, hx⟩ := transpose_isMat hA
      obtain ⟨S, eS, hS⟩ := mmult_isMat hx hB hn
      refine ⟨R, eR, ?_⟩
      rw [ex, Res.ok_bind, eS]
      congr 1
      exact IsMat.unique hS hR fun i j _ _ => by simp
    · obtain ⟨R, eR, hR⟩ := fold00_isMat conj hc true hA hB hn
      obtain ⟨x, ex, hx⟩ := adjoint_isMat conj hA
      obtain ⟨S, eS, hS⟩ := mmult_isMat hx hB hn
      refine ⟨R, eR, ?_⟩
      rw [ex, Res.ok_bind, eS]
      congr 1
      exact IsMat.unique hS hR fun i j _ _ => by simp
  · obtain ⟨f, hA⟩ := exists_isMat A wfA _ _ hA
    obtain ⟨g, hB⟩ := exists_isMat B wfB _ _ hB
    obtain ⟨R, eR, hR⟩ := fold11_isMat hA hB hn
    obtain ⟨x, ex, hx⟩ := transpose_isMat hB
    obtain ⟨S, eS, hS⟩ := mmult_isMat hA hx hn
    refine ⟨R, eR, ?_⟩
    rw [ex, Res.ok_bind, eS]
    congr 1
    exact IsMat.unique hS hR fun i j _ _ => rfl

/-- C123: the scalar product of two matrices is trace(mmult(adjoint(B),A)). -/
theorem c123_scprod [CommSemiring α] (conj : α →+* α) (A B : Tensor α) (wfA : A.WF) (wfB : B.WF) (m n : Nat)
    (hA : A.dims = [m, n]) (hB : B.dims = [m, n]) (hm : m ≠ 0) :
    ∃ s, scprod conj A B = .ok s ∧ (do let x ← adjoint conj B; let y ← mmult x A; trace y) = .ok s := by
  obtain ⟨f, hA⟩ := exists_isMat A wfA _ _ hA
  obtain ⟨g, hB⟩ := exists_isMat B wfB _ _ hB
  obtain ⟨x, ex, hx⟩ := adjoint_isMat conj hB
  obtain ⟨y, ey, hy⟩ := mmult_isMat hx hA hm
  have lA := hA.2.1
  have lB := hB.2.1
  refine ⟨_, c33_scprod conj A B (by rw [lA, lB]) (fun k => f (k % m) (k / m)) (fun k => g (k % m) (k / m)) ?_ ?_, ?_⟩
  · intro i hi
    rw [lA] at hi
    have := isMat_pos hA (i := i % m) (j := i / m) (Nat.mod_lt _ (by omega)) (Nat.div_lt_of_lt_mul hi)
    rwa [Nat.mod_add_div] at this
  · intro i hi
    rw [lA] at hi
    have := isMat_pos hB (i := i % m) (j := i / m) (Nat.mod_lt _ (by omega)) (Nat.div_lt_of_lt_mul hi)
    rwa [Nat.mod_add_div] at this
  · rw [ex, Res.ok_bind, ey, Res.ok_bind, trace_isMat hy, Nat.min_self, lA, sum_range_mul]
    congr 1
    refine Finset.sum_congr rfl fun j _ => Finset.sum_congr rfl fun i hi => ?_
    have hi := Finset.mem_range.1 hi
    rw [Nat.add_mul_mod_self_left, Nat.mod_eq_of_lt hi, Nat.add_mul_div_left _ _ (by omega),
      Nat.div_eq_of_lt hi, Nat.zero_add, mul_comm]

/-- Matrices that meet the hypotheses of the theorems of this file. -/
example : (⟨[2, 2], [1, 2, 3, 4]⟩ : Tensor Int).WF ∧ (⟨[2], [5, 7]⟩ : Tensor Int).data.length = 2 := by decide

example : scale (· * ·) (⟨[2, 2], [1, 2, 3, 4]⟩ : Tensor Int) (-1) (⟨[2], [5, 7]⟩ : Tensor Int) =
    .ok ⟨[2, 2], [5, 10, 21, 28]⟩ := by decide

example : scale (· * ·) (⟨[2, 2], [1, 2, 3, 4]⟩ : Tensor Int) 0 (⟨[2], [5, 7]⟩ : Tensor Int) =
    .ok ⟨[2, 2], [5, 14, 15, 28]⟩ := by decide

/-- The hypotheses of c123_fold: conjugation of the complex numbers. -/
example : ∃ R, foldc (starRingEnd ℂ) ⟨[1, 1], [Complex.I]⟩ 0 ⟨[1, 1], [Complex.I]⟩ 0 = .ok R ∧
    (do let x ← adjoint (starRingEnd ℂ) ⟨[1, 1], [Complex.I]⟩; mmult x ⟨[1, 1], [Complex.I]⟩) = .ok R :=
  ((c123_fold (starRingEnd ℂ) (fun x => by simp) ⟨[1, 1], [Complex.I]⟩ ⟨[1, 1], [Complex.I]⟩ rfl rfl 1 1 1 (by decide)).1 rfl rfl).2

end Verif.Tensor
