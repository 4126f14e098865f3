import Mathlib.Algebra.BigOperators.Ring.Finset
import Verif.Props.SparseArith
/-
C38: Kronecker products of sparse matrices.
-/
namespace Verif.Sparse

open Verif Verif.Spec

variable {α β γ : Type}

theorem range'_map_list (row : List β) (a : Nat) (g : Nat → γ) (h : β → γ)
    (e : ∀ x p, row[x]? = some p → g (a + x) = h p) :
    (List.range' a row.length).map g = row.map h := by
  induction row generalizing a with
  | nil => rfl
  | cons p ps ih =>
    rw [List.length_cons, List.range'_succ, List.map_cons, List.map_cons, ih (a + 1)]
    · have := e 0 p (by simp)
      rw [Nat.add_zero] at this
      rw [this]
    · intro x q hq
      have := e (x + 1) q (by simpa using hq)
      rw [← this]; congr 1; omega

/-- Row of the Kronecker product. -/
def kronRowP [Mul α] (c1 : Nat) (row2 row1 : List (Nat × α)) : List (Nat × α) :=
  row2.flatMap fun q => row1.map fun p => (p.1 + c1 * q.1, p.2 * q.2)

theorem kronRow_ok [Mul α] {s2 s1 : Sparse α} {L2 L1 : List (List (Nat × α))} (h2 : HasRows s2 L2)
    (h1 : HasRows s1 L1) (l k : Nat) (row2 row1 : List (Nat × α)) (e2 : L2[l]? = some row2)
    (e1 : L1[k]? = some row1) :
    kronRow s2 s1 l k = .ok ((kronRowP s1.cols row2 row1).map some) := by
  obtain ⟨a2, x2, y2, g2⟩ := rows_get h2 l row2 e2
  obtain ⟨a1, x1, y1, g1⟩ := rows_get h1 k row1 e1
  rw [kronRow, x1, y1, x2, y2]
  simp only [Res.ofOption_some, Res.ok_bind, Res.pure_eq, Res.ok.injEq]
  rw [show a2 + row2.length - a2 = row2.length by omega, show a1 + row1.length - a1 = row1.length by omega,
    kronRowP, List.map_flatMap, List.flatMap_def, List.flatMap_def]
  congr 1
  apply range'_map_list
  intro x q hq
  rw [List.map_map]
  apply range'_map_list
  intro y p hp
  obtain ⟨u1, u2⟩ := g2 x q hq
  obtain ⟨w1, w2⟩ := g1 y p hp
  rw [u1, u2, w1, w2]
  rfl

theorem mem_kronRowP [Mul α] {c1 : Nat} {row2 row1 : List (Nat × α)} {r : Nat × α} :
    r ∈ kronRowP c1 row2 row1 ↔ ∃ q ∈ row2, ∃ p ∈ row1, (p.1 + c1 * q.1, p.2 * q.2) = r := by
  simp [kronRowP]

theorem kronRowP_ok [Mul α] {c1 c2 : Nat} {row2 row1 : List (Nat × α)} (h2 : RowOk c2 row2)
    (h1 : RowOk c1 row1) : RowOk (c1 * c2) (kronRowP c1 row2 row1) := by
  constructor
  · rw [kronRowP, List.map_flatMap, List.pairwise_flatMap]
    constructor
    · intro q _
      rw [List.map_map, List.pairwise_map]
      have := h1.1
      rw [List.pairwise_map] at this
      refine this.imp ?_
      intro a b hab
      show a.1 + c1 * q.1 < b.1 + c1 * q.1
      omega
    · have := h2.1
      rw [List.pairwise_map] at this
      refine this.imp ?_
      intro q q' hq x hx y hy
      simp only [List.map_map, List.mem_map, Function.comp_apply] at hx hy
      obtain ⟨p, hp, rfl⟩ := hx
      obtain ⟨p', hp', rfl⟩ := hy
      have b1 := h1.2 p hp
      have b2 : c1 * (q.1 + 1) ≤ c1 * q'.1 := Nat.mul_le_mul_left c1 hq
      rw [Nat.mul_add] at b2
      omega
  · intro r hr
    obtain ⟨q, hq, p, hp, rfl⟩ := mem_kronRowP.mp hr
    exact pos_lt' (h1.2 p hp) (h2.2 q hq)

theorem look_kronRowP [CommSemiring α] {c1 c2 : Nat} {row2 row1 : List (Nat × α)} (h2 : RowOk c2 row2)
    (h1 : RowOk c1 row1) (j d : Nat) (hj : j < c1) :
    look (kronRowP c1 row2 row1) (j + c1 * d) = look row2 d * look row1 j := by
  have hk := kronRowP_ok h2 h1
  by_cases e2 : ∃ y, (d, y) ∈ row2
  · obtain ⟨y, hy⟩ := e2
    by_cases e1 : ∃ x, (j, x) ∈ row1
    · obtain ⟨x, hx⟩ := e1
      rw [look_of_mem h2.1 hy, look_of_mem h1.1 hx, mul_comm y x]
      exact look_of_mem hk.1 (mem_kronRowP.mpr ⟨_, hy, _, hx, rfl⟩)
    · push Not at e1
      rw [look_of_not_mem e1, mul_zero]
      apply look_of_not_mem
      intro v hv
      obtain ⟨q, hq, p, hp, e⟩ := mem_kronRowP.mp hv
      simp only [Prod.mk.injEq] at e
      obtain ⟨rfl, -⟩ := pos_inj' (h1.2 p hp) hj e.1
      exact e1 p.2 hp
  · push Not at e2
    rw [look_of_not_mem e2, zero_mul]
    apply look_of_not_mem
    intro v hv
    obtain ⟨q, hq, p, hp, e⟩ := mem_kronRowP.mp hv
    simp only [Prod.mk.injEq] at e
    obtain ⟨-, rfl⟩ := pos_inj' (h1.2 p hp) hj e.1
    exact e2 q.2 hq

theorem flatten_grid (r1 r2 : Nat) (K : Nat → Nat → β) :
    ((List.range r2).map fun l => (List.range r1).map fun k => K l k).flatten =
      (List.range (r1 * r2)).map fun x => K (x / r1) (x % r1) := by
  induction r2 with
  | zero => simp
  | succ n ih =>
    rw [List.range_succ, List.map_append, List.flatten_append, ih, Nat.mul_add, Nat.mul_one,
      List.range_add, List.map_append, List.map_map]
    congr 1
    simp only [List.map_cons, List.map_nil, List.flatten_cons, List.flatten_nil, List.append_nil]
    apply List.map_congr_left
    intro k hk
    have hk := List.mem_range.mp hk
    have hr : 0 < r1 := by omega
    simp only [Function.comp_apply]
    rw [Nat.add_comm (r1 * n) k, Nat.add_mul_div_left _ _ hr, Nat.div_eq_of_lt hk, Nat.zero_add,
      Nat.add_mul_mod_self_left, Nat.mod_eq_of_lt hk]

theorem flatten_length (L : List (List β)) :
    L.flatten.length = ∑ k ∈ Finset.range L.length, (L.getD k []).length := by
  induction L using List.reverseRecOn with
  | nil => rfl
  | append_singleton L x ih =>
    rw [List.flatten_append, List.length_append, ih, List.length_append, List.length_singleton,
      Finset.sum_range_succ]
    congr 1
    · apply Finset.sum_congr rfl
      intro k hk
      have hk := Finset.mem_range.mp hk
      rw [List.getD_eq_getElem?_getD, List.getD_eq_getElem?_getD, List.getElem?_append_left hk]
    · rw [List.getD_eq_getElem?_getD, List.getElem?_append_right (le_refl _)]
      simp

theorem length_ok {s : Sparse α} {L : List (List (Nat × α))} (h : HasRows s L) :
    s.length = .ok L.flatten.length := by
  rw [length]
  split
  · rw [h.2.1, ← h.1, starts_get 0 L _ (le_refl _)]
    simp only [List.take_length, Nat.zero_add, Res.ofOption_some]
  · rename_i h0
    have : L = [] := List.eq_nil_of_length_eq_zero (by rw [h.1]; simpa using h0)
    rw [this]; rfl

/-- C38: entries of kron(A,B), in Matlab order. -/
theorem c38_kron [CommSemiring α] (A B : Sparse α) (rA cA rB cB : Nat) (f g : Nat → Nat → α)
    (hA : IsCsr A.rows A.cols A.rowStart A.column A.data rA cA f)
    (hB : IsCsr B.rows B.cols B.rowStart B.column B.data rB cB g) :
    ∃ s, kron A B = .ok s ∧
      IsCsr s.rows s.cols s.rowStart s.column s.data (rB * rA) (cB * cA)
        fun i j => f (i / rB) (j / cB) * g (i % rB) (j % cB) := by
  obtain ⟨L2, hL2, len2, ok2, v2⟩ := IsCsr_rows hA
  obtain ⟨L1, hL1, len1, ok1, v1⟩ := IsCsr_rows hB
  obtain ⟨ar, ac, -, -⟩ := hA
  obtain ⟨br, bc, -, -⟩ := hB
  have g2 : ∀ i < rA, L2[i]? = some (L2.getD i []) := fun i hi => by
    rw [List.getD_eq_getElem?_getD, List.getElem?_eq_getElem (by omega)]; rfl
  have g1 : ∀ i < rB, L1[i]? = some (L1.getD i []) := fun i hi => by
    rw [List.getD_eq_getElem?_getD, List.getElem?_eq_getElem (by omega)]; rfl
  rw [kron, length_ok hL1, length_ok hL2]
  simp only [Res.ok_bind, ar, ac, br, bc]
  have hdiv : ∀ i, i < rB * rA → i / rB < rA ∧ i % rB < rB := by
    intro i hi
    have : 0 < rB := Nat.pos_of_ne_zero (by rintro rfl; simp at hi)
    exact ⟨Nat.div_lt_of_lt_mul hi, Nat.mod_lt _ this⟩
  have hdivc : ∀ j, j < cB * cA → j / cB < cA ∧ j % cB < cB := by
    intro i hi
    have : 0 < cB := Nat.pos_of_ne_zero (by rintro rfl; simp at hi)
    exact ⟨Nat.div_lt_of_lt_mul hi, Nat.mod_lt _ this⟩
  by_cases h0 : L1.flatten.length * L2.flatten.length = 0
  · rw [if_pos h0]
    obtain ⟨z1, z2, z3, z4⟩ := zeros_isCsr (α := α) (rB * rA) (cB * cA)
    refine ⟨_, rfl, z1, z2, z3, ?_⟩
    intro i j hi hj
    obtain ⟨i1, i2⟩ := hdiv i hi
    obtain ⟨j1, j2⟩ := hdivc j hj
    have hz : f (i / rB) (j / cB) * g (i % rB) (j % cB) = 0 := by
      rcases Nat.mul_eq_zero.mp h0 with h | h
      · have : L1.getD (i % rB) [] = [] := by
          have hm := List.mem_of_getElem? (g1 _ i2)
          exact (List.flatten_eq_nil_iff.mp (List.eq_nil_of_length_eq_zero h)) _ hm
        rw [← v1 _ _ _ (g1 _ i2) j2, this, look_nil, mul_zero]
      · have : L2.getD (i / rB) [] = [] := by
          have hm := List.mem_of_getElem? (g2 _ i1)
          exact (List.flatten_eq_nil_iff.mp (List.eq_nil_of_length_eq_zero h)) _ hm
        rw [← v2 _ _ _ (g2 _ i1) j1, this, look_nil, zero_mul]
    simp only [hz]
    rcases z4 i j hi hj with h | h
    · exact Or.inl h
    · exact Or.inr ⟨trivial, h.2⟩
  · rw [if_neg h0]
    have hin : ∀ l, l < rA → collect (kronRow A B l) 0 rB =
        .ok ((List.range rB).map fun k => (kronRowP cB (L2.getD l []) (L1.getD k [])).map some) := by
      intro l hl
      rw [List.range_eq_range']
      apply collect_ok
      intro k _ hk
      rw [kronRow_ok hL2 hL1 l k _ _ (g2 l hl) (g1 k (by omega)), bc]
    have hout := collect_ok (fun l => collect (kronRow A B l) 0 rB)
      (fun l => (List.range rB).map fun k => (kronRowP cB (L2.getD l []) (L1.getD k [])).map some) 0 rA
      (fun l _ hl => hin l (by omega))
    rw [← List.range_eq_range'] at hout
    simp only [hout, Res.ok_bind]
    rw [flatten_grid rB rA fun l k => (kronRowP cB (L2.getD l []) (L1.getD k [])).map some]
    generalize hL : (List.range (rB * rA)).map
      (fun x => kronRowP cB (L2.getD (x / rB) []) (L1.getD (x % rB) [])) = L
    have hLs : ((List.range (rB * rA)).map
        fun x => (kronRowP cB (L2.getD (x / rB) []) (L1.getD (x % rB) [])).map some) =
        L.map fun row => row.map some := by
      rw [← hL, List.map_map]; rfl
    have hlen : L.length = rB * rA := by rw [← hL]; simp
    have hnnz : L1.flatten.length * L2.flatten.length = L.flatten.length := by
      rw [flatten_length L1, flatten_length L2, flatten_length L, len1, len2, hlen, sum_range_mul,
        Finset.sum_mul_sum, Finset.sum_comm]
      apply Finset.sum_congr rfl
      intro l hl
      apply Finset.sum_congr rfl
      intro k hk
      have hl := Finset.mem_range.mp hl
      have hk := Finset.mem_range.mp hk
      have hr : 0 < rB := by omega
      rw [← hL, List.getD_eq_getElem?_getD (l := List.map _ _), List.getElem?_map, List.getElem?_range (pos_lt' hk hl)]
      simp only [Option.map_some, Option.getD_some]
      rw [Nat.add_mul_div_left _ _ hr, Nat.div_eq_of_lt hk, Nat.zero_add,
        Nat.add_mul_mod_self_left, Nat.mod_eq_of_lt hk, kronRowP, List.length_flatMap]
      simp [Nat.mul_comm]
    have hends : rowEnds 0 (L.map fun row => row.map some) = rowEnds 0 L := by
      have : ∀ k, rowEnds k (L.map fun row => row.map some) = rowEnds k L := by
        clear hL hLs hlen hnnz
        intro k
        induction L generalizing k with
        | nil => rfl
        | cons row L ih => rw [List.map_cons, rowEnds, rowEnds, List.length_map, ih]
      exact this 0
    rw [hLs, ← List.map_flatten, hends, hnnz]
    rw [runWrites_seq' _ _ (L.flatten.map (·.2)) (by rw [List.map_map, List.map_map]; rfl)
        (by rw [List.length_map]),
      Res.ok_bind,
      runWrites_seq' _ _ (L.flatten.map (·.1)) (by rw [List.map_map, List.map_map]; rfl)
        (by rw [List.length_map]),
      Res.ok_bind, ← starts_eq, runWrites_seq' _ _ (starts 0 L) rfl (by rw [starts_length, hlen]),
      Res.ok_bind, make, Res.assert_pos (by rw [starts_length, hlen]), Res.ok_bind]
    have hrow : ∀ i row, L[i]? = some row →
        i < rB * rA ∧ row = kronRowP cB (L2.getD (i / rB) []) (L1.getD (i % rB) []) := by
      intro i row hi
      have hlt := (List.getElem?_eq_some_iff.mp hi).1
      rw [hlen] at hlt
      rw [← hL, List.getElem?_map, List.getElem?_range hlt] at hi
      exact ⟨hlt, (Option.some.inj hi).symm⟩
    refine ⟨_, rfl, isCsr_of_rows (L := L) ⟨hlen, rfl, rfl, rfl⟩ ?_ rfl rfl ?_⟩
    · intro row hm
      obtain ⟨i, hi⟩ := List.mem_iff_getElem?.mp hm
      obtain ⟨h1, rfl⟩ := hrow i row hi
      obtain ⟨i1, i2⟩ := hdiv i h1
      exact kronRowP_ok (ok2 _ (List.mem_of_getElem? (g2 _ i1))) (ok1 _ (List.mem_of_getElem? (g1 _ i2)))
    · intro i j row hi hj
      obtain ⟨h1, rfl⟩ := hrow i row hi
      obtain ⟨i1, i2⟩ := hdiv i h1
      obtain ⟨j1, j2⟩ := hdivc j hj
      have := look_kronRowP (ok2 _ (List.mem_of_getElem? (g2 _ i1))) (ok1 _ (List.mem_of_getElem? (g1 _ i2)))
        (j % cB) (j / cB) j2
      rw [Nat.mod_add_div] at this
      rw [this, v2 _ _ _ (g2 _ i1) j1, v1 _ _ _ (g1 _ i2) j2]

/-- C38: full(kron(A,B)) = kron(full(A),full(B)). -/
theorem c38_full_kron [CommSemiring α] (A B : Sparse α)
    (hA : ValidCsr A.rows A.cols A.rowStart A.column A.data)
    (hB : ValidCsr B.rows B.cols B.rowStart B.column B.data) :
    ∃ s fA fB fs, kron A B = .ok s ∧ full A = .ok fA ∧ full B = .ok fB ∧ full s = .ok fs ∧
      Tensor.kron fA fB = .ok fs := by
  obtain ⟨f, hf⟩ := exists_isCsr A hA
  obtain ⟨g, hg⟩ := exists_isCsr B hB
  obtain ⟨s, e, hs⟩ := c38_kron A B _ _ _ _ f g hf hg
  obtain ⟨fA, e1, m1⟩ := c35_full A _ _ f hf
  obtain ⟨fB, e2, m2⟩ := c35_full B _ _ g hg
  obtain ⟨fs, e3, m3⟩ := c35_full s _ _ _ hs
  obtain ⟨t, e4, m4⟩ := Tensor.kron_isMat m1 m2
  exact ⟨s, fA, fB, fs, e, e1, e2, e3, by rw [e4, IsMat.unique m4 m3 fun i j _ _ => rfl]⟩

/-- C38: full(kron2(A,B)) = kron2(full(A),full(B)). -/
theorem c38_full_kron2 [CommSemiring α] (A B : Sparse α)
    (hA : ValidCsr A.rows A.cols A.rowStart A.column A.data)
    (hB : ValidCsr B.rows B.cols B.rowStart B.column B.data) :
    ∃ s fA fB fs, kron2 A B = .ok s ∧ full A = .ok fA ∧ full B = .ok fB ∧ full s = .ok fs ∧
      Tensor.kron2 fA fB = .ok fs := by
  obtain ⟨s, fB, fA, fs, h⟩ := c38_full_kron B A hB hA
  exact ⟨s, fA, fB, fs, h.1, h.2.2.1, h.2.1, h.2.2.2.1, h.2.2.2.2⟩

/-- C38: kron2_sum(A,B) = kron2(A,1) + kron2(1,B) if the number of stored elements of each matrix happens
to be the number of its rows: the code uses the former in place of the latter. -/
theorem c38_kron2_sum_partial [CommSemiring α] [DecidableEq α] (A B : Sparse α) (n m : Nat)
    (f g : Nat → Nat → α)
    (hA : IsCsr A.rows A.cols A.rowStart A.column A.data n n f)
    (hB : IsCsr B.rows B.cols B.rowStart B.column B.data m m g)
    (nA : A.length = .ok n) (nB : B.length = .ok m) :
    ∃ s, kron2Sum A B = .ok s ∧
      IsCsr s.rows s.cols s.rowStart s.column s.data (n * m) (n * m) fun i j =>
        (if i / n = j / n then f (i % n) (j % n) else 0) +
          if i % n = j % n then g (i / n) (j / n) else 0 := by
  obtain ⟨e1, h1, k1⟩ := c36_eye (α := α) n n
  obtain ⟨e2, h2, k2⟩ := c36_eye (α := α) m m
  obtain ⟨x, ex, hx⟩ := c38_kron B e1 _ _ _ _ _ _ hB k1
  obtain ⟨y, ey, hy⟩ := c38_kron e2 A _ _ _ _ _ _ k2 hA
  obtain ⟨s, es, hs, -⟩ := c37_binop (· + ·) (add_zero 0) x y _ _ _ _ hx hy
  refine ⟨s, ?_, ?_⟩
  · simp only [kron2Sum, nA, nB, h1, h2, ex, ey, es, Res.ok_bind]
  · refine ⟨hs.1, hs.2.1, hs.2.2.1, ?_⟩
    intro i j hi hj
    have := hs.2.2.2 i j hi hj
    have e : (if i / n = j / n then f (i % n) (j % n) else 0) +
        (if i % n = j % n then g (i / n) (j / n) else 0) =
        g (i / n) (j / n) * (if i % n = j % n then 1 else 0) +
          (if i / n = j / n then 1 else 0) * f (i % n) (j % n) := by
      rw [add_comm]
      congr 1 <;> split <;> simp
    simp only [e]
    exact this

/-- C38 is false for kron2_sum: it stops the program if the number of stored elements is not the number
of rows. -/
theorem c38_kron2_sum_wrong [CommSemiring α] [DecidableEq α] (A B : Sparse α)
    (hA : ValidCsr A.rows A.cols A.rowStart A.column A.data)
    (hB : ValidCsr B.rows B.cols B.rowStart B.column B.data)
    (nA nB : Nat) (eA : A.length = .ok nA) (eB : B.length = .ok nB) (hne : nA * B.rows ≠ A.rows * nB) :
    kron2Sum A B = .abort := by
  obtain ⟨f, hf⟩ := exists_isCsr A hA
  obtain ⟨g, hg⟩ := exists_isCsr B hB
  obtain ⟨e1, h1, k1⟩ := c36_eye (α := α) nA nA
  obtain ⟨e2, h2, k2⟩ := c36_eye (α := α) nB nB
  obtain ⟨x, ex, hx⟩ := c38_kron B e1 _ _ _ _ _ _ hg k1
  obtain ⟨y, ey, hy⟩ := c38_kron e2 A _ _ _ _ _ _ k2 hf
  simp only [kron2Sum, eA, eB, h1, h2, ex, ey, Res.ok_bind]
  apply c37_mismatch
  left
  rw [hx.1, hy.1]
  exact hne

/-- Cases in which the hypotheses hold: [[1,2],[0,3]] has three stored elements and two rows. -/
example : (⟨2, 2, [0, 2, 3], [0, 1, 1], [1, 2, 3]⟩ : Sparse Int).length = .ok 3 := rfl
example : kron2Sum (⟨2, 2, [0, 2, 3], [0, 1, 1], [1, 2, 3]⟩ : Sparse Int)
    ⟨2, 2, [0, 1, 2], [0, 1], [1, 1]⟩ = .abort := by decide
example : (kron2Sum (⟨1, 1, [0, 1], [0], [7]⟩ : Sparse Int) ⟨2, 2, [0, 1, 2], [1, 0], [5, 6]⟩).isOk = true := by
  decide

end Verif.Sparse
