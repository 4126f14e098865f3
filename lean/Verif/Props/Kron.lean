import Verif.Lemmas.Kron
/-
C28: Kronecker products.
-/
namespace Verif.Tensor

open Verif Spec

variable {α : Type}

theorem kronF_pos [Mul α] {ia ka i j k l : Nat} (fb fa : Nat → Nat → α) (hi : i < ia) (hk : k < ka) :
    kronF ia ka fb fa (i + ia * j) (k + ka * l) = fb j l * fa i k := by
  simp only [kronF]
  rw [Nat.add_mul_mod_self_left, Nat.mod_eq_of_lt hi, Nat.add_mul_div_left _ _ (by omega),
    Nat.div_eq_of_lt hi, Nat.add_mul_mod_self_left, Nat.mod_eq_of_lt hk,
    Nat.add_mul_div_left _ _ (by omega), Nat.div_eq_of_lt hk, Nat.zero_add, Nat.zero_add]

/-- C28: entries of kron(A,B), for A a j_len x l_len matrix and B an i_len x k_len one. (Every entry
of the result is one of these, c28_covers.) -/
theorem c28_kron [Mul α] (A B : Tensor α) (iLen jLen kLen lLen : Nat) (fA fB : Nat → Nat → α)
    (hA : IsMat A.dims A.data jLen lLen fA) (hB : IsMat B.dims B.data iLen kLen fB) :
    ∃ C, kron A B = .ok C ∧ C.WF ∧ C.dims = [iLen * jLen, kLen * lLen] ∧
      ∀ i j k l, i < iLen → j < jLen → k < kLen → l < lLen →
        elem C.dims C.data [i + iLen * j, k + kLen * l] = some (fA j l * fB i k) := by
  obtain ⟨C, e, h⟩ := kron_isMat hA hB
  refine ⟨C, e, IsMat.wf h, h.1, ?_⟩
  intro i j k l hi hj hk hl
  rw [h.2.2 _ _ (pos_lt' hi hj) (pos_lt' hk hl), kronF_pos _ _ hi hk]

/-- The indices `i + i_len*j` with i < i_len and j < j_len are the numbers below i_len*j_len, each
of them once. -/
theorem c28_covers (iLen jLen x : Nat) (hx : x < iLen * jLen) :
    ∃! p : Nat × Nat, p.1 < iLen ∧ p.2 < jLen ∧ x = p.1 + iLen * p.2 := by
  have hi : 0 < iLen := by
    rcases Nat.eq_zero_or_pos iLen with h | h
    · rw [h] at hx; simp at hx
    · exact h
  refine ⟨(x % iLen, x / iLen), ⟨Nat.mod_lt _ hi, Nat.div_lt_of_lt_mul hx, (Nat.mod_add_div x iLen).symm⟩, ?_⟩
  rintro ⟨i, j⟩ ⟨h1, h2, h3⟩
  simp only at h1 h2 h3
  subst h3
  rw [Nat.add_mul_mod_self_left, Nat.mod_eq_of_lt h1, Nat.add_mul_div_left _ _ hi,
    Nat.div_eq_of_lt h1, Nat.zero_add]

/-- C28: entries of kron(a,b) for two vectors. -/
theorem c28_kron_vectors [Mul α] (a b : Tensor α) (wfa : a.WF) (wfb : b.WF) (n m : Nat)
    (ha : a.dims = [n]) (hb : b.dims = [m]) :
    ∃ c, kron a b = .ok c ∧ c.WF ∧ c.dims = [m * n] ∧
      ∀ i j x y, b.data[i]? = some x → a.data[j]? = some y →
        c.data[i + m * j]? = some (y * x) := by
  have la : a.data.length = n := by rw [wfa.length_eq (by simp [ha]), ha]; simp
  have lb : b.data.length = m := by rw [wfb.length_eq (by simp [hb]), hb]; simp
  rcases Nat.eq_zero_or_pos n with hn | hn
  · subst hn
    have : a = ⟨[0], []⟩ := by
      obtain ⟨d, t⟩ := a
      simp only at ha la
      rw [ha, List.length_eq_zero_iff.mp la]
    subst this
    rcases Nat.eq_zero_or_pos m with hm | hm
    · subst hm
      have : b = ⟨[0], []⟩ := by
        obtain ⟨d, t⟩ := b
        simp only at hb lb
        rw [hb, List.length_eq_zero_iff.mp lb]
      subst this
      exact ⟨⟨[0], []⟩, rfl, rfl, rfl, by simp⟩
    · obtain ⟨c, e, hd, wf, hg⟩ := kron_vec wfa wfb ha hb (fun i => b.data[0]'(by omega))
        (fun i => b.data[i]?.getD (b.data[0]'(by omega))) (by simp) (fun i hi => by
          rw [List.getElem?_eq_getElem (by omega)]; simp)
      exact ⟨c, e, wf, hd, by simp⟩
  · rcases Nat.eq_zero_or_pos m with hm | hm
    · subst hm
      have : b = ⟨[0], []⟩ := by
        obtain ⟨d, t⟩ := b
        simp only at hb lb
        rw [hb, List.length_eq_zero_iff.mp lb]
      subst this
      obtain ⟨c, e, hd, wf, hg⟩ := kron_vec wfa wfb ha hb
        (fun i => a.data[i]?.getD (a.data[0]'(by omega)))
        (fun i => a.data[0]'(by omega)) (fun i hi => by
          rw [List.getElem?_eq_getElem (by omega)]; simp) (by simp)
      exact ⟨c, e, wf, hd, by simp⟩
    · obtain ⟨c, e, hd, wf, hg⟩ := kron_vec wfa wfb ha hb
        (fun i => a.data[i]?.getD (a.data[0]'(by omega)))
        (fun i => b.data[i]?.getD (b.data[0]'(by omega))) (fun i hi => by
          rw [List.getElem?_eq_getElem (by omega)]; simp)
        (fun i hi => by rw [List.getElem?_eq_getElem (by omega)]; simp)
      refine ⟨c, e, wf, hd, ?_⟩
      intro i j x y hx hy
      have hi : i < m := by rw [← lb]; exact (List.getElem?_eq_some_iff.mp hx).1
      have hj : j < n := by rw [← la]; exact (List.getElem?_eq_some_iff.mp hy).1
      rw [hg _ (pos_lt' hi hj), Nat.add_mul_mod_self_left, Nat.mod_eq_of_lt hi,
        Nat.add_mul_div_left _ _ hm, Nat.div_eq_of_lt hi, Nat.zero_add, hx, hy]
      rfl

/-- C28: tensors of different ranks, or with more than two indices, stop the program. -/
theorem c28_kron_rank [Mul α] (a b : Tensor α)
    (h : a.dims.length ≠ b.dims.length ∨ 2 < a.dims.length) : kron a b = .abort := by
  rw [kron, Res.assert_bind]
  by_cases h1 : a.rank = b.rank
  · rw [if_pos h1, Res.assert_bind, if_neg]
    rcases h with h | h
    · exact absurd h1 h
    · exact Nat.not_le.mpr h
  · rw [if_neg h1]

/-- C28: entries of kron2(A,B), and kron2(A,B) = kron(B,A). -/
theorem c28_kron2 [Mul α] (A B : Tensor α) :
    kron2 A B = kron B A ∧
    ∀ (iLen jLen kLen lLen : Nat) (fA fB : Nat → Nat → α),
      IsMat A.dims A.data iLen kLen fA → IsMat B.dims B.data jLen lLen fB →
      ∃ C, kron2 A B = .ok C ∧ C.dims = [iLen * jLen, kLen * lLen] ∧
      ∀ i j k l, i < iLen → j < jLen → k < kLen → l < lLen →
        elem C.dims C.data [i + iLen * j, k + kLen * l] = some (fB j l * fA i k) := by
  refine ⟨rfl, ?_⟩
  intro iLen jLen kLen lLen fA fB hA hB
  obtain ⟨C, e, -, hd, h⟩ := c28_kron B A iLen jLen kLen lLen fB fA hB hA
  exact ⟨C, e, hd, h⟩

/-- C28: mixed product law. -/
theorem c28_mixed_product [CommSemiring α] (A B C D : Tensor α) (wfA : A.WF) (wfB : B.WF)
    (wfC : C.WF) (wfD : D.WF) (a1 a2 a3 b1 b2 b3 : Nat) (hA : A.dims = [a1, a2])
    (hC : C.dims = [a2, a3]) (hB : B.dims = [b1, b2]) (hD : D.dims = [b2, b3]) (ha : a2 ≠ 0)
    (hb : b2 ≠ 0) :
    ∃ R, (do let x ← kron A B; let y ← kron C D; mmult x y) = .ok R ∧
      (do let x ← mmult A C; let y ← mmult B D; kron x y) = .ok R := by
  obtain ⟨fA, hA⟩ := exists_isMat A wfA _ _ hA
  obtain ⟨fB, hB⟩ := exists_isMat B wfB _ _ hB
  obtain ⟨fC, hC⟩ := exists_isMat C wfC _ _ hC
  obtain ⟨fD, hD⟩ := exists_isMat D wfD _ _ hD
  obtain ⟨x, ex, hx⟩ := kron_isMat hA hB
  obtain ⟨y, ey, hy⟩ := kron_isMat hC hD
  obtain ⟨R, eR, hR⟩ := mmult_isMat hx hy (Nat.mul_ne_zero hb ha)
  obtain ⟨u, eu, hu⟩ := mmult_isMat hA hC ha
  obtain ⟨v, ev, hv⟩ := mmult_isMat hB hD hb
  obtain ⟨S, eS, hS⟩ := kron_isMat hu hv
  refine ⟨R, by simp only [ex, ey, Res.ok_bind, eR], ?_⟩
  simp only [eu, ev, Res.ok_bind, eS]
  congr 1
  refine IsMat.unique hS hR ?_
  intro i k _ _
  rw [sum_range_mul]
  simp only [kronF]
  rw [Finset.sum_mul_sum]
  apply Finset.sum_congr rfl
  intro j _
  apply Finset.sum_congr rfl
  intro l hl
  have hl := Finset.mem_range.mp hl
  rw [Nat.add_mul_mod_self_left, Nat.mod_eq_of_lt hl, Nat.add_mul_div_left _ _ (by omega),
    Nat.div_eq_of_lt hl, Nat.zero_add]
  ring

/-- What kron2_sum(A,B) computes for two square matrices: kron2(B,1) + kron2(1,A). (The property
C28 says kron2(A,1) + kron2(1,B), so this is the result for the exchanged arguments.) -/
theorem c28_kron2_sum_partial [CommSemiring α] (A B : Tensor α) (n m : Nat) (fA fB : Nat → Nat → α)
    (hA : IsMat A.dims A.data n n fA) (hB : IsMat B.dims B.data m m fB) :
    ∃ C, kron2Sum A B = .ok C ∧ C.WF ∧ C.dims = [m * n, m * n] ∧
      ∀ i j k l, i < m → j < n → k < m → l < n →
        elem C.dims C.data [i + m * j, k + m * l] =
          some ((if j = l then fB i k else 0) + if i = k then fA j l else 0) := by
  obtain ⟨e1, he1, h1⟩ := eye_isMat (α := α) n n
  obtain ⟨e2, he2, h2⟩ := eye_isMat (α := α) m m
  obtain ⟨x, ex, hx⟩ := kron_isMat h1 hB
  obtain ⟨y, ey, hy⟩ := kron_isMat hA h2
  obtain ⟨C, eC, hC⟩ := binop_isMat (· + ·) hx hy
  refine ⟨C, ?_, IsMat.wf hC, hC.1, ?_⟩
  · rw [kron2Sum, doKron2Sum, Res.assert_pos (by simp [rank, hA.1, hB.1]), Res.ok_bind,
      Res.assert_pos (by simp [rank, hB.1]), Res.ok_bind, if_neg (by simp [rank, hB.1])]
    simp only [hA.1, hB.1, he1, he2, Res.ok_bind, ex, ey, eC]
  · intro i j k l hi hj hk hl
    rw [hC.2.2 _ _ (pos_lt' hi hj) (pos_lt' hk hl)]
    simp only
    rw [kronF_pos _ _ hi hk, kronF_pos _ _ hi hk]
    congr 1
    by_cases h1 : j = l <;> by_cases h2 : i = k <;> simp [h1, h2]

/-- C28: the sum of the property, kron2(A,1) + kron2(1,B), for square matrices; kron2_sum(B,A)
computes it. -/
theorem c28_kron2_sum_exchanged_partial [CommSemiring α] (A B : Tensor α) (n m : Nat) (wfA : A.WF)
    (wfB : B.WF) (hA : A.dims = [n, n]) (hB : B.dims = [m, m]) :
    ∃ C, (do
        let e ← eye m m
        let x ← kron2 A e
        let e ← eye n n
        let y ← kron2 e B
        binopTT (· + ·) x y) = .ok C ∧
      kron2Sum B A = .ok C := by
  obtain ⟨fA, hA⟩ := exists_isMat A wfA _ _ hA
  obtain ⟨fB, hB⟩ := exists_isMat B wfB _ _ hB
  obtain ⟨e1, he1, h1⟩ := eye_isMat (α := α) n n
  obtain ⟨e2, he2, h2⟩ := eye_isMat (α := α) m m
  obtain ⟨x, ex, hx⟩ := kron_isMat h2 hA
  obtain ⟨y, ey, hy⟩ := kron_isMat hB h1
  obtain ⟨C, eC, hC⟩ := binop_isMat (· + ·) hx hy
  refine ⟨C, by simp only [kron2, he1, he2, Res.ok_bind, ex, ey, eC], ?_⟩
  rw [kron2Sum, doKron2Sum, Res.assert_pos (by simp [rank, hA.1, hB.1]), Res.ok_bind,
      Res.assert_pos (by simp [rank, hA.1]), Res.ok_bind, if_neg (by simp [rank, hA.1])]
  simp only [hA.1, hB.1, he1, he2, Res.ok_bind, ex, ey, eC]

/-- kron2(A,1) + kron2(1,B) for A = diag(1,0), B = 0. -/
def c28_expected : Tensor Int :=
  ⟨[4, 4], [1, 0, 0, 0, 0, 0, 0, 0, 0, 0, 1, 0, 0, 0, 0, 0]⟩

/-- C28 is false for kron2_sum: its arguments are exchanged. -/
theorem c28_kron2_sum_wrong :
    ∃ A B : Tensor Int, A.WF ∧ B.WF ∧ A.dims = [2, 2] ∧ B.dims = [2, 2] ∧
      (do
        let e ← eye 2 2
        let x ← kron2 A e
        let y ← kron2 e B
        binopTT (· + ·) x y) = .ok c28_expected ∧
      kron2Sum A B ≠ .ok c28_expected :=
  ⟨⟨[2, 2], [1, 0, 0, 0]⟩, ⟨[2, 2], [0, 0, 0, 0]⟩, rfl, rfl, rfl, rfl, by decide, by decide⟩

/-- What kron2_sum(a,b) computes for two vectors: the element i + m*j is b(i) + a(j), where m is the
size of b. -/
theorem c28_kron2_sum_vectors_partial [CommSemiring α] (a b : Tensor α) (wfa : a.WF) (wfb : b.WF)
    (n m : Nat) (ha : a.dims = [n]) (hb : b.dims = [m]) :
    ∃ c, kron2Sum a b = .ok c ∧ c.WF ∧ c.dims = [m * n] ∧
      ∀ i j x y, b.data[i]? = some x → a.data[j]? = some y →
        c.data[i + m * j]? = some (x + y) := by
  have la : a.data.length = n := by rw [wfa.length_eq (by simp [ha]), ha]; simp
  have lb : b.data.length = m := by rw [wfb.length_eq (by simp [hb]), hb]; simp
  have ga : ∀ i < n, a.data[i]? = some (a.data[i]?.getD 0) := fun i hi => by
    rw [List.getElem?_eq_getElem (by omega)]; simp
  have gb : ∀ i < m, b.data[i]? = some (b.data[i]?.getD 0) := fun i hi => by
    rw [List.getElem?_eq_getElem (by omega)]; simp
  obtain ⟨a', ea, -, hma⟩ := vec_isMat wfa ha _ ga
  obtain ⟨b', eb, -, hmb⟩ := vec_isMat wfb hb _ gb
  have o1 := fill_isMat n 1 (1 : α)
  have o2 := fill_isMat m 1 (1 : α)
  obtain ⟨x, ex, hx⟩ := kron_isMat o1 hmb
  obtain ⟨y, ey, hy⟩ := kron_isMat hma o2
  obtain ⟨s, es, hs⟩ := binop_isMat (· + ·) hx hy
  have hls : s.data.length = m * n := by rw [hs.2.1]; simp
  refine ⟨⟨[m * n], s.data⟩, ?_, ?_, rfl, ?_⟩
  · rw [kron2Sum, doKron2Sum, Res.assert_pos (by simp [rank, ha, hb]), Res.ok_bind,
      Res.assert_pos (by simp [rank, hb]), Res.ok_bind, if_pos (by simp [rank, hb])]
    simp only [size, la, lb] at ea eb ⊢
    simp only [kron2, ea, eb, Res.ok_bind, ex, ey, es]
    rw [reshape, Res.assert_pos (by simp [size, hls]), Res.ok_bind]
    simp
  · show s.data.length = _
    simp [hls]
  · intro i j u v hu hv
    have hi : i < m := by rw [← lb]; exact (List.getElem?_eq_some_iff.mp hu).1
    have hj : j < n := by rw [← la]; exact (List.getElem?_eq_some_iff.mp hv).1
    have := isMat_pos hs (i := i + m * j) (j := 0) (pos_lt' hi hj) (by omega)
    have k1 := kronF_pos (i := i) (j := j) (k := 0) (l := 0) (ia := m) (ka := 1)
      (fun _ _ => (1 : α)) (fun i _ => b.data[i]?.getD 0) hi (by omega)
    have k2 := kronF_pos (i := i) (j := j) (k := 0) (l := 0) (ia := m) (ka := 1)
      (fun i _ => a.data[i]?.getD 0) (fun _ _ => (1 : α)) hi (by omega)
    simp only [Nat.mul_zero, Nat.add_zero] at this k1 k2
    rw [this, k1, k2, hu, hv]
    simp

/-- A case in which the hypotheses hold. -/
example : ∃ A B : Tensor Int, IsMat A.dims A.data 2 1 (fun i _ => i + 1) ∧
    IsMat B.dims B.data 1 2 (fun _ j => j + 3) ∧
    kron A B = .ok ⟨[2, 2], [3, 6, 4, 8]⟩ := by
  refine ⟨⟨[2, 1], [1, 2]⟩, ⟨[1, 2], [3, 4]⟩, ⟨rfl, rfl, ?_⟩, ⟨rfl, rfl, ?_⟩, by decide⟩
  · intro i j hi hj
    have : (i = 0 ∨ i = 1) ∧ j = 0 := by omega
    rcases this with ⟨rfl | rfl, rfl⟩ <;> rfl
  · intro i j hi hj
    have : (j = 0 ∨ j = 1) ∧ i = 0 := by omega
    rcases this with ⟨rfl | rfl, rfl⟩ <;> rfl

example : kron (⟨[2], [1, 2]⟩ : Tensor Int) ⟨[3], [3, 4, 5]⟩ = .ok ⟨[6], [3, 4, 5, 6, 8, 10]⟩ := by
  decide

example : kron2Sum (⟨[2], [1, 2]⟩ : Tensor Int) ⟨[3], [3, 4, 5]⟩ = .ok ⟨[6], [4, 5, 6, 5, 6, 7]⟩ := by
  decide

end Verif.Tensor
