import Verif.Lemmas.Trace
/-
Lemmas for Kronecker products.
-/
namespace Verif.Tensor

open Verif Spec

variable {α : Type}

theorem kronSteps_get {iL jL kL lL i j k l : Nat} (hi : i < iL) (hj : j < jL) (hk : k < kL)
    (hl : l < lL) :
    (kronSteps iL jL kL lL)[i + iL * (j + jL * (k + kL * l))]? = some (j + jL * l, i + iL * k) := by
  have l1 : ∀ pb2 pa : Nat, (loop iL 1 pa fun pa2 => [(pb2, pa2)]).length = iL := by
    intro pb2 pa; simp [length_loop iL 1 pa 1]
  have l2 : ∀ pb pa, (loop jL 1 pb fun pb2 => loop iL 1 pa fun pa2 => [(pb2, pa2)]).length =
      iL * jL := by
    intro pb pa; rw [length_loop jL 1 pb iL]; intro p; exact l1 p pa
  have l3 : ∀ pb, (loop kL iL 0 fun pa => loop jL 1 pb fun pb2 => loop iL 1 pa fun pa2 =>
      [(pb2, pa2)]).length = iL * jL * kL := by
    intro pb; rw [length_loop kL iL 0 (iL * jL)]; intro p; exact l2 pb p
  have hij : i + iL * j < iL * jL := pos_lt' hi hj
  have hijk : i + iL * j + iL * jL * k < iL * jL * kL := pos_lt' hij hk
  rw [show i + iL * (j + jL * (k + kL * l)) = (i + iL * j + iL * jL * k) + iL * jL * kL * l by ring,
    kronSteps, getElem?_loop lL jL 0 _ _ l3 _ _ hijk hl,
    getElem?_loop kL iL 0 _ _ (fun p => l2 _ p) _ _ hij hk,
    getElem?_loop jL 1 _ _ _ (fun p => l1 p _) _ _ hi hj]
  have := getElem?_loop iL 1 (0 + k * iL) 1 (fun pa2 => [(0 + l * jL + j * 1, pa2)]) (by simp) 0 i
    (by simp) hi
  simp only [Nat.zero_add, Nat.one_mul, Nat.mul_one] at this
  simp only [Nat.zero_add, Nat.mul_one]
  rw [this]
  simp only [List.getElem?_cons_zero]
  congr 2 <;> ring

theorem kronSteps_length (iL jL kL lL : Nat) :
    (kronSteps iL jL kL lL).length = iL * jL * kL * lL := by
  have l1 : ∀ pb2 pa : Nat, (loop iL 1 pa fun pa2 => [(pb2, pa2)]).length = iL := by
    intro pb2 pa; simp [length_loop iL 1 pa 1]
  have l2 : ∀ pb pa, (loop jL 1 pb fun pb2 => loop iL 1 pa fun pa2 => [(pb2, pa2)]).length =
      iL * jL := by
    intro pb pa; rw [length_loop jL 1 pb iL]; intro p; exact l1 p pa
  have l3 : ∀ pb, (loop kL iL 0 fun pa => loop jL 1 pb fun pb2 => loop iL 1 pa fun pa2 =>
      [(pb2, pa2)]).length = iL * jL * kL := by
    intro pb; rw [length_loop kL iL 0 (iL * jL)]; intro p; exact l2 pb p
  rw [kronSteps, length_loop lL jL 0 (iL * jL * kL)]
  exact l3

/-- Entries of the Kronecker product in the order of the code. -/
def kronF [Mul α] (ia ka : Nat) (fb fa : Nat → Nat → α) (x y : Nat) : α :=
  fb (x / ia) (y / ka) * fa (x % ia) (y % ka)

theorem isMat_pos {t : Tensor α} {r c : Nat} {f : Nat → Nat → α} (h : IsMat t.dims t.data r c f)
    {i j : Nat} (hi : i < r) (hj : j < c) : t.data[i + r * j]? = some (f i j) := by
  have := h.2.2 i j hi hj
  rw [elem, if_pos (by rw [h.1]; exact ⟨hi, hj, trivial⟩), h.1] at this
  simpa using this

theorem kronMat_isMat [Mul α] {b a : Tensor α} {jb lb ia ka : Nat} {fb fa : Nat → Nat → α}
    (hb : IsMat b.dims b.data jb lb fb) (ha : IsMat a.dims a.data ia ka fa) :
    ∃ c, kronMat b a = .ok c ∧ IsMat c.dims c.data (ia * jb) (ka * lb) (kronF ia ka fb fa) := by
  have a0 := dimension_nat a 0 ia (by rw [ha.1]; rfl)
  have a1 := dimension_nat a 1 ka (by rw [ha.1]; rfl)
  have b0 := dimension_nat b 0 jb (by rw [hb.1]; rfl)
  have b1 := dimension_nat b 1 lb (by rw [hb.1]; rfl)
  simp only [Nat.cast_zero, Nat.cast_one] at a0 a1 b0 b1
  simp only [kronMat, a0, a1, b0, b1, Res.ok_bind]
  by_cases h0 : ia * jb = 0 ∨ ka * lb = 0
  · rw [if_pos h0]
    have hz : totalSize [ia * jb, ka * lb] = 0 := by
      simp only [totalSize_cons, prod_cons, prod_nil, Nat.mul_one]
      rcases h0 with h | h <;> rw [h] <;> simp
    rw [hz, runWrites_zero]
    refine ⟨⟨[ia * jb, ka * lb], []⟩, rfl, rfl, ?_, ?_⟩
    · rcases h0 with h | h <;> rw [h] <;> simp
    · intro i j hi hj
      rcases h0 with h | h
      · rw [h] at hi; omega
      · rw [h] at hj; omega
  · rw [if_neg h0]
    have hia : 0 < ia := Nat.pos_of_ne_zero fun e => h0 (by simp [e])
    have hka : 0 < ka := Nat.pos_of_ne_zero fun e => h0 (by simp [e])
    have hjb : 0 < jb := Nat.pos_of_ne_zero fun e => h0 (by simp [e])
    let l : List α := (List.range (ia * jb * ka * lb)).map fun p =>
      kronF ia ka fb fa (p % (ia * jb)) (p / (ia * jb))
    have hl : l.length = ia * jb * ka * lb := by simp [l]
    have hvals : ∀ p < ia * jb * ka * lb, ∃ i j k m, i < ia ∧ j < jb ∧ k < ka ∧ m < lb ∧
        p = i + ia * (j + jb * (k + ka * m)) := fun p hp => pos_decomp ia jb ka lb p hp
    have hget : ∀ i j k m, i < ia → j < jb → k < ka → m < lb →
        l[i + ia * (j + jb * (k + ka * m))]? = some (fb j m * fa i k) := by
      intro i j k m hi hj hk hm
      have hlt := pos_lt hi hj hk hm
      have e1 : i + ia * (j + jb * (k + ka * m)) = (i + ia * j) + (ia * jb) * (k + ka * m) := by ring
      have hij : i + ia * j < ia * jb := pos_lt' hi hj
      simp only [l, List.getElem?_map, List.getElem?_range hlt, Option.map_some]
      rw [e1, Nat.add_mul_mod_self_left, Nat.mod_eq_of_lt hij,
        Nat.add_mul_div_left _ _ (by positivity), Nat.div_eq_of_lt hij, Nat.zero_add]
      simp only [kronF]
      rw [Nat.add_mul_mod_self_left, Nat.mod_eq_of_lt hi, Nat.add_mul_div_left _ _ hia,
        Nat.div_eq_of_lt hi, Nat.zero_add, Nat.add_mul_mod_self_left, Nat.mod_eq_of_lt hk,
        Nat.add_mul_div_left _ _ hka, Nat.div_eq_of_lt hk, Nat.zero_add]
    rw [runWrites_seq' _ _ l]
    · refine ⟨⟨[ia * jb, ka * lb], l⟩, rfl, rfl, by rw [hl]; ring, ?_⟩
      intro x y hx hy
      have hxp : x + (ia * jb) * y < ia * jb * ka * lb := by
        have := pos_lt' hx hy
        linarith [this]
      simp only [elem, if_pos (show InB [x, y] [ia * jb, ka * lb] from ⟨hx, hy, trivial⟩),
        colPos_cons, colPos_nil, Nat.mul_zero, Nat.add_zero]
      simp only [l, List.getElem?_map, List.getElem?_range hxp, Option.map_some]
      rw [Nat.add_mul_mod_self_left, Nat.mod_eq_of_lt hx, Nat.add_mul_div_left _ _ (by positivity),
        Nat.div_eq_of_lt hx, Nat.zero_add]
    · apply List.ext_getElem?
      intro p
      by_cases hp : p < ia * jb * ka * lb
      · obtain ⟨i, j, k, m, hi, hj, hk, hm, rfl⟩ := hvals p hp
        rw [List.getElem?_map, List.getElem?_map, kronSteps_get hi hj hk hm, hget i j k m hi hj hk hm]
        simp only [Option.map_some, isMat_pos hb hj hm, isMat_pos ha hi hk]
        rfl
      · rw [List.getElem?_eq_none (by rw [List.length_map, kronSteps_length]; omega),
          List.getElem?_eq_none (by rw [List.length_map, hl]; omega)]
    · rw [hl]; simp; ring

theorem kron_isMat [Mul α] {b a : Tensor α} {jb lb ia ka : Nat} {fb fa : Nat → Nat → α}
    (hb : IsMat b.dims b.data jb lb fb) (ha : IsMat a.dims a.data ia ka fa) :
    ∃ c, kron b a = .ok c ∧ IsMat c.dims c.data (ia * jb) (ka * lb) (kronF ia ka fb fa) := by
  have ra : a.rank = 2 := by simp [rank, ha.1]
  have rb : b.rank = 2 := by simp [rank, hb.1]
  obtain ⟨c, e, h⟩ := kronMat_isMat hb ha
  refine ⟨c, ?_, h⟩
  rw [kron, ra, rb, Res.assert_pos rfl, Res.ok_bind, Res.assert_pos (by omega), Res.ok_bind,
    if_neg (by omega), e]

/-- A vector as a matrix of one column. -/
theorem vec_isMat {v : Tensor α} (wf : v.WF) {n : Nat} (hd : v.dims = [n]) (g : Nat → α)
    (hg : ∀ i < n, v.data[i]? = some (g i)) :
    ∃ m, v.reshape [v.size, 1] = .ok m ∧ m.data = v.data ∧
      IsMat m.dims m.data n 1 fun i _ => g i := by
  have hl : v.data.length = n := by rw [wf.length_eq (by simp [hd]), hd]; simp
  refine ⟨⟨[v.size, 1], v.data⟩, ?_, rfl, by simp [size, hl], by simp [hl], ?_⟩
  · rw [reshape, Res.assert_pos (by simp [size]), Res.ok_bind]; rfl
  · intro i j hi hj
    have hj0 : j = 0 := by omega
    subst hj0
    simp only [elem, size, hl]
    rw [if_pos ⟨hi, by omega, trivial⟩]
    simpa using hg i hi

theorem kron_vec [Mul α] {b a : Tensor α} (wfb : b.WF) (wfa : a.WF) {n m : Nat} (hb : b.dims = [n])
    (ha : a.dims = [m]) (fb fa : Nat → α) (hfb : ∀ i < n, b.data[i]? = some (fb i))
    (hfa : ∀ i < m, a.data[i]? = some (fa i)) :
    ∃ c, kron b a = .ok c ∧ c.dims = [m * n] ∧ c.WF ∧
      ∀ x < m * n, c.data[x]? = some (fb (x / m) * fa (x % m)) := by
  have la : a.data.length = m := by rw [wfa.length_eq (by simp [ha]), ha]; simp
  have lb : b.data.length = n := by rw [wfb.length_eq (by simp [hb]), hb]; simp
  obtain ⟨b', eb, -, hb'⟩ := vec_isMat wfb hb fb hfb
  obtain ⟨a', ea, -, ha'⟩ := vec_isMat wfa ha fa hfa
  obtain ⟨c, ec, hc⟩ := kronMat_isMat hb' ha'
  have ra : a.rank = 1 := by simp [rank, ha]
  have rb : b.rank = 1 := by simp [rank, hb]
  have hlc : c.data.length = m * n := by rw [hc.2.1]; simp
  refine ⟨⟨[m * n], c.data⟩, ?_, rfl, ?_, ?_⟩
  · rw [kron, ra, rb, Res.assert_pos rfl, Res.ok_bind, Res.assert_pos (by omega), Res.ok_bind,
      if_pos rfl, eb, Res.ok_bind, ea, Res.ok_bind, ec, Res.ok_bind, reshape,
      Res.assert_pos (by simp [size, la, lb, hlc]), Res.ok_bind]
    simp [size, la, lb]
  · show c.data.length = _
    simp [hlc]
  · intro x hx
    have := isMat_pos hc (i := x) (j := 0) hx (by omega)
    simpa [kronF] using this

end Verif.Tensor
