import Verif.Props.FloatLaws
import Verif.Props.CFloat
/-
C138 for complex tensors.
-/
namespace Verif.FlLaws

open Verif Verif.Spec Fl Rounding Tensor CFl

theorem czipWith_comm {f : CFl → CFl → CFl} {l l' : List CFl}
    (h : ∀ (i : ℕ) x y, l[i]? = some x → l'[i]? = some y → f x y = f y x) : List.zipWith f l l' = List.zipWith f l' l := by
  apply List.ext_getElem?
  intro i
  rw [List.getElem?_zipWith, List.getElem?_zipWith]
  cases e : l[i]? with
  | none => cases e' : l'[i]? <;> rfl
  | some x =>
    cases e' : l'[i]? with
    | none => rfl
    | some y => exact congrArg some (h i x y e e')

section
variable [Rounding]

/-- C138: a + b is b + a for complex tensors, and its parts are the sums of the parts, to the last bit. -/
theorem c138_complex_add (a b : Tensor CFl) (wa : a.WF) (wb : b.WF) (h : a.dims = b.dims) :
    ∃ c, binopTT (· + ·) a b = .ok c ∧ binopTT (· + ·) b a = .ok c ∧
      (∃ ra rb rc, unop CFl.re a = .ok ra ∧ unop CFl.re b = .ok rb ∧ unop CFl.re c = .ok rc ∧
        binopTT (· + ·) ra rb = .ok rc) ∧
      (∃ ia ib ic, unop CFl.im a = .ok ia ∧ unop CFl.im b = .ok ib ∧ unop CFl.im c = .ok ic ∧
        binopTT (· + ·) ia ib = .ok ic) := by
  have hl : a.data.length = b.data.length := by
    rw [show a.data.length = totalSize a.dims from wa, h]; exact wb.symm
  have wc : (⟨a.dims, List.zipWith (· + ·) a.data b.data⟩ : Tensor CFl).WF := by
    show (List.zipWith _ _ _).length = _
    rw [List.length_zipWith, ← hl, min_self]; exact wa
  have wm : ∀ f : CFl → Fl, (⟨a.dims, a.data.map f⟩ : Tensor Fl).WF := fun f => by
    show (a.data.map f).length = _
    rw [List.length_map]; exact wa
  refine ⟨_, binopTT_ok _ a b wa hl, ?_, ⟨_, _, _, unop_ok _ a wa, unop_ok _ b wb, unop_ok _ _ wc, ?_⟩,
    ⟨_, _, _, unop_ok _ a wa, unop_ok _ b wb, unop_ok _ _ wc, ?_⟩⟩
  · rw [binopTT_ok _ b a wb hl.symm, h, czipWith_comm]
    intro i x y _ _
    exact congrArg₂ CFl.mk (add_comm' _ _) (add_comm' _ _)
  · rw [binopTT_ok _ _ _ (wm _) (by simpa using hl)]
    simp only [List.zipWith_map_left, List.zipWith_map_right, List.map_zipWith]
    rfl
  · rw [binopTT_ok _ _ _ (wm _) (by simpa using hl)]
    simp only [List.zipWith_map_left, List.zipWith_map_right, List.map_zipWith]
    rfl

theorem mulRe_comm (x y : CFl) : mulRe x y = mulRe y x := by
  unfold mulRe
  rw [mul_comm' x.re, mul_comm' x.im]

theorem mulIm_comm (x y : CFl) : mulIm x y = mulIm y x := by
  unfold mulIm
  rw [add_comm', mul_comm' x.im, mul_comm' x.re]

theorem cmul_comm [Recover] {x y : CFl}
    (h : mulRe x y ≠ nan ∨ mulIm x y ≠ nan ∨ Recover.recover x y = Recover.recover y x) : x * y = y * x := by
  show (if mulRe x y = nan ∧ mulIm x y = nan then _ else _) = if mulRe y x = nan ∧ mulIm y x = nan then _ else _
  rw [mulRe_comm y x, mulIm_comm y x]
  split
  · rename_i h'
    rcases h with h | h | h
    · exact absurd h'.1 h
    · exact absurd h'.2 h
    · exact h
  · rfl

/-- C138: a * b is b * a for complex tensors, to the last bit: with a compiler for which the special results for
infinities do not depend on the order, and with any other one at the elements whose product is not NaN in both parts. -/
theorem c138_complex_mul [Recover] (a b : Tensor CFl) (wa : a.WF) (wb : b.WF) (h : a.dims = b.dims)
    (hm : (∀ x y : CFl, Recover.recover x y = Recover.recover y x) ∨
      ∀ (i : ℕ) x y, a.data[i]? = some x → b.data[i]? = some y → mulRe x y ≠ nan ∨ mulIm x y ≠ nan) :
    ∃ c, binopTT (· * ·) a b = .ok c ∧ binopTT (· * ·) b a = .ok c := by
  have hl : a.data.length = b.data.length := by
    rw [show a.data.length = totalSize a.dims from wa, h]; exact wb.symm
  refine ⟨_, binopTT_ok _ a b wa hl, ?_⟩
  rw [binopTT_ok _ b a wb hl.symm, h, czipWith_comm]
  intro i x y hx hy
  refine cmul_comm ?_
  rcases hm with hm | hm
  · exact .inr (.inr (hm x y))
  · rw [mulRe_comm, mulIm_comm]
    rcases hm i y x hy hx with h | h
    · exact .inl h
    · exact .inr (.inl h)

/-- Compilers without special results for infinities satisfy the first premise. -/
theorem plain_comm (x y : CFl) : plain.recover x y = plain.recover y x := rfl

/-- Compilers which follow annex G satisfy the first premise. -/
theorem iso_comm (s : Fl → Bool) (hs : ∀ b, s (zeroS b) = b) (x y : CFl) :
    (iso s).recover x y = (iso s).recover y x := by
  have ag : ∀ x y : CFl, (⟨pinf * (x.re * y.re - x.im * y.im), pinf * (x.re * y.im + x.im * y.re)⟩ : CFl) =
      ⟨pinf * (y.re * x.re - y.im * x.im), pinf * (y.re * x.im + y.im * x.re)⟩ := fun x y => by
    rw [mul_comm' x.re y.re, mul_comm' x.im y.im, add_comm' (x.re * y.im), mul_comm' x.im, mul_comm' x.re y.im]
  have c1 : ∀ a : Fl, (clear s a).isInf = a.isInf := fun a => by
    unfold clear
    split
    · rename_i h; rw [h]; unfold zeroS; split <;> rfl
    · rfl
  have c2 : ∀ a : Fl, clear s (unit s a) = unit s a := fun a => by
    have : unit s a ≠ nan := by
      unfold unit zeroS
      split_ifs <;> simp_all
    unfold clear
    rw [if_neg this]
  have c3 : ∀ a : Fl, unit s (clear s a) = unit s a := fun a => by
    unfold clear
    split
    · rename_i h
      subst h
      have e : (zeroS (s nan)).isInf = false := by unfold zeroS; split <;> rfl
      unfold unit
      rw [e, hs]
      rfl
    · rfl
  show annexG s x y = annexG s y x
  unfold annexG
  simp only [c1, c2, c3]
  by_cases hx : x.re.isInf = true ∨ x.im.isInf = true
  · by_cases hy : y.re.isInf = true ∨ y.im.isInf = true
    · simp only [if_pos hx, if_pos hy]
      exact ag ⟨_, _⟩ ⟨_, _⟩
    · simp only [if_pos hx, if_neg hy]
      exact ag ⟨_, _⟩ ⟨_, _⟩
  · by_cases hy : y.re.isInf = true ∨ y.im.isInf = true
    · simp only [if_neg hx, if_pos hy]
      exact ag ⟨_, _⟩ ⟨_, _⟩
    · simp only [if_neg hx, if_neg hy]
      rw [mul_comm' y.re x.re, mul_comm' y.im x.im, mul_comm' y.re x.im, mul_comm' y.im x.re]
      have e : ((x.re * y.re).isInf = true ∨ (x.im * y.im).isInf = true ∨ (x.im * y.re).isInf = true ∨ (x.re * y.im).isInf = true) =
          ((x.re * y.re).isInf = true ∨ (x.im * y.im).isInf = true ∨ (x.re * y.im).isInf = true ∨ (x.im * y.re).isInf = true) := by
        rw [or_comm (a := (x.im * y.re).isInf = true)]
      simp only [e]
      split
      · exact ag ⟨_, _⟩ ⟨_, _⟩
      · rfl

theorem sq_ne_nzero (x : Fl) : x * x ≠ nzero := by
  show mul x x ≠ nzero
  unfold mul
  rw [Bool.xor_self]
  split_ifs
  · simp
  · simp
  · simp [infS]
  · simp [zeroS]
  · have h : ¬ x.val * x.val < 0 := not_lt.2 (mul_self_nonneg _)
    unfold Fl.round
    simp only [zeroS, h, decide_false]
    split_ifs <;> simp_all

/-- C138: norm2 of a complex tensor without NaN is, to the last bit, that of conj(a), that of -a, and that of a as a real
tensor if the imaginary parts are zero. -/
theorem c138_complex_norm2 [Recover] (a : Tensor CFl) (wa : a.WF)
    (ha : ∀ x ∈ a.data, (x.re.WF ∧ x.re ≠ nan) ∧ x.im.WF ∧ x.im ≠ nan) :
    ∃ n, norm2 conj CFl.re Fl.sqrt a = .ok n ∧
      (∃ b, unop conj a = .ok b ∧ norm2 conj CFl.re Fl.sqrt b = .ok n) ∧
      (∃ b, unop (fun x : CFl => ⟨-x.re, -x.im⟩) a = .ok b ∧ norm2 conj CFl.re Fl.sqrt b = .ok n) ∧
      ((∀ x ∈ a.data, x.im = 0) → ∃ b, unop CFl.re a = .ok b ∧ norm2 id id Fl.sqrt b = .ok n) := by
  have hn : ∀ y : Fl, y ≠ nan → -y ≠ nan := fun y h e => h ((negate_facts y).1.1 e)
  have e1 : ∀ y : Fl, -y * -(-y) = y * -y := fun y => neg_mul_neg' y (-y)
  refine ⟨_, norm2_parts a, ⟨_, unop_ok _ a wa, ?_⟩, ⟨_, unop_ok _ a wa, ?_⟩, fun h0 => ⟨_, unop_ok _ a wa, ?_⟩⟩
  · rw [norm2_parts]
    simp only [List.map_map]
    rw [List.map_congr_left fun x hx => ?_]
    obtain ⟨⟨w1, n1⟩, w2, n2⟩ := ha x hx
    show (conj x * conj (conj x)).re = (x * conj x).re
    rw [(self_re w1 w2 n1 n2).1, (self_re (x := conj x) w1 (negate_wf w2) n1 (hn _ n2)).1]
    show _ + -(-x.im * -(-x.im)) = _
    rw [e1]
    rfl
  · rw [norm2_parts]
    simp only [List.map_map]
    rw [List.map_congr_left fun x hx => ?_]
    obtain ⟨⟨w1, n1⟩, w2, n2⟩ := ha x hx
    show ((⟨-x.re, -x.im⟩ : CFl) * conj ⟨-x.re, -x.im⟩).re = (x * conj x).re
    rw [(self_re w1 w2 n1 n2).1, (self_re (x := ⟨-x.re, -x.im⟩) (negate_wf w1) (negate_wf w2) (hn _ n1) (hn _ n2)).1, e1,
      neg_mul_neg']
  · rw [norm2_eq]
    simp only [List.map_map]
    rw [List.map_congr_left fun x hx => ?_]
    obtain ⟨⟨w1, n1⟩, w2, n2⟩ := ha x hx
    show x.re * x.re = (x * conj x).re
    rw [(self_re w1 w2 n1 n2).1, h0 x hx]
    have z : -((0 : Fl) * -0) = 0 := by
      show negate (mul (fin 0) (negate (fin 0))) = fin 0
      simp [negate, mul, isInf, val, neg, zeroS]
    rw [z, add_zero' (mul_wf), if_neg (sq_ne_nzero _)]

end

/-! ### Examples -/

private noncomputable def cex : Tensor CFl := ⟨[2], [⟨fin 1, fin 2⟩, ⟨nzero, fin 3⟩]⟩

example : cex.WF ∧ ∀ x ∈ cex.data, (x.re.WF ∧ x.re ≠ nan) ∧ x.im.WF ∧ x.im ≠ nan := by
  have d : ∀ n : ℕ, n < 2 ^ 53 → IsDouble (n : ℝ) := fun n h => by
    have := isDouble_int (n := n) (by rw [abs_of_nonneg (by omega)]; exact_mod_cast h)
    simpa using this
  refine ⟨rfl, fun x hx => ?_⟩
  simp only [cex, List.mem_cons, List.not_mem_nil, or_false] at hx
  rcases hx with rfl | rfl
  · exact ⟨⟨isDouble_one, by simp⟩, by have := d 2 (by norm_num); exact_mod_cast this, by simp⟩
  · exact ⟨⟨trivial, by simp⟩, by have := d 3 (by norm_num); exact_mod_cast this, by simp⟩

/-- The sign bit satisfies the premise of `iso_comm`. -/
example : ∀ b, Fl.neg (zeroS b) = b := by
  intro b
  cases b <;> simp [zeroS, Fl.neg]

end Verif.FlLaws
