import Verif.Lemmas.SumOrder
import Verif.Props.FiniteResults
import Verif.Spec.SumFloat
/-
C129: traces, means along an index and row sums of doubles.
-/
namespace Verif.SumFl

open Verif Verif.Spec Fl Rounding Tensor SumFl.Spec

section
variable [Rounding]

theorem isSum_fold (l : List Fl) (hw : ∀ x ∈ l, x.WF) : IsSum l (l.foldl (· + ·) 0) :=
  ⟨fun h => sum_fin l hw h, fun hf h => (sum_err l hf h).1⟩

theorem isMean_fold (l : List Fl) (hw : ∀ x ∈ l, x.WF) (h0 : l ≠ []) (hn : l.length < 2 ^ 53) :
    IsMean l (l.foldl (· + ·) 0 / (l.length : Fl)) :=
  ⟨fun h => FiniteResults.c128_mean ⟨[l.length], l⟩ hw h0 hn h, fun hf h => (c85_mean ⟨[l.length], l⟩ hf h0 hn h).1⟩

omit [Rounding] in
theorem wf_range {n : Nat} {f : Nat → Fl} {t : Tensor Fl} (hw : ∀ x ∈ t.data, x.WF) {is : Nat → List Nat}
    (hf : ∀ l < n, elem t.dims t.data (is l) = some (f l)) : ∀ x ∈ (List.range n).map f, x.WF := by
  intro x hx
  obtain ⟨l, hl, rfl⟩ := List.mem_map.1 hx
  exact FiniteResults.elem_wf hw (hf l (List.mem_range.1 hl))

/-- C129: the trace of a matrix. -/
theorem c129_trace_matrix (m : Tensor Fl) (wf : m.WF) (hw : ∀ x ∈ m.data, x.WF) (r c : Nat) (hd : m.dims = [r, c])
    (f : Nat → Fl) (hf : ∀ i < min r c, elem m.dims m.data [i, i] = some (f i)) :
    ∃ s, trace m = .ok s ∧ IsSum ((List.range (min r c)).map f) s := by
  obtain ⟨g, hg⟩ := exists_isMat m wf r c hd
  refine ⟨_, trace_order hg, ?_⟩
  have e : ((List.range (min r c)).map fun i => g i i) = (List.range (min r c)).map f := by
    apply List.map_congr_left
    intro i hi
    have hi := List.mem_range.1 hi
    have := hg.2.2 i i (by omega) (by omega)
    rw [hf i hi] at this
    simpa using this.symm
  rw [e]
  exact isSum_fold _ (wf_range hw hf)

/-- C129: each element of a trace over two indices. -/
theorem c129_trace (D : Tensor Fl) (wf : D.WF) (hw : ∀ x ∈ D.data, x.WF) (i j : Int) (P Q R : List Nat)
    (A B : Nat) (hd : D.dims = P ++ A :: (Q ++ B :: R))
    (hi : i ≠ -(D.dims.length : Int)) (hj : j ≠ -(D.dims.length : Int))
    (hij : (norm D.dims.length i = some P.length ∧ norm D.dims.length j = some (P.length + 1 + Q.length)) ∨
      (norm D.dims.length j = some P.length ∧ norm D.dims.length i = some (P.length + 1 + Q.length))) :
    ∃ c : Tensor Fl, trace2 D i j = .ok c ∧ c.dims = outDims (P ++ Q ++ R) ∧
      ∀ p q r, InB p P → InB q Q → InB r R → ∀ f : Nat → Fl,
        (∀ l < min A B, elem D.dims D.data (p ++ l :: (q ++ l :: r)) = some (f l)) →
        ∃ s, elem c.dims c.data (outIdx (p ++ q ++ r)) = some s ∧ IsSum ((List.range (min A B)).map f) s := by
  obtain ⟨c, e, -, h1, h2⟩ := trace2_order D wf i j P Q R A B hd hi hj hij
  exact ⟨c, e, h1, fun p q r hp hq hr f hf => ⟨_, h2 p q r hp hq hr f hf, isSum_fold _ (wf_range hw hf)⟩⟩

/-- C129: each element of a mean along an index, which is not the last one (C30). -/
theorem c129_mean_partial (t : Tensor Fl) (wf : t.WF) (hw : ∀ x ∈ t.data, x.WF) (ndx : Int)
    (P Q : List Nat) (L : Nat) (hd : t.dims = P ++ L :: Q) (hQ : Q ≠ []) (h : norm t.dims.length ndx = some P.length)
    (h0 : L ≠ 0) (hL : L < 2 ^ 53) :
    ∃ c, meanNdx (fun s n => s / (n : Fl)) t ndx = .ok c ∧ c.dims = P ++ Q ∧
      ∀ p q, InB p P → InB q Q → ∀ f : Nat → Fl, (∀ l < L, elem t.dims t.data (p ++ l :: q) = some (f l)) →
        ∃ s, elem c.dims c.data (p ++ q) = some s ∧ IsMean ((List.range L).map f) s := by
  obtain ⟨c, e, -, h1, h2⟩ := meanNdx_order (fun s n => s / (n : Fl)) t wf ndx P Q L hd hQ h
  refine ⟨c, e, h1, fun p q hp hq f hf => ⟨_, h2 p q hp hq f hf, ?_⟩⟩
  have := isMean_fold ((List.range L).map f) (wf_range hw hf) (by simpa using h0) (by simpa using hL)
  simpa using this

/-- C129: the mean of a vector along its index. -/
theorem c129_mean_vector (t : Tensor Fl) (hw : ∀ x ∈ t.data, x.WF) (ndx : Int) (hd : t.dims.length = 1) (h0 : t.data ≠ [])
    (hn : t.data.length < 2 ^ 53) :
    ∃ s, meanNdx (fun s n => s / (n : Fl)) t ndx = .ok ⟨[1], [s]⟩ ∧ IsMean t.data s :=
  ⟨_, meanNdx_vector_order _ t ndx hd, isMean_fold t.data hw h0 hn⟩

/-! ### Complex numbers -/

theorem cfold_parts (l : List CFl) : (l.foldl (· + ·) (0 : CFl)).re = (l.map CFl.re).foldl (· + ·) 0 ∧
    (l.foldl (· + ·) (0 : CFl)).im = (l.map CFl.im).foldl (· + ·) 0 := CFl.fold_parts l 0

theorem isSum_cfold (l : List CFl) (hw : ∀ x ∈ l, x.re.WF ∧ x.im.WF) :
    IsSum (l.map CFl.re) (l.foldl (· + ·) (0 : CFl)).re ∧ IsSum (l.map CFl.im) (l.foldl (· + ·) (0 : CFl)).im := by
  rw [(cfold_parts l).1, (cfold_parts l).2]
  constructor
  · refine isSum_fold _ fun x hx => ?_
    obtain ⟨y, hy, rfl⟩ := List.mem_map.1 hx
    exact (hw y hy).1
  · refine isSum_fold _ fun x hx => ?_
    obtain ⟨y, hy, rfl⟩ := List.mem_map.1 hx
    exact (hw y hy).2

omit [Rounding] in
theorem cwf_range {n : Nat} {f : Nat → CFl} {t : Tensor CFl} (hw : ∀ x ∈ t.data, x.re.WF ∧ x.im.WF) {is : Nat → List Nat}
    (hf : ∀ l < n, elem t.dims t.data (is l) = some (f l)) : ∀ x ∈ (List.range n).map f, x.re.WF ∧ x.im.WF := by
  intro x hx
  obtain ⟨l, hl, rfl⟩ := List.mem_map.1 hx
  have h := hf l (List.mem_range.1 hl)
  unfold elem at h
  split at h
  · exact hw _ (List.mem_of_getElem? h)
  · cases h

/-- C129: real and imaginary part of the trace of a matrix. -/
theorem c129_complex_trace_matrix (m : Tensor CFl) (wf : m.WF) (hw : ∀ x ∈ m.data, x.re.WF ∧ x.im.WF) (r c : Nat)
    (hd : m.dims = [r, c]) (f : Nat → CFl) (hf : ∀ i < min r c, elem m.dims m.data [i, i] = some (f i)) :
    ∃ s, trace m = .ok s ∧ IsSum ((List.range (min r c)).map fun i => (f i).re) s.re ∧
      IsSum ((List.range (min r c)).map fun i => (f i).im) s.im := by
  obtain ⟨g, hg⟩ := exists_isMat m wf r c hd
  refine ⟨_, trace_order hg, ?_⟩
  have e : ((List.range (min r c)).map fun i => g i i) = (List.range (min r c)).map f := by
    apply List.map_congr_left
    intro i hi
    have hi := List.mem_range.1 hi
    have := hg.2.2 i i (by omega) (by omega)
    rw [hf i hi] at this
    simpa using this.symm
  rw [e]
  have := isSum_cfold _ (cwf_range hw hf)
  simpa only [List.map_map, Function.comp_def] using this

/-- C129: real and imaginary part of each element of a trace over two indices. -/
theorem c129_complex_trace (D : Tensor CFl) (wf : D.WF) (hw : ∀ x ∈ D.data, x.re.WF ∧ x.im.WF) (i j : Int) (P Q R : List Nat)
    (A B : Nat) (hd : D.dims = P ++ A :: (Q ++ B :: R))
    (hi : i ≠ -(D.dims.length : Int)) (hj : j ≠ -(D.dims.length : Int))
    (hij : (norm D.dims.length i = some P.length ∧ norm D.dims.length j = some (P.length + 1 + Q.length)) ∨
      (norm D.dims.length j = some P.length ∧ norm D.dims.length i = some (P.length + 1 + Q.length))) :
    ∃ c : Tensor CFl, trace2 D i j = .ok c ∧ c.dims = outDims (P ++ Q ++ R) ∧
      ∀ p q r, InB p P → InB q Q → InB r R → ∀ f : Nat → CFl,
        (∀ l < min A B, elem D.dims D.data (p ++ l :: (q ++ l :: r)) = some (f l)) →
        ∃ s, elem c.dims c.data (outIdx (p ++ q ++ r)) = some s ∧
          IsSum ((List.range (min A B)).map fun l => (f l).re) s.re ∧
          IsSum ((List.range (min A B)).map fun l => (f l).im) s.im := by
  obtain ⟨c, e, -, h1, h2⟩ := trace2_order D wf i j P Q R A B hd hi hj hij
  refine ⟨c, e, h1, fun p q r hp hq hr f hf => ⟨_, h2 p q r hp hq hr f hf, ?_⟩⟩
  have := isSum_cfold _ (cwf_range hw hf)
  simpa only [List.map_map, Function.comp_def] using this

/-! ### Row sums -/

omit [Rounding] in
theorem lt_iff_val {a b : Fl} (ha : a.Finite) (hb : b.Finite) : a < b ↔ a.val < b.val := by
  show lt a b ↔ _
  cases a <;> cases b <;> first | exact ha.elim | exact hb.elim | exact Iff.rfl

omit [Rounding] in
theorem max_fold (l : List Fl) (o : Fl) (ho : o.Finite) (hl : ∀ x ∈ l, x.Finite) :
    (l.foldl (fun o x => if o < x then x else o) o).Finite ∧ o.val ≤ (l.foldl (fun o x => if o < x then x else o) o).val ∧
    (∀ x ∈ l, x.val ≤ (l.foldl (fun o x => if o < x then x else o) o).val) ∧
    ((l.foldl (fun o x => if o < x then x else o) o) = o ∨ (l.foldl (fun o x => if o < x then x else o) o) ∈ l) := by
  induction l generalizing o with
  | nil => exact ⟨ho, le_refl _, by simp, Or.inl rfl⟩
  | cons y l ih =>
    have hy := hl y (by simp)
    rw [List.foldl_cons]
    by_cases h : o < y
    · rw [if_pos h]
      obtain ⟨h1, h2, h3, h4⟩ := ih y hy fun x hx => hl x (by simp [hx])
      refine ⟨h1, ((lt_iff_val ho hy).1 h).le.trans h2, ?_, Or.inr ?_⟩
      · rintro x hx
        rcases List.mem_cons.1 hx with rfl | hx
        · exact h2
        · exact h3 x hx
      · rcases h4 with h4 | h4
        · rw [h4]; simp
        · simp [h4]
    · rw [if_neg h]
      obtain ⟨h1, h2, h3, h4⟩ := ih o ho fun x hx => hl x (by simp [hx])
      rw [lt_iff_val ho hy, not_lt] at h
      refine ⟨h1, h2, ?_, ?_⟩
      · rintro x hx
        rcases List.mem_cons.1 hx with rfl | hx
        · exact h.trans h2
        · exact h3 x hx
      · rcases h4 with h4 | h4
        · exact Or.inl h4
        · exact Or.inr (by simp [h4])

omit [Rounding] in
theorem abs_fin {x : Fl} (h : x.Finite) : (abs x).Finite ∧ (abs x).val = |x.val| := by
  cases x with
  | nzero => exact ⟨isDouble_zero, by simp [Fl.abs, val]⟩
  | fin x =>
    refine ⟨?_, rfl⟩
    show IsDouble |x|
    rcases abs_choice x with e | e <;> rw [e]
    · exact h
    · exact IsDouble.neg h
  | _ => exact h.elim

/-- C129: matrix_norminf of finite numbers, far from the largest one: it is finite, and the error is at most (1 + 2^-53)^(c-1) - 1
times the norm `N`. -/
theorem c129_norminf (m : Tensor Fl) (r c : Nat) (f : Nat → Nat → Fl) (h : IsMat m.dims m.data r c f) (hc : c ≠ 0)
    (hf : ∀ i < r, ∀ j < c, (f i j).Finite) (N : ℝ) (h1 : ∀ i < r, ∑ j ∈ Finset.range c, |(f i j).val| ≤ N)
    (h2 : ∃ i < r, ∑ j ∈ Finset.range c, |(f i j).val| = N)
    (ho : (1 + 2 ^ (-53 : ℤ)) ^ (c - 1) * N < (2 : ℝ) ^ 1024) :
    ∃ n, matrixNormInf abs m = .ok n ∧ n.Finite ∧ |n.val - N| ≤ ((1 + 2 ^ (-53 : ℤ)) ^ (c - 1) - 1) * N := by
  obtain ⟨c, rfl⟩ := Nat.exists_eq_succ_of_ne_zero hc
  refine ⟨_, matrixNormInf_order abs m r c f h, ?_⟩
  have e1 : (2 : ℝ) ^ (-53 : ℤ) = eps := rfl
  simp only [Nat.succ_eq_add_one, Nat.add_sub_cancel, e1] at hf h1 h2 ho ⊢
  clear e1
  -- one row
  have row : ∀ i < r, (((List.range c).map fun j => abs (f i (j + 1))).foldl (· + ·) (abs (f i 0))).Finite ∧
      |(((List.range c).map fun j => abs (f i (j + 1))).foldl (· + ·) (abs (f i 0))).val -
        (∑ j ∈ Finset.range (c + 1), |(f i j).val|)| ≤ ((1 + eps) ^ c - 1) * ∑ j ∈ Finset.range (c + 1), |(f i j).val| := by
    intro i hi
    have h0 := abs_fin (hf i hi 0 (by omega))
    have hl : ∀ x ∈ (List.range c).map fun j => abs (f i (j + 1)), x.Finite := by
      intro x hx
      obtain ⟨j, hj, rfl⟩ := List.mem_map.1 hx
      exact (abs_fin (hf i hi (j + 1) (by have := List.mem_range.1 hj; omega))).1
    have hs : ∀ g : ℝ → ℝ, (∀ x, g |x| = |x|) →
        (((List.range c).map fun j => abs (f i (j + 1))).map fun x => g x.val).sum =
          ∑ j ∈ Finset.range c, |(f i (j + 1)).val| := by
      intro g hg
      rw [List.map_map]
      have : ∀ n ≤ c, ((List.range n).map ((fun x : Fl => g x.val) ∘ fun j => abs (f i (j + 1)))).sum =
          ∑ j ∈ Finset.range n, |(f i (j + 1)).val| := by
        intro n
        induction n with
        | zero => simp
        | succ n ih =>
          intro hn
          rw [List.range_succ, List.map_append, List.sum_append, ih (by omega), Finset.sum_range_succ]
          simp only [List.map_cons, List.map_nil, List.sum_cons, List.sum_nil, add_zero, Function.comp]
          rw [(abs_fin (hf i hi (n + 1) (by omega))).2, hg]
      exact this c le_rfl
    have hA : sumA ((List.range c).map fun j => abs (f i (j + 1))) = ∑ j ∈ Finset.range c, |(f i (j + 1)).val| :=
      hs (fun x => |x|) fun x => abs_abs x
    have hV : sumV ((List.range c).map fun j => abs (f i (j + 1))) = ∑ j ∈ Finset.range c, |(f i (j + 1)).val| :=
      hs (fun x => x) fun x => rfl
    have hlen : ((List.range c).map fun j => abs (f i (j + 1))).length = c := by simp
    have hsplit : |(f i 0).val| + ∑ j ∈ Finset.range c, |(f i (j + 1)).val| = ∑ j ∈ Finset.range (c + 1), |(f i j).val| := by
      rw [Finset.sum_range_succ' (fun j => |(f i j).val|), add_comm]
    have := fold_err ((List.range c).map fun j => abs (f i (j + 1))) (abs (f i 0)) h0.1 hl (by
      rw [hA, hlen, h0.2, abs_abs, hsplit]
      refine lt_of_le_of_lt ?_ ho
      exact mul_le_mul_of_nonneg_left (h1 i hi) (by have := one_le_pow_eps c; linarith))
    rw [hA, hV, hlen, h0.2, abs_abs, hsplit] at this
    exact this
  obtain ⟨m1, m2, m3, m4⟩ := max_fold ((List.range r).map fun i =>
      ((List.range c).map fun j => abs (f i (j + 1))).foldl (· + ·) (abs (f i 0))) 0 isDouble_zero (by
    intro x hx
    obtain ⟨i, hi, rfl⟩ := List.mem_map.1 hx
    exact (row i (List.mem_range.1 hi)).1)
  refine ⟨m1, ?_⟩
  generalize (((List.range r).map fun i =>
      ((List.range c).map fun j => abs (f i (j + 1))).foldl (· + ·) (abs (f i 0))).foldl
        (fun o x => if o < x then x else o) 0) = n at m1 m2 m3 m4
  have hG : 0 ≤ (1 + eps) ^ c - 1 := by have := one_le_pow_eps c; linarith
  obtain ⟨k, hk, hkN⟩ := h2
  have hN : 0 ≤ N := by rw [← hkN]; exact Finset.sum_nonneg fun _ _ => abs_nonneg _
  have hlow : N - ((1 + eps) ^ c - 1) * N ≤ n.val := by
    have a := (row k hk).2
    rw [hkN, abs_le] at a
    have b := m3 _ (List.mem_map.2 ⟨k, List.mem_range.2 hk, rfl⟩)
    linarith [a.1]
  have hup : n.val ≤ N + ((1 + eps) ^ c - 1) * N := by
    rcases m4 with rfl | m4
    · have : (0 : Fl).val = 0 := rfl
      rw [this]
      have := mul_nonneg hG hN
      linarith
    · obtain ⟨i, hi, rfl⟩ := List.mem_map.1 m4
      have hi := List.mem_range.1 hi
      have a := (abs_le.1 (row i hi).2).2
      have b := h1 i hi
      have d := mul_le_mul_of_nonneg_left b hG
      linarith
  rw [abs_le]
  constructor <;> linarith

/-- C129, **negation** (a finite result has finite elements): matrix_norminf of a matrix with a row of NaN is that of the other
rows. -/
theorem c129_negation_norminf (x : ℝ) (hx : 0 < x) : matrixNormInf abs (⟨[2, 1], [nan, fin x]⟩ : Tensor Fl) = .ok (fin x) := by
  have e := matrixNormInf_order abs (⟨[2, 1], [nan, fin x]⟩ : Tensor Fl) 2 0 (fun i _ => if i = 0 then nan else fin x)
    ⟨rfl, rfl, by
      intro i j hi hj
      obtain rfl : j = 0 := by omega
      obtain rfl | rfl : i = 0 ∨ i = 1 := by omega
      all_goals rfl⟩
  rw [e]
  have hlt : (0 : Fl) < fin x := by
    show lt (fin 0) (fin x)
    exact hx
  have hn : ¬ (0 : Fl) < nan := not_lt_nan _
  have h2 : List.range 2 = [0, 1] := rfl
  simp [h2, hn, Fl.abs, abs_of_pos hx, hlt]

/-! ### The hypotheses can be met -/

omit [Rounding] in
theorem finite_nat (n : ℕ) (h : n < 2 ^ 53) : (fin (n : ℝ)).Finite :=
  ⟨n, 0, by simpa using (by exact_mod_cast h : (n : ℤ) < 2 ^ 53), by norm_num, by norm_num, by simp⟩

example : ∃ s, trace (⟨[2, 2], [fin 1, nan, pinf, fin 2]⟩ : Tensor Fl) = .ok s ∧ IsSum [fin 1, fin 2] s := by
  have := c129_trace_matrix (⟨[2, 2], [fin 1, nan, pinf, fin 2]⟩ : Tensor Fl) rfl (by
      intro x hx
      simp only [List.mem_cons, List.not_mem_nil, or_false] at hx
      rcases hx with rfl | rfl | rfl | rfl
      · simpa using (finite_nat 1 (by norm_num)).wf
      · trivial
      · trivial
      · simpa using (finite_nat 2 (by norm_num)).wf) 2 2 rfl
    (fun i => if i = 0 then fin 1 else fin 2) (by
      intro i hi
      obtain rfl | rfl : i = 0 ∨ i = 1 := by omega
      all_goals rfl)
  simpa [show List.range 2 = [0, 1] from rfl] using this

/-- A number which `IsSum` accepts, and one which it does not. -/
example : IsSum [fin 1, fin 2] (fin 3) ∧ ¬ IsSum [fin 1, fin 2] (fin 4) := by
  have h1 : ∀ x ∈ [fin 1, fin 2], x.Finite := by
    intro x hx
    simp only [List.mem_cons, List.not_mem_nil, or_false] at hx
    rcases hx with rfl | rfl
    · simpa using finite_nat 1 (by norm_num)
    · simpa using finite_nat 2 (by norm_num)
  refine ⟨⟨fun _ => ⟨h1, ?_⟩, fun _ _ => by simpa using finite_nat 3 (by norm_num)⟩, fun h => ?_⟩
  · norm_num [val]
  · have := (h.1 (by simpa using finite_nat 4 (by norm_num))).2
    norm_num [val] at this

example : ∃ c, meanNdx (fun s n => s / (n : Fl)) (⟨[2, 1], [fin 1, fin 3]⟩ : Tensor Fl) 0 = .ok c ∧ c.dims = [1] := by
  obtain ⟨c, h1, h2, -⟩ := c129_mean_partial (⟨[2, 1], [fin 1, fin 3]⟩ : Tensor Fl) rfl (by
      intro x hx
      simp only [List.mem_cons, List.not_mem_nil, or_false] at hx
      rcases hx with rfl | rfl
      · simpa using (finite_nat 1 (by norm_num)).wf
      · simpa using (finite_nat 3 (by norm_num)).wf) 0 [] [1] 2 rfl (by simp) rfl (by norm_num) (by norm_num)
  exact ⟨c, h1, h2⟩

example : ∃ n, matrixNormInf abs (⟨[1, 2], [fin 1, fin 2]⟩ : Tensor Fl) = .ok n ∧ n.Finite ∧
    |n.val - 3| ≤ ((1 + 2 ^ (-53 : ℤ)) ^ (2 - 1) - 1) * 3 := by
  have hs : ∑ j ∈ Finset.range 2, |(if j = 0 then fin 1 else fin 2 : Fl).val| = 3 := by
    rw [Finset.sum_range_succ, Finset.sum_range_one]
    norm_num [val]
  refine c129_norminf (⟨[1, 2], [fin 1, fin 2]⟩ : Tensor Fl) 1 2 (fun _ j => if j = 0 then fin 1 else fin 2)
    ⟨rfl, rfl, ?_⟩ (by norm_num) ?_ 3 (fun i _ => hs.le) ⟨0, by norm_num, hs⟩ ?_
  · intro i j hi hj
    obtain rfl : i = 0 := by omega
    obtain rfl | rfl : j = 0 ∨ j = 1 := by omega
    all_goals rfl
  · intro i hi j hj
    split
    · simpa using finite_nat 1 (by norm_num)
    · simpa using finite_nat 2 (by norm_num)
  · have : (2 : ℝ) ^ 4 ≤ 2 ^ 1024 := pow_le_pow_right₀ (by norm_num) (by norm_num)
    refine lt_of_lt_of_le ?_ this
    norm_num

end

end Verif.SumFl
