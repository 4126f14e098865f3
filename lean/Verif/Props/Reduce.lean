import Mathlib.Analysis.Real.Sqrt
import Mathlib.Analysis.Complex.Norm
import Verif.Model.Reduce
import Verif.Lemmas.Kron
import Verif.Lemmas.Arith
/-
C33: reductions.  C61: row-sum norm of matrices.
-/
namespace Verif.Tensor

open Verif Spec

variable {α β : Type}

theorem foldl_add_eq [AddCommMonoid α] (l : List α) (z : α) : l.foldl (· + ·) z = z + l.sum := by
  induction l generalizing z with
  | nil => simp
  | cons x xs ih => simp [ih, add_assoc]

/-- C33: sum is the sum of all elements, and mean divides it by their number. -/
theorem c33_sum [AddCommMonoid α] (div : α → Nat → α) (t : Tensor α) :
    sumAll t = t.data.sum ∧ meanAll div t = div t.data.sum t.data.length := by
  have : sumAll t = t.data.sum := by rw [sumAll, foldl_add_eq, zero_add]
  exact ⟨this, by rw [meanAll, this]; rfl⟩

/-- C33: the sum of a matrix is the sum over all rows and columns. -/
theorem c33_sum_matrix [AddCommMonoid α] (t : Tensor α) (r c : Nat) (f : Nat → Nat → α)
    (h : IsMat t.dims t.data r c f) :
    sumAll t = ∑ j ∈ Finset.range c, ∑ i ∈ Finset.range r, f i j := by
  have hl := h.2.1
  have e : t.data = (List.range (r * c)).map fun p => f (p % r) (p / r) := by
    apply List.ext_getElem?
    intro p
    by_cases hp : p < r * c
    · have hr : 0 < r := by
        rcases Nat.eq_zero_or_pos r with e | e
        · rw [e] at hp; simp at hp
        · exact e
      have := isMat_pos h (i := p % r) (j := p / r) (Nat.mod_lt _ hr) (Nat.div_lt_of_lt_mul hp)
      rw [Nat.mod_add_div] at this
      rw [this, List.getElem?_map, List.getElem?_range hp]; rfl
    · rw [List.getElem?_eq_none (by omega), List.getElem?_eq_none (by simp; omega)]
  rw [sumAll, e, foldl_add_range, zero_add, sum_range_mul]
  apply Finset.sum_congr rfl
  intro j _
  apply Finset.sum_congr rfl
  intro i hi
  have hi := Finset.mem_range.mp hi
  rw [Nat.add_mul_mod_self_left, Nat.mod_eq_of_lt hi, Nat.add_mul_div_left _ _ (by omega),
    Nat.div_eq_of_lt hi, Nat.zero_add]

theorem maxFrom_spec [LinearOrder α] (best : α) (l : List α) :
    maxFrom best l ∈ best :: l ∧ ∀ x ∈ best :: l, x ≤ maxFrom best l := by
  induction l generalizing best with
  | nil => simp [maxFrom]
  | cons y ys ih =>
    have := ih (if best < y then y else best)
    simp only [maxFrom]
    split at this
    · rename_i h
      refine ⟨by rw [if_pos h]; simp only [List.mem_cons] at this ⊢; tauto, ?_⟩
      rw [if_pos h]
      intro x hx
      simp only [List.mem_cons] at hx
      rcases hx with rfl | rfl | hx
      · exact le_trans h.le (this.2 y (by simp))
      · exact this.2 x (by simp)
      · exact this.2 x (by simp [hx])
    · rename_i h
      refine ⟨by rw [if_neg h]; simp only [List.mem_cons] at this ⊢; tauto, ?_⟩
      rw [if_neg h]
      intro x hx
      simp only [List.mem_cons] at hx
      rcases hx with rfl | rfl | hx
      · exact this.2 x (by simp)
      · exact le_trans (not_lt.mp h) (this.2 best (by simp))
      · exact this.2 x (by simp [hx])

theorem minFrom_spec [LinearOrder α] (best : α) (l : List α) :
    minFrom best l ∈ best :: l ∧ ∀ x ∈ best :: l, minFrom best l ≤ x := by
  induction l generalizing best with
  | nil => simp [minFrom]
  | cons y ys ih =>
    have := ih (if y < best then y else best)
    simp only [minFrom]
    split at this
    · rename_i h
      refine ⟨by rw [if_pos h]; simp only [List.mem_cons] at this ⊢; tauto, ?_⟩
      rw [if_pos h]
      intro x hx
      simp only [List.mem_cons] at hx
      rcases hx with rfl | rfl | hx
      · exact le_trans (this.2 y (by simp)) h.le
      · exact this.2 x (by simp)
      · exact this.2 x (by simp [hx])
    · rename_i h
      refine ⟨by rw [if_neg h]; simp only [List.mem_cons] at this ⊢; tauto, ?_⟩
      rw [if_neg h]
      intro x hx
      simp only [List.mem_cons] at hx
      rcases hx with rfl | rfl | hx
      · exact this.2 x (by simp)
      · exact le_trans (this.2 best (by simp)) (not_lt.mp h)
      · exact this.2 x (by simp [hx])

/-- C33: max is an element of the tensor, and no element is larger; an empty tensor stops the
program. -/
theorem c33_max [LinearOrder α] (t : Tensor α) :
    (t.data = [] → maxAll t = .abort) ∧
    (t.data ≠ [] → ∃ m, maxAll t = .ok m ∧ m ∈ t.data ∧ ∀ x ∈ t.data, x ≤ m) := by
  obtain ⟨d, l⟩ := t
  cases l with
  | nil => simp [maxAll]
  | cons x xs =>
    refine ⟨by simp, fun _ => ⟨_, rfl, maxFrom_spec x xs⟩⟩

/-- C33: min is an element of the tensor, and no element is smaller. -/
theorem c33_min [LinearOrder α] (t : Tensor α) :
    (t.data = [] → minAll t = .abort) ∧
    (t.data ≠ [] → ∃ m, minAll t = .ok m ∧ m ∈ t.data ∧ ∀ x ∈ t.data, m ≤ x) := by
  obtain ⟨d, l⟩ := t
  cases l with
  | nil => simp [minAll]
  | cons x xs =>
    refine ⟨by simp, fun _ => ⟨_, rfl, minFrom_spec x xs⟩⟩

theorem maxFold_spec [LinearOrder β] (g : α → β) (z : β) (l : List α) :
    (∀ x ∈ l, g x ≤ l.foldl (fun o x => if o < g x then g x else o) z) ∧
    z ≤ l.foldl (fun o x => if o < g x then g x else o) z ∧
    (l.foldl (fun o x => if o < g x then g x else o) z = z ∨
      ∃ x ∈ l, l.foldl (fun o x => if o < g x then g x else o) z = g x) := by
  induction l generalizing z with
  | nil => simp
  | cons y ys ih =>
    obtain ⟨h1, h2, h3⟩ := ih (if z < g y then g y else z)
    simp only [List.foldl_cons]
    have hz : z ≤ if z < g y then g y else z := by split <;> rename_i h; exacts [h.le, le_refl _]
    have hy : g y ≤ if z < g y then g y else z := by
      split <;> rename_i h; exacts [le_refl _, not_lt.mp h]
    refine ⟨?_, le_trans hz h2, ?_⟩
    · intro x hx
      rcases List.mem_cons.mp hx with rfl | hx
      · exact le_trans hy h2
      · exact h1 x hx
    · rcases h3 with h3 | ⟨x, hx, h3⟩
      · rw [h3]
        by_cases h : z < g y
        · rw [if_pos h]; exact .inr ⟨y, by simp, rfl⟩
        · rw [if_neg h]; exact .inl rfl
      · exact .inr ⟨x, by simp [hx], h3⟩

/-- C33: norm0 is the largest absolute value of the elements, or zero if there are none. -/
theorem c33_norm0 [LinearOrder β] [Zero β] (abs : α → β) (habs : ∀ x, 0 ≤ abs x) (t : Tensor α) :
    (t.data = [] → norm0 abs t = 0) ∧
    (∀ x ∈ t.data, abs x ≤ norm0 abs t) ∧
    (t.data ≠ [] → ∃ x ∈ t.data, norm0 abs t = abs x) := by
  obtain ⟨h1, h2, h3⟩ := maxFold_spec abs 0 t.data
  refine ⟨fun h => by simp [norm0, h], h1, ?_⟩
  intro hne
  rcases h3 with h3 | h3
  · obtain ⟨x, xs, e⟩ := List.exists_cons_of_ne_nil hne
    have hx : x ∈ t.data := by simp [e]
    refine ⟨x, hx, le_antisymm ?_ (h1 x hx)⟩
    show List.foldl _ _ _ ≤ _
    rw [h3]; exact habs x
  · exact h3

theorem scprod_eq [CommSemiring α] (conj : α → α) (a b : Tensor α)
    (h : a.data.length ≤ b.data.length) :
    scprod conj a b = .ok ((List.zipWith (fun x y => x * conj y) a.data b.data).sum) := by
  have : a.data.zipIdx.map (fun (x, i) => (do
      let y ← b.data[i]?
      pure (x * conj y) : Option α)) =
      (List.zipWith (fun x y => x * conj y) a.data b.data).map some := by
    apply List.ext_getElem?
    intro i
    by_cases hi : i < a.data.length
    · have hb : i < b.data.length := by omega
      simp [List.getElem?_zipWith, hi, hb]
    · rw [List.getElem?_eq_none (by simp; omega), List.getElem?_eq_none (by simp; omega)]
  rw [scprod, this, accum_list, zero_add]; rfl

/-- C33: the scalar product of two tensors with equally many elements. -/
theorem c33_scprod [CommSemiring α] (conj : α → α) (a b : Tensor α)
    (h : a.data.length = b.data.length) (f g : Nat → α)
    (hf : ∀ i < a.data.length, a.data[i]? = some (f i))
    (hg : ∀ i < a.data.length, b.data[i]? = some (g i)) :
    scprod conj a b = .ok (∑ i ∈ Finset.range a.data.length, f i * conj (g i)) := by
  rw [scprod]
  have : a.data.zipIdx.map (fun (x, i) => (do
      let y ← b.data[i]?
      pure (x * conj y) : Option α)) =
      (List.range a.data.length).map fun i => some (f i * conj (g i)) := by
    apply List.ext_getElem?
    intro i
    by_cases hi : i < a.data.length
    · have h1 := hf i hi
      have h2 := hg i hi
      rw [List.getElem?_map, List.getElem?_zipIdx, h1]
      simp [h2, hi]
    · rw [List.getElem?_eq_none (by simp; omega), List.getElem?_eq_none (by simp; omega)]
  rw [this, accum_range _ _ (fun i => f i * conj (g i)) _ (fun _ _ => rfl), zero_add]; rfl

/-- The sizes are not compared: if the first tensor is larger, scprod reads out of bounds. -/
theorem c33_scprod_out_of_bounds [Zero α] [Add α] [Mul α] (conj : α → α) (a b : Tensor α)
    (h : b.data.length < a.data.length) : scprod conj a b = .ub := by
  have key : ∀ (l : List (Option α)) (z : α), none ∈ l → accum z l = none := by
    intro l
    induction l with
    | nil => simp
    | cons x xs ih =>
      intro z hm
      cases x with
      | none => rfl
      | some v => simp only [accum, Option.bind_some]; exact ih _ (by simpa using hm)
  rw [scprod, key]
  · rfl
  · have hl : b.data.length < (a.data.zipIdx.map (fun (x, i) => (do
      let y ← b.data[i]?
      pure (x * conj y) : Option α))).length := by simpa using h
    have := List.getElem_mem hl
    convert this using 1
    simp

theorem zipWith_add_left [CommSemiring α] (conj : α → α) (a a' b : List α)
    (h : a.length = a'.length) (hb : a.length = b.length) :
    (List.zipWith (fun x y => x * conj y) (List.zipWith (· + ·) a a') b).sum =
      (List.zipWith (fun x y => x * conj y) a b).sum +
        (List.zipWith (fun x y => x * conj y) a' b).sum := by
  induction a generalizing a' b with
  | nil =>
    have : a' = [] := List.length_eq_zero_iff.mp h.symm
    subst this; simp
  | cons x xs ih =>
    cases a' with
    | nil => simp at h
    | cons x' xs' =>
      cases b with
      | nil => simp at hb
      | cons y ys =>
        have := ih xs' ys (by simpa using h) (by simpa using hb)
        simp only [List.zipWith_cons_cons, List.sum_cons, this]
        ring

theorem zipWith_add_right [CommSemiring α] (conj : α →+* α) (a b b' : List α)
    (h : b.length = b'.length) (hb : a.length = b.length) :
    (List.zipWith (fun x y => x * conj y) a (List.zipWith (· + ·) b b')).sum =
      (List.zipWith (fun x y => x * conj y) a b).sum +
        (List.zipWith (fun x y => x * conj y) a b').sum := by
  induction a generalizing b b' with
  | nil => simp
  | cons x xs ih =>
    cases b with
    | nil => simp at hb
    | cons y ys =>
      cases b' with
      | nil => simp at h
      | cons y' ys' =>
        have := ih ys ys' (by simpa using h) (by simpa using hb)
        simp only [List.zipWith_cons_cons, List.sum_cons, this, map_add]
        ring

theorem zipWith_mul_left [CommSemiring α] (conj : α → α) (k : α) (a b : List α) :
    (List.zipWith (fun x y => x * conj y) (a.map fun x => x * k) b).sum =
      k * (List.zipWith (fun x y => x * conj y) a b).sum := by
  induction a generalizing b with
  | nil => simp
  | cons x xs ih =>
    cases b with
    | nil => simp
    | cons y ys =>
      simp only [List.map_cons, List.zipWith_cons_cons, List.sum_cons, ih]
      ring

theorem zipWith_mul_right [CommSemiring α] (conj : α →+* α) (k : α) (a b : List α) :
    (List.zipWith (fun x y => x * conj y) a (b.map fun x => x * k)).sum =
      conj k * (List.zipWith (fun x y => x * conj y) a b).sum := by
  induction a generalizing b with
  | nil => simp
  | cons x xs ih =>
    cases b with
    | nil => simp
    | cons y ys =>
      simp only [List.map_cons, List.zipWith_cons_cons, List.sum_cons, ih, map_mul]
      ring

theorem zipWith_conj [CommSemiring α] (conj : α →+* α) (hc : ∀ x, conj (conj x) = x) (a b : List α) :
    (List.zipWith (fun x y => x * conj y) b a).sum =
      conj (List.zipWith (fun x y => x * conj y) a b).sum := by
  induction a generalizing b with
  | nil => simp
  | cons x xs ih =>
    cases b with
    | nil => simp
    | cons y ys =>
      simp only [List.zipWith_cons_cons, List.sum_cons, ih, map_mul, map_add, hc]
      ring

/-- C33: the scalar product is linear in the first argument, conjugate-linear in the second, and
Hermitian. (`a + a'` and `a * k` are the operators of the library.) -/
theorem c33_sesquilinear [CommSemiring α] (conj : α →+* α) (hc : ∀ x, conj (conj x) = x)
    (a a' b b' : Tensor α) (ha : a.WF) (hb : b.WF) (h1 : a.data.length = a'.data.length)
    (h2 : a.data.length = b.data.length) (h3 : b.data.length = b'.data.length) (k : α) :
    ∃ s s' u : α, scprod conj a b = .ok s ∧ scprod conj a' b = .ok s' ∧
      scprod conj a b' = .ok u ∧
      (do let c ← binopTT (· + ·) a a'; scprod conj c b) = .ok (s + s') ∧
      (do let c ← binopTT (· + ·) b b'; scprod conj a c) = .ok (s + u) ∧
      (do let c ← binopTN (· * ·) a k; scprod conj c b) = .ok (k * s) ∧
      (do let c ← binopTN (· * ·) b k; scprod conj a c) = .ok (conj k * s) ∧
      scprod conj b a = .ok (conj s) := by
  refine ⟨_, _, _, scprod_eq conj a b (by omega), scprod_eq conj a' b (by omega),
    scprod_eq conj a b' (by omega), ?_, ?_, ?_, ?_, ?_⟩
  · rw [binopTT_ok _ _ _ ha h1, Res.ok_bind, scprod_eq]
    · simp only
      rw [zipWith_add_left _ _ _ _ h1 h2]
    · simp; omega
  · rw [binopTT_ok _ _ _ hb h3, Res.ok_bind, scprod_eq]
    · simp only
      rw [zipWith_add_right _ _ _ _ h3 h2]
    · simp; omega
  · rw [binopTN, unop_ok _ _ ha, Res.ok_bind, scprod_eq]
    · simp only
      rw [zipWith_mul_left]
    · simp; omega
  · rw [binopTN, unop_ok _ _ hb, Res.ok_bind, scprod_eq]
    · simp only
      rw [zipWith_mul_right]
    · simp; omega
  · rw [scprod_eq _ _ _ (by omega), zipWith_conj _ hc]

/-- C33: norm2 of a real tensor: its square is scprod(a,a). -/
theorem c33_norm2_real (a : Tensor ℝ) :
    ∃ n : ℝ, norm2 id id Real.sqrt a = .ok n ∧ 0 ≤ n ∧ scprod id a a = .ok (n ^ 2) ∧
      (n = 0 ↔ ∀ x ∈ a.data, x = 0) := by
  have hs := scprod_eq id a a (le_refl _)
  have key : ∀ l : List ℝ, 0 ≤ (List.zipWith (fun x y => x * id y) l l).sum ∧
      ((List.zipWith (fun x y => x * id y) l l).sum = 0 ↔ ∀ x ∈ l, x = 0) := by
    intro l
    induction l with
    | nil => simp
    | cons x xs ih =>
      simp only [List.zipWith_cons_cons, List.sum_cons, id, List.mem_cons, forall_eq_or_imp] at ih ⊢
      have hx := mul_self_nonneg x
      refine ⟨add_nonneg hx ih.1, ?_⟩
      rw [add_eq_zero_iff_of_nonneg hx ih.1, ih.2, mul_self_eq_zero]
  obtain ⟨k1, k2⟩ := key a.data
  refine ⟨_, by rw [norm2, hs]; rfl, Real.sqrt_nonneg _, ?_, ?_⟩
  · rw [hs, id, Real.sq_sqrt k1]
  · rw [id, Real.sqrt_eq_zero k1, k2]

/-- C33: norm2 of a complex tensor: its square is scprod(a,a), a real number. -/
theorem c33_norm2_complex (a : Tensor ℂ) :
    ∃ n : ℝ, norm2 (starRingEnd ℂ) Complex.re Real.sqrt a = .ok n ∧ 0 ≤ n ∧
      scprod (starRingEnd ℂ) a a = .ok ((n ^ 2 : ℝ) : ℂ) ∧ (n = 0 ↔ ∀ x ∈ a.data, x = 0) := by
  have hs := scprod_eq (starRingEnd ℂ) a a (le_refl _)
  have key : ∀ l : List ℂ, ∃ y : ℝ, (List.zipWith (fun x y => x * (starRingEnd ℂ) y) l l).sum = y ∧
      0 ≤ y ∧ (y = 0 ↔ ∀ x ∈ l, x = 0) := by
    intro l
    induction l with
    | nil => exact ⟨0, by simp⟩
    | cons x xs ih =>
      obtain ⟨y, e, h1, h2⟩ := ih
      have hx := Complex.normSq_nonneg x
      refine ⟨Complex.normSq x + y, ?_, add_nonneg hx h1, ?_⟩
      · rw [List.zipWith_cons_cons, List.sum_cons, e, Complex.mul_conj]; push_cast; rfl
      · rw [add_eq_zero_iff_of_nonneg hx h1, h2, Complex.normSq_eq_zero]
        simp
  obtain ⟨y, e, h1, h2⟩ := key a.data
  refine ⟨Real.sqrt y, by rw [norm2, hs, e]; rfl, Real.sqrt_nonneg _, ?_, ?_⟩
  · rw [hs, e, Real.sq_sqrt h1]
  · rw [Real.sqrt_eq_zero h1, h2]

/-- C61: matrix_norminf is the largest sum of absolute values of a row, if there are columns. What is
missing is `c61_norminf_no_columns`. -/
theorem c61_norminf_partial [AddCommMonoid β] [LinearOrder β] [IsOrderedAddMonoid β] (abs : α → β) (m : Tensor α) (r c : Nat)
    (f : Nat → Nat → α) (h : IsMat m.dims m.data r c f) (hc : r = 0 ∨ c ≠ 0)
    (habs : ∀ x, 0 ≤ abs x) :
    ∃ n, matrixNormInf abs m = .ok n ∧ (∀ i < r, ∑ j ∈ Finset.range c, abs (f i j) ≤ n) ∧
      (r = 0 → n = 0) ∧ (r ≠ 0 → ∃ i < r, n = ∑ j ∈ Finset.range c, abs (f i j)) := by
  have a0 := dimension_nat m 0 r (by rw [h.1]; rfl)
  have a1 := dimension_nat m 1 c (by rw [h.1]; rfl)
  simp only [Nat.cast_zero, Nat.cast_one] at a0 a1
  have hr : m.rank = 2 := by simp [rank, h.1]
  rw [matrixNormInf, Res.assert_pos hr, Res.ok_bind, a0, Res.ok_bind, a1, Res.ok_bind]
  by_cases hr0 : r = 0
  · subst hr0
    have e : (List.range (c - 1)).flatMap (fun _ => ([] : List (Nat × Nat))) = [] := by simp
    exact ⟨0, by simp [runWrites_zero, e, modLoop], by simp, by simp, by simp⟩
  have hc : c ≠ 0 := by tauto
  obtain ⟨c', rfl⟩ := Nat.exists_eq_succ_of_ne_zero hc
  have hw : runWrites r ((List.range r).map fun i => (i, (m.data[i]?).map abs)) =
      .ok ((List.range r).map fun i => abs (f i 0)) := by
    have := runWrites_range ((List.range r).map fun i => abs (f i 0)) (fun i => (m.data[i]?).map abs)
      (by
        intro i hi
        have hi : i < r := by simpa using hi
        have := isMat_pos h hi (show 0 < c' + 1 by omega)
        simp only [Nat.mul_zero, Nat.add_zero] at this
        simp [this, hi])
    simpa using this
  rw [hw, Res.ok_bind]
  obtain ⟨l, e, hl, hget⟩ := modLoop_get (fun s x => s + abs x) m.data
    ((List.range (c' + 1 - 1)).flatMap fun j => (List.range r).map fun i => (i, r + i + r * j))
    ((List.range r).map fun i => abs (f i 0)) (by
      intro s hs
      simp only [List.mem_flatMap, List.mem_range, List.mem_map] at hs
      obtain ⟨j, hj, i, hi, rfl⟩ := hs
      refine ⟨by simpa using hi, ?_⟩
      rw [h.2.1]
      have := pos_lt' hi (show j + 1 < c' + 1 by omega)
      simp only
      linarith)
  rw [e, Res.ok_bind]
  have hl' : l = (List.range r).map fun i => ∑ j ∈ Finset.range (c' + 1), abs (f i j) := by
    apply List.ext_getElem?
    intro i
    by_cases hi : i < r
    · rw [hget i (abs (f i 0)) (by simp [hi])]
      have hfil : ((List.range (c' + 1 - 1)).flatMap fun j => (List.range r).map fun i =>
          (i, r + i + r * j)).filter (fun s => s.1 = i) =
          (List.range c').map fun j => (i, r + i + r * j) := by
        rw [Nat.add_sub_cancel, List.filter_flatMap, map_eq_flatMap_single]
        congr 1
        funext j
        rw [map_eq_flatMap_single, List.filter_flatMap, flatMap_range_single r i hi]
        · simp
        · intro k _ hk; simp [hk]
      rw [hfil, List.filterMap_map]
      have hfm : (List.range c').filterMap ((fun s : Nat × Nat => m.data[s.2]?) ∘
          fun j => (i, r + i + r * j)) = (List.range c').map fun j => f i (j + 1) := by
        have : ∀ j ∈ List.range c', ((fun s : Nat × Nat => m.data[s.2]?) ∘
            fun j => (i, r + i + r * j)) j = some (f i (j + 1)) := by
          intro j hj
          have hj := List.mem_range.mp hj
          have := isMat_pos h hi (show j + 1 < c' + 1 by omega)
          simp only [Function.comp]
          rw [← this]; congr 1; ring
        rw [List.filterMap_congr this]
        simp [List.filterMap_eq_map']
      rw [hfm, List.getElem?_map, List.getElem?_range hi, Option.map_some,
        Finset.sum_range_succ']
      have hfold : ∀ (l : List α) (z : β), l.foldl (fun s x => s + abs x) z =
          z + (l.map abs).sum := by
        intro l
        induction l with
        | nil => simp
        | cons x xs ih => intro z; simp [ih, add_assoc]
      rw [hfold, List.map_map, add_comm]
      congr 2
    · rw [List.getElem?_eq_none (by rw [hl]; simp; omega), List.getElem?_eq_none (by simp; omega)]
  subst hl'
  obtain ⟨k1, k2, k3⟩ := maxFold_spec (fun x : β => x) 0
    ((List.range r).map fun i => ∑ j ∈ Finset.range (c' + 1), abs (f i j))
  refine ⟨_, rfl, ?_, by tauto, ?_⟩
  · intro i hi
    exact k1 _ (List.mem_map.mpr ⟨i, List.mem_range.mpr hi, rfl⟩)
  · intro _
    rcases k3 with k3 | ⟨x, hx, k3⟩
    · refine ⟨0, by omega, le_antisymm ?_ ?_⟩
      · rw [k3]; exact Finset.sum_nonneg fun j _ => habs _
      · exact k1 _ (List.mem_map.mpr ⟨0, List.mem_range.mpr (by omega), rfl⟩)
    · obtain ⟨i, hi, rfl⟩ := List.mem_map.mp hx
      exact ⟨i, List.mem_range.mp hi, k3⟩

/-- C61 is false for matrices with rows and no columns: the first column is read. -/
theorem c61_norminf_no_columns [Zero β] [Add β] [LT β] [DecidableLT β] (abs : α → β) (m : Tensor α)
    (r : Nat) (wf : m.WF) (h : m.dims = [r + 1, 0]) : matrixNormInf abs m = .ub := by
  have a0 := dimension_nat m 0 (r + 1) (by rw [h]; rfl)
  have a1 := dimension_nat m 1 0 (by rw [h]; rfl)
  simp only [Nat.cast_zero, Nat.cast_one] at a0 a1
  have hr : m.rank = 2 := by simp [rank, h]
  have hd : m.data = [] := by
    rw [← List.length_eq_zero_iff, wf.length_eq (by simp [h]), h]; simp
  rw [matrixNormInf, Res.assert_pos hr, Res.ok_bind, a0, Res.ok_bind, a1, Res.ok_bind, hd,
    List.range_succ_eq_map]
  rfl

example : scprod (id : Int → Int) ⟨[2], [1, 2]⟩ ⟨[1, 2], [3, 4]⟩ = .ok 11 := by decide
example : maxAll (⟨[3], [1, 5, 2]⟩ : Tensor Int) = .ok 5 := by decide
example : matrixNormInf Int.natAbs ⟨[2, 2], [1, -2, -3, 4]⟩ = .ok 6 := by decide

end Verif.Tensor
