import Verif.Model.SparseFl
import Verif.Props.SparseArith
import Verif.Props.FloatCompare
import Verif.Lemmas.GemmFloat
/-
C105: arithmetic of sparse matrices of doubles and complex doubles.
-/
namespace Verif.SparseFl

open Verif Verif.Spec Verif.Sparse Fl

variable {α : Type}

/-! ### Specification -/

/-- The two zeros of the format. -/
def Spec.IsZero (x : Fl) : Prop := x = fin 0 ∨ x = nzero

/-- The same number: equal bits, or both are zeros (of any sign), or both are NaN. -/
def Spec.Same (x y : Fl) : Prop := x = y ∨ (Spec.IsZero x ∧ Spec.IsZero y)

/-- Complex numbers: the same, or all parts are zeros. -/
def Spec.SameC (x y : CFl) : Prop :=
  x = y ∨ (Spec.IsZero x.re ∧ Spec.IsZero x.im ∧ Spec.IsZero y.re ∧ Spec.IsZero y.im)

/-- Tensors `t` and `u` are `r` by `c` matrices whose elements are pairwise related. -/
def Spec.Rel (R : α → α → Prop) (r c : Nat) (t u : Tensor α) : Prop :=
  t.dims = [r, c] ∧ u.dims = [r, c] ∧ t.data.length = r * c ∧ u.data.length = r * c ∧
  ∀ i j, i < r → j < c → ∃ x y, elem t.dims t.data [i, j] = some x ∧ elem u.dims u.data [i, j] = some y ∧ R x y

/-! ### Comparison with zero -/

/-- A number equal to zero becomes zero. -/
def clean [Zero α] (isz : α → Bool) (v : α) : α := if isz v then 0 else v

theorem clean_zero [Zero α] {isz : α → Bool} (h0 : isz 0 = true) (v : α) : clean isz v = 0 ↔ isz v = true := by
  unfold clean
  by_cases h : isz v = true
  · simp [h]
  · rw [if_neg h]
    refine ⟨fun e => ?_, fun e => absurd e h⟩
    rw [e]; exact h0

theorem clean_of_not [Zero α] {isz : α → Bool} {v : α} (h : ¬ isz v = true) : clean isz v = v := if_neg h

theorem push_clean [Zero α] [DecidableEq α] {isz : α → Bool} (h0 : isz 0 = true) (cap : Nat) (out : List (Nat × α)) (c : Nat)
    (v : α) : push isz cap out c v = Sparse.push cap out c (clean isz v) := by
  unfold push Sparse.push
  by_cases h : isz v = true
  · rw [if_neg (by simp [h]), if_neg (by simp [(clean_zero h0 v).2 h])]
  · have hv : ¬ v = 0 := by rintro rfl; exact h h0
    rw [if_pos (by simp [h]), clean_of_not h, if_pos hv]

theorem mergeRow_clean [Zero α] [DecidableEq α] {isz : α → Bool} (h0 : isz 0 = true) (op : α → α → α) (cols cap n l1 l2 : Nat)
    (m1 m2 : List Nat × List α) (out : List (Nat × α)) :
    mergeRow isz op cols cap n l1 l2 m1 m2 out =
      Sparse.mergeRow (fun x y => clean isz (op x y)) cols cap n l1 l2 m1 m2 out := by
  induction n generalizing l1 l2 m1 m2 out with
  | zero => rfl
  | succ n ih =>
    rw [mergeRow, Sparse.mergeRow]
    simp only [push_clean h0, ih]

theorem mergeLoop_clean [Zero α] [DecidableEq α] {isz : α → Bool} (h0 : isz 0 = true) (op : α → α → α) (cols cap : Nat)
    (rs1 rs2 : List Nat) (i n : Nat) (m1 m2 : List Nat × List α) (out : List (Nat × α)) :
    mergeLoop isz op cols cap rs1 rs2 i n m1 m2 out =
      Sparse.mergeLoop (fun x y => clean isz (op x y)) cols cap rs1 rs2 i n m1 m2 out := by
  induction n generalizing i m1 m2 out with
  | zero => rfl
  | succ n ih =>
    rw [mergeLoop, Sparse.mergeLoop]
    simp only [mergeRow_clean h0, ih]

theorem binop_clean [Zero α] [DecidableEq α] {isz : α → Bool} (h0 : isz 0 = true) (op : α → α → α) (a b : Sparse α) :
    binop isz op a b = Sparse.binop (fun x y => clean isz (op x y)) a b := by
  unfold binop Sparse.binop
  simp only [mergeLoop_clean h0]

/-- The comparison of exact numbers gives the functions of Model/Sparse.lean. -/
theorem binop_exact [Zero α] [DecidableEq α] (op : α → α → α) (a b : Sparse α) :
    binop (fun v => decide (v = 0)) op a b = Sparse.binop op a b := by
  rw [binop_clean (by simp)]
  congr
  funext x y
  simp only [clean]
  split
  · rename_i h; simpa using (of_decide_eq_true h).symm
  · rfl

theorem get2_map (f : α → α) (t : Tensor α) (i j : Int) :
    Tensor.get2 ⟨t.dims, t.data.map f⟩ i j = (t.get2 i j >>= fun v => .ok (f v)) := by
  unfold Tensor.get2
  simp only
  split
  · rename_i r c _
    rcases Tensor.normalizeIndex i r with i' | _ | _ <;> try rfl
    rcases Tensor.normalizeIndex j c with j' | _ | _ <;> try rfl
    simp only [Res.ok_bind, Tensor.dataAt]
    split
    · rfl
    · rw [List.getElem?_map]
      cases t.data[(j' * r + i').toNat]? <;> rfl
  · rfl

theorem ofTensorRow_clean [Zero α] [DecidableEq α] {isz : α → Bool} (h0 : isz 0 = true) (t : Tensor α) (r c n : Nat) :
    ofTensorRow isz t r c n = Sparse.ofTensorRow ⟨t.dims, t.data.map (clean isz)⟩ r c n := by
  induction n generalizing c with
  | zero => rfl
  | succ n ih =>
    rw [ofTensorRow, Sparse.ofTensorRow, get2_map, ih]
    rcases t.get2 r c with v | _ | _ <;> try rfl
    simp only [Res.ok_bind]
    congr
    funext rest
    by_cases h : isz v = true
    · rw [if_pos h, if_pos ((clean_zero h0 v).2 h)]
    · rw [if_neg h, if_neg (by rw [clean_zero h0]; exact h), clean_of_not h]

theorem ofTensor_clean [Zero α] [DecidableEq α] {isz : α → Bool} (h0 : isz 0 = true) (t : Tensor α) :
    ofTensor isz t = Sparse.ofTensor ⟨t.dims, t.data.map (clean isz)⟩ := by
  unfold ofTensor Sparse.ofTensor
  have hc : (t.data.map (clean isz)).countP (fun x => !decide (x = 0)) = t.data.countP fun x => !isz x := by
    rw [List.countP_map]
    congr
    funext x
    simp only [Function.comp]
    by_cases h : isz x = true
    · rw [h, decide_eq_true ((clean_zero h0 x).2 h)]
    · rw [decide_eq_false (by rw [clean_zero h0]; exact h)]
      simpa using h
  simp only [ofTensorRow_clean h0, hc]
  split <;> rename_i hd <;> simp only [hd]

/-! ### Statements for any numbers -/

theorem rel_of_isMat {R : α → α → Prop} {r c : Nat} {t u : Tensor α} {f g : Nat → Nat → α} (ht : IsMat t.dims t.data r c f)
    (hu : IsMat u.dims u.data r c g) (h : ∀ i j, i < r → j < c → R (f i j) (g i j)) : Spec.Rel R r c t u :=
  ⟨ht.1, hu.1, ht.2.1, hu.2.1, fun i j hi hj => ⟨_, _, ht.2.2 i j hi hj, hu.2.2 i j hi hj, h i j hi hj⟩⟩

theorem binop_rel [Zero α] [DecidableEq α] {isz : α → Bool} (h0 : isz 0 = true) (R : α → α → Prop)
    (hR : ∀ v, R (clean isz v) v) (op : α → α → α) (hop : isz (op 0 0) = true) (a b : Sparse α)
    (ha : ValidCsr a.rows a.cols a.rowStart a.column a.data)
    (hb : ValidCsr b.rows b.cols b.rowStart b.column b.data) (hr : a.rows = b.rows) (hc : a.cols = b.cols) :
    ∃ s fa fb fs t, binop isz op a b = .ok s ∧ full a = .ok fa ∧ full b = .ok fb ∧ full s = .ok fs ∧
      Tensor.binopTT op fa fb = .ok t ∧ Spec.Rel R a.rows a.cols fs t ∧
      ValidCsr s.rows s.cols s.rowStart s.column s.data ∧ ∀ v ∈ s.data, isz v = false := by
  obtain ⟨f, hf⟩ := exists_isCsr a ha
  obtain ⟨g, hg⟩ := exists_isCsr b hb
  rw [← hr, ← hc] at hg
  rw [hr, hc] at hg
  rw [binop_clean h0]
  obtain ⟨s, e, hs, hz⟩ := c37_binop (fun x y => clean isz (op x y)) ((clean_zero h0 _).2 hop) a b _ _ f g hf
    (by rw [hr, hc]; exact hg)
  obtain ⟨fa, e1, m1⟩ := c35_full a _ _ f hf
  obtain ⟨fb, e2, m2⟩ := c35_full b _ _ g hg
  obtain ⟨fs, e3, m3⟩ := c35_full s _ _ _ hs
  obtain ⟨t, e4, m4⟩ := Tensor.binop_isMat op m1 (by rw [hr, hc]; exact m2)
  refine ⟨s, fa, fb, fs, t, e, e1, e2, e3, e4, rel_of_isMat m3 m4 fun i j _ _ => hR _, hs.2.2.1, ?_⟩
  intro v hv
  obtain ⟨i, j, x, y, hvv⟩ : ∃ _i _j : Nat, ∃ x y, v = clean isz (op x y) := by
    obtain ⟨k, hk⟩ := List.mem_iff_getElem?.1 hv
    obtain ⟨L, hL, len, ok, hval⟩ := IsCsr_rows hs
    rw [hL.2.2.2] at hv
    obtain ⟨p, hp, rfl⟩ := List.mem_map.1 hv
    obtain ⟨row, hrow, hp⟩ := List.mem_flatten.1 hp
    obtain ⟨i, hi⟩ := List.mem_iff_getElem?.1 hrow
    have hc := (ok row hrow).2 p hp
    have := hval i p.1 row hi hc
    rw [look_of_mem (ok row hrow).1 hp] at this
    exact ⟨i, p.1, _, _, this⟩
  by_contra hn
  rw [Bool.not_eq_false] at hn
  refine hz v hv ?_
  rw [hvv] at hn ⊢
  by_cases h : isz (op x y) = true
  · exact (clean_zero h0 _).2 h
  · rw [clean_of_not h] at hn; exact absurd hn h

theorem look_map_rel {β : Type} [Zero α] [Zero β] (R : β → β → Prop) (φ : α → β) (h1 : ∀ x, R x x) (h2 : R 0 (φ 0)) (row : List (Nat × α))
    (j : Nat) : R (look (row.map fun p => (p.1, φ p.2)) j) (φ (look row j)) := by
  induction row with
  | nil => exact h2
  | cons p ps ih =>
    rw [List.map_cons, look_cons, look_cons]
    split
    · exact h1 _
    · exact ih

theorem map_rel {β : Type} [Zero α] [Zero β] (R : β → β → Prop) (φ : α → β) (h1 : ∀ x, R x x) (h2 : R 0 (φ 0)) (a : Sparse α)
    (ha : ValidCsr a.rows a.cols a.rowStart a.column a.data) :
    ∃ s fa fs t, mapData φ a = .ok s ∧ full a = .ok fa ∧ full s = .ok fs ∧ Tensor.unop φ fa = .ok t ∧
      Spec.Rel R a.rows a.cols fs t := by
  obtain ⟨f, hf⟩ := exists_isCsr a ha
  obtain ⟨L, hL, len, ok, v⟩ := IsCsr_rows hf
  obtain ⟨fa, e1, m1⟩ := c35_full a _ _ f hf
  have hst : ∀ k, starts k (L.map fun row => row.map fun p => (p.1, φ p.2)) = starts k L := by
    intro k
    clear hL len ok v
    induction L generalizing k with
    | nil => rfl
    | cons row L ih => rw [List.map_cons, starts, starts, List.length_map, ih]
  have hs : IsCsr a.rows a.cols a.rowStart a.column (a.data.map φ) a.rows a.cols
      fun i j => look ((L.getD i []).map fun p => (p.1, φ p.2)) j := by
    refine isCsr_of_rows (s := ⟨a.rows, a.cols, a.rowStart, a.column, a.data.map φ⟩)
      (L := L.map fun row => row.map fun p => (p.1, φ p.2)) ⟨by simp [hL.1], ?_, ?_, ?_⟩ ?_ rfl rfl ?_
    · rw [hst, hL.2.1]
    · rw [hL.2.2.1, ← List.map_flatten, List.map_map]; rfl
    · rw [hL.2.2.2, ← List.map_flatten, List.map_map, List.map_map]; rfl
    · intro row hrow
      obtain ⟨row, hm, rfl⟩ := List.mem_map.mp hrow
      have := ok row hm
      constructor
      · rw [List.map_map]; exact this.1
      · intro p hp
        obtain ⟨q, hq, rfl⟩ := List.mem_map.mp hp
        exact this.2 q hq
    · intro i j row hi hj
      rw [List.getElem?_map, Option.map_eq_some_iff] at hi
      obtain ⟨row, hi, rfl⟩ := hi
      rw [List.getD_eq_getElem?_getD, hi]
      rfl
  obtain ⟨fs, e3, m3⟩ := c35_full ⟨a.rows, a.cols, a.rowStart, a.column, a.data.map φ⟩ _ _ _ hs
  have e4 := Tensor.unop_ok φ fa (IsMat.wf m1)
  refine ⟨_, fa, fs, _, ?_, e1, e3, e4, rel_of_isMat m3 (g := fun i j => φ (f i j)) ⟨m1.1, by simp [m1.2.1], ?_⟩ ?_⟩
  · rw [mapData, make, Res.assert_pos (by rw [hL.2.1, starts_length, hL.1]), Res.ok_bind]; rfl
  · intro i j hi hj
    rw [Tensor.elem_map, m1.2.2 i j hi hj]; rfl
  · intro i j hi hj
    have hrow : L[i]? = some (L[i]'(by omega)) := List.getElem?_eq_getElem _
    rw [List.getD_eq_getElem?_getD, hrow, ← v i j _ hrow hj]
    exact look_map_rel R φ h1 h2 _ j

theorem tensor_rel [Zero α] [DecidableEq α] {isz : α → Bool} (h0 : isz 0 = true) (R : α → α → Prop)
    (hR : ∀ v, R (clean isz v) v) (t : Tensor α) (wf : t.WF) (r c : Nat) (hd : t.dims = [r, c]) :
    ∃ s fs, ofTensor isz t = .ok s ∧ full s = .ok fs ∧ Spec.Rel R r c fs t ∧
      ValidCsr s.rows s.cols s.rowStart s.column s.data := by
  obtain ⟨f, hf⟩ := Tensor.exists_isMat t wf r c hd
  rw [ofTensor_clean h0]
  have hm : IsMat t.dims (t.data.map (clean isz)) r c fun i j => clean isz (f i j) :=
    ⟨hf.1, by simp [hf.2.1], fun i j hi hj => by rw [Tensor.elem_map, hf.2.2 i j hi hj]; rfl⟩
  obtain ⟨s, e, hs, -⟩ := c35_sparse ⟨t.dims, t.data.map (clean isz)⟩ r c _ hm
  obtain ⟨fs, e', h'⟩ := c35_full s r c _ hs
  exact ⟨s, fs, e, e', rel_of_isMat h' hf fun i j _ _ => hR _, hs.2.2.1⟩

/-! ### Doubles -/

theorem isZero_iff (v : Fl) : isZero v = true ↔ Spec.IsZero v := by
  unfold isZero FlCmp.ev Spec.IsZero
  rw [decide_eq_true_iff]
  show (Fl.le v (fin 0) ∧ Fl.le (fin 0) v) ↔ _
  have hlt : ∀ a b : Fl, (a < b) = Fl.lt a b := fun _ _ => rfl
  cases v with
  | fin x =>
    simp only [Fl.le, hlt, Fl.lt, val, ne_eq, reduceCtorEq, not_false_eq_true, true_and, not_lt, fin.injEq, or_false]
    exact ⟨fun h => le_antisymm h.1 h.2, fun h => by rw [h]; simp⟩
  | _ => simp [Fl.le, hlt, Fl.lt, val]

theorem isZero_zero : isZero 0 = true := (isZero_iff 0).2 (.inl rfl)

theorem same_clean (v : Fl) : Spec.Same (clean isZero v) v := by
  unfold clean
  split
  · rename_i h; exact .inr ⟨.inl rfl, (isZero_iff v).1 h⟩
  · exact .inl rfl

theorem isZeroC_iff (z : CFl) : isZeroC z = true ↔ Spec.IsZero z.re ∧ Spec.IsZero z.im := by
  unfold isZeroC
  rw [Bool.and_eq_true, ← isZero_iff, ← isZero_iff]
  rfl

theorem sameC_clean (v : CFl) : Spec.SameC (clean isZeroC v) v := by
  unfold clean
  split
  · rename_i h; exact .inr ⟨.inl rfl, .inl rfl, (isZeroC_iff v).1 h⟩
  · exact .inl rfl

open Classical in
noncomputable instance : DecidableEq CFl := fun _ _ => inferInstance

variable [Rounding]

theorem zero_add_zero : (0 : Fl) + 0 = 0 := by
  show Fl.add (fin 0) (fin 0) = fin 0
  simp [Fl.add, val]

theorem zero_sub_zero : (0 : Fl) - 0 = 0 := by
  show Fl.add (fin 0) (Fl.negate (fin 0)) = fin 0
  simp [Fl.add, Fl.negate, val]

/-- Products of zero and finite numbers are zeros. -/
theorem zero_mul_fin {b : Fl} (h1 : b ≠ nan) (h2 : b.isInf = false) : Spec.IsZero (0 * b) := by
  show Spec.IsZero (Fl.mul (fin 0) b)
  have e : Fl.mul (fin 0) b = zeroS ((fin 0).neg ^^ b.neg) := by
    cases b with
    | nan => exact absurd rfl h1
    | pinf => exact absurd h2 (by simp [isInf])
    | ninf => exact absurd h2 (by simp [isInf])
    | _ => simp [Fl.mul, isInf, val]
  rw [e, zeroS]
  split
  · exact .inr rfl
  · exact .inl rfl

/-- Quotients of zero and numbers which are not zero are zeros. -/
theorem zero_div {b : Fl} (h1 : b ≠ nan) (h2 : ¬ Spec.IsZero b) : Spec.IsZero (0 / b) := by
  show Spec.IsZero (Fl.div (fin 0) b)
  have hz : ∀ s, Spec.IsZero (zeroS s) := by
    intro s
    rw [zeroS]
    split
    · exact .inr rfl
    · exact .inl rfl
  cases b with
  | nan => exact absurd rfl h1
  | nzero => exact absurd (.inr rfl) h2
  | fin x =>
    have : x ≠ 0 := by rintro rfl; exact h2 (.inl rfl)
    simp [Fl.div, isInf, val, this, hz]
  | _ => simp [Fl.div, isInf, hz]

/-- **C105.** Sums, differences and products of sparse matrices of doubles: the operations never leave the arrays, the result has the same
elements as the operation on the full matrices (up to the sign of zeros; NaN and infinities included), and no zeros are stored. -/
theorem c105_arithmetic (a b : Sparse Fl) (ha : ValidCsr a.rows a.cols a.rowStart a.column a.data)
    (hb : ValidCsr b.rows b.cols b.rowStart b.column b.data) (hr : a.rows = b.rows) (hc : a.cols = b.cols)
    (op : Fl → Fl → Fl) (hop : op = (· + ·) ∨ op = (· - ·) ∨ op = (· * ·)) :
    ∃ s fa fb fs t, binop isZero op a b = .ok s ∧ full a = .ok fa ∧ full b = .ok fb ∧ full s = .ok fs ∧
      Tensor.binopTT op fa fb = .ok t ∧ Spec.Rel Spec.Same a.rows a.cols fs t ∧
      ValidCsr s.rows s.cols s.rowStart s.column s.data ∧ ∀ v ∈ s.data, ¬ Spec.IsZero v := by
  have h : isZero (op 0 0) = true := by
    rw [isZero_iff]
    rcases hop with rfl | rfl | rfl
    · exact .inl zero_add_zero
    · exact .inl zero_sub_zero
    · exact zero_mul_fin (by rintro ⟨⟩) rfl
  obtain ⟨s, fa, fb, fs, t, h1, h2, h3, h4, h5, h6, h7, h8⟩ := binop_rel isZero_zero Spec.Same same_clean op h a b ha hb hr hc
  refine ⟨s, fa, fb, fs, t, h1, h2, h3, h4, h5, h6, h7, fun v hv hn => ?_⟩
  have := h8 v hv
  rw [(isZero_iff v).2 hn] at this
  exact absurd this (by simp)

/-- **C105 (partial)**: products with a number, which must be finite. -/
theorem c105_scale_partial (a : Sparse Fl) (ha : ValidCsr a.rows a.cols a.rowStart a.column a.data) (b : Fl) (hb : b ≠ nan)
    (hi : b.isInf = false) :
    ∃ s fa fs t, mapData (· * b) a = .ok s ∧ full a = .ok fa ∧ full s = .ok fs ∧ Tensor.binopTN (· * ·) fa b = .ok t ∧
      Spec.Rel Spec.Same a.rows a.cols fs t :=
  map_rel Spec.Same (· * b) (fun _ => .inl rfl) (.inr ⟨.inl rfl, zero_mul_fin hb hi⟩) a ha

/-- **C105 (partial)**: quotients with a number, which must not be zero or NaN. -/
theorem c105_divide_partial (a : Sparse Fl) (ha : ValidCsr a.rows a.cols a.rowStart a.column a.data) (b : Fl) (hb : b ≠ nan)
    (hz : ¬ Spec.IsZero b) :
    ∃ s fa fs t, mapData (· / b) a = .ok s ∧ full a = .ok fa ∧ full s = .ok fs ∧ Tensor.binopTN (· / ·) fa b = .ok t ∧
      Spec.Rel Spec.Same a.rows a.cols fs t :=
  map_rel Spec.Same (· / b) (fun _ => .inl rfl) (.inr ⟨.inl rfl, zero_div hb hz⟩) a ha

omit [Rounding] in
/-- **C105**: the sign, for all matrices. -/
theorem c105_negate (a : Sparse Fl) (ha : ValidCsr a.rows a.cols a.rowStart a.column a.data) :
    ∃ s fa fs t, mapData (- ·) a = .ok s ∧ full a = .ok fa ∧ full s = .ok fs ∧ Tensor.unop (- ·) fa = .ok t ∧
      Spec.Rel Spec.Same a.rows a.cols fs t :=
  map_rel Spec.Same (- ·) (fun _ => .inl rfl) (.inr ⟨.inl rfl, .inr (by show Fl.negate (fin 0) = nzero; simp [Fl.negate])⟩) a ha

omit [Rounding] in
/-- **C105**: conversion of a matrix of doubles to a sparse matrix and back, up to the sign of zeros. -/
theorem c105_round_trip (t : Tensor Fl) (wf : t.WF) (r c : Nat) (hd : t.dims = [r, c]) :
    ∃ s fs, ofTensor isZero t = .ok s ∧ full s = .ok fs ∧ Spec.Rel Spec.Same r c fs t ∧
      ValidCsr s.rows s.cols s.rowStart s.column s.data :=
  tensor_rel isZero_zero Spec.Same same_clean t wf r c hd

/-- **C105, negation**: infinity times a sparse matrix has zeros where the full matrix has NaN, and the same for the division by zero. -/
theorem c105_negation_scale :
    ∃ a : Sparse Fl, ValidCsr a.rows a.cols a.rowStart a.column a.data ∧
      (∃ s, mapData (· * pinf) a = .ok s ∧ full s = .ok ⟨[1, 1], [0]⟩) ∧
      (∃ s, mapData (· / 0) a = .ok s ∧ full s = .ok ⟨[1, 1], [0]⟩) ∧
      (∃ fa, full a = .ok fa ∧ Tensor.binopTN (· * ·) fa pinf = .ok ⟨[1, 1], [nan]⟩ ∧
        Tensor.binopTN (· / ·) fa 0 = .ok ⟨[1, 1], [nan]⟩) := by
  refine ⟨⟨1, 1, [0, 0], [], []⟩, ?_, ⟨_, rfl, rfl⟩, ⟨_, rfl, rfl⟩, ⟨[1, 1], [0]⟩, rfl, ?_, ?_⟩
  · refine ⟨rfl, rfl, by simp, rfl, rfl, ?_, by simp⟩
    intro i a b h1 h2
    match i, h1, h2 with
    | 0, h1, h2 => cases h1; cases h2; simp
    | 1, h1, h2 => simp at h2
    | i + 2, h1, h2 => simp at h2
  · have e : (0 : Fl) * pinf = nan := by
      show mul (fin 0) pinf = nan
      simp [mul, isInf, val]
    show Tensor.unop (· * pinf) _ = _
    rw [Tensor.unop_ok _ _ (by simp [Tensor.WF])]
    simp [e]
  · have e : (0 : Fl) / 0 = nan := by
      show div (fin 0) (fin 0) = nan
      simp [div, isInf, val]
    show Tensor.unop (· / 0) _ = _
    rw [Tensor.unop_ok _ _ (by simp [Tensor.WF])]
    simp [e]

/-! ### Complex doubles -/

variable [Recover]

/-- **C105** for complex doubles: sums, differences and products. -/
theorem c105_complex (a b : Sparse CFl) (ha : ValidCsr a.rows a.cols a.rowStart a.column a.data)
    (hb : ValidCsr b.rows b.cols b.rowStart b.column b.data) (hr : a.rows = b.rows) (hc : a.cols = b.cols)
    (op : CFl → CFl → CFl) (hop : op = (· + ·) ∨ op = (fun x y => ⟨x.re - y.re, x.im - y.im⟩) ∨ op = (· * ·)) :
    ∃ s fa fb fs t, binop isZeroC op a b = .ok s ∧ full a = .ok fa ∧ full b = .ok fb ∧ full s = .ok fs ∧
      Tensor.binopTT op fa fb = .ok t ∧ Spec.Rel Spec.SameC a.rows a.cols fs t ∧
      ValidCsr s.rows s.cols s.rowStart s.column s.data ∧ ∀ v ∈ s.data, ¬ (Spec.IsZero v.re ∧ Spec.IsZero v.im) := by
  have m00 : (0 : Fl) * 0 = 0 := by
    show mul (fin 0) (fin 0) = fin 0
    simp [mul, isInf, val, zeroS, Fl.neg]
  have h : isZeroC (op 0 0) = true := by
    rw [isZeroC_iff]
    rcases hop with rfl | rfl | rfl
    · exact ⟨.inl zero_add_zero, .inl zero_add_zero⟩
    · exact ⟨.inl zero_sub_zero, .inl zero_sub_zero⟩
    · have h1 : CFl.mulRe 0 0 = 0 := by
        show (0 : Fl) * 0 - 0 * 0 = 0
        rw [m00, zero_sub_zero]
      have h2 : CFl.mulIm 0 0 = 0 := by
        show (0 : Fl) * 0 + 0 * 0 = 0
        rw [m00, zero_add_zero]
      have hne : ¬ (CFl.mulRe 0 0 = .nan ∧ CFl.mulIm 0 0 = .nan) := by
        rw [h1]
        rintro ⟨⟨⟩, -⟩
      have e : (0 : CFl) * 0 = ⟨CFl.mulRe 0 0, CFl.mulIm 0 0⟩ := if_neg hne
      show Spec.IsZero ((0 : CFl) * 0).re ∧ Spec.IsZero ((0 : CFl) * 0).im
      rw [e, h1, h2]
      exact ⟨.inl rfl, .inl rfl⟩
  have h0 : isZeroC 0 = true := (isZeroC_iff 0).2 ⟨.inl rfl, .inl rfl⟩
  obtain ⟨s, fa, fb, fs, t, h1, h2, h3, h4, h5, h6, h7, h8⟩ := binop_rel h0 Spec.SameC sameC_clean op h a b ha hb hr hc
  refine ⟨s, fa, fb, fs, t, h1, h2, h3, h4, h5, h6, h7, fun v hv hn => ?_⟩
  have := h8 v hv
  rw [(isZeroC_iff v).2 hn] at this
  exact absurd this (by simp)

omit [Rounding] [Recover] in
/-- **C105** for complex doubles: conversion to a sparse matrix and back. -/
theorem c105_complex_round_trip (t : Tensor CFl) (wf : t.WF) (r c : Nat) (hd : t.dims = [r, c]) :
    ∃ s fs, ofTensor isZeroC t = .ok s ∧ full s = .ok fs ∧ Spec.Rel Spec.SameC r c fs t ∧
      ValidCsr s.rows s.cols s.rowStart s.column s.data :=
  tensor_rel ((isZeroC_iff 0).2 ⟨.inl rfl, .inl rfl⟩) Spec.SameC sameC_clean t wf r c hd

omit [Recover] in
/-- Sums and differences of zeros are zeros. -/
theorem zero_add {x y : Fl} (hx : Spec.IsZero x) (hy : Spec.IsZero y) : Spec.IsZero (x + y) := by
  show Spec.IsZero (Fl.add x y)
  rcases hx with rfl | rfl <;> rcases hy with rfl | rfl <;> simp [Fl.add, val, Spec.IsZero]

omit [Rounding] [Recover] in
theorem zero_neg {x : Fl} (hx : Spec.IsZero x) : Spec.IsZero (Fl.negate x) := by
  rcases hx with rfl | rfl <;> simp [Fl.negate, Spec.IsZero]

/-- **C105 (partial)** for complex doubles: products with a complex number with finite parts. -/
theorem c105_complex_scale_partial (a : Sparse CFl) (ha : ValidCsr a.rows a.cols a.rowStart a.column a.data) (b : CFl)
    (h1 : b.re ≠ nan ∧ b.re.isInf = false) (h2 : b.im ≠ nan ∧ b.im.isInf = false) :
    ∃ s fa fs t, mapData (· * b) a = .ok s ∧ full a = .ok fa ∧ full s = .ok fs ∧ Tensor.binopTN (· * ·) fa b = .ok t ∧
      Spec.Rel Spec.SameC a.rows a.cols fs t := by
  have e1 : Spec.IsZero (CFl.mulRe 0 b) :=
    zero_add (zero_mul_fin h1.1 h1.2) (zero_neg (zero_mul_fin h2.1 h2.2))
  have e2 : Spec.IsZero (CFl.mulIm 0 b) := zero_add (zero_mul_fin h2.1 h2.2) (zero_mul_fin h1.1 h1.2)
  have hne : ¬ (CFl.mulRe 0 b = .nan ∧ CFl.mulIm 0 b = .nan) := by
    rintro ⟨h, -⟩
    rw [h] at e1
    rcases e1 with ⟨⟨⟩⟩ | ⟨⟨⟩⟩
  have e : (0 : CFl) * b = ⟨CFl.mulRe 0 b, CFl.mulIm 0 b⟩ := if_neg hne
  refine map_rel Spec.SameC (· * b) (fun _ => .inl rfl) (.inr ⟨.inl rfl, .inl rfl, ?_⟩) a ha
  rw [e]
  exact ⟨e1, e2⟩

omit [Recover] in
/-- **C105 (partial)** for complex doubles: quotients with a double which is not zero or NaN. -/
theorem c105_complex_divide_partial (a : Sparse CFl) (ha : ValidCsr a.rows a.cols a.rowStart a.column a.data) (b : Fl) (hb : b ≠ nan)
    (hz : ¬ Spec.IsZero b) :
    ∃ s fa fs t, mapData (CFl.divD · b) a = .ok s ∧ full a = .ok fa ∧ full s = .ok fs ∧ Tensor.unop (CFl.divD · b) fa = .ok t ∧
      Spec.Rel Spec.SameC a.rows a.cols fs t :=
  map_rel Spec.SameC (CFl.divD · b) (fun _ => .inl rfl) (.inr ⟨.inl rfl, .inl rfl, zero_div hb hz, zero_div hb hz⟩) a ha

/-- **C105, negation** for pairs of a complex and a real matrix: the sparse product (sparse_times_tr_cdouble.cc:24-27) converts the real
matrix to a complex one and an infinity times its zero imaginary parts is NaN, while the product of full matrices multiplies the parts with
the real number. -/
theorem c105_negation_mixed :
    ∃ (a : Sparse CFl) (b : Sparse Fl), ValidCsr a.rows a.cols a.rowStart a.column a.data ∧
      ValidCsr b.rows b.cols b.rowStart b.column b.data ∧
      (∃ b' s, mapData (fun x => (⟨x, 0⟩ : CFl)) b = .ok b' ∧ binop isZeroC (· * ·) a b' = .ok s ∧
        full s = .ok ⟨[1, 1], [⟨pinf, nan⟩]⟩) ∧
      (∃ fa fb, full a = .ok fa ∧ full b = .ok fb ∧
        Tensor.binopTT (fun x y => (⟨x.re * y, x.im * y⟩ : CFl)) fa fb = .ok ⟨[1, 1], [⟨pinf, 0⟩]⟩) := by
  have v1 : ∀ {β : Type} (x : β), ValidCsr 1 1 [0, 1] [0] [x] := by
    intro β x
    refine ⟨rfl, rfl, by simp, rfl, rfl, ?_, by simp⟩
    intro i a b h1 h2
    match i, h1, h2 with
    | 0, h1, h2 => cases h1; cases h2; simp
    | 1, h1, h2 => simp at h2
    | i + 2, h1, h2 => simp at h2
  have e1 : (pinf : Fl) * fin 1 = pinf := by
    show mul pinf (fin 1) = pinf
    simp [mul, isInf, val, Fl.neg, infS]
  have e2 : (0 : Fl) * 0 = 0 := by
    show mul (fin 0) (fin 0) = fin 0
    simp [mul, isInf, val, zeroS, Fl.neg]
  have e3 : (pinf : Fl) * 0 = nan := by
    show mul pinf (fin 0) = nan
    simp [mul, isInf, val]
  have e4 : (0 : Fl) * fin 1 = 0 := by
    show mul (fin 0) (fin 1) = fin 0
    simp [mul, isInf, val, zeroS, Fl.neg]
  have h1 : CFl.mulRe ⟨pinf, 0⟩ ⟨fin 1, 0⟩ = pinf := by
    show (pinf : Fl) * fin 1 - 0 * 0 = pinf
    rw [e1, e2]
    show Fl.add pinf (Fl.negate (fin 0)) = pinf
    simp [Fl.negate, Fl.add]
  have h2 : CFl.mulIm ⟨pinf, 0⟩ ⟨fin 1, 0⟩ = nan := by
    show (pinf : Fl) * 0 + 0 * fin 1 = nan
    rw [e3]; rfl
  have hm : (⟨pinf, 0⟩ : CFl) * ⟨fin 1, 0⟩ = ⟨pinf, nan⟩ := by
    have hne : ¬ (CFl.mulRe ⟨pinf, 0⟩ ⟨fin 1, 0⟩ = .nan ∧ CFl.mulIm ⟨pinf, 0⟩ ⟨fin 1, 0⟩ = .nan) := by
      rw [h1]
      rintro ⟨⟨⟩, -⟩
    refine (if_neg hne).trans ?_
    rw [h1, h2]
  have hz : isZeroC ⟨pinf, nan⟩ = false := by
    rw [← Bool.not_eq_true, isZeroC_iff]
    rintro ⟨⟨⟨⟩⟩ | ⟨⟨⟩⟩, -⟩
  refine ⟨⟨1, 1, [0, 1], [0], [⟨pinf, 0⟩]⟩, ⟨1, 1, [0, 1], [0], [fin 1]⟩, v1 _, v1 _,
    ⟨_, ⟨1, 1, [0, 1], [0], [⟨pinf, nan⟩]⟩, rfl, ?_, rfl⟩, ⟨[1, 1], [⟨pinf, 0⟩]⟩, ⟨[1, 1], [fin 1]⟩, rfl, rfl, ?_⟩
  · have hp : push isZeroC 2 [] 0 ((⟨pinf, 0⟩ : CFl) * ⟨fin 1, 0⟩) = .ok [(0, ⟨pinf, nan⟩)] := by
      rw [hm]
      simp [push, hz]
    simp [binop, mergeLoop, mergeRow, hp]
    rfl
  · rw [Tensor.binopTT_ok _ ⟨[1, 1], [(⟨pinf, 0⟩ : CFl)]⟩ ⟨[1, 1], [fin 1]⟩ (by simp [Tensor.WF]) rfl]
    simp [e1, e4]

/-- The conditions can be met: the sum of a matrix with one element and one without. -/
example : ∃ s fa fb fs t, binop isZero (· + ·) ⟨1, 2, [0, 1], [1], [nzero]⟩ ⟨1, 2, [0, 0], [], []⟩ = .ok s ∧
    full ⟨1, 2, [0, 1], [1], [nzero]⟩ = .ok fa ∧ full ⟨1, 2, [0, 0], [], []⟩ = .ok fb ∧ full s = .ok fs ∧
    Tensor.binopTT (· + ·) fa fb = .ok t ∧ Spec.Rel Spec.Same 1 2 fs t := by
  have hv : ValidCsr 1 2 [0, 1] [1] [nzero] := by
    refine ⟨rfl, rfl, by simp, rfl, rfl, ?_, by simp⟩
    intro i a b h1 h2
    match i, h1, h2 with
    | 0, h1, h2 => cases h1; cases h2; simp
    | 1, h1, h2 => simp at h2
    | i + 2, h1, h2 => simp at h2
  have hw : ValidCsr 1 2 [0, 0] [] ([] : List Fl) := by
    refine ⟨rfl, rfl, by simp, rfl, rfl, ?_, by simp⟩
    intro i a b h1 h2
    match i, h1, h2 with
    | 0, h1, h2 => cases h1; cases h2; simp
    | 1, h1, h2 => simp at h2
    | i + 2, h1, h2 => simp at h2
  obtain ⟨s, fa, fb, fs, t, h1, h2, h3, h4, h5, h6, -⟩ := c105_arithmetic ⟨1, 2, [0, 1], [1], [nzero]⟩ ⟨1, 2, [0, 0], [], []⟩ hv hw
    rfl rfl (· + ·) (.inl rfl)
  exact ⟨s, fa, fb, fs, t, h1, h2, h3, h4, h5, h6⟩

end Verif.SparseFl
