import Verif.Model.Random
import Verif.Props.RandFloat
import Verif.Props.SparseFl
/-
C109: random tensors and sparse matrices.
-/
namespace Verif.Rand

open Verif Spec Fl Rounding

/-- The number between 0 and 1 which a word of the generator gives: its first 53 bits after the point. -/
def unit (w : BitVec 64) : ℚ := (w.toNat / 2 ^ 11 : ℕ) / 2 ^ 53

theorem unit_range (w : BitVec 64) : 0 ≤ unit w ∧ unit w < 1 := by
  have h : w.toNat / 2 ^ 11 < 2 ^ 53 := by have := w.isLt; omega
  have h' : ((w.toNat / 2 ^ 11 : ℕ) : ℚ) < 2 ^ 53 := by exact_mod_cast h
  refine ⟨by unfold unit; positivity, ?_⟩
  rw [unit, div_lt_one (by norm_num)]
  exact h'

theorem unit_eq (w : BitVec 64) : ((w >>> 11).toNat : ℚ) * (1 / 9007199254740992) = unit w := by
  rw [unit, BitVec.toNat_ushiftRight, Nat.shiftRight_eq_div_pow]
  norm_num
  ring

theorem draws_ready {s : State 64} (h : Ready mt64 s) (n : Nat) :
    ∃ ws s', draws mt64 n s = .ok (ws, s') ∧ ws.length = n ∧ Ready mt64 s' := by
  induction n generalizing s with
  | zero => exact ⟨[], s, rfl, rfl, h⟩
  | succ n ih =>
    obtain ⟨x, s1, e, h1⟩ := genrand_ready mt64_ok h
    obtain ⟨ws, s2, e2, hl, h2⟩ := ih h1
    exact ⟨x :: ws, s2, by rw [draws, e, Res.ok_bind, e2]; rfl, by simp [hl], h2⟩

theorem randomize_eq (n : Nat) (s : State 64) :
    randomize n s = draws mt64 n s >>= fun p => pure (p.1.map unit, p.2) := by
  induction n generalizing s with
  | zero => rfl
  | succ n ih =>
    rw [randomize, draws, randDouble, genrandRes53]
    rcases genrand mt64 s with p | _ | _ <;> try rfl
    simp only [Res.ok_bind, Res.pure_eq, ih]
    rcases draws mt64 n p.2 with q | _ | _ <;> try rfl
    simp only [Res.ok_bind, List.map_cons, ← unit_eq]

/-- C109: RTensor::random(dims) has these dimensions, and its elements, in the order in which they are stored, are the
next numbers of the generator, in [0,1). -/
theorem c109_tensor {s : State 64} (h : Ready mt64 s) (dims : List Nat) :
    ∃ ws t s', draws mt64 (Tensor.totalSize dims) s = .ok (ws, s') ∧ random dims s = .ok (t, s') ∧ Ready mt64 s' ∧
      t.dims = dims ∧ t.WF ∧ t.data = ws.map unit ∧ ∀ x ∈ t.data, 0 ≤ x ∧ x < 1 := by
  obtain ⟨ws, s', e, hl, hr⟩ := draws_ready h (Tensor.totalSize dims)
  refine ⟨ws, ⟨dims, ws.map unit⟩, s', e, ?_, hr, rfl, by simp [Tensor.WF, hl], rfl, ?_⟩
  · rw [random, randomize_eq, e]; rfl
  · intro x hx
    obtain ⟨w, _, rfl⟩ := List.mem_map.1 hx
    exact unit_range w

/-- Words in pairs. -/
def pairs : List (BitVec 64) → List (BitVec 64 × BitVec 64)
  | a :: b :: l => (a, b) :: pairs l
  | _ => []

theorem randomizeC_eq (b : Bool) (n : Nat) (s : State 64) :
    randomizeC b n s = draws mt64 (2 * n) s >>= fun p =>
      pure ((pairs p.1).map fun q => if b then (unit q.1, unit q.2) else (unit q.2, unit q.1), p.2) := by
  induction n generalizing s with
  | zero => rfl
  | succ n ih =>
    rw [randomizeC, show 2 * (n + 1) = 2 * n + 1 + 1 by ring, draws, randComplex, genrandRes53]
    rcases genrand mt64 s with p | _ | _ <;> try rfl
    simp only [Res.ok_bind, Res.pure_eq, genrandRes53, draws]
    rcases genrand mt64 p.2 with q | _ | _ <;> try rfl
    simp only [Res.ok_bind, Res.pure_eq, ih]
    rcases draws mt64 (2 * n) q.2 with r | _ | _ <;> try rfl
    simp only [Res.ok_bind, pairs, List.map_cons, ← unit_eq]

theorem pairs_get (l : List (BitVec 64)) (k : Nat) :
    (pairs l)[k]? = l[2 * k]?.bind fun a => l[2 * k + 1]?.map fun b => (a, b) := by
  induction l using pairs.induct generalizing k with
  | case1 a b l ih =>
    cases k with
    | zero => simp [pairs]
    | succ k =>
      rw [pairs, List.getElem?_cons_succ, ih, show 2 * (k + 1) = 2 * k + 1 + 1 by ring]
      simp
  | case2 l h =>
    rcases l with _ | ⟨a, _ | ⟨b, l⟩⟩
    · simp [pairs]
    · simp only [pairs, List.getElem?_nil]
      cases k <;> simp
    · exact absurd rfl (h a b l)

/-- C109: CTensor::random(dims): element k has parts from the numbers 2k and 2k + 1 of the generator. -/
theorem c109_complex (b : Bool) {s : State 64} (h : Ready mt64 s) (dims : List Nat) :
    ∃ ws t s', draws mt64 (2 * Tensor.totalSize dims) s = .ok (ws, s') ∧ randomC b dims s = .ok (t, s') ∧
      Ready mt64 s' ∧ t.dims = dims ∧ t.WF ∧ (∀ x ∈ t.data, (0 ≤ x.1 ∧ x.1 < 1) ∧ 0 ≤ x.2 ∧ x.2 < 1) ∧
      ∀ (k : Nat) (u v : BitVec 64), ws[2 * k]? = some u → ws[2 * k + 1]? = some v →
        t.data[k]? = some (if b then (unit u, unit v) else (unit v, unit u)) := by
  obtain ⟨ws, s', e, hl, hr⟩ := draws_ready h (2 * Tensor.totalSize dims)
  have hlen : (pairs ws).length = Tensor.totalSize dims := by
    have key : ∀ m : Nat, m < (pairs ws).length ↔ m < Tensor.totalSize dims := fun m => by
      rw [← not_iff_not, not_lt, not_lt, ← List.getElem?_eq_none_iff, pairs_get]
      by_cases hm : m < Tensor.totalSize dims
      · rw [List.getElem?_eq_getElem (by omega : 2 * m < ws.length),
          List.getElem?_eq_getElem (by omega : 2 * m + 1 < ws.length)]
        simp [hm]
      · rw [List.getElem?_eq_none (by omega : ws.length ≤ 2 * m)]
        simp; omega
    have h1 := key (Tensor.totalSize dims)
    have h2 := key (pairs ws).length
    omega
  refine ⟨ws, ⟨dims, (pairs ws).map fun q => if b then (unit q.1, unit q.2) else (unit q.2, unit q.1)⟩, s', e, ?_, hr, rfl,
    by simp [Tensor.WF, hlen], ?_, fun k u v h1 h2 => ?_⟩
  · rw [randomC, randomizeC_eq, e]; rfl
  · intro x hx
    obtain ⟨w, _, rfl⟩ := List.mem_map.1 hx
    cases b
    · exact ⟨unit_range _, unit_range _⟩
    · exact ⟨unit_range _, unit_range _⟩
  · simp only [List.getElem?_map, pairs_get, h1, h2]
    rfl

/-- C109: the seed does not decide which complex numbers there are: compilers may differ. -/
theorem c109_negation_complex {s : State 64} (hs : s.mt.length = 312) :
    ∃ s0 t t' s' s'', setSeed s 1#64 = .ok s0 ∧ randomC true [1] s0 = .ok (t, s') ∧ randomC false [1] s0 = .ok (t', s'') ∧
      t ≠ t' := by
  obtain ⟨x, hx, hf, s0, e, h⟩ := c55_sequence mt64_ok hs 1#64
  obtain ⟨s', _, e'⟩ := h 2
  have e'' : draws mt64 (2 * 1) s0 = .ok ([temper64 (x 312), temper64 (x 313)], s') := e'
  have h0 : x 312 = x 156 ^^^ mixWord mt64.um mt64.lm mt64.matrixA (x 0) (x 1) := hx 0
  have h1 : x 313 = x 157 ^^^ mixWord mt64.um mt64.lm mt64.matrixA (x 1) (x 2) := hx 1
  rw [hf 156 (by decide), hf 0 (by decide), hf 1 (by decide)] at h0
  rw [hf 157 (by decide), hf 2 (by decide), hf 1 (by decide)] at h1
  have hne : unit (temper64 (x 312)) ≠ unit (temper64 (x 313)) := by
    have : (temper64 (x 312)).toNat / 2 ^ 11 ≠ (temper64 (x 313)).toNat / 2 ^ 11 := by
      rw [h0, h1]
      decide +kernel
    intro e
    rw [unit, unit, div_left_inj' (by norm_num)] at e
    exact this (by exact_mod_cast e)
  refine ⟨s0, ⟨[1], [(unit (temper64 (x 312)), unit (temper64 (x 313)))]⟩,
    ⟨[1], [(unit (temper64 (x 313)), unit (temper64 (x 312)))]⟩, s', s', e, ?_, ?_, ?_⟩
  · rw [randomC, show Tensor.totalSize [1] = 1 from rfl, randomizeC_eq, e'']; rfl
  · rw [randomC, show Tensor.totalSize [1] = 1 from rfl, randomizeC_eq, e'']; rfl
  · intro h
    injection h with _ h
    injection h with h
    injection h with h
    exact hne h

/-! ### Sparse matrices -/

variable [Rounding]

open SparseFl Sparse in
/-- A random matrix for any density. -/
theorem sparse_random (rows cols : Nat) (density : Fl) {s : State 64} (h : Ready mt64 s) :
    ∃ ws m s', draws mt64 (rows * cols) s = .ok (ws, s') ∧ sparseRandom rows cols density s = .ok (m, s') ∧ Ready mt64 s' ∧
      m.rows = rows ∧ m.cols = cols ∧ ValidCsr m.rows m.cols m.rowStart m.column m.data ∧ (∀ v ∈ m.data, ¬ SparseFl.Spec.IsZero v) ∧
      (∀ v ∈ m.data, ∃ w ∈ ws, v = clean isZero (thin density (fin (unit w)))) ∧
      full m = .ok ⟨[rows, cols], ws.map fun w => clean isZero (thin density (fin (unit w)))⟩ := by
  obtain ⟨ws, t, s', h1, h2, h3, h4, h5, h6, h7⟩ := c109_tensor h [rows * cols]
  have e1 : Tensor.totalSize [rows * cols] = rows * cols := by simp [Tensor.totalSize]
  have e2 : Tensor.totalSize [rows, cols] = rows * cols := by simp [Tensor.totalSize]
  have hl : ws.length = rows * cols := by
    have : t.data.length = ws.length := by rw [h6, List.length_map]
    rw [← this, h5, h4, e1]
  rw [e1] at h1
  let d : List Fl := ws.map fun w => thin density (fin (unit w))
  have hd : t.data.map (fun r : ℚ => thin density (fin r)) = d := by rw [h6, List.map_map]; rfl
  have hr : Tensor.reshape ⟨t.dims, d⟩ [rows, cols] = .ok ⟨[rows, cols], d⟩ := by
    rw [Tensor.reshape, Res.assert_bind, if_pos (by simp [e2, Tensor.size, d, hl])]
    rfl
  have wf : (⟨[rows, cols], d⟩ : Tensor Fl).WF := by simp [Tensor.WF, e2, d, hl]
  obtain ⟨f, hf⟩ := Tensor.exists_isMat _ wf rows cols rfl
  have hm : IsMat [rows, cols] (d.map (clean isZero)) rows cols fun i j => clean isZero (f i j) :=
    ⟨rfl, by simp [d, hl], fun i j hi hj => by rw [Tensor.elem_map, hf.2.2 i j hi hj]; rfl⟩
  obtain ⟨m, e, hs, hnz⟩ := c35_sparse ⟨[rows, cols], d.map (clean isZero)⟩ rows cols _ hm
  obtain ⟨fs, e', h'⟩ := c35_full m rows cols _ hs
  have e3 : ofTensor isZero ⟨[rows, cols], d⟩ = .ok m := by rw [ofTensor_clean isZero_zero]; exact e
  have hin : ∀ v ∈ m.data, ∃ w ∈ ws, v = clean isZero (thin density (fin (unit w))) := by
    intro v hv
    obtain ⟨L, hL, len, ok, hval⟩ := IsCsr_rows hs
    rw [hL.2.2.2] at hv
    obtain ⟨p, hp, rfl⟩ := List.mem_map.1 hv
    obtain ⟨row, hrow, hp⟩ := List.mem_flatten.1 hp
    obtain ⟨i, hi⟩ := List.mem_iff_getElem?.1 hrow
    have hc := (ok row hrow).2 p hp
    have hv := hval i p.1 row hi hc
    rw [look_of_mem (ok row hrow).1 hp] at hv
    have hi' : i < rows := by rw [← len]; exact (List.getElem?_eq_some_iff.1 hi).1
    have hmem := hm.2.2 i p.1 hi' hc
    simp only [← hv] at hmem
    unfold elem at hmem
    split at hmem
    · obtain ⟨u, hu, hu'⟩ := List.mem_map.1 (List.mem_of_getElem? hmem)
      obtain ⟨w, hw, rfl⟩ := List.mem_map.1 hu
      exact ⟨w, hw, hu'.symm⟩
    · cases hmem
  refine ⟨ws, m, s', h1, ?_, h3, hs.1, hs.2.1, hs.2.2.1, fun v hv hz => ?_, hin, ?_⟩
  · rw [sparseRandom, h2, Res.ok_bind]
    simp only
    rw [hd, hr, Res.ok_bind, e3]
    rfl
  · obtain ⟨w, _, rfl⟩ := hin v hv
    refine hnz _ hv ?_
    rw [← isZero_iff] at hz
    by_cases hc : isZero (thin density (fin (unit w))) = true
    · rw [clean, if_pos hc]
    · rw [clean_of_not hc] at hz; exact absurd hz hc
  · have := data_eq_range (t := ⟨[rows, cols], d.map (clean isZero)⟩) hm
    rw [e']
    obtain ⟨fd, fdata⟩ := fs
    have e4 := data_eq_range h'
    obtain ⟨rfl, _⟩ := h'
    simp only at e4 this
    rw [e4, ← this]
    simp [d]

omit [Rounding] in
theorem clean_finite {v : Fl} (h : v.Finite) : SparseFl.clean SparseFl.isZero v = fin v.val := by
  by_cases hz : SparseFl.isZero v = true
  · rw [SparseFl.clean, if_pos hz]
    rcases (SparseFl.isZero_iff v).1 hz with rfl | rfl <;> rfl
  · rw [SparseFl.clean_of_not hz]
    cases v with
    | fin x => rfl
    | nzero => exact absurd ((SparseFl.isZero_iff _).2 (.inr rfl)) hz
    | _ => exact h.elim

omit [Rounding] in
theorem unit_isDouble (w : BitVec 64) : IsDouble (unit w) := by
  refine ⟨(w.toNat / 2 ^ 11 : ℕ), -53, ?_, by norm_num, by norm_num, ?_⟩
  · have := w.isLt
    rw [Nat.abs_cast]
    have : w.toNat / 2 ^ 11 < 2 ^ 53 := by omega
    exact_mod_cast this
  · rw [unit, zpow_neg, Rat.cast_div, Rat.cast_natCast, div_eq_mul_inv, Int.cast_natCast]
    norm_num

omit [Rounding] in
theorem unit_range' (w : BitVec 64) : (0 : ℝ) ≤ unit w ∧ (unit w : ℝ) < 1 := by
  have := unit_range w
  exact ⟨by exact_mod_cast this.1, by exact_mod_cast this.2⟩

theorem rnd_quot {d : ℝ} (hp : 0 < d) (w : BitVec 64) (hw : (unit w : ℝ) ≤ d) :
    0 ≤ rnd (unit w / d) ∧ rnd (unit w / d) ≤ 1 := by
  refine ⟨rnd_nonneg (div_nonneg (unit_range' w).1 hp.le), rnd_le (.inl ?_) ((div_le_one hp).2 hw)⟩
  have := isDouble_int (n := 1) (by norm_num)
  rwa [Int.cast_one] at this

theorem thin_pos {density : Fl} (hf : density.Finite) (hp : 0 < density.val) (w : BitVec 64) :
    SparseFl.clean SparseFl.isZero (thin density (fin (unit w))) =
      fin (if (unit w : ℝ) ≤ density.val then rnd (unit w / density.val) else 0) := by
  have hu : (fin (unit w)).Finite := unit_isDouble w
  have ha : (fin (unit w)).abs = fin (unit w) := by rw [Fl.abs, abs_of_nonneg (unit_range' w).1]
  rw [thin, ha]
  by_cases hw : (unit w : ℝ) ≤ density.val
  · rw [if_neg (by rw [lt_finite hf hu]; exact not_lt.2 hw), if_pos hw]
    have hq := rnd_quot hp w hw
    have h1 : (1 : ℝ) < 2 ^ 1024 := one_lt_pow₀ (by norm_num) (by norm_num)
    have := div_finite hu hf hp.ne' (by
      show |rnd (unit w / density.val)| < 2 ^ 1024
      rw [abs_of_nonneg hq.1]; exact hq.2.trans_lt h1)
    rw [clean_finite this.1, this.2]
    rfl
  · rw [if_pos (by rw [lt_finite hf hu]; exact not_le.1 hw), if_neg hw, clean_finite finite_zero]
    rfl

/-- C109: RSparse::random(rows, cols, density) with a positive density has elements in [0,1]: the number of the
generator divided by the density, rounded, if it is not larger than the density, and zero otherwise. Zeros are not
stored. -/
theorem c109_sparse (rows cols : Nat) {density : Fl} (hf : density.Finite) (hp : 0 < density.val)
    {s : State 64} (h : Ready mt64 s) :
    ∃ ws m s', draws mt64 (rows * cols) s = .ok (ws, s') ∧ sparseRandom rows cols density s = .ok (m, s') ∧ Ready mt64 s' ∧
      m.rows = rows ∧ m.cols = cols ∧ ValidCsr m.rows m.cols m.rowStart m.column m.data ∧
      (∀ v ∈ m.data, ∃ x : ℝ, v = fin x ∧ 0 < x ∧ x ≤ 1) ∧
      Sparse.full m = .ok ⟨[rows, cols], ws.map fun w =>
        fin (if (unit w : ℝ) ≤ density.val then rnd (unit w / density.val) else 0)⟩ := by
  obtain ⟨ws, m, s', h1, h2, h3, h4, h5, h6, h7, h8, h9⟩ := sparse_random rows cols density h
  refine ⟨ws, m, s', h1, h2, h3, h4, h5, h6, fun v hv => ?_, ?_⟩
  · obtain ⟨w, _, e⟩ := h8 v hv
    rw [thin_pos hf hp] at e
    have hz := h7 v hv
    by_cases hw : (unit w : ℝ) ≤ density.val
    · rw [if_pos hw] at e
      have hq := rnd_quot hp w hw
      refine ⟨_, e, lt_of_le_of_ne hq.1 fun h0 => hz ?_, hq.2⟩
      rw [e, ← h0]; exact .inl rfl
    · rw [if_neg hw] at e
      exact absurd (.inl e) hz
  · rw [h9]
    simp only [thin_pos hf hp]

/-- C109: with a density in (0,1] an element is not zero if the number of the generator is positive and not larger
than the density. -/
theorem c109_stored {d : ℝ} (hp : 0 < d) (h1 : d ≤ 1) (w : BitVec 64) :
    (if (unit w : ℝ) ≤ d then rnd (unit w / d) else 0) ≠ 0 ↔ 0 < unit w ∧ (unit w : ℝ) ≤ d := by
  by_cases hw : (unit w : ℝ) ≤ d
  · rw [if_pos hw]
    have hu := unit_range' w
    constructor
    · intro hne
      refine ⟨lt_of_le_of_ne (unit_range w).1 fun h0 => hne ?_, hw⟩
      rw [← h0, Rat.cast_zero, zero_div]
      exact rnd_exact (.inl isDouble_zero)
    · rintro ⟨h0, -⟩
      have h0' : (0 : ℝ) < unit w := by exact_mod_cast h0
      refine (lt_of_lt_of_le h0' (le_rnd (.inl (unit_isDouble w)) ?_)).ne'
      rw [le_div_iff₀ hp]
      nlinarith
  · rw [if_neg hw]
    simp [hw]

omit [Rounding] in
/-- C109: of all words of the generator a fraction `⌊density * 2^53⌋ / 2^53` gives an element which is not zero. -/
theorem c109_density {d : ℝ} (hp : 0 ≤ d) (h1 : d < 1) :
    ((Finset.univ : Finset (Fin (2 ^ 64))).filter fun k =>
      0 < unit (BitVec.ofFin k) ∧ (unit (BitVec.ofFin k) : ℝ) ≤ d).card = ⌊d * 2 ^ 53⌋₊ * 2 ^ 11 := by
  have key : ∀ k : Fin (2 ^ 64), (0 < unit (BitVec.ofFin k) ∧ (unit (BitVec.ofFin k) : ℝ) ≤ d) ↔
      2 ^ 11 ≤ k.val ∧ k.val < (⌊d * 2 ^ 53⌋₊ + 1) * 2 ^ 11 := by
    intro k
    have e : (unit (BitVec.ofFin k) : ℝ) = ((k.val / 2 ^ 11 : ℕ) : ℝ) / 2 ^ 53 := by
      rw [unit, BitVec.toNat_ofFin]; push_cast; rfl
    rw [e, div_le_iff₀ (by positivity), ← Nat.le_floor_iff (by positivity)]
    have e' : 0 < unit (BitVec.ofFin k) ↔ 0 < k.val / 2 ^ 11 := by
      rw [unit, BitVec.toNat_ofFin, div_pos_iff_of_pos_right (by positivity), Nat.cast_pos]
    rw [e', Nat.div_pos_iff]
    omega
  have hK : ⌊d * 2 ^ 53⌋₊ + 1 ≤ 2 ^ 53 := by
    rw [Nat.add_one_le_iff, Nat.floor_lt (by positivity)]
    push_cast
    nlinarith [show (0 : ℝ) < 2 ^ 53 by positivity]
  rw [Finset.filter_congr fun k _ => key k]
  generalize ⌊d * 2 ^ 53⌋₊ = K at hK
  have : ((Finset.univ : Finset (Fin (2 ^ 64))).filter fun k => 2 ^ 11 ≤ k.val ∧ k.val < (K + 1) * 2 ^ 11).card =
      (Finset.Ico (2 ^ 11) ((K + 1) * 2 ^ 11)).card := by
    apply Finset.card_bij (fun k _ => k.val)
    · intro k hk
      rw [Finset.mem_Ico]
      exact (Finset.mem_filter.1 hk).2
    · intro a _ b _ h
      exact Fin.ext h
    · intro b hb
      rw [Finset.mem_Ico] at hb
      exact ⟨⟨b, by omega⟩, Finset.mem_filter.2 ⟨Finset.mem_univ _, hb⟩, rfl⟩
  rw [this, Nat.card_Ico]
  omega

/-- C109: with the density zero the elements are zero, but NaN where the generator gives zero. -/
theorem c109_zero (rows cols : Nat) {density : Fl} (hz : SparseFl.Spec.IsZero density) {s : State 64} (h : Ready mt64 s) :
    ∃ ws m s', draws mt64 (rows * cols) s = .ok (ws, s') ∧ sparseRandom rows cols density s = .ok (m, s') ∧
      Sparse.full m = .ok ⟨[rows, cols], ws.map fun w => if unit w = 0 then nan else 0⟩ := by
  obtain ⟨ws, m, s', h1, h2, h3, h4, h5, h6, h7, h8, h9⟩ := sparse_random rows cols density h
  refine ⟨ws, m, s', h1, h2, ?_⟩
  rw [h9]
  congr 3
  funext w
  have hf : density.Finite ∧ density.val = 0 := by rcases hz with rfl | rfl; exacts [⟨isDouble_zero, rfl⟩, ⟨trivial, rfl⟩]
  have hu : (fin (unit w)).Finite := unit_isDouble w
  have ha : (fin (unit w)).abs = fin (unit w) := by rw [Fl.abs, abs_of_nonneg (unit_range' w).1]
  have hlt : density < fin (unit w) ↔ unit w ≠ 0 := by
    rw [lt_finite hf.1 hu, hf.2]
    show (0 : ℝ) < unit w ↔ _
    rw [Rat.cast_pos]
    exact ⟨ne_of_gt, fun h => lt_of_le_of_ne (unit_range w).1 h.symm⟩
  rw [thin, ha]
  by_cases h0 : unit w = 0
  · rw [if_neg (by rw [hlt]; exact not_not.2 h0), if_pos h0, h0]
    have : (fin ((0 : ℚ) : ℝ)) / density = nan := by
      show Fl.div _ _ = _
      rw [Fl.div, if_neg (by simp [hf.1.ne_nan]), if_neg (by simp [isInf]), if_neg (by simp [hf.1.not_inf]), if_pos hf.2,
        if_pos (by simp [val])]
    rw [this]
    refine SparseFl.clean_of_not fun hc => ?_
    rcases (SparseFl.isZero_iff _).1 hc with h | h <;> cases h
  · rw [if_pos (hlt.2 h0), if_neg h0, clean_finite finite_zero]
    rfl

/-- C109: with the density NaN all elements are NaN. -/
theorem c109_nan (rows cols : Nat) {s : State 64} (h : Ready mt64 s) :
    ∃ m s', sparseRandom rows cols nan s = .ok (m, s') ∧
      Sparse.full m = .ok ⟨[rows, cols], List.replicate (rows * cols) nan⟩ := by
  obtain ⟨ws, m, s', h1, h2, h3, h4, h5, h6, h7, h8, h9⟩ := sparse_random rows cols nan h
  refine ⟨m, s', h2, ?_⟩
  have hl : ws.length = rows * cols := by
    obtain ⟨ws', s'', e, hl, _⟩ := draws_ready h (rows * cols)
    rw [h1] at e
    cases e
    exact hl
  rw [h9, ← hl, ← List.map_const']
  congr 3
  funext w
  have : thin nan (fin (unit w)) = nan := by
    rw [thin, if_neg (show ¬ nan < (fin (unit w)).abs from fun h => h)]
    show Fl.div _ _ = _
    rw [Fl.div, if_pos (.inr rfl)]
  rw [this]
  refine SparseFl.clean_of_not fun hc => ?_
  rcases (SparseFl.isZero_iff _).1 hc with h | h <;> cases h

/-- C109: with a negative or infinite density there are no elements. -/
theorem c109_none (rows cols : Nat) {density : Fl} (hd : density.isInf = true ∨ density.Finite ∧ density.val < 0)
    {s : State 64} (h : Ready mt64 s) :
    ∃ m s', sparseRandom rows cols density s = .ok (m, s') ∧ m.rows = rows ∧ m.cols = cols ∧ m.data = [] ∧
      ValidCsr m.rows m.cols m.rowStart m.column m.data := by
  obtain ⟨ws, m, s', h1, h2, h3, h4, h5, h6, h7, h8, h9⟩ := sparse_random rows cols density h
  refine ⟨m, s', h2, h4, h5, ?_, h6⟩
  rw [List.eq_nil_iff_forall_not_mem]
  intro v hv
  obtain ⟨w, _, e⟩ := h8 v hv
  refine h7 v hv ?_
  have hu : (fin (unit w)).Finite := unit_isDouble w
  have ha : (fin (unit w)).abs = fin (unit w) := by rw [Fl.abs, abs_of_nonneg (unit_range' w).1]
  have key : SparseFl.Spec.IsZero (thin density (fin (unit w))) := by
    rw [thin, ha]
    split
    · exact .inl rfl
    · rename_i hn
      rcases hd with hd | ⟨hf, hd⟩
      · show SparseFl.Spec.IsZero (Fl.div _ _)
        have hne : density ≠ nan := by rintro rfl; cases hd
        rw [Fl.div, if_neg (by simp [hne]), if_neg (by simp [isInf]), if_pos hd, zeroS]
        split
        · exact .inr rfl
        · exact .inl rfl
      · exact absurd ((lt_finite hf hu).2 (hd.trans_le (unit_range' w).1)) hn
  rw [e, SparseFl.clean, if_pos ((SparseFl.isZero_iff _).2 key)]
  exact .inl rfl

/-! ### Examples -/

omit [Rounding] in
example : Ready mt64 ⟨List.replicate 312 0#64, 313⟩ := ⟨List.length_replicate .., le_refl _⟩

omit [Rounding] in
example : ∃ ws t s', draws mt64 6 ⟨List.replicate 312 0#64, 313⟩ = .ok (ws, s') ∧
    random [2, 3] ⟨List.replicate 312 0#64, 313⟩ = .ok (t, s') ∧ t.data = ws.map unit := by
  obtain ⟨ws, t, s', h1, h2, _, _, _, h6, _⟩ :=
    c109_tensor (s := ⟨List.replicate 312 0#64, 313⟩) ⟨List.length_replicate .., le_refl _⟩ [2, 3]
  exact ⟨ws, t, s', h1, h2, h6⟩

/-- A density of one half. -/
example : ∃ m s', sparseRandom 2 3 (fin (1 / 2)) ⟨List.replicate 312 0#64, 313⟩ = .ok (m, s') ∧
    ∀ v ∈ m.data, ∃ x : ℝ, v = fin x ∧ 0 < x ∧ x ≤ 1 := by
  have hf : (fin (1 / 2)).Finite := ⟨1, -1, by norm_num, by norm_num, by norm_num, by norm_num⟩
  obtain ⟨ws, m, s', _, h2, _, _, _, _, h7, _⟩ :=
    c109_sparse 2 3 hf (by norm_num [val]) (s := ⟨List.replicate 312 0#64, 313⟩) ⟨List.length_replicate .., le_refl _⟩
  exact ⟨m, s', h2, h7⟩

/-- C109: a matrix of density zero may have an element NaN. -/
theorem c109_negation_zero : ∃ s m s', Ready mt64 s ∧ sparseRandom 1 1 0 s = .ok (m, s') ∧
    Sparse.full m = .ok ⟨[1, 1], [nan]⟩ := by
  have hr : Ready mt64 ⟨0#64 :: List.replicate 311 0#64, 0⟩ := ⟨by rw [List.length_cons, List.length_replicate]; rfl, by decide⟩
  obtain ⟨ws, m, s', h1, h2, h3⟩ := c109_zero 1 1 (.inl rfl) hr
  have e : draws mt64 1 ⟨0#64 :: List.replicate 311 0#64, 0⟩ = .ok ([0#64], ⟨0#64 :: List.replicate 311 0#64, 1⟩) := rfl
  rw [show 1 * 1 = 1 from rfl, e] at h1
  cases h1
  refine ⟨_, m, _, hr, h2, ?_⟩
  rw [h3, List.map_singleton, if_pos (by simp [unit])]

example : ∃ m s', sparseRandom 1 2 (fin (-1)) ⟨List.replicate 312 0#64, 313⟩ = .ok (m, s') ∧ m.data = [] := by
  have hf : (fin (-1)).Finite := ⟨-1, 0, by norm_num, by norm_num, by norm_num, by norm_num⟩
  obtain ⟨m, s', h1, _, _, h4, _⟩ := c109_none 1 2 (.inr ⟨hf, by norm_num [val]⟩)
    (s := ⟨List.replicate 312 0#64, 313⟩) ⟨List.length_replicate .., le_refl _⟩
  exact ⟨m, s', h1, h4⟩

end Verif.Rand
