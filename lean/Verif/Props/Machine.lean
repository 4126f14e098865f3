import Verif.Model.Machine
import Verif.Lemmas.Access
import Verif.Lemmas.Indices
/-
C77: sizes and positions in machine words.
-/
namespace Verif.Machine

open Spec

variable {α : Type} {ov : Int → Res Int}

theorem word_ok {x : Int} (h : Fits x) : word ov x = .ok x := if_pos h

theorem word_big {x : Int} (h : ¬Fits x) : word ov x = ov x := if_neg h

theorem fits_nat {n : Nat} (h : n < 2 ^ 63) : Fits (n : Int) := by
  constructor <;> omega

theorem prod_pos {d : List Nat} (h : ∀ x ∈ d, x ≠ 0) : 0 < prod d := by
  induction d with
  | nil => exact Nat.one_pos
  | cons x d ih =>
    exact Nat.mul_pos (Nat.pos_of_ne_zero (h x (by simp))) (ih fun y hy => h y (by simp [hy]))

theorem mulLoop_nat (d : List Nat) (a : Nat) (h : ∀ x ∈ d, x ≠ 0) (hp : a * prod d < 2 ^ 63) :
    mulLoop ov a (d.map Int.ofNat) = .ok ((a * prod d : Nat) : Int) := by
  induction d generalizing a with
  | nil => simp [mulLoop]
  | cons x d ih =>
    have hd : ∀ y ∈ d, y ≠ 0 := fun y hy => h y (by simp [hy])
    have hpos := prod_pos hd
    have hle : a * x ≤ a * x * prod d := Nat.le_mul_of_pos_right _ hpos
    have hax : a * prod (x :: d) = a * x * prod d := by rw [prod_cons, Nat.mul_assoc]
    have e : ((a : Int) * Int.ofNat x) = ((a * x : Nat) : Int) := by simp
    rw [List.map_cons, mulLoop, e, word_ok (fits_nat (by omega)), Res.ok_bind,
      ih (a * x) hd (by omega), hax]

theorem mulLoop_ub (d : List Nat) (a : Nat) (h : ∀ x ∈ d, x ≠ 0) (ha : a < 2 ^ 63)
    (hp : 2 ^ 63 ≤ a * prod d) : mulLoop strict a (d.map Int.ofNat) = .ub := by
  induction d generalizing a with
  | nil => simp at hp; omega
  | cons x d ih =>
    have e : ((a : Int) * Int.ofNat x) = ((a * x : Nat) : Int) := by simp
    rw [List.map_cons, mulLoop, e]
    by_cases hx : a * x < 2 ^ 63
    · rw [word_ok (fits_nat hx), Res.ok_bind]
      exact ih (a * x) (fun y hy => h y (by simp [hy])) hx
        (by rw [Nat.mul_assoc, ← prod_cons]; exact hp)
    · rw [word_big (by unfold Fits; omega)]; rfl

/-- A zero among the dimensions makes the size zero, if the product of the dimensions before it is
a number of the machine. -/
theorem mulLoop_zero (d : List Nat) : mulLoop ov 0 (d.map Int.ofNat) = .ok 0 := by
  induction d with
  | nil => rfl
  | cons x d ih =>
    rw [List.map_cons, mulLoop, Int.zero_mul, word_ok (by decide), Res.ok_bind, ih]

theorem mulLoop_append (a b : List Int) (x : Int) :
    mulLoop ov x (a ++ b) = (mulLoop ov x a >>= fun y => mulLoop ov y b) := by
  induction a generalizing x with
  | nil => rfl
  | cons c a ih =>
    rw [List.cons_append, mulLoop, mulLoop]
    cases h : word ov (x * c) with
    | ok y => simp [ih]
    | abort => rfl
    | ub => rfl

theorem totalLoop_nat (d : List Nat) (a : Int) :
    totalLoop ov a (d.map Int.ofNat) = mulLoop ov a (d.map Int.ofNat) := by
  induction d generalizing a with
  | nil => rfl
  | cons x d ih =>
    rw [List.map_cons, totalLoop, if_neg (by simp), mulLoop]
    cases word ov (a * Int.ofNat x) with
    | ok y => simp only [Res.ok_bind]; exact ih y
    | abort => rfl
    | ub => rfl

theorem totalSize_nat (d : List Nat) (hne : d ≠ []) :
    totalSize ov (d.map Int.ofNat) = mulLoop ov 1 (d.map Int.ofNat) := by
  rw [totalSize, if_pos (by simpa using hne), totalLoop_nat]

/-- C77: total_size of dimensions without zeros is their product if this is a number of the
machine, and no operation on the way to it overflows; if it is not, there is an overflow. -/
theorem c77_total_size (d : List Nat) (hne : d ≠ []) (h0 : ∀ x ∈ d, x ≠ 0) :
    (prod d < 2 ^ 63 → ∀ ov, totalSize ov (d.map Int.ofNat) = .ok (prod d : Int)) ∧
    (2 ^ 63 ≤ prod d → totalSize strict (d.map Int.ofNat) = .ub) := by
  constructor
  · intro h ov
    rw [totalSize_nat d hne]
    have := mulLoop_nat (ov := ov) d 1 h0 (by omega)
    rwa [Nat.one_mul] at this
  · intro h
    rw [totalSize_nat d hne]
    exact mulLoop_ub d 1 h0 (by norm_num) (by omega)

/-- C77: without dimensions the size is zero, not the empty product. -/
theorem c77_total_size_empty : totalSize ov [] = .ok (Tensor.totalSize [] : Int) := rfl

/-- C77: total_size of dimensions with a zero is zero if the product of the dimensions before the
first zero is a number of the machine, otherwise it overflows, although the size would be zero. -/
theorem c77_total_size_zero (a b : List Nat) (h0 : ∀ x ∈ a, x ≠ 0) :
    (prod a < 2 ^ 63 → ∀ ov, totalSize ov ((a ++ 0 :: b).map Int.ofNat) = .ok 0) ∧
    (2 ^ 63 ≤ prod a → totalSize strict ((a ++ 0 :: b).map Int.ofNat) = .ub) := by
  constructor
  · intro h ov
    rw [totalSize_nat _ (by simp), List.map_append, mulLoop_append]
    have := mulLoop_nat (ov := ov) a 1 h0 (by omega)
    rw [Nat.one_mul] at this
    rw [show (1 : Int) = ((1 : Nat) : Int) from rfl, this, Res.ok_bind, List.map_cons, mulLoop,
      show ((prod a : Nat) : Int) * Int.ofNat 0 = 0 by simp, word_ok (by decide), Res.ok_bind,
      mulLoop_zero]
  · intro h
    rw [totalSize_nat _ (by simp), List.map_append, mulLoop_append,
      show (1 : Int) = ((1 : Nat) : Int) from rfl,
      mulLoop_ub a 1 h0 (by norm_num) (by omega)]
    rfl

example : totalSize strict [3, 4, 5] = .ok 60 := by decide
example : totalSize strict [3, 0, 5] = .ok 0 := by decide

/-- A negative entry gives size zero, unless the product of what is before overflows. -/
theorem c77_total_size_negative (a : List Nat) (x : Int) (b : List Int) (hx : x < 0)
    (h0 : ∀ y ∈ a, y ≠ 0) (h : prod a < 2 ^ 63) :
    totalSize ov (a.map Int.ofNat ++ x :: b) = .ok 0 := by
  rw [totalSize, if_pos (by simp)]
  suffices H : ∀ c : Nat, c * prod a < 2 ^ 63 →
      totalLoop ov (c : Int) (a.map Int.ofNat ++ x :: b) = .ok 0 from H 1 (by omega)
  clear h
  induction a with
  | nil => intro c _; rw [List.map_nil, List.nil_append, totalLoop, if_pos hx]
  | cons y a ih =>
    intro c hc
    have hd : ∀ z ∈ a, z ≠ 0 := fun z hz => h0 z (by simp [hz])
    have hle : c * y ≤ c * y * prod a := Nat.le_mul_of_pos_right _ (prod_pos hd)
    have hax : c * prod (y :: a) = c * y * prod a := by rw [prod_cons, Nat.mul_assoc]
    have e : ((c : Int) * Int.ofNat y) = ((c * y : Nat) : Int) := by simp
    rw [List.map_cons, List.cons_append, totalLoop, if_neg (by simp), e,
      word_ok (fits_nat (by omega)), Res.ok_bind]
    exact ih hd (c * y) (by omega)

/-- All the constructors with numbers compute the same product. -/
theorem makeArgs_eq (alloc : Int → Res (Nat × Nat)) (d : List Int) (h1 : 1 ≤ d.length)
    (h6 : d.length ≤ 6) (hf : ∀ x ∈ d, Fits x) :
    makeArgs ov alloc d =
      (mulLoop ov 1 d >>= fun n => alloc n >>= fun b => pure ⟨d, b.1, b.2⟩) := by
  match d, h1, h6, hf with
  | [d1], _, _, hf =>
    simp [makeArgs, mulLoop, word_ok (hf d1 (by simp))]
  | [d1, d2], _, _, hf =>
    simp [makeArgs, mulLoop, word_ok (hf d1 (by simp))]
  | [d1, d2, d3], _, _, hf =>
    simp [makeArgs, mulLoop, word_ok (hf d1 (by simp))]
  | [d1, d2, d3, d4], _, _, hf =>
    simp [makeArgs, mulLoop, word_ok (hf d1 (by simp))]
  | [d1, d2, d3, d4, d5], _, _, hf =>
    simp [makeArgs, mulLoop, word_ok (hf d1 (by simp))]
  | [d1, d2, d3, d4, d5, d6], _, _, hf =>
    simp [makeArgs, mulLoop, word_ok (hf d1 (by simp))]
  | _ :: _ :: _ :: _ :: _ :: _ :: _ :: _, _, h, _ => simp at h

theorem toSize_nat {n : Nat} (h : n < 2 ^ 63) : toSize (n : Int) = n := by
  unfold toSize; omega

theorem newReal_nat {n : Nat} (h : n < 2 ^ 63) :
    newReal (n : Int) = if n < 2 ^ 60 then .ok (n, n) else .abort := by
  rw [newReal, toSize_nat h, newDoubles]
  by_cases h2 : n < 2 ^ 60
  · rw [if_pos (by omega), if_pos h2]; rfl
  · rw [if_neg (by omega), if_neg h2]; rfl

theorem newComplex_nat {n : Nat} (h : n < 2 ^ 63) :
    newComplex (n : Int) = if n < 2 ^ 59 then .ok (n, n) else .abort := by
  have e : 2 * n % 2 ^ 64 = 2 * n := by omega
  rw [newComplex, toSize_nat h, newDoubles, e]
  by_cases h2 : n < 2 ^ 59
  · rw [if_pos (by omega), if_pos h2]
    simp
  · rw [if_neg (by omega), if_neg h2]; rfl

/-- What a constructor has to do for dimensions `d` with `n` elements, if there is memory for less
than `limit` elements. -/
def Makes (limit : Nat) (d : List Nat) (r : Res Obj) : Prop :=
  (prod d < limit → r = .ok ⟨d.map Int.ofNat, prod d, prod d⟩) ∧ (limit ≤ prod d → r = .abort)

/-- C77: for dimensions without zeros whose product is a number of the machine, the constructors
from a list of dimensions and those from one to six numbers make a tensor with exactly as many
elements as the product, or, if the computer cannot have so much memory, stop. No operation
overflows. -/
theorem c77_make_partial (d : List Nat) (hne : d ≠ []) (h0 : ∀ x ∈ d, x ≠ 0)
    (hp : prod d < 2 ^ 63) :
    Makes (2 ^ 60) d (makeDims ov newReal (d.map Int.ofNat)) ∧
    Makes (2 ^ 59) d (makeDims ov newComplex (d.map Int.ofNat)) ∧
    (d.length ≤ 6 →
      Makes (2 ^ 60) d (makeArgs ov newReal (d.map Int.ofNat)) ∧
      Makes (2 ^ 59) d (makeArgs ov newComplex (d.map Int.ofNat))) := by
  have hm : mulLoop ov 1 (d.map Int.ofNat) = .ok (prod d : Int) := by
    have := mulLoop_nat (ov := ov) d 1 h0 (by omega)
    rwa [Nat.one_mul] at this
  have hfit : ∀ x ∈ d.map Int.ofNat, Fits x := by
    intro x hx
    obtain ⟨y, hy, rfl⟩ := List.mem_map.1 hx
    refine fits_nat (lt_of_le_of_lt ?_ hp)
    clear hm hp hne hx
    induction d with
    | nil => simp at hy
    | cons z d ih =>
      have hd : ∀ z ∈ d, z ≠ 0 := fun z hz => h0 z (by simp [hz])
      have hz : 0 < z := Nat.pos_of_ne_zero (h0 z (by simp))
      rw [prod_cons]
      rcases List.mem_cons.1 hy with rfl | hy
      · exact Nat.le_mul_of_pos_right _ (prod_pos hd)
      · exact (ih hd hy).trans (Nat.le_mul_of_pos_left _ hz)
  have hl : 1 ≤ (d.map Int.ofNat).length := by
    rw [List.length_map]; exact List.length_pos_iff.2 hne
  refine ⟨?_, ?_, fun h6 => ⟨?_, ?_⟩⟩
  · rw [makeDims, totalSize_nat d hne, hm, Res.ok_bind, newReal_nat hp]
    exact ⟨fun h => by rw [if_pos h]; rfl, fun h => by rw [if_neg (by omega)]; rfl⟩
  · rw [makeDims, totalSize_nat d hne, hm, Res.ok_bind, newComplex_nat hp]
    exact ⟨fun h => by rw [if_pos h]; rfl, fun h => by rw [if_neg (by omega)]; rfl⟩
  · rw [makeArgs_eq _ _ hl (by simpa using h6) hfit, hm, Res.ok_bind, newReal_nat hp]
    exact ⟨fun h => by rw [if_pos h]; rfl, fun h => by rw [if_neg (by omega)]; rfl⟩
  · rw [makeArgs_eq _ _ hl (by simpa using h6) hfit, hm, Res.ok_bind, newComplex_nat hp]
    exact ⟨fun h => by rw [if_pos h]; rfl, fun h => by rw [if_neg (by omega)]; rfl⟩

example : ([3, 4] : List Nat) ≠ [] ∧ (∀ x ∈ [3, 4], x ≠ 0) ∧ prod [3, 4] < 2 ^ 63 := by decide
example : makeArgs strict newReal [3, 4] = .ok ⟨[3, 4], 12, 12⟩ := by decide
example : makeArgs strict newReal [2 ^ 31, 2 ^ 31] = .abort := by decide

/-- C77 is false for larger products: there is an overflow. -/
theorem c77_negation_large (d : List Nat) (h2 : 2 ≤ d.length) (h0 : ∀ x ∈ d, x ≠ 0)
    (hf : ∀ x ∈ d, x < 2 ^ 63) (hp : 2 ^ 63 ≤ prod d) (alloc : Int → Res (Nat × Nat)) :
    makeDims strict alloc (d.map Int.ofNat) = .ub ∧
    (d.length ≤ 6 → makeArgs strict alloc (d.map Int.ofNat) = .ub) := by
  have hne : d ≠ [] := by rintro rfl; simp at h2
  have hm : mulLoop strict 1 (d.map Int.ofNat) = .ub :=
    mulLoop_ub d 1 h0 (by norm_num) (by omega)
  refine ⟨by rw [makeDims, totalSize_nat d hne, hm]; rfl, fun h6 => ?_⟩
  rw [makeArgs_eq _ _ (by rw [List.length_map]; omega) (by simpa using h6), hm]
  · rfl
  · intro x hx
    obtain ⟨y, hy, rfl⟩ := List.mem_map.1 hx
    exact fits_nat (hf y hy)

example : makeDims strict newReal [2 ^ 32, 2 ^ 32] = .ub := by decide

/-- C77 is false with the arithmetic of the processor: a matrix with 2^32 rows and columns is made
without elements, and its first element, which passes the checks of the accessor, is outside of the
memory. -/
theorem c77_negation_wrap :
    makeArgs wrap newReal [2 ^ 32, 2 ^ 32] = .ok ⟨[2 ^ 32, 2 ^ 32], 0, 0⟩ ∧
    makeDims wrap newReal [2 ^ 32, 2 ^ 32] = .ok ⟨[2 ^ 32, 2 ^ 32], 0, 0⟩ ∧
    position wrap [2 ^ 32, 2 ^ 32] [0, 0] = .ok 0 ∧
    Obj.access wrap ⟨[2 ^ 32, 2 ^ 32], 0, 0⟩ [0, 0] = .ub := by
  decide

/-- With arithmetic modulo 2^64, complex tensors with 2^63 elements get no memory: the number of elements becomes -2^63, twice
of it is zero, and `size()` says 2^63. -/
theorem c77_negation_wrap_complex :
    makeArgs wrap newComplex [2 ^ 32, 2 ^ 31] = .ok ⟨[2 ^ 32, 2 ^ 31], 2 ^ 63, 0⟩ ∧
    makeDims wrap newComplex [2 ^ 32, 2 ^ 31] = .ok ⟨[2 ^ 32, 2 ^ 31], 2 ^ 63, 0⟩ := by
  decide

/-- C77 is false for dimensions with a zero: the three dimensions make an empty tensor in one order
and overflow in another. -/
theorem c77_negation_zero :
    makeDims strict newReal [0, 2 ^ 40, 2 ^ 40] = .ok ⟨[0, 2 ^ 40, 2 ^ 40], 0, 0⟩ ∧
    makeArgs strict newReal [0, 2 ^ 40, 2 ^ 40] = .ok ⟨[0, 2 ^ 40, 2 ^ 40], 0, 0⟩ ∧
    makeDims strict newReal [2 ^ 40, 2 ^ 40, 0] = .ub ∧
    makeArgs strict newReal [2 ^ 40, 2 ^ 40, 0] = .ub := by
  decide

/-- C77 is false for two negative dimensions: the constructor from two numbers makes a tensor with
elements, the one from the list of the same dimensions an empty one. -/
theorem c77_negation_negative (a b : Int) (ha : a < 0) (hb : b < 0) (hl : a * b < 2 ^ 60) :
    makeArgs ov newReal [a, b] = .ok ⟨[a, b], (a * b).toNat, (a * b).toNat⟩ ∧
    makeDims ov newReal [a, b] = .ok ⟨[a, b], 0, 0⟩ ∧ 0 < (a * b).toNat := by
  have hpos : 0 < a * b := mul_pos_of_neg_of_neg ha hb
  obtain ⟨n, hn⟩ := Int.eq_ofNat_of_zero_le hpos.le
  refine ⟨?_, ?_, by omega⟩
  · rw [makeArgs, hn, word_ok (fits_nat (by omega)), Res.ok_bind, newReal_nat (by omega),
      if_pos (by omega)]
    rfl
  · have h := c77_total_size_negative (ov := ov) [] a [b] ha (by simp) (by norm_num)
    simp only [List.map_nil, List.nil_append] at h
    rw [makeDims, h, Res.ok_bind, show (0 : Int) = ((0 : Nat) : Int) from rfl,
      newReal_nat (by norm_num)]
    rfl

example : makeArgs strict newReal [-2, -3] = .ok ⟨[-2, -3], 6, 6⟩ := by decide

/-- C77 is false for the least number: a complex vector of this length says it has 2^63 elements, and has no
memory. -/
theorem c77_negation_least :
    makeArgs ov newComplex [-2 ^ 63] = .ok ⟨[-2 ^ 63], 2 ^ 63, 0⟩ ∧
    makeArgs ov newReal [-2 ^ 63] = .abort := by
  constructor <;> rfl

/-! Positions -/

theorem normalizeIndex_same (i : Int) (d : Nat) (hi : Fits i) (hd : d < 2 ^ 63) :
    normalizeIndex ov i d = Tensor.normalizeIndex i d := by
  unfold normalizeIndex Tensor.normalizeIndex
  by_cases h : i < 0
  · rw [if_pos h, word_ok (by unfold Fits at *; omega)]
    simp [h]
  · rw [if_neg h]
    simp [h]

theorem step_ok {d j : Nat} {ds js : List Nat} (h : InB (j :: js) (d :: ds))
    (hp : prod (d :: ds) < 2 ^ 63) :
    step ov (colPos ds js : Nat) d j = .ok ((colPos (d :: ds) (j :: js) : Nat) : Int) := by
  have hlt := colPos_lt h
  rw [colPos_cons] at hlt
  have e1 : ((colPos ds js : Nat) : Int) * (d : Int) = ((d * colPos ds js : Nat) : Int) := by
    push_cast; ring
  have e2 : ((d * colPos ds js : Nat) : Int) + (j : Int) = ((j + d * colPos ds js : Nat) : Int) := by
    push_cast; ring
  rw [step, e1, word_ok (fits_nat (by omega)), Res.ok_bind, e2, word_ok (fits_nat (by omega)),
    colPos_cons]

theorem colPos_one (d j : Nat) : colPos [d] [j] = j := by simp [colPos]

theorem prod_tail {d j : Nat} {ds js : List Nat} (h : InB (j :: js) (d :: ds))
    (hp : prod (d :: ds) < 2 ^ 63) : InB js ds ∧ prod ds < 2 ^ 63 := by
  have h1 := (InB_cons.1 h)
  refine ⟨h1.2, lt_of_le_of_lt ?_ hp⟩
  rw [prod_cons]
  exact Nat.le_mul_of_pos_left _ (by omega)

/-- The positions of the specification. -/
def posGen (d : List Nat) (idx : List Int) : Res Int :=
  match normAll d idx with
  | some js => .ok ((colPos d js : Nat) : Int)
  | none => .abort

theorem normalizeIndex_gen (i : Int) (d : Nat) (hi : Fits i) (hd : d < 2 ^ 63) :
    normalizeIndex ov i d = match norm d i with
      | some j => .ok (j : Int)
      | none => .abort :=
  (normalizeIndex_same i d hi hd).trans (Tensor.normalizeIndex_eq i d)

theorem position1 (d1 : Nat) (i1 : Int)
    (hd : ∀ x ∈ [d1], x < 2 ^ 63) (hi : ∀ x ∈ [i1], Fits x) (_hp : prod [d1] < 2 ^ 63) :
    position ov [(d1 : Int)] [i1] = posGen [d1] [i1] := by
  have e1 := normalizeIndex_gen (ov := ov) i1 d1 (hi i1 (by simp)) (hd d1 (by simp))
  simp only [posGen, position, normAll, e1]
  rcases h1 : norm d1 i1 with _ | j1
  all_goals simp [colPos]

theorem position2 (d1 d2 : Nat) (i1 i2 : Int)
    (hd : ∀ x ∈ [d1, d2], x < 2 ^ 63) (hi : ∀ x ∈ [i1, i2], Fits x) (hp : prod [d1, d2] < 2 ^ 63) :
    position ov [(d1 : Int), (d2 : Int)] [i1, i2] = posGen [d1, d2] [i1, i2] := by
  have e1 := normalizeIndex_gen (ov := ov) i1 d1 (hi i1 (by simp)) (hd d1 (by simp))
  have e2 := normalizeIndex_gen (ov := ov) i2 d2 (hi i2 (by simp)) (hd d2 (by simp))
  have hin := fun js => @Tensor.normAll_InB [d1, d2] [i1, i2] js
  simp only [posGen, position, normAll, e1, e2] at hin ⊢
  rcases h1 : norm d1 i1 with _ | j1 <;> rcases h2 : norm d2 i2 with _ | j2
  all_goals try (simp; done)
  have b1 := hin [j1, j2] (by simp [h1, h2])
  obtain ⟨b2, p2⟩ := prod_tail b1 hp
  have s1 := step_ok (ov := ov) b1 hp
  rw [colPos_one] at s1
  rw [Res.ok_bind, Res.ok_bind, s1]
  rfl

theorem position3 (d1 d2 d3 : Nat) (i1 i2 i3 : Int)
    (hd : ∀ x ∈ [d1, d2, d3], x < 2 ^ 63) (hi : ∀ x ∈ [i1, i2, i3], Fits x) (hp : prod [d1, d2, d3] < 2 ^ 63) :
    position ov [(d1 : Int), (d2 : Int), (d3 : Int)] [i1, i2, i3] = posGen [d1, d2, d3] [i1, i2, i3] := by
  have e1 := normalizeIndex_gen (ov := ov) i1 d1 (hi i1 (by simp)) (hd d1 (by simp))
  have e2 := normalizeIndex_gen (ov := ov) i2 d2 (hi i2 (by simp)) (hd d2 (by simp))
  have e3 := normalizeIndex_gen (ov := ov) i3 d3 (hi i3 (by simp)) (hd d3 (by simp))
  have hin := fun js => @Tensor.normAll_InB [d1, d2, d3] [i1, i2, i3] js
  simp only [posGen, position, normAll, e1, e2, e3] at hin ⊢
  rcases h1 : norm d1 i1 with _ | j1 <;> rcases h2 : norm d2 i2 with _ | j2 <;> rcases h3 : norm d3 i3 with _ | j3
  all_goals try (simp; done)
  have b1 := hin [j1, j2, j3] (by simp [h1, h2, h3])
  obtain ⟨b2, p2⟩ := prod_tail b1 hp
  obtain ⟨b3, p3⟩ := prod_tail b2 p2
  have s2 := step_ok (ov := ov) b2 p2
  have s1 := step_ok (ov := ov) b1 hp
  rw [colPos_one] at s2
  rw [Res.ok_bind, Res.ok_bind, Res.ok_bind, s2, Res.ok_bind, s1]
  rfl

theorem position4 (d1 d2 d3 d4 : Nat) (i1 i2 i3 i4 : Int)
    (hd : ∀ x ∈ [d1, d2, d3, d4], x < 2 ^ 63) (hi : ∀ x ∈ [i1, i2, i3, i4], Fits x) (hp : prod [d1, d2, d3, d4] < 2 ^ 63) :
    position ov [(d1 : Int), (d2 : Int), (d3 : Int), (d4 : Int)] [i1, i2, i3, i4] = posGen [d1, d2, d3, d4] [i1, i2, i3, i4] := by
  have e1 := normalizeIndex_gen (ov := ov) i1 d1 (hi i1 (by simp)) (hd d1 (by simp))
  have e2 := normalizeIndex_gen (ov := ov) i2 d2 (hi i2 (by simp)) (hd d2 (by simp))
  have e3 := normalizeIndex_gen (ov := ov) i3 d3 (hi i3 (by simp)) (hd d3 (by simp))
  have e4 := normalizeIndex_gen (ov := ov) i4 d4 (hi i4 (by simp)) (hd d4 (by simp))
  have hin := fun js => @Tensor.normAll_InB [d1, d2, d3, d4] [i1, i2, i3, i4] js
  simp only [posGen, position, normAll, e1, e2, e3, e4] at hin ⊢
  rcases h1 : norm d1 i1 with _ | j1 <;> rcases h2 : norm d2 i2 with _ | j2 <;> rcases h3 : norm d3 i3 with _ | j3 <;> rcases h4 : norm d4 i4 with _ | j4
  all_goals try (simp; done)
  have b1 := hin [j1, j2, j3, j4] (by simp [h1, h2, h3, h4])
  obtain ⟨b2, p2⟩ := prod_tail b1 hp
  obtain ⟨b3, p3⟩ := prod_tail b2 p2
  obtain ⟨b4, p4⟩ := prod_tail b3 p3
  have s3 := step_ok (ov := ov) b3 p3
  have s2 := step_ok (ov := ov) b2 p2
  have s1 := step_ok (ov := ov) b1 hp
  rw [colPos_one] at s3
  rw [Res.ok_bind, Res.ok_bind, Res.ok_bind, Res.ok_bind, s3, Res.ok_bind, s2, Res.ok_bind, s1]
  rfl

theorem position5 (d1 d2 d3 d4 d5 : Nat) (i1 i2 i3 i4 i5 : Int)
    (hd : ∀ x ∈ [d1, d2, d3, d4, d5], x < 2 ^ 63) (hi : ∀ x ∈ [i1, i2, i3, i4, i5], Fits x) (hp : prod [d1, d2, d3, d4, d5] < 2 ^ 63) :
    position ov [(d1 : Int), (d2 : Int), (d3 : Int), (d4 : Int), (d5 : Int)] [i1, i2, i3, i4, i5] = posGen [d1, d2, d3, d4, d5] [i1, i2, i3, i4, i5] := by
  have e1 := normalizeIndex_gen (ov := ov) i1 d1 (hi i1 (by simp)) (hd d1 (by simp))
  have e2 := normalizeIndex_gen (ov := ov) i2 d2 (hi i2 (by simp)) (hd d2 (by simp))
  have e3 := normalizeIndex_gen (ov := ov) i3 d3 (hi i3 (by simp)) (hd d3 (by simp))
  have e4 := normalizeIndex_gen (ov := ov) i4 d4 (hi i4 (by simp)) (hd d4 (by simp))
  have e5 := normalizeIndex_gen (ov := ov) i5 d5 (hi i5 (by simp)) (hd d5 (by simp))
  have hin := fun js => @Tensor.normAll_InB [d1, d2, d3, d4, d5] [i1, i2, i3, i4, i5] js
  simp only [posGen, position, normAll, e1, e2, e3, e4, e5] at hin ⊢
  rcases h1 : norm d1 i1 with _ | j1 <;> rcases h2 : norm d2 i2 with _ | j2 <;> rcases h3 : norm d3 i3 with _ | j3 <;> rcases h4 : norm d4 i4 with _ | j4 <;> rcases h5 : norm d5 i5 with _ | j5
  all_goals try (simp; done)
  have b1 := hin [j1, j2, j3, j4, j5] (by simp [h1, h2, h3, h4, h5])
  obtain ⟨b2, p2⟩ := prod_tail b1 hp
  obtain ⟨b3, p3⟩ := prod_tail b2 p2
  obtain ⟨b4, p4⟩ := prod_tail b3 p3
  obtain ⟨b5, p5⟩ := prod_tail b4 p4
  have s4 := step_ok (ov := ov) b4 p4
  have s3 := step_ok (ov := ov) b3 p3
  have s2 := step_ok (ov := ov) b2 p2
  have s1 := step_ok (ov := ov) b1 hp
  rw [colPos_one] at s4
  rw [Res.ok_bind, Res.ok_bind, Res.ok_bind, Res.ok_bind, Res.ok_bind, s4, Res.ok_bind, s3, Res.ok_bind, s2, Res.ok_bind, s1]
  rfl

theorem position6 (d1 d2 d3 d4 d5 d6 : Nat) (i1 i2 i3 i4 i5 i6 : Int)
    (hd : ∀ x ∈ [d1, d2, d3, d4, d5, d6], x < 2 ^ 63) (hi : ∀ x ∈ [i1, i2, i3, i4, i5, i6], Fits x) (hp : prod [d1, d2, d3, d4, d5, d6] < 2 ^ 63) :
    position ov [(d1 : Int), (d2 : Int), (d3 : Int), (d4 : Int), (d5 : Int), (d6 : Int)] [i1, i2, i3, i4, i5, i6] = posGen [d1, d2, d3, d4, d5, d6] [i1, i2, i3, i4, i5, i6] := by
  have e1 := normalizeIndex_gen (ov := ov) i1 d1 (hi i1 (by simp)) (hd d1 (by simp))
  have e2 := normalizeIndex_gen (ov := ov) i2 d2 (hi i2 (by simp)) (hd d2 (by simp))
  have e3 := normalizeIndex_gen (ov := ov) i3 d3 (hi i3 (by simp)) (hd d3 (by simp))
  have e4 := normalizeIndex_gen (ov := ov) i4 d4 (hi i4 (by simp)) (hd d4 (by simp))
  have e5 := normalizeIndex_gen (ov := ov) i5 d5 (hi i5 (by simp)) (hd d5 (by simp))
  have e6 := normalizeIndex_gen (ov := ov) i6 d6 (hi i6 (by simp)) (hd d6 (by simp))
  have hin := fun js => @Tensor.normAll_InB [d1, d2, d3, d4, d5, d6] [i1, i2, i3, i4, i5, i6] js
  simp only [posGen, position, normAll, e1, e2, e3, e4, e5, e6] at hin ⊢
  rcases h1 : norm d1 i1 with _ | j1 <;> rcases h2 : norm d2 i2 with _ | j2 <;> rcases h3 : norm d3 i3 with _ | j3 <;> rcases h4 : norm d4 i4 with _ | j4 <;> rcases h5 : norm d5 i5 with _ | j5 <;> rcases h6 : norm d6 i6 with _ | j6
  all_goals try (simp; done)
  have b1 := hin [j1, j2, j3, j4, j5, j6] (by simp [h1, h2, h3, h4, h5, h6])
  obtain ⟨b2, p2⟩ := prod_tail b1 hp
  obtain ⟨b3, p3⟩ := prod_tail b2 p2
  obtain ⟨b4, p4⟩ := prod_tail b3 p3
  obtain ⟨b5, p5⟩ := prod_tail b4 p4
  obtain ⟨b6, p6⟩ := prod_tail b5 p5
  have s5 := step_ok (ov := ov) b5 p5
  have s4 := step_ok (ov := ov) b4 p4
  have s3 := step_ok (ov := ov) b3 p3
  have s2 := step_ok (ov := ov) b2 p2
  have s1 := step_ok (ov := ov) b1 hp
  rw [colPos_one] at s5
  rw [Res.ok_bind, Res.ok_bind, Res.ok_bind, Res.ok_bind, Res.ok_bind, Res.ok_bind, s5, Res.ok_bind, s4, Res.ok_bind, s3, Res.ok_bind, s2, Res.ok_bind, s1]
  rfl

theorem position_eq (d : List Nat) (idx : List Int) (h1 : 1 ≤ idx.length) (h6 : idx.length ≤ 6)
    (hd : ∀ x ∈ d, x < 2 ^ 63) (hi : ∀ x ∈ idx, Fits x) (hp : prod d < 2 ^ 63) :
    position ov (d.map Int.ofNat) idx = posGen d idx := by
  by_cases hl : d.length = idx.length
  · match idx, d, h1, h6, hl with
    | [i1], [d1], _, _, _ => exact position1 d1 i1 hd hi hp
    | [i1, i2], [d1, d2], _, _, _ => exact position2 d1 d2 i1 i2 hd hi hp
    | [i1, i2, i3], [d1, d2, d3], _, _, _ => exact position3 d1 d2 d3 i1 i2 i3 hd hi hp
    | [i1, i2, i3, i4], [d1, d2, d3, d4], _, _, _ =>
      exact position4 d1 d2 d3 d4 i1 i2 i3 i4 hd hi hp
    | [i1, i2, i3, i4, i5], [d1, d2, d3, d4, d5], _, _, _ =>
      exact position5 d1 d2 d3 d4 d5 i1 i2 i3 i4 i5 hd hi hp
    | [i1, i2, i3, i4, i5, i6], [d1, d2, d3, d4, d5, d6], _, _, _ =>
      exact position6 d1 d2 d3 d4 d5 d6 i1 i2 i3 i4 i5 i6 hd hi hp
    | _ :: _ :: _ :: _ :: _ :: _ :: _ :: _, _, _, h, _ => simp at h
  · have e : normAll d idx = none := by
      cases h : normAll d idx with
      | none => rfl
      | some js =>
        refine absurd ?_ hl
        clear h1 h6 hd hi hp hl
        induction d generalizing idx js with
        | nil =>
          cases idx with
          | nil => rfl
          | cons => simp [normAll] at h
        | cons x d ih =>
          cases idx with
          | nil => simp [normAll] at h
          | cons i idx =>
            simp only [normAll, Option.bind_eq_bind, Option.bind_eq_some_iff] at h
            obtain ⟨_, _, js', h', _⟩ := h
            simp [ih idx js' h']
    rw [posGen, e]
    unfold position
    split
    all_goals first
      | rfl
      | (have h2 := congrArg List.length ‹List.map Int.ofNat d = _›
         rw [List.length_map] at h2
         exact absurd h2 hl)

/-- The dimensions and the number of elements of a tensor are numbers of the machine. -/
def Machinable (t : Tensor α) : Prop := (∀ d ∈ t.dims, d < 2 ^ 63) ∧ t.data.length < 2 ^ 63

theorem Machinable.prod {t : Tensor α} (h : Machinable t) (wf : t.WF) (hd : t.dims ≠ []) :
    Spec.prod t.dims < 2 ^ 63 := by
  rw [← wf.length_eq hd]; exact h.2

/-- C77: reading with one to six indices, the positions computed with machine words are those of
C04, and no operation overflows, whatever the indices. -/
theorem c77_read (t : Tensor α) (wf : t.WF) (hm : Machinable t) (idx : List Int)
    (h1 : 1 ≤ idx.length) (h6 : idx.length ≤ 6) (hi : ∀ x ∈ idx, Fits x) :
    get ov t idx = t.get idx := by
  rw [Tensor.get_eq_getGen t idx h1 h6, Tensor.getGen, get]
  by_cases hd : t.dims = []
  · rw [hd]
    cases idx with
    | nil => simp at h1
    | cons i idx => simp [position, normAll]
  · rw [position_eq t.dims idx h1 h6 hm.1 hi (hm.prod wf hd), posGen]
    cases normAll t.dims idx <;> rfl

/-- C77, writing: as C05. -/
theorem c77_write (t : Tensor α) (wf : t.WF) (hm : Machinable t) (idx : List Int) (v : α)
    (h1 : 1 ≤ idx.length) (h6 : idx.length ≤ 6) (hi : ∀ x ∈ idx, Fits x) :
    set ov t idx v = t.set idx v := by
  match idx, h1, h6, hi with
  | [i1], _, _, hi =>
    rw [set, Tensor.set, Tensor.set1, normalizeIndex_same i1 t.size (hi i1 (by simp)) hm.2]
  | i1 :: i2 :: is, h1, h6, hi =>
    rw [Tensor.set_eq_setGen t _ v (by simp) h6, Tensor.setGen, set]
    · by_cases hd : t.dims = []
      · rw [hd]; simp [position, normAll]
      · rw [position_eq t.dims _ h1 h6 hm.1 hi (hm.prod wf hd), posGen]
        cases normAll t.dims (i1 :: i2 :: is) <;> rfl
    · simp

example : Machinable (⟨[2, 2], [10, 20, 30, 40]⟩ : Tensor Nat) := by
  constructor <;> simp
example : get strict (⟨[2, 2], [10, 20, 30, 40]⟩ : Tensor Nat) [0, -1] = .ok 30 := by decide

/-- C77: reshaping to dimensions without zeros is that of C06. It is undefined only if the product
of the new dimensions is not a number of the machine, in which case it should stop. -/
theorem c77_reshape_partial (t : Tensor α) (hm : Machinable t) (dims : List Nat) (hne : dims ≠ [])
    (h0 : ∀ x ∈ dims, x ≠ 0) :
    (prod dims < 2 ^ 63 → reshape ov t dims = t.reshape dims) ∧
    (2 ^ 63 ≤ prod dims → reshape strict t dims = .ub ∧ t.reshape dims = .abort) := by
  constructor
  · intro hp
    rw [reshape, (c77_total_size dims hne h0).1 hp ov, Res.ok_bind, Tensor.reshape,
      totalSize_of_ne hne]
    congr 1
    by_cases h : prod dims = t.size
    · rw [Res.assert_pos h, Res.assert_pos (by rw [h])]
    · rw [Res.assert_neg h, Res.assert_neg (by exact_mod_cast h)]
  · intro hp
    rw [reshape, (c77_total_size dims hne h0).2 hp, Tensor.reshape, totalSize_of_ne hne,
      Res.assert_neg]
    · exact ⟨rfl, rfl⟩
    · have := hm.2
      unfold Tensor.size
      omega

/-- C77 is false for reshaping with the arithmetic of the processor: an empty tensor is accepted as
a matrix with 2^32 rows and columns. -/
theorem c77_negation_reshape :
    reshape wrap (⟨[0], []⟩ : Tensor α) [2 ^ 32, 2 ^ 32] = .ok ⟨[2 ^ 32, 2 ^ 32], []⟩ ∧
    get wrap (⟨[2 ^ 32, 2 ^ 32], []⟩ : Tensor α) [5, 7] = .ub := by
  constructor <;> rfl

theorem prod_take {d : List Nat} (h0 : ∀ x ∈ d, x ≠ 0) (n : Nat) :
    prod (d.take n) ≤ prod d ∧ prod (d.drop n) ≤ prod d := by
  have e : prod (d.take n) * prod (d.drop n) = prod d := by
    rw [← prod_append, List.take_append_drop]
  have h1 : 0 < prod (d.take n) := prod_pos fun x hx => h0 x (List.mem_of_mem_take hx)
  have h2 : 0 < prod (d.drop n) := prod_pos fun x hx => h0 x (List.mem_of_mem_drop hx)
  rw [← e]
  exact ⟨Nat.le_mul_of_pos_right _ h2, Nat.le_mul_of_pos_left _ h1⟩

/-- C77: the products of the dimensions before and after one of them. -/
theorem c77_surrounding_partial (d : List Nat) (ndx : Nat) (h0 : ∀ x ∈ d, x ≠ 0)
    (hp : prod d < 2 ^ 63) :
    surrounding ov (d.map Int.ofNat) ndx =
      (Tensor.surrounding d ndx >>= fun r => pure ((r.1 : Int), (r.2.1 : Int), (r.2.2 : Int))) := by
  rw [surrounding, Tensor.surrounding]
  by_cases hn : ndx < d.length
  · have t1 := (prod_take h0 ndx).1
    have t2 := (prod_take h0 (ndx + 1)).2
    have m1 := mulLoop_nat (ov := ov) (d.take ndx) 1
      (fun x hx => h0 x (List.mem_of_mem_take hx)) (by omega)
    have m2 := mulLoop_nat (ov := ov) (d.drop (ndx + 1)) 1
      (fun x hx => h0 x (List.mem_of_mem_drop hx)) (by omega)
    rw [Nat.one_mul] at m1 m2
    rw [if_pos (by simpa using hn), ← List.map_take, ← List.map_drop]
    rw [show (1 : Int) = ((1 : Nat) : Int) from rfl, m1, m2, Res.ok_bind]
    simp [hn, foldl_mul]
  · rw [if_neg (by simpa using hn), List.getElem?_eq_none (by omega)]
    rfl

example : surrounding strict [2, 3, 4] 1 = .ok (2, 3, 4) := by decide

/-- The least loop of ranges: it needs the element after the last. -/
theorem rangeLoop_ok (step : Int) (n : Nat) (min : Int) (hs : 0 < step) (hmin : Fits min)
    (hl : min + n * step < 2 ^ 63) :
    rangeLoop ov step n min = .ok (Indices.rangeLoop step n min) := by
  induction n generalizing min with
  | zero => rfl
  | succ n ih =>
    have e : min + ((n + 1 : Nat) : Int) * step = min + step + n * step := by push_cast; ring
    have hn : 0 ≤ (n : Int) * step := by positivity
    rw [e] at hl
    have hf : Fits (min + step) := by unfold Fits at *; omega
    rw [rangeLoop, word_ok hf, Res.ok_bind, ih (min + step) hf hl, Indices.rangeLoop]
    rfl

/-- C77: Indices::range with a positive step is that of C07 if the difference of the limits, and
the limit plus the step, are numbers of the machine, and there is memory for the elements. -/
theorem c77_range_partial (min max step : Int) (hs : 0 < step) (hmin : Fits min)
    (hdiff : max - min + 1 < 2 ^ 60) (hend : max + step < 2 ^ 63) :
    range ov min max step = Indices.range min max step := by
  unfold range Indices.range
  by_cases h : max < min
  · rw [if_pos h, if_pos h]
  · have hd : 0 ≤ max - min := by omega
    have hq : (max - min).tdiv step = (max - min) / step := Int.tdiv_eq_ediv_of_nonneg hd
    have hq0 : 0 ≤ (max - min) / step := Int.ediv_nonneg hd hs.le
    have hq1 : (max - min) / step ≤ max - min := Int.ediv_le_self _ hd
    have hq2 : (max - min) / step * step ≤ max - min := Int.ediv_mul_le _ hs.ne'
    obtain ⟨q, hqq⟩ := Int.eq_ofNat_of_zero_le hq0
    rw [if_neg h, if_neg h, word_ok (by unfold Fits; omega), Res.ok_bind, if_neg hs.ne',
      if_neg hs.ne', hq, word_ok (by unfold Fits; omega), Res.ok_bind,
      word_ok (by unfold Fits; omega), Res.ok_bind]
    simp only
    rw [if_neg (by omega), hqq, show ((q : Int) + 1) = ((q + 1 : Nat) : Int) from rfl,
      toSize_nat (by omega), newDoubles, if_pos (by omega), Res.ok_bind, rangeLoop_ok _ _ _ hs hmin]
    · rfl
    · rw [hqq] at hq2
      push_cast
      linarith

example : range strict 2 9 3 = .ok [2, 5, 8] := by decide

/-- C77 is false near the greatest number: the loop goes on to the number after the last element,
which overflows, although all the elements are numbers of the machine. -/
theorem c77_negation_range :
    range strict 0 (2 ^ 62) (2 ^ 62) = .ub ∧
    Indices.range 0 (2 ^ 62) (2 ^ 62) = .ok [0, 2 ^ 62] := by
  constructor <;> rfl

/-- C77: the size of a sparse matrix is checked without overflows, whatever the numbers of rows and
columns. What is checked is that there are less than rows (columns + 1) elements. -/
theorem c77_safe_size (nonzero rows cols : Nat) (hn : nonzero < 2 ^ 63) (hr : rows ≠ 0)
    (hc : cols ≠ 0) :
    (nonzero < rows * (cols + 1) → safeSize ov nonzero rows cols = .ok (nonzero : Int)) ∧
    (rows * (cols + 1) ≤ nonzero → safeSize ov nonzero rows cols = .abort) := by
  have hq : ((nonzero : Int).tdiv rows) = ((nonzero / rows : Nat) : Int) := by
    rw [Int.tdiv_eq_ediv_of_nonneg (by omega)]; simp
  have hle : nonzero / rows ≤ nonzero := Nat.div_le_self _ _
  have hcond : nonzero / rows < cols + 1 ↔ nonzero < rows * (cols + 1) := by
    rw [Nat.div_lt_iff_lt_mul (Nat.pos_of_ne_zero hr), Nat.mul_comm]
  rw [safeSize, if_neg (by omega), hq, word_ok (fits_nat (by omega)), Res.ok_bind]
  constructor
  · intro h
    rw [Res.assert_pos (by have := hcond.2 h; omega)]; rfl
  · intro h
    rw [Res.assert_neg]
    · rfl
    · intro h2
      exact absurd (hcond.1 (by omega)) (by omega)

/-- C77: a sparse matrix without rows or columns has no elements, whatever was asked for. -/
theorem c77_safe_size_empty (nonzero rows cols : Int) (h : rows = 0 ∨ cols = 0) :
    safeSize ov nonzero rows cols = .ok 0 := by
  rw [safeSize, if_pos h]

/-- C77 is false for sparse matrices: more elements are accepted than the matrix has places. -/
theorem c77_negation_sparse (rows cols : Nat) (hr : 2 ≤ rows) (hc : cols ≠ 0)
    (hf : rows * (cols + 1) < 2 ^ 63) :
    safeSize ov ((rows * cols + 1 : Nat) : Int) rows cols = .ok ((rows * cols + 1 : Nat) : Int) :=
  (c77_safe_size (rows * cols + 1) rows cols (by rw [Nat.mul_add] at hf; omega) (by omega) hc).1
    (by rw [Nat.mul_add]; omega)

example : safeSize strict 5 2 2 = .ok 5 := by decide

end Verif.Machine
