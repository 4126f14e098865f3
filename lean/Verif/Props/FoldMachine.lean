import Verif.Model.FoldMachine
import Verif.Props.Machine
import Verif.Lemmas.Fold3
import Verif.Props.Fold
/-
C94: contractions of large tensors.
-/
namespace Verif.Machine

open Verif Spec Tensor

variable {α : Type} {ov : Int → Res Int}

theorem conv_nat {w n : Nat} (hw : 1 ≤ w) (h : n < 2 ^ (w - 1)) : conv w (n : Int) = n := by
  have e : (2 : Nat) ^ w = 2 ^ (w - 1) * 2 := by rw [← pow_succ]; congr 1; omega
  have e' : ((2 : Int) ^ w) = ((2 ^ w : Nat) : Int) := by push_cast; rfl
  unfold conv
  refine Int.bmod_eq_of_le ?_ ?_ <;> omega

theorem gemm_nat [Zero α] [Add α] [Mul α] {w : Nat} (hw : 1 ≤ w) (conj : α → α) (op1 op2 : BlasOp)
    {m n k lda ldb ldc : Nat} (a b : List α) (offA offB offC : Nat) (hm : m < 2 ^ (w - 1)) (hn : n < 2 ^ (w - 1))
    (hk : k < 2 ^ (w - 1)) (ha : lda < 2 ^ (w - 1)) (hb : ldb < 2 ^ (w - 1)) (hc : ldc < 2 ^ (w - 1)) :
    gemm w conj op1 op2 m n k a offA lda b offB ldb offC ldc =
      Tensor.gemm conj op1 op2 m n k a offA lda b offB ldb offC ldc := by
  unfold gemm
  rw [conv_nat hw hm, conv_nat hw hn, conv_nat hw hk, conv_nat hw ha, conv_nat hw hb, conv_nat hw hc, if_neg (by omega)]
  simp only [Int.toNat_natCast]

theorem collect_ok {β : Type} (l : List (List β)) : collect (l.map Res.ok) = .ok l.flatten := by
  induction l with
  | nil => rfl
  | cons x l ih =>
    rw [List.map_cons, collect, ih]
    rfl

theorem collect_loops {β : Type} (m j : Nat) (f : Nat → Nat → Res (List β)) (g : Nat → Nat → List β)
    (h : ∀ x < m, ∀ y < j, f x y = .ok (g x y)) :
    collect ((List.range m).flatMap fun x => (List.range j).map (f x)) =
      .ok ((List.range m).flatMap fun x => (List.range j).flatMap (g x)) := by
  have e : ((List.range m).flatMap fun x => (List.range j).map (f x)) =
      ((List.range m).flatMap fun x => (List.range j).map (g x)).map Res.ok := by
    rw [List.map_flatMap]
    refine List.flatMap_congr fun x hx => ?_
    rw [List.map_map]
    refine List.map_congr_left fun y hy => ?_
    exact h x (List.mem_range.1 hx) y (List.mem_range.1 hy)
  rw [e, collect_ok]
  congr 1
  rw [List.flatMap_def, List.flatMap_def, List.flatten_flatten, List.map_map]
  congr 1

theorem word_nat {x : Int} {n : Nat} (e : x = n) (h : n < 2 ^ 63) : word ov x = .ok (n : Int) := by
  rw [e, word_ok (fits_nat h)]

theorem foldCalls_nat [Zero α] [Add α] [Mul α] {w : Nat} (hw : 1 ≤ w) (conj : α → α) (op2 : BlasOp) (a b : List α)
    (i j k l m : Nat) (hi : 0 < i) (hj : 0 < j) (hk : 0 < k) (hm : 0 < m)
    (hA : i * l * j < 2 ^ 63) (hB : k * l * m < 2 ^ 63) (hC : i * j * k * m < 2 ^ 63)
    (h1 : i * j < 2 ^ (w - 1)) (h2 : k < 2 ^ (w - 1)) (h3 : l < 2 ^ (w - 1)) :
    foldCalls ov w conj op2 a b i j k l m = .ok ((List.range m).flatMap fun m => (List.range j).flatMap fun y =>
      Tensor.gemm conj .N op2 i k l a (i * l * y) i b (k * l * m) k (i * (y + j * k * m)) (i * j)) := by
  have q1 : i * j ≤ i * j * (k * m) := Nat.le_mul_of_pos_right _ (by positivity)
  have q2 : i * l ≤ i * l * j := Nat.le_mul_of_pos_right _ hj
  have q3 : k * l ≤ k * l * m := Nat.le_mul_of_pos_right _ hm
  have q4 : j * k ≤ j * k * (i * m) := Nat.le_mul_of_pos_right _ (by positivity)
  have e1 : i * j * (k * m) = i * j * k * m := by ring
  have e2 : j * k * (i * m) = i * j * k * m := by ring
  unfold foldCalls
  rw [word_nat (n := i * j) (by push_cast; rfl) (by omega), word_nat (n := i * l) (by push_cast; rfl) (by omega),
    word_nat (n := k * l) (by push_cast; rfl) (by omega), word_nat (n := j * k) (by push_cast; rfl) (by omega)]
  simp only [Res.ok_bind, Int.toNat_natCast]
  refine collect_loops _ _ _ _ fun x hx y hy => ?_
  have p1 : i * l * y ≤ i * l * j := Nat.mul_le_mul_left _ hy.le
  have p2 : k * l * x ≤ k * l * m := Nat.mul_le_mul_left _ hx.le
  have p3 : y + j * k * x ≤ j * k * m := by
    have : j ≤ j * k := Nat.le_mul_of_pos_right _ hk
    calc y + j * k * x ≤ j * k * (x + 1) := by rw [Nat.mul_add]; omega
      _ ≤ j * k * m := Nat.mul_le_mul_left _ hx
  have p4 : i * (y + j * k * x) ≤ i * (j * k * m) := Nat.mul_le_mul_left _ p3
  have p5 : i * (j * k * m) = i * j * k * m := by ring
  have p6 : y + j * k * x ≤ i * (y + j * k * x) := Nat.le_mul_of_pos_left _ hi
  have i1 : i ≤ i * j := Nat.le_mul_of_pos_right _ hj
  rw [word_nat (n := i * l * y) (by push_cast; rfl) (by omega), word_nat (n := k * l * x) (by push_cast; rfl) (by omega),
    word_nat (n := j * k * x) (by push_cast; rfl) (by omega), Res.ok_bind, Res.ok_bind, Res.ok_bind,
    word_nat (n := y + j * k * x) (by push_cast; rfl) (by omega), Res.ok_bind,
    word_nat (n := i * (y + j * k * x)) (by push_cast; rfl) (by omega), Res.ok_bind]
  rw [gemm_nat hw]
  · rfl
  all_goals omega

theorem foldBody_nat [Zero α] [Add α] [Mul α] {w : Nat} (hw : 1 ≤ w) (conj : α → α) (dc : Bool) (a b : List α)
    (size i j k l m : Nat) (hi : 0 < i) (hj : 0 < j) (hk : 0 < k) (hm : 0 < m)
    (hA : i * l * j < 2 ^ 63) (hB : k * l * m < 2 ^ 63) (hC : i * j * k * m < 2 ^ 63)
    (h1 : i * j < 2 ^ (w - 1)) (h2 : k < 2 ^ (w - 1)) (h3 : l < 2 ^ (w - 1)) (h4 : k = 1 → m < 2 ^ (w - 1)) :
    foldBody ov w conj dc a b size i j k l m = Tensor.foldBody conj dc a b size i j k l m := by
  have i1 : i ≤ i * j := Nat.le_mul_of_pos_right _ hj
  have j1 : j ≤ i * j := Nat.le_mul_of_pos_left _ hi
  have one : ∀ n : Nat, ((n : Int) = 1 ↔ n = 1) := fun n => by omega
  have z : (0 : Int) = ((0 : Nat) : Int) := rfl
  unfold foldBody Tensor.foldBody
  simp only [one, ne_eq]
  split
  · rename_i h
    rw [z, gemm_nat hw] <;> first | rfl | omega
  split
  · rw [z, gemm_nat hw] <;> first | rfl | omega
  split
  · rename_i h
    rw [z, gemm_nat hw] <;> first | rfl | omega
  split
  · rw [z, gemm_nat hw] <;> first | rfl | omega
  rw [foldCalls_nat hw conj _ a b i j k l m hi hj hk hm hA hB hC h1 h2 h3, Res.ok_bind]

theorem mulLoop_prod (d : List Nat) (h : ∀ x ∈ d, x ≠ 0) (hp : prod d < 2 ^ 63) :
    mulLoop ov 1 (d.map Int.ofNat) = .ok ((prod d : Nat) : Int) := by
  have := mulLoop_nat (ov := ov) d 1 h (by omega)
  rw [Nat.one_mul] at this
  exact this

/-- The allocation of the elements. -/
theorem makeDims_ok {alloc : Int → Res (Nat × Nat)} (ha : alloc = newReal ∨ alloc = newComplex) (d : List Nat)
    (hne : d ≠ []) (h : ∀ x ∈ d, x ≠ 0) (hp : prod d < 2 ^ 59) :
    makeDims ov alloc (d.map Int.ofNat) = .ok ⟨d.map Int.ofNat, prod d, prod d⟩ := by
  rw [makeDims, (c77_total_size d hne h).1 (by omega), Res.ok_bind]
  rcases ha with rfl | rfl
  · rw [newReal_nat (by omega), if_pos (by omega)]
    rfl
  · rw [newComplex_nat (by omega), if_pos (by omega)]
    rfl

theorem outDims_facts (d : List Nat) (h : ∀ x ∈ d, x ≠ 0) :
    (if d.length = 0 then [1] else d) ≠ [] ∧ (∀ x ∈ (if d.length = 0 then [1] else d), x ≠ 0) ∧
    prod (if d.length = 0 then [1] else d) = prod d := by
  cases d with
  | nil => simp
  | cons x d => simpa using h

/-- An index which exists, in machine words. -/
theorem index_nat {d : List Nat} {i : Int} {n : Nat} (h : norm d.length i = some n) (hr : d.length < 2 ^ 31) :
    normalizeIndex ov i d.length = .ok (n : Int) ∧ Tensor.normalizeIndex i d.length = .ok (n : Int) := by
  have hf : Fits i := by
    unfold norm at h
    unfold Fits
    split at h
    · omega
    · split at h
      · omega
      · cases h
  rw [normalizeIndex_gen i _ hf (by omega), Tensor.normalizeIndex_eq, h]
  exact ⟨rfl, rfl⟩

variable [CommSemiring α]

/-- C94: fold and foldc in machine words, with BLAS integers of w bits, do what they do with unbounded integers
(C19, C20), if no argument of gemm is too large for the BLAS integers. -/
theorem c94_fold_partial {w : Nat} (hw : 1 ≤ w) {alloc : Int → Res (Nat × Nat)}
    (hal : alloc = newReal ∨ alloc = newComplex) (conj : α → α) (dc : Bool)
    (a b : Tensor α) (ndx1 ndx2 : Int) (P Q R S : List Nat) (L L' : Nat)
    (hda : a.dims = P ++ L :: Q) (hdb : b.dims = R ++ L' :: S)
    (h1 : norm a.dims.length ndx1 = some P.length) (h2 : norm b.dims.length ndx2 = some R.length)
    (hra : a.dims.length < 2 ^ 31) (hrb : b.dims.length < 2 ^ 31)
    (h0 : (∀ x ∈ a.dims, x ≠ 0) ∧ ∀ x ∈ b.dims, x ≠ 0)
    (hs : prod a.dims < 2 ^ 59 ∧ prod b.dims < 2 ^ 59 ∧ prod (P ++ Q ++ (R ++ S)) < 2 ^ 59)
    (hb : prod P * prod Q < 2 ^ (w - 1) ∧ prod R < 2 ^ (w - 1) ∧ L < 2 ^ (w - 1) ∧
      (prod R = 1 → prod S < 2 ^ (w - 1))) :
    doFold ov w alloc conj dc a ndx1 b ndx2 = Tensor.doFold conj dc a ndx1 b ndx2 := by
  obtain ⟨dimsa, da⟩ := a
  obtain ⟨dimsb, db⟩ := b
  simp only at hda hdb h0 hs
  subst hda hdb
  obtain ⟨ha0, hb0⟩ := h0
  simp only [List.mem_append, List.mem_cons] at ha0 hb0
  have hP : ∀ x ∈ P, x ≠ 0 := fun x hx => ha0 x (.inl hx)
  have hQ : ∀ x ∈ Q, x ≠ 0 := fun x hx => ha0 x (.inr (.inr hx))
  have hR : ∀ x ∈ R, x ≠ 0 := fun x hx => hb0 x (.inl hx)
  have hS : ∀ x ∈ S, x ≠ 0 := fun x hx => hb0 x (.inr (.inr hx))
  have hL : 0 < L := Nat.pos_of_ne_zero (ha0 L (.inr (.inl rfl)))
  have hL' : 0 < L' := Nat.pos_of_ne_zero (hb0 L' (.inr (.inl rfl)))
  have pP := prod_pos hP
  have pQ := prod_pos hQ
  have pR := prod_pos hR
  have pS := prod_pos hS
  simp only [prod_append, prod_cons] at hs
  obtain ⟨s1, s2, s3⟩ := hs
  have e1 : prod P * (L * prod Q) = prod P * L * prod Q := by ring
  have e2 : prod R * (L' * prod S) = prod R * L' * prod S := by ring
  have e3 : prod P * prod Q * (prod R * prod S) = prod P * prod Q * prod R * prod S := by ring
  rw [e1] at s1
  rw [e2] at s2
  rw [e3] at s3
  have lP : prod P ≤ prod P * L * prod Q := by
    rw [mul_assoc]; exact Nat.le_mul_of_pos_right _ (by positivity)
  have lQ : prod Q ≤ prod P * L * prod Q := Nat.le_mul_of_pos_left _ (by positivity)
  have lR : prod R ≤ prod R * L' * prod S := by
    rw [mul_assoc]; exact Nat.le_mul_of_pos_right _ (by positivity)
  have lS : prod S ≤ prod R * L' * prod S := Nat.le_mul_of_pos_left _ (by positivity)
  obtain ⟨n1, n1'⟩ := index_nat (ov := ov) h1 hra
  obtain ⟨n2, n2'⟩ := index_nat (ov := ov) h2 hrb
  have gA : (P ++ L :: Q)[P.length]? = some L := by simp
  have gB : (R ++ L' :: S)[R.length]? = some L' := by simp
  have tA : (P ++ L :: Q).take P.length = P := by simp
  have tB : (R ++ L' :: S).take R.length = R := by simp
  have dA : (P ++ L :: Q).drop (P.length + 1) = Q := by simp
  have dB : (R ++ L' :: S).drop (R.length + 1) = S := by simp
  have f1 : ∀ d : List Nat, d.foldl (· * ·) 1 = prod d := fun d => by rw [foldl_mul, Nat.one_mul]
  unfold doFold Tensor.doFold doFoldInto
  unfold Tensor.rank
  simp only [n1, n1', n2, n2', Res.ok_bind, Int.toNat_natCast, gA, gB, tA, tB, dA, dB, Res.ofOption_some, f1]
  rw [mulLoop_prod P hP (by omega), mulLoop_prod Q hQ (by omega), mulLoop_prod R hR (by omega),
    mulLoop_prod S hS (by omega)]
  simp only [Res.ok_bind, Res.assert_bind]
  rw [if_pos hL.ne', if_pos hL.ne']
  by_cases hLL : L = L'
  swap
  · rw [if_neg hLL, if_neg hLL]
  rw [if_pos hLL, if_pos hLL]
  subst hLL
  obtain ⟨o1, o2, o3⟩ := outDims_facts (P ++ Q ++ (R ++ S)) (by
    intro x hx
    simp only [List.mem_append] at hx
    rcases hx with (hx | hx) | hx | hx
    · exact hP x hx
    · exact hQ x hx
    · exact hR x hx
    · exact hS x hx)
  have o4 : prod (P ++ Q ++ (R ++ S)) = prod P * prod Q * prod R * prod S := by
    simp only [prod_append]; ring
  rw [o4] at o3
  rw [makeDims_ok hal _ o1 o2 (by rw [o3]; exact s3), Res.ok_bind]
  rw [totalSize_of_ne o1, o3]
  have o5 : prod P * prod Q * prod R * prod S ≠ 0 := by positivity
  simp only [Bool.false_eq_true, if_false]
  rw [if_neg o5, if_neg o5]
  rw [foldBody_nat hw conj dc da db _ (prod P) (prod Q) (prod R) L (prod S) pP pQ pR pS (by omega) (by omega)
    (by omega) hb.1 hb.2.1 hb.2.2.1 hb.2.2.2]

/-- C94: with BLAS integers of 64 bits nothing is needed about the sizes but that the arguments and the result fit
in memory. -/
theorem c94_fold_64 {alloc : Int → Res (Nat × Nat)} (hal : alloc = newReal ∨ alloc = newComplex) (conj : α → α)
    (dc : Bool) (a b : Tensor α) (ndx1 ndx2 : Int) (P Q R S : List Nat) (L L' : Nat)
    (hda : a.dims = P ++ L :: Q) (hdb : b.dims = R ++ L' :: S)
    (h1 : norm a.dims.length ndx1 = some P.length) (h2 : norm b.dims.length ndx2 = some R.length)
    (hra : a.dims.length < 2 ^ 31) (hrb : b.dims.length < 2 ^ 31)
    (h0 : (∀ x ∈ a.dims, x ≠ 0) ∧ ∀ x ∈ b.dims, x ≠ 0)
    (hs : prod a.dims < 2 ^ 59 ∧ prod b.dims < 2 ^ 59 ∧ prod (P ++ Q ++ (R ++ S)) < 2 ^ 59) :
    doFold ov 64 alloc conj dc a ndx1 b ndx2 = Tensor.doFold conj dc a ndx1 b ndx2 := by
  refine c94_fold_partial (by decide) hal conj dc a b ndx1 ndx2 P Q R S L L' hda hdb h1 h2 hra hrb h0 hs ?_
  rw [hda, hdb] at h0
  obtain ⟨ha0, hb0⟩ := h0
  simp only [List.mem_append, List.mem_cons] at ha0 hb0
  have pP := prod_pos (d := P) fun x hx => ha0 x (.inl hx)
  have pQ := prod_pos (d := Q) fun x hx => ha0 x (.inr (.inr hx))
  have pR := prod_pos (d := R) fun x hx => hb0 x (.inl hx)
  have pS := prod_pos (d := S) fun x hx => hb0 x (.inr (.inr hx))
  have pL : 0 < L := Nat.pos_of_ne_zero (ha0 L (.inr (.inl rfl)))
  rw [hda, hdb] at hs
  simp only [prod_append, prod_cons] at hs
  obtain ⟨s1, s2, s3⟩ := hs
  have i1 : prod P * prod Q ≤ prod P * prod Q * (prod R * prod S) := Nat.le_mul_of_pos_right _ (by positivity)
  have i2 : prod R ≤ prod P * prod Q * (prod R * prod S) :=
    le_trans (Nat.le_mul_of_pos_right _ pS) (Nat.le_mul_of_pos_left _ (by positivity))
  have i3 : prod S ≤ prod P * prod Q * (prod R * prod S) :=
    le_trans (Nat.le_mul_of_pos_left _ pR) (Nat.le_mul_of_pos_left _ (by positivity))
  have i4 : L ≤ prod P * (L * prod Q) :=
    le_trans (Nat.le_mul_of_pos_right _ pQ) (Nat.le_mul_of_pos_left _ pP)
  simp only [Nat.reduceSub]
  omega

theorem foldinCalls_nat {w : Nat} (hw : 1 ≤ w) (a b : List α) (i j k l m : Nat) (hi : 0 < i) (hj : 0 < j)
    (hk : 0 < k) (hm : 0 < m)
    (hA : i * l * j < 2 ^ 63) (hB : k * l * m < 2 ^ 63) (hC : k * i * (j * m) < 2 ^ 63)
    (h1 : i < 2 ^ (w - 1)) (h2 : k < 2 ^ (w - 1)) (h3 : l < 2 ^ (w - 1)) :
    foldinCalls ov w a b i j k l m = .ok ((List.range m).flatMap fun m => (List.range j).flatMap fun y =>
      Tensor.gemm id .N .T k i l b (k * l * m) k a (i * l * y) i (k * i * (y + j * m)) k) := by
  have q1 : k * i ≤ k * i * (j * m) := Nat.le_mul_of_pos_right _ (by positivity)
  have q2 : i * l ≤ i * l * j := Nat.le_mul_of_pos_right _ hj
  have q3 : k * l ≤ k * l * m := Nat.le_mul_of_pos_right _ hm
  unfold foldinCalls
  rw [word_nat (n := i * l) (by push_cast; rfl) (by omega), word_nat (n := k * l) (by push_cast; rfl) (by omega),
    word_nat (n := k * i) (by push_cast; rfl) (by omega)]
  simp only [Res.ok_bind, Int.toNat_natCast]
  refine collect_loops _ _ _ _ fun x hx y hy => ?_
  have p1 : i * l * y ≤ i * l * j := Nat.mul_le_mul_left _ hy.le
  have p2 : k * l * x ≤ k * l * m := Nat.mul_le_mul_left _ hx.le
  have p3 : y + j * x ≤ j * m := by
    calc y + j * x ≤ j * (x + 1) := by rw [Nat.mul_add]; omega
      _ ≤ j * m := Nat.mul_le_mul_left _ hx
  have p4 : k * i * (y + j * x) ≤ k * i * (j * m) := Nat.mul_le_mul_left _ p3
  have p6 : y + j * x ≤ k * i * (y + j * x) := Nat.le_mul_of_pos_left _ (by positivity)
  rw [word_nat (n := k * l * x) (by push_cast; rfl) (by omega), word_nat (n := i * l * y) (by push_cast; rfl) (by omega),
    word_nat (n := j * x) (by push_cast; rfl) (by omega), Res.ok_bind, Res.ok_bind, Res.ok_bind,
    word_nat (n := y + j * x) (by push_cast; rfl) (by omega), Res.ok_bind,
    word_nat (n := k * i * (y + j * x)) (by push_cast; rfl) (by omega), Res.ok_bind]
  rw [gemm_nat hw]
  · rfl
  all_goals omega

/-- C94: foldin in machine words does what it does with unbounded integers (C21), if the products of the
dimensions before the contracted index fit in the BLAS integers. -/
theorem c94_foldin_partial {w : Nat} (hw : 1 ≤ w) {alloc : Int → Res (Nat × Nat)}
    (hal : alloc = newReal ∨ alloc = newComplex) (a b : Tensor α) (ndx1 ndx2 : Int) (P Q R S : List Nat) (L L' : Nat)
    (hda : a.dims = P ++ L :: Q) (hdb : b.dims = R ++ L' :: S)
    (h1 : norm a.dims.length ndx1 = some P.length) (h2 : norm b.dims.length ndx2 = some R.length)
    (hra : a.dims.length < 2 ^ 31) (hrb : b.dims.length < 2 ^ 31)
    (h0 : (∀ x ∈ a.dims, x ≠ 0) ∧ ∀ x ∈ b.dims, x ≠ 0)
    (hs : prod a.dims < 2 ^ 59 ∧ prod b.dims < 2 ^ 59 ∧ prod (R ++ (P ++ (Q ++ S))) < 2 ^ 59)
    (hb : prod P < 2 ^ (w - 1) ∧ prod R < 2 ^ (w - 1) ∧ L < 2 ^ (w - 1)) :
    foldin ov w alloc a ndx1 b ndx2 = Tensor.foldin a ndx1 b ndx2 := by
  obtain ⟨dimsa, da⟩ := a
  obtain ⟨dimsb, db⟩ := b
  simp only at hda hdb h0 hs
  subst hda hdb
  obtain ⟨ha0, hb0⟩ := h0
  simp only [List.mem_append, List.mem_cons] at ha0 hb0
  have hP : ∀ x ∈ P, x ≠ 0 := fun x hx => ha0 x (.inl hx)
  have hQ : ∀ x ∈ Q, x ≠ 0 := fun x hx => ha0 x (.inr (.inr hx))
  have hR : ∀ x ∈ R, x ≠ 0 := fun x hx => hb0 x (.inl hx)
  have hS : ∀ x ∈ S, x ≠ 0 := fun x hx => hb0 x (.inr (.inr hx))
  have hL : 0 < L := Nat.pos_of_ne_zero (ha0 L (.inr (.inl rfl)))
  have hL' : 0 < L' := Nat.pos_of_ne_zero (hb0 L' (.inr (.inl rfl)))
  have pP := prod_pos hP
  have pQ := prod_pos hQ
  have pR := prod_pos hR
  have pS := prod_pos hS
  simp only [prod_append, prod_cons] at hs
  obtain ⟨s1, s2, s3⟩ := hs
  have e1 : prod P * (L * prod Q) = prod P * L * prod Q := by ring
  have e2 : prod R * (L' * prod S) = prod R * L' * prod S := by ring
  have e3 : prod R * (prod P * (prod Q * prod S)) = prod R * prod P * (prod Q * prod S) := by ring
  rw [e1] at s1
  rw [e2] at s2
  have s3' := s3
  rw [e3] at s3
  have lP : prod P ≤ prod P * L * prod Q := by
    rw [mul_assoc]; exact Nat.le_mul_of_pos_right _ (by positivity)
  have lQ : prod Q ≤ prod P * L * prod Q := Nat.le_mul_of_pos_left _ (by positivity)
  have lR : prod R ≤ prod R * L' * prod S := by
    rw [mul_assoc]; exact Nat.le_mul_of_pos_right _ (by positivity)
  have lS : prod S ≤ prod R * L' * prod S := Nat.le_mul_of_pos_left _ (by positivity)
  obtain ⟨n1, n1'⟩ := index_nat (ov := ov) h1 hra
  obtain ⟨n2, n2'⟩ := index_nat (ov := ov) h2 hrb
  rw [Tensor.foldin, doFoldinInto_split _ _ _ _ _ _ _ _ _ _ _ _ h1 h2]
  have gA : (P ++ L :: Q)[P.length]? = some L := by simp
  have gB : (R ++ L' :: S)[R.length]? = some L' := by simp
  have tA : (P ++ L :: Q).take P.length = P := by simp
  have tB : (R ++ L' :: S).take R.length = R := by simp
  have dA : (P ++ L :: Q).drop (P.length + 1) = Q := by simp
  have dB : (R ++ L' :: S).drop (R.length + 1) = S := by simp
  unfold foldin
  unfold Tensor.rank
  simp only [n1, n2, Res.ok_bind, Int.toNat_natCast, gA, gB, tA, tB, dA, dB, Res.ofOption_some]
  rw [mulLoop_prod P hP (by omega), mulLoop_prod Q hQ (by omega), mulLoop_prod R hR (by omega),
    mulLoop_prod S hS (by omega)]
  simp only [Res.ok_bind, Res.assert_bind]
  by_cases hLL : L' = L
  swap
  · rw [if_neg hLL, if_neg hLL]
  rw [if_pos hLL, if_pos hLL]
  subst hLL
  by_cases hne : R ++ (P ++ (Q ++ S)) = []
  · rw [if_pos hne, hne]
    rfl
  rw [if_neg hne, if_neg (fun h => hne (List.length_eq_zero_iff.1 h))]
  have o4 : prod (R ++ (P ++ (Q ++ S))) = prod R * (prod P * (prod Q * prod S)) := by simp only [prod_append]
  rw [makeDims_ok hal _ hne (by
    intro x hx
    simp only [List.mem_append] at hx
    rcases hx with hx | hx | hx | hx
    · exact hR x hx
    · exact hP x hx
    · exact hQ x hx
    · exact hS x hx) (by rw [o4]; exact s3'), Res.ok_bind]
  rw [totalSize_of_ne hne, o4]
  have o5 : prod R * (prod P * (prod Q * prod S)) ≠ 0 := by positivity
  simp only
  rw [if_neg o5, if_neg o5]
  rw [foldinCalls_nat hw da db (prod P) (prod Q) (prod R) L' (prod S) pP pQ pR pS (by omega) (by omega) (by omega)
    hb.1 hb.2.1 hb.2.2]
  rfl

/-- C94: the product of two matrices whose dimensions fit in the BLAS integers is the one of C22, on any machine. -/
theorem c94_mmult {w : Nat} (hw : 1 ≤ w) {alloc : Int → Res (Nat × Nat)} (hal : alloc = newReal ∨ alloc = newComplex)
    (a b : Tensor α) (m n n' p : Nat) (ha : a.dims = [m, n]) (hb : b.dims = [n', p])
    (h0 : m ≠ 0 ∧ n ≠ 0 ∧ n' ≠ 0 ∧ p ≠ 0) (hm : m < 2 ^ (w - 1)) (hn : n < 2 ^ (w - 1)) (hp : p < 2 ^ (w - 1))
    (hs : m * n < 2 ^ 59 ∧ n' * p < 2 ^ 59 ∧ m * p < 2 ^ 59) :
    mmult ov w alloc a b = Tensor.mmult a b := by
  refine c94_fold_partial hw hal id false a b (-1) 0 [m] [] [] [p] n n' ha hb (by rw [ha]; rfl) (by rw [hb]; rfl)
    (by rw [ha]; norm_num) (by rw [hb]; norm_num) (by rw [ha, hb]; simp; omega) ?_ ?_
  · rw [ha, hb]
    simpa [prod_cons] using hs
  · refine ⟨by simpa [prod] using hm, ?_, hn, fun _ => by simpa [prod] using hp⟩
    have : prod [] = 1 := rfl
    omega

/-- C94: a position which the tensors do not have aborts the program. -/
theorem c94_positions (w : Nat) (alloc : Int → Res (Nat × Nat)) (conj : α → α) (dc : Bool) (a b : Tensor α)
    (ndx1 ndx2 : Int) (hra : a.dims.length < 2 ^ 31) (hrb : b.dims.length < 2 ^ 31) (hf1 : Fits ndx1) (hf2 : Fits ndx2)
    (h : norm a.dims.length ndx1 = none ∨ norm b.dims.length ndx2 = none) :
    doFold ov w alloc conj dc a ndx1 b ndx2 = .abort ∧ foldin ov w alloc a ndx1 b ndx2 = .abort := by
  unfold doFold foldin
  unfold Tensor.rank
  rw [normalizeIndex_gen ndx1 _ hf1 (by omega), normalizeIndex_gen ndx2 _ hf2 (by omega)]
  cases h1 : norm a.dims.length ndx1 with
  | none => exact ⟨rfl, rfl⟩
  | some n =>
    rw [h1] at h
    simp only [reduceCtorEq, false_or] at h
    rw [h]
    exact ⟨rfl, rfl⟩

/-- The product of a row and a column, with BLAS integers of w bits. -/
theorem dot_eq (w : Nat) (n : Nat) (h0 : 0 < n) (u v : List α) :
    mmult ov w newReal ⟨[1, n], u⟩ ⟨[n, 1], v⟩ =
      (do
        let c ← runWrites 1 (gemm w id .T .N 1 1 n u 0 n v 0 n 0 1)
        pure ⟨[1, 1], c⟩) := by
  have z1 : normalizeIndex ov (-1) ((2 : Nat) : Int) = .ok ((1 : Nat) : Int) :=
    (index_nat (d := [1, n]) (i := -1) (n := 1) rfl (by norm_num)).1
  have z2 : normalizeIndex ov 0 ((2 : Nat) : Int) = .ok ((0 : Nat) : Int) :=
    (index_nat (d := [1, n]) (i := 0) (n := 0) rfl (by norm_num)).1
  have m1 : mulLoop ov 1 ([1].map Int.ofNat) = .ok ((1 : Nat) : Int) := mulLoop_prod [1] (by simp) (by norm_num [prod])
  have m0 : mulLoop ov 1 (([] : List Nat).map Int.ofNat) = .ok ((1 : Nat) : Int) := rfl
  have mk : makeDims ov newReal (([1, 1] : List Nat).map Int.ofNat) = .ok ⟨([1, 1] : List Nat).map Int.ofNat, 1, 1⟩ :=
    makeDims_ok (.inl rfl) [1, 1] (by simp) (by simp) (by norm_num [prod])
  unfold mmult fold doFold
  unfold Tensor.rank
  simp only [List.length_cons, List.length_nil, Nat.zero_add, Nat.reduceAdd, z1, z2, Res.ok_bind, Int.toNat_natCast,
    List.take_succ_cons, List.take_zero, List.drop_succ_cons, List.drop_zero, List.drop_nil, m1, m0, Res.assert_bind,
    List.getElem?_cons_succ, List.getElem?_cons_zero, Res.ofOption_some, List.append_nil, List.nil_append,
    List.cons_append]
  rw [if_pos h0.ne', if_pos trivial]
  simp only [Nat.succ_ne_zero, if_false, mk, Res.ok_bind]
  rfl

/-- C94 is false of the code with BLAS integers of 32 bits: the product of a row of 2^32 + r elements and a column
is the sum of the first r products. -/
theorem c94_negation_int (r : Nat) (h0 : 0 < r) (hr : r < 2 ^ 31) (x y : Nat → α) :
    mmult ov 32 newReal ⟨[1, 2 ^ 32 + r], (List.range (2 ^ 32 + r)).map x⟩ ⟨[2 ^ 32 + r, 1], (List.range (2 ^ 32 + r)).map y⟩ =
      .ok ⟨[1, 1], [∑ p ∈ Finset.range r, x p * y p]⟩ := by
  have hc : conv 32 ((2 ^ 32 + r : Nat) : Int) = (r : Int) := by
    unfold conv
    rw [show ((2 ^ 32 + r : Nat) : Int) = (r : Int) + ((2 ^ 32 : Nat) : Int) by push_cast; ring, Int.add_bmod_right]
    exact conv_nat (w := 32) (by decide) hr
  have c1 : conv 32 (1 : Int) = ((1 : Nat) : Int) := rfl
  rw [dot_eq 32 _ (by omega)]
  generalize hN : 2 ^ 32 + r = N at *
  unfold gemm
  rw [hc, c1, if_neg (by omega)]
  simp only [Int.toNat_natCast, Int.toNat_zero]
  unfold Tensor.gemm
  rw [if_neg (by simp; omega)]
  simp only [List.range_one, List.flatMap_cons, List.flatMap_nil, List.map_cons, List.map_nil, List.append_nil]
  rw [sumO_eq _ _ (fun p => x p * y p)]
  swap
  · intro p hp
    simp [BlasOp.entry, List.getElem?_map, List.getElem?_range (show p < N by omega)]
  rfl

/-- C94 is false of the code with BLAS integers of 32 bits: if the number of elements is between 2^31 and 2^32 it
becomes negative, and BLAS rejects the call. -/
theorem c94_negation_int_rejected (n : Nat) (h1 : 2 ^ 31 ≤ n) (h2 : n < 2 ^ 32) (u v : List α) :
    mmult ov 32 newReal ⟨[1, n], u⟩ ⟨[n, 1], v⟩ = .ub := by
  have hc : conv 32 (n : Int) < 0 := by
    unfold conv
    rw [show (n : Int) = ((n : Int) - ((2 ^ 32 : Nat) : Int)) + ((2 ^ 32 : Nat) : Int) by omega, Int.add_bmod_right]
    rw [Int.bmod_eq_of_le] <;> omega
  rw [dot_eq 32 _ (by omega)]
  unfold gemm
  rw [if_pos (by simp [hc])]
  rfl

/-- C94 is false of the code: the number of elements of a product may overflow while the arguments are small. The
product of a column and a row of 2^32 elements has no elements on a machine whose arithmetic wraps. -/
theorem c94_negation_outer (w : Nat) (u v : List α) :
    mmult strict w newReal ⟨[2 ^ 32, 1], u⟩ ⟨[1, 2 ^ 32], v⟩ = .ub ∧
    mmult wrap w newReal ⟨[2 ^ 32, 1], u⟩ ⟨[1, 2 ^ 32], v⟩ = .ok ⟨[2 ^ 32, 2 ^ 32], []⟩ := by
  have z1 : ∀ ov, normalizeIndex ov (-1) ((2 : Nat) : Int) = .ok ((1 : Nat) : Int) := fun ov =>
    (index_nat (d := [1, 1]) (i := -1) (n := 1) rfl (by norm_num)).1
  have z2 : ∀ ov, normalizeIndex ov 0 ((2 : Nat) : Int) = .ok ((0 : Nat) : Int) := fun ov =>
    (index_nat (d := [1, 1]) (i := 0) (n := 0) rfl (by norm_num)).1
  have m1 : ∀ ov, mulLoop ov 1 (([2 ^ 32] : List Nat).map Int.ofNat) = .ok ((2 ^ 32 : Nat) : Int) := fun ov =>
    mulLoop_prod [2 ^ 32] (by simp) (by norm_num [prod])
  have m0 : ∀ ov, mulLoop ov 1 (([] : List Nat).map Int.ofNat) = .ok ((1 : Nat) : Int) := fun _ => rfl
  have k1 : makeDims strict newReal (([2 ^ 32, 2 ^ 32] : List Nat).map Int.ofNat) = .ub := by decide
  have k2 : makeDims wrap newReal (([2 ^ 32, 2 ^ 32] : List Nat).map Int.ofNat) = .ok ⟨[2 ^ 32, 2 ^ 32], 0, 0⟩ := by decide
  constructor
  all_goals
    unfold mmult fold doFold
    unfold Tensor.rank
    simp only [List.length_cons, List.length_nil, Nat.zero_add, Nat.reduceAdd, z1, z2, Res.ok_bind, Int.toNat_natCast,
      List.take_succ_cons, List.take_zero, List.drop_succ_cons, List.drop_zero, List.drop_nil, m1, m0, Res.assert_bind,
      List.getElem?_cons_succ, List.getElem?_cons_zero, Res.ofOption_some, List.append_nil, List.nil_append,
      List.cons_append]
    rw [if_pos (by decide), if_pos trivial]
    simp only [Nat.succ_ne_zero, if_false, k1, k2, Res.ok_bind, if_true]
    rfl

/-- The hypotheses of C94 can be met: tensors of ranks three and two, BLAS integers of 32 bits. -/
example : doFold wrap 32 newReal id false ⟨[2, 3, 2], List.replicate 12 (1 : Int)⟩ 1 ⟨[3, 4], List.replicate 12 2⟩ 0 =
    Tensor.doFold id false ⟨[2, 3, 2], List.replicate 12 (1 : Int)⟩ 1 ⟨[3, 4], List.replicate 12 2⟩ 0 :=
  c94_fold_partial (by decide) (.inl rfl) id false _ _ 1 0 [2] [2] [] [4] 3 3 rfl rfl rfl rfl (by norm_num) (by norm_num)
    (by simp) (by simp [prod]) (by simp [prod])

example : doFold wrap 64 newComplex id false ⟨[2, 3, 2], List.replicate 12 (1 : Int)⟩ 1 ⟨[3, 4], List.replicate 12 2⟩ 0 =
    Tensor.doFold id false ⟨[2, 3, 2], List.replicate 12 (1 : Int)⟩ 1 ⟨[3, 4], List.replicate 12 2⟩ 0 :=
  c94_fold_64 (.inr rfl) id false _ _ 1 0 [2] [2] [] [4] 3 3 rfl rfl rfl rfl (by norm_num) (by norm_num)
    (by simp) (by simp [prod])

example : foldin strict 32 newReal ⟨[2, 3, 2], List.replicate 12 (1 : Int)⟩ 1 ⟨[3, 4], List.replicate 12 2⟩ 0 =
    Tensor.foldin ⟨[2, 3, 2], List.replicate 12 (1 : Int)⟩ 1 ⟨[3, 4], List.replicate 12 2⟩ 0 :=
  c94_foldin_partial (by decide) (.inl rfl) _ _ 1 0 [2] [2] [] [4] 3 3 rfl rfl rfl rfl (by norm_num) (by norm_num)
    (by simp) (by simp [prod]) (by simp [prod])

/-- Matrices with more than 2^31 elements, each of whose dimensions is small. -/
example (u v : List Int) : mmult strict 32 newReal ⟨[100000, 50000], u⟩ ⟨[50000, 100000], v⟩ =
    Tensor.mmult ⟨[100000, 50000], u⟩ ⟨[50000, 100000], v⟩ :=
  c94_mmult (by decide) (.inl rfl) _ _ 100000 50000 50000 100000 rfl rfl (by decide) (by norm_num) (by norm_num)
    (by norm_num) (by norm_num)

example : foldin wrap 32 newReal ⟨[2], [(1 : Int), 2]⟩ 1 ⟨[2], [3, 4]⟩ 0 = .abort :=
  (c94_positions 32 newReal id false _ _ 1 0 (by norm_num) (by norm_num) (by decide) (by decide) (.inl rfl)).2

/-- The product of two vectors of 2^32 + 1 ones is one. -/
example : mmult wrap 32 newReal ⟨[1, 2 ^ 32 + 1], (List.range (2 ^ 32 + 1)).map fun _ => (1 : Int)⟩
    ⟨[2 ^ 32 + 1, 1], (List.range (2 ^ 32 + 1)).map fun _ => 1⟩ = .ok ⟨[1, 1], [1]⟩ := by
  rw [c94_negation_int 1 (by decide) (by norm_num)]
  rfl

example (u v : List Int) : mmult wrap 32 newReal ⟨[1, 3000000000], u⟩ ⟨[3000000000, 1], v⟩ = .ub :=
  c94_negation_int_rejected _ (by norm_num) (by norm_num) u v

end Verif.Machine
