import Verif.Model.Text
import Verif.Spec.Text
import Verif.Spec.Fold
import Verif.Lemmas.Access
import Verif.Lemmas.Trace
import Verif.Props.Eig
import Verif.Props.Dataset
/-
C83: the text of tensors and matrices.
-/
namespace Verif.Text

open Verif Sdf Tensor Spec

variable {α β : Type}

/-- What follows the text of an element. -/
def Tail (z : List Byte) : Prop := (∃ x, z = 44 :: 32 :: x) ∨ ∃ x, z = 93 :: x ∨ z = 10 :: x

theorem tail_eq {t a z z' : List Byte} (hp : Plain (t ++ a)) (hz : Tail z) (hz' : Tail z') (h : z = a ++ z') :
    a = [] := by
  obtain ⟨-, h1, h2, h3⟩ := hp
  match a, h with
  | [], _ => rfl
  | b :: a, h =>
    exfalso
    rcases hz with ⟨x, rfl⟩ | ⟨x, rfl | rfl⟩
    · rw [List.cons_append, List.cons.injEq] at h
      obtain ⟨rfl, h⟩ := h
      match a, h with
      | [], h =>
        rw [List.nil_append] at h
        rcases hz' with ⟨y, rfl⟩ | ⟨y, rfl | rfl⟩ <;> simp at h
      | c :: a, h =>
        rw [List.cons_append, List.cons.injEq] at h
        obtain ⟨rfl, h⟩ := h
        exact h3 ⟨t, a, by simp⟩
    · rw [List.cons_append, List.cons.injEq] at h
      obtain ⟨rfl, h⟩ := h
      simp at h1
    · rw [List.cons_append, List.cons.injEq] at h
      obtain ⟨rfl, h⟩ := h
      simp at h2

theorem split_tail {t t' z z' : List Byte} (hp : Plain t) (hp' : Plain t') (hz : Tail z) (hz' : Tail z')
    (h : t ++ z = t' ++ z') : t = t' ∧ z = z' := by
  rcases List.append_eq_append_iff.1 h with ⟨a, rfl, e⟩ | ⟨a, rfl, e⟩
  · have := tail_eq hp' hz hz' e
    subst this
    simpa using e
  · have := tail_eq hp hz' hz e
    subst this
    simpa using e.symm

theorem tail_end {e : Byte} (he : e = 93 ∨ e = 10) (x : List Byte) : Tail (e :: x) := by
  rcases he with rfl | rfl
  · exact Or.inr ⟨x, Or.inl rfl⟩
  · exact Or.inr ⟨x, Or.inr rfl⟩

/-- Texts which follow another one. -/
def more : List (List Byte) → List Byte
  | [] => []
  | t :: l => 44 :: 32 :: (t ++ more l)

/-- Texts with commas. -/
def row : List (List Byte) → List Byte
  | [] => []
  | t :: l => t ++ more l

/-- Rows which follow another one. -/
def moreRows : List (List (List Byte)) → List Byte
  | [] => []
  | r :: l => 10 :: 32 :: (row r ++ moreRows l)

/-- Rows of a matrix. -/
def rows : List (List (List Byte)) → List Byte
  | [] => []
  | r :: l => 91 :: (row r ++ moreRows l)

theorem more_tail (l : List (List Byte)) {e : Byte} (he : e = 93 ∨ e = 10) (x : List Byte) :
    Tail (more l ++ e :: x) := by
  cases l with
  | nil => exact tail_end he x
  | cons t l => exact Or.inl ⟨t ++ more l ++ e :: x, by simp [more]⟩

theorem more_inj {l l' : List (List Byte)} (hl : ∀ t ∈ l, Plain t) (hl' : ∀ t ∈ l', Plain t)
    {e e' : Byte} (he : e = 93 ∨ e = 10) (he' : e' = 93 ∨ e' = 10) {x y : List Byte}
    (h : more l ++ e :: x = more l' ++ e' :: y) : l = l' ∧ e = e' ∧ x = y := by
  have h44 : ∀ b : Byte, b = 93 ∨ b = 10 → b ≠ 44 := by
    rintro b (rfl | rfl) <;> decide
  induction l generalizing l' with
  | nil =>
    cases l' with
    | nil => exact ⟨rfl, by simpa [more] using h⟩
    | cons t l' =>
      rw [more, more, List.nil_append, List.cons_append, List.cons.injEq] at h
      exact absurd h.1 (h44 e he)
  | cons t l ih =>
    cases l' with
    | nil =>
      rw [more, more, List.nil_append, List.cons_append, List.cons.injEq] at h
      exact absurd h.1.symm (h44 e' he')
    | cons t' l' =>
      simp only [more, List.cons_append, List.cons.injEq, true_and, List.append_assoc] at h
      obtain ⟨g1, g2⟩ := split_tail (hl t (List.mem_cons_self ..)) (hl' t' (List.mem_cons_self ..))
        (more_tail l he x) (more_tail l' he' y) h
      obtain ⟨k1, k2⟩ := ih (fun t h => hl t (List.mem_cons_of_mem _ h))
        (fun t h => hl' t (List.mem_cons_of_mem _ h)) g2
      exact ⟨by rw [g1, k1], k2⟩

theorem row_inj {l l' : List (List Byte)} (hl : ∀ t ∈ l, Plain t) (hl' : ∀ t ∈ l', Plain t)
    {e e' : Byte} (he : e = 93 ∨ e = 10) (he' : e' = 93 ∨ e' = 10) {x y : List Byte}
    (h : row l ++ e :: x = row l' ++ e' :: y) : l = l' ∧ e = e' ∧ x = y := by
  have hne : ∀ (t z w : List Byte) (b : Byte), Plain t → (b = 93 ∨ b = 10) → t ++ z ≠ b :: w := by
    intro t z w b ht hb e
    match t, ht with
    | [], ht => exact ht.1 rfl
    | c :: t, ht =>
      rw [List.cons_append, List.cons.injEq] at e
      obtain ⟨rfl, e⟩ := e
      rcases hb with rfl | rfl
      · exact ht.2.1 (List.mem_cons_self ..)
      · exact ht.2.2.1 (List.mem_cons_self ..)
  cases l with
  | nil =>
    cases l' with
    | nil => exact ⟨rfl, by simpa [row] using h⟩
    | cons t l' =>
      rw [row, row, List.nil_append, List.append_assoc] at h
      exact absurd h.symm (hne t _ _ _ (hl' t (List.mem_cons_self ..)) he)
  | cons t l =>
    cases l' with
    | nil =>
      rw [row, row, List.nil_append, List.append_assoc] at h
      exact absurd h (hne t _ _ _ (hl t (List.mem_cons_self ..)) he')
    | cons t' l' =>
      have := more_inj (l := t :: l) (l' := t' :: l') hl hl' he he' (x := x) (y := y)
        (by simpa [more, row] using h)
      exact this

theorem moreRows_head (l : List (List (List Byte))) (x : List Byte) :
    ∃ s y, moreRows l ++ 93 :: x = s :: y ∧ (s = 93 ∨ s = 10) := by
  cases l with
  | nil => exact ⟨93, x, rfl, Or.inl rfl⟩
  | cons t l => exact ⟨10, _, rfl, Or.inr rfl⟩

theorem moreRows_inj {l l' : List (List (List Byte))} (hl : ∀ r ∈ l, ∀ t ∈ r, Plain t)
    (hl' : ∀ r ∈ l', ∀ t ∈ r, Plain t) {x y : List Byte}
    (h : moreRows l ++ 93 :: x = moreRows l' ++ 93 :: y) : l = l' ∧ x = y := by
  induction l generalizing l' with
  | nil =>
    cases l' with
    | nil => exact ⟨rfl, by simpa [moreRows] using h⟩
    | cons r l' => simp [moreRows] at h
  | cons r l ih =>
    cases l' with
    | nil => simp [moreRows] at h
    | cons r' l' =>
      simp only [moreRows, List.cons_append, List.cons.injEq, true_and, List.append_assoc] at h
      obtain ⟨s, u, h1, h2⟩ := moreRows_head l x
      obtain ⟨s', u', h1', h2'⟩ := moreRows_head l' y
      rw [h1, h1'] at h
      obtain ⟨g1, g2, g3⟩ := row_inj (hl r (List.mem_cons_self ..)) (hl' r' (List.mem_cons_self ..))
        h2 h2' h
      obtain ⟨k1, k2⟩ := ih (fun r h => hl r (List.mem_cons_of_mem _ h))
        (fun r h => hl' r (List.mem_cons_of_mem _ h)) (by rw [h1, h1', g2, g3])
      exact ⟨by rw [g1, k1], k2⟩

theorem rows_inj {l l' : List (List (List Byte))} (hl : ∀ r ∈ l, ∀ t ∈ r, Plain t)
    (hl' : ∀ r ∈ l', ∀ t ∈ r, Plain t) (h : rows l ++ [93] = rows l' ++ [93]) : l = l' := by
  cases l with
  | nil =>
    cases l' with
    | nil => rfl
    | cons r l' => simp [rows] at h
  | cons r l =>
    cases l' with
    | nil => simp [rows] at h
    | cons r' l' =>
      refine (moreRows_inj (l := r :: l) (l' := r' :: l') hl hl' (x := []) (y := []) ?_).1
      simpa [rows, moreRows] using h

theorem writeLoop_false (pr : α → List Byte) (l : List α) :
    writeLoop pr false l = more (l.map pr) := by
  induction l with
  | nil => rfl
  | cons x l ih =>
    rw [writeLoop, ih]
    simp [more]

theorem writeLoop_true (pr : α → List Byte) (l : List α) : writeLoop pr true l = row (l.map pr) := by
  cases l with
  | nil => rfl
  | cons x l =>
    rw [writeLoop, writeLoop_false]
    simp [row]

theorem plain_number {s : List Byte} (h : s ≠ []) (hs : ∀ b ∈ s, b ≠ 44 ∧ b ≠ 93 ∧ b ≠ 10) : Plain s :=
  ⟨h, fun g => (hs _ g).2.1 rfl, fun g => (hs _ g).2.2 rfl,
    fun g => (hs 44 (g.subset (by simp))).1 rfl⟩

/-- The text of a complex number, with those of its parts, is one of those which the theorems ask for. -/
theorem plain_complex {s t : List Byte} (hs : ∀ b ∈ s, b ≠ 44 ∧ b ≠ 93 ∧ b ≠ 10)
    (ht : ∀ b ∈ t, b ≠ 44 ∧ b ≠ 93 ∧ b ≠ 10) (h : t.head? ≠ some 32) :
    Plain ([40] ++ s ++ [44] ++ t ++ [41]) := by
  refine ⟨by simp, ?_, ?_, ?_⟩
  · intro g
    simp only [List.append_assoc, List.mem_append, List.mem_singleton] at g
    rcases g with g | g | g | g | g
    · simp at g
    · exact (hs _ g).2.1 rfl
    · simp at g
    · exact (ht _ g).2.1 rfl
    · simp at g
  · intro g
    simp only [List.append_assoc, List.mem_append, List.mem_singleton] at g
    rcases g with g | g | g | g | g
    · simp at g
    · exact (hs _ g).2.2 rfl
    · simp at g
    · exact (ht _ g).2.2 rfl
    · simp at g
  · rintro ⟨x, y, g⟩
    have e : x ++ 44 :: 32 :: y = ([40] ++ s) ++ 44 :: (t ++ [41]) := by simpa using g
    have h44 : (44 : Byte) ∉ [40] ++ s := by
      intro k
      rcases List.mem_append.1 k with k | k
      · simp at k
      · exact (hs _ k).1 rfl
    have h44' : (44 : Byte) ∉ t ++ [41] := by
      intro k
      rcases List.mem_append.1 k with k | k
      · exact (ht _ k).1 rfl
      · simp at k
    rcases List.append_eq_append_iff.1 e with ⟨a, e1, e2⟩ | ⟨a, e1, e2⟩
    · cases a with
      | nil =>
        simp only [List.nil_append, List.cons.injEq, true_and] at e2
        cases t with
        | nil => simp at e2
        | cons c t => simp at e2 h; exact h e2.1.symm
      | cons c a =>
        rw [List.cons_append, List.cons.injEq] at e2
        exact h44 (by rw [e1, e2.1]; simp)
    · cases a with
      | nil =>
        simp only [List.nil_append, List.cons.injEq, true_and] at e2
        cases t with
        | nil => simp at e2
        | cons c t => simp at e2 h; exact h e2.1
      | cons c a =>
        rw [List.cons_append, List.cons.injEq] at e2
        exact h44' (by rw [e2.2]; simp)

theorem numberToString_plain (n : Int) : Plain (Dataset.numberToString n) := by
  rw [Dataset.numberToString]
  have hd : ∀ b ∈ Dataset.digits n.natAbs, b ≠ 44 ∧ b ≠ 93 ∧ b ≠ 10 := by
    intro b hb
    have := Dataset.digits_range _ b hb
    refine ⟨?_, ?_, ?_⟩ <;> rintro rfl <;> simp at this
  split
  · refine plain_number (by simp) fun b hb => ?_
    rcases List.mem_cons.1 hb with rfl | hb
    · decide
    · exact hd b hb
  · exact plain_number (Dataset.digits_ne _) hd

theorem vector_append {pr : α → List Byte} {qr : β → List Byte} (hp : ∀ x, Plain (pr x))
    (hq : ∀ x, Plain (qr x)) {l : List α} {l' : List β} {x y : List Byte}
    (h : vector pr l ++ x = vector qr l' ++ y) : l.map pr = l'.map qr ∧ x = y := by
  rw [vector, vector, writeLoop_true, writeLoop_true] at h
  simp only [List.cons_append, List.nil_append, List.append_assoc, List.cons.injEq, true_and] at h
  obtain ⟨h1, -, h2⟩ := row_inj (l := l.map pr) (l' := l'.map qr)
    (by intro t ht; obtain ⟨a, -, rfl⟩ := List.mem_map.1 ht; exact hp a)
    (by intro t ht; obtain ⟨a, -, rfl⟩ := List.mem_map.1 ht; exact hq a)
    (Or.inl rfl) (Or.inl rfl) h
  exact ⟨h1, h2⟩

/-- C83: the text of a vector has the text of all its elements. -/
theorem c83_vector {pr : α → List Byte} (hp : ∀ x, Plain (pr x)) {l l' : List α}
    (h : vector pr l = vector pr l') : l.map pr = l'.map pr := by
  refine (vector_append hp hp (x := []) (y := []) ?_).1
  rw [h]

/-- C83: different lists of indices have different texts. -/
theorem c83_indices {l l' : List Int} (h : indices l = indices l') : l = l' := by
  have := c83_vector numberToString_plain h
  exact List.map_injective_iff.2 (fun _ _ => Dataset.numberToString_inj) this

/-- C83: the text of a tensor has its dimensions and the text of all its elements. -/
theorem c83_tensor {pr : α → List Byte} (hp : ∀ x, Plain (pr x)) {t u : Tensor α}
    (h : tensor pr t = tensor pr u) : t.dims = u.dims ∧ t.data.map pr = u.data.map pr := by
  rw [tensor, tensor] at h
  simp only [List.cons_append, List.nil_append, List.append_assoc, List.cons.injEq, true_and] at h
  obtain ⟨h1, h2⟩ := vector_append numberToString_plain numberToString_plain h
  have h1 := List.map_injective_iff.2 (fun _ _ => Dataset.numberToString_inj) h1
  have h1 := List.map_injective_iff.2 (fun _ _ => Int.ofNat.inj) h1
  refine ⟨h1, (vector_append hp hp (x := []) (y := []) ?_).1⟩
  rw [vector, vector]
  simpa using h2

/-- The texts of the elements of a row. -/
def rowTexts (pr : α → List Byte) (f : Nat → Nat → α) (i j n : Nat) : List (List Byte) :=
  (List.range' j n).map fun j => pr (f i j)

theorem rowLoop_ok {pr : α → List Byte} {t : Tensor α} {r c : Nat} {f : Nat → Nat → α}
    (h : IsMat t.dims t.data r c f) {i : Nat} (hi : i < r) (n : Nat) : ∀ j, j + n ≤ c →
    rowLoop pr t i j n = .ok (if j = 0 then row (rowTexts pr f i j n) else more (rowTexts pr f i j n)) := by
  induction n with
  | zero => intro j _; simp [rowLoop, rowTexts, row, more]
  | succ n ih =>
    intro j hj
    rw [rowLoop, Eig.get2_isMat h hi (by omega), Res.ok_bind, ih (j + 1) (by omega), Res.ok_bind]
    by_cases h0 : j = 0
    · simp [h0, rowTexts, List.range'_succ, row]
    · simp [h0, rowTexts, List.range'_succ, more]

/-- The texts of the elements of the rows. -/
def matTexts (pr : α → List Byte) (f : Nat → Nat → α) (c i n : Nat) : List (List (List Byte)) :=
  (List.range' i n).map fun i => rowTexts pr f i 0 c

theorem matLoop_ok {pr : α → List Byte} {t : Tensor α} {r c : Nat} {f : Nat → Nat → α}
    (h : IsMat t.dims t.data r c f) (n : Nat) : ∀ i, i + n ≤ r →
    matLoop pr t c i n = .ok (if i = 0 then rows (matTexts pr f c i n) else moreRows (matTexts pr f c i n)) := by
  induction n with
  | zero => intro i _; simp [matLoop, matTexts, rows, moreRows]
  | succ n ih =>
    intro i hi
    rw [matLoop, rowLoop_ok h (by omega) c 0 (by omega), Res.ok_bind, ih (i + 1) (by omega), Res.ok_bind]
    by_cases h0 : i = 0
    · simp [h0, matTexts, List.range'_succ, rows]
    · simp [h0, matTexts, List.range'_succ, moreRows]

theorem matrixForm_ok {pr : α → List Byte} {t : Tensor α} {r c : Nat} {f : Nat → Nat → α}
    (h : IsMat t.dims t.data r c f) : matrixForm pr t = .ok (rows (matTexts pr f c 0 r) ++ [93]) := by
  have hr : t.rank = 2 := by rw [Tensor.rank, h.1]; rfl
  have h0 : t.dimension 0 = .ok r := by
    have := dimension_nat t 0 r (by rw [h.1]; rfl)
    rwa [Nat.cast_zero] at this
  have h1 : t.dimension 1 = .ok c := by
    have := dimension_nat t 1 c (by rw [h.1]; rfl)
    rwa [Nat.cast_one] at this
  rw [matrixForm, if_neg (by omega), if_pos hr, h0, Res.ok_bind, h1, Res.ok_bind,
    matLoop_ok h r 0 (by omega), Res.ok_bind, if_pos rfl]
  rfl

/-- C83: matrix_form of a matrix with rows and columns has the number of these and the text of every
element in its place. Missing: matrices without rows, vectors, and other tensors; see the negations. -/
theorem c83_matrix_partial {pr : α → List Byte} (hp : ∀ x, Plain (pr x)) {t u : Tensor α}
    {r c r' c' : Nat} {f g : Nat → Nat → α} (ht : IsMat t.dims t.data r c f)
    (hu : IsMat u.dims u.data r' c' g) (hr : r ≠ 0) :
    (∃ s, matrixForm pr t = .ok s) ∧ (matrixForm pr t = matrixForm pr u →
      r = r' ∧ c = c' ∧ ∀ i j, i < r → j < c → pr (f i j) = pr (g i j)) := by
  refine ⟨⟨_, matrixForm_ok ht⟩, fun h => ?_⟩
  have hpl : ∀ (f : Nat → Nat → α) c i n, ∀ l ∈ matTexts pr f c i n, ∀ s ∈ l, Plain s := by
    intro f c i n l hl s hs
    obtain ⟨a, -, rfl⟩ := List.mem_map.1 hl
    obtain ⟨b, -, rfl⟩ := List.mem_map.1 hs
    exact hp _
  rw [matrixForm_ok ht, matrixForm_ok hu, Res.ok.injEq] at h
  have h := rows_inj (hpl f c 0 r) (hpl g c' 0 r') h
  have e1 : r = r' := by
    have := congrArg List.length h
    simpa [matTexts] using this
  subst e1
  have hrow : ∀ i < r, rowTexts pr f i 0 c = rowTexts pr g i 0 c' := by
    intro i hi
    have := congrArg (fun l => l[i]?) h
    simpa [matTexts, hi] using this
  have e2 : c = c' := by
    have := congrArg List.length (hrow 0 (by omega))
    simpa [rowTexts] using this
  subst e2
  refine ⟨rfl, rfl, fun i j hi hj => ?_⟩
  have := congrArg (fun l => l[j]?) (hrow i hi)
  simpa [rowTexts, hj] using this

/-- C83 does not hold for matrices without rows: whatever the number of columns, the text is "]", as that
of the empty vector. -/
theorem c83_negation_no_rows (pr : α → List Byte) (c : Nat) :
    matrixForm pr ⟨[0, c], []⟩ = .ok [93] ∧ matrixForm pr ⟨[0], []⟩ = .ok [93] := by
  refine ⟨?_, by simp [matrixForm, Tensor.rank, vecLoop, Tensor.size]⟩
  have h0 := dimension_nat (⟨[0, c], []⟩ : Tensor α) 0 0 rfl
  have h1 := dimension_nat (⟨[0, c], []⟩ : Tensor α) 1 c rfl
  rw [Nat.cast_zero] at h0
  rw [Nat.cast_one] at h1
  rw [matrixForm, if_neg (by simp [Tensor.rank]), if_pos (by simp [Tensor.rank]), h0, Res.ok_bind, h1, Res.ok_bind]
  rfl

theorem vecLoop_ok {pr : α → List Byte} {t : Tensor α} (n : Nat) : ∀ i, i + n = t.data.length →
    vecLoop pr t i n = .ok (if i = 0 then rows (if n = 0 then [] else [(t.data.drop i).map pr])
      else more ((t.data.drop i).map pr)) := by
  induction n with
  | zero =>
    intro i hi
    have : t.data.drop i = [] := by simp; omega
    simp [vecLoop, rows, this, more]
  | succ n ih =>
    intro i hi
    have hlt : i < t.data.length := by omega
    have hx : t.dataAt i = .ok t.data[i] := by
      simp [dataAt, hlt]
    rw [vecLoop, hx, Res.ok_bind, ih (i + 1) (by omega), Res.ok_bind,
      show t.data.drop i = t.data[i] :: t.data.drop (i + 1) from List.drop_eq_getElem_cons hlt]
    by_cases h0 : i = 0
    · simp [h0, rows, row, moreRows]
    · rw [if_pos h0, if_neg (show ¬ i + 1 = 0 by omega), if_neg h0, List.map_cons, more]
      simp

theorem matrixForm_vec (pr : α → List Byte) {l : List α} (h : l ≠ []) :
    matrixForm pr ⟨[l.length], l⟩ = .ok (rows [l.map pr] ++ [93]) := by
  have h0 : (⟨[l.length], l⟩ : Tensor α).size ≠ 0 := by
    simpa [Tensor.size] using h
  have := vecLoop_ok (pr := pr) (t := ⟨[l.length], l⟩) (⟨[l.length], l⟩ : Tensor α).size 0 (by simp [Tensor.size])
  rw [matrixForm, if_neg (by simp [Tensor.rank]), if_neg (by simp [Tensor.rank]),
    if_pos (by simp [Tensor.rank]), this, Res.ok_bind,
    if_pos rfl, if_neg h0]
  rfl

/-- C83: matrix_form of a vector with elements has the text of each. -/
theorem c83_vector_form {pr : α → List Byte} (hp : ∀ x, Plain (pr x)) {l l' : List α} (h : l ≠ []) (h' : l' ≠ []) :
    (∃ s, matrixForm pr ⟨[l.length], l⟩ = .ok s) ∧
      (matrixForm pr ⟨[l.length], l⟩ = matrixForm pr ⟨[l'.length], l'⟩ → l.map pr = l'.map pr) := by
  refine ⟨⟨_, matrixForm_vec pr h⟩, fun e => ?_⟩
  rw [matrixForm_vec pr h, matrixForm_vec pr h', Res.ok.injEq] at e
  have hpl : ∀ l : List α, ∀ r ∈ [l.map pr], ∀ s ∈ r, Plain s := by
    intro l r hr s hs
    rw [List.mem_singleton] at hr
    subst hr
    obtain ⟨b, -, rfl⟩ := List.mem_map.1 hs
    exact hp _
  simpa using rows_inj (hpl l) (hpl l') e

/-- C83 does not hold for vectors: each has the text of the matrix with it as the only row. -/
theorem c83_negation_vector (pr : α → List Byte) {l : List α} (h : l ≠ []) :
    matrixForm pr ⟨[l.length], l⟩ = matrixForm pr ⟨[1, l.length], l⟩ := by
  match l, h with
  | a :: l, _ =>
  have hm : IsMat (⟨[1, (a :: l).length], a :: l⟩ : Tensor α).dims (a :: l) 1 (a :: l).length
      (fun _ j => (a :: l)[j]?.getD a) := by
    refine ⟨rfl, by simp, fun i j hi hj => ?_⟩
    have : i = 0 := by omega
    subst this
    have hj' : j ≤ l.length := by simpa [Nat.lt_succ_iff] using hj
    simp [elem, colPos, hj']
  rw [matrixForm_vec pr (by simp), matrixForm_ok hm]
  have : (a :: l).map pr = rowTexts pr (fun _ j => (a :: l)[j]?.getD a) 0 0 (a :: l).length := by
    apply List.ext_getElem
    · simp [rowTexts]
    · intro j hj hj'
      have hj2 : j < (a :: l).length := by simpa using hj
      rw [List.getElem_map]
      simp only [rowTexts, List.getElem_map, List.getElem_range', Nat.zero_add, Nat.one_mul]
      rw [List.getElem?_eq_getElem hj2]
      rfl
  rw [this]
  simp [matTexts]

/-- C83 does not hold for other tensors: there is no text for those with more than two dimensions, and that
of those with none is empty. -/
theorem c83_negation_rank (pr : α → List Byte) (t : Tensor α) :
    (2 < t.rank → matrixForm pr t = .abort) ∧ (t.rank = 0 → matrixForm pr t = .ok []) := by
  refine ⟨fun h => ?_, fun h => ?_⟩
  · rw [matrixForm, if_pos h]
  · rw [matrixForm, if_neg (by omega), if_neg (by omega), if_neg (by omega)]

/-! ### The hypotheses can be met -/

/-- The integers, with the text of their digits. -/
example : ∀ n : Int, Plain (Dataset.numberToString n) := numberToString_plain

/-- Complex numbers with integer parts. -/
example (n m : Int) : Plain ([40] ++ Dataset.numberToString n ++ [44] ++ Dataset.numberToString m ++ [41]) := by
  have hd : ∀ n : Int, ∀ b ∈ Dataset.numberToString n, b ≠ 44 ∧ b ≠ 93 ∧ b ≠ 10 ∧ b ≠ 32 := by
    intro n b hb
    rw [Dataset.numberToString] at hb
    have key : ∀ b ∈ Dataset.digits n.natAbs, b ≠ 44 ∧ b ≠ 93 ∧ b ≠ 10 ∧ b ≠ 32 := by
      intro b hb
      have := Dataset.digits_range _ b hb
      refine ⟨?_, ?_, ?_, ?_⟩ <;> rintro rfl <;> simp at this
    split at hb
    · rcases List.mem_cons.1 hb with rfl | hb
      · decide
      · exact key b hb
    · exact key b hb
  refine plain_complex (fun b hb => ⟨(hd n b hb).1, (hd n b hb).2.1, (hd n b hb).2.2.1⟩)
    (fun b hb => ⟨(hd m b hb).1, (hd m b hb).2.1, (hd m b hb).2.2.1⟩) fun h => ?_
  exact (hd m 32 (List.mem_of_mem_head? h)).2.2.2 rfl

/-- A matrix for the theorem on these. -/
example : IsMat [2, 1] [(7 : Int), 8] 2 1 fun i _ => if i = 0 then 7 else 8 := by
  refine ⟨rfl, rfl, fun i j hi hj => ?_⟩
  have : j = 0 := by omega
  subst this
  have : i = 0 ∨ i = 1 := by omega
  rcases this with rfl | rfl <;> rfl

end Verif.Text
