import Verif.Model.SparseMachine
import Verif.Props.Machine
import Verif.Props.SparseKron
/-
C118: sizes and columns of sparse matrices in machine words.
-/
namespace Verif.SparseMachine

open Verif Verif.Machine Verif.Spec Verif.Sparse

variable {α : Type} {ov : Int → Res Int} {alloc : Int → Res (Nat × Nat)} {limit : Nat}

/-- Memory for less than `limit` elements. -/
def Kind (alloc : Int → Res (Nat × Nat)) (limit : Nat) : Prop :=
  ∀ n : Nat, n < 2 ^ 63 → alloc n = if n < limit then .ok (n, n) else .abort

/-- C118: the elements may be real, with memory for less than 2^60 of them, or complex. -/
theorem c118_kinds : Kind newReal (2 ^ 60) ∧ Kind newComplex (2 ^ 59) :=
  ⟨fun _ h => newReal_nat h, fun _ h => newComplex_nat h⟩

theorem word_nat {n : Nat} (h : n < 2 ^ 63) : word ov (n : Int) = .ok (n : Int) :=
  word_ok (fits_nat h)

theorem word_big_nat {n : Nat} (h : 2 ^ 63 ≤ n) : word strict (n : Int) = .ub := by
  rw [word_big (fun hf => by have := hf.2; omega)]
  rfl

theorem nat_ok (n : Nat) : nat (n : Int) = .ok n := by
  rw [nat, if_pos (by omega)]; rfl

theorem newIndices_nat {n : Nat} (h : n < 2 ^ 63) :
    newIndices (n : Int) = if n < 2 ^ 60 then .ok n else .abort := by
  rw [newIndices, newReal_nat h]
  split <;> rfl

theorem kronColumn_ok {c1 c2 c d : Nat} (hc : c < c1) (hd : d < c2) (h : c1 * c2 < 2 ^ 63) :
    kronColumn ov c1 c d = .ok (c + c1 * d) := by
  have h1 : c + c1 * d < c1 * c2 := pos_lt' hc hd
  rw [kronColumn, show ((c1 : Int) * (d : Int)) = ((c1 * d : Nat) : Int) by push_cast; rfl,
    word_nat (by omega), Res.ok_bind,
    show ((c : Int) + ((c1 * d : Nat) : Int)) = ((c + c1 * d : Nat) : Int) by push_cast; rfl,
    word_nat (by omega), Res.ok_bind, nat_ok]

theorem collect_list {β γ : Type} (row : List β) (f : Nat → Res γ) (h : β → γ) (a : Nat)
    (e : ∀ x p, row[x]? = some p → f (a + x) = .ok (h p)) :
    collect f a row.length = .ok (row.map h) := by
  induction row generalizing a with
  | nil => rfl
  | cons p ps ih =>
    have e0 := e 0 p (by simp)
    rw [Nat.add_zero] at e0
    rw [List.length_cons, collect, e0, Res.ok_bind, ih (a + 1)]
    · rfl
    · intro x q hq
      rw [← e (x + 1) q (by simpa using hq)]
      congr 1; omega

theorem kronRow_same [Mul α] {s2 s1 : Sparse α} {L2 L1 : List (List (Nat × α))} (h2 : HasRows s2 L2)
    (h1 : HasRows s1 L1) (ok2 : ∀ row ∈ L2, RowOk s2.cols row) (ok1 : ∀ row ∈ L1, RowOk s1.cols row)
    (hc : s1.cols * s2.cols < 2 ^ 63) (l k : Nat) (hl : l < s2.rows) (hk : k < s1.rows) :
    kronRow ov s2 s1 l k = Sparse.kronRow s2 s1 l k := by
  have e2 := List.getElem?_eq_getElem (l := L2) (i := l) (by rw [h2.1]; exact hl)
  have e1 := List.getElem?_eq_getElem (l := L1) (i := k) (by rw [h1.1]; exact hk)
  generalize L2[l]'(by rw [h2.1]; exact hl) = row2 at e2
  generalize L1[k]'(by rw [h1.1]; exact hk) = row1 at e1
  have hcol : ∀ c d, c < s1.cols → d < s2.cols → kronColumn ov s1.cols c d = .ok (c + s1.cols * d) :=
    fun c d h1 h2 => kronColumn_ok h1 h2 hc
  rw [kronRow_ok h2 h1 l k _ _ e2 e1, kronRow]
  clear hc
  generalize kronColumn ov s1.cols = K at hcol
  obtain ⟨a2, x2, y2, g2⟩ := rows_get h2 l _ e2
  obtain ⟨a1, x1, y1, g1⟩ := rows_get h1 k _ e1
  rw [x1, y1, x2, y2]
  simp only [Res.ofOption_some, Res.ok_bind]
  rw [show a2 + row2.length - a2 = row2.length by omega, show a1 + row1.length - a1 = row1.length by omega]
  rw [collect_list row2 _
    (fun q => row1.map fun p => some ((p.1 + s1.cols * q.1, p.2 * q.2) : Nat × α)) a2]
  · rw [Res.ok_bind, Res.pure_eq, kronRowP, List.map_flatMap, List.flatMap_def]
    simp only [List.map_map]
    rfl
  · intro x q hq
    apply collect_list
    intro y p hp
    obtain ⟨u1, u2⟩ := g2 x q hq
    obtain ⟨w1, w2⟩ := g1 y p hp
    rw [u1, u2, w1, w2, Res.ofOption_some, Res.ofOption_some, Res.ofOption_some, Res.ofOption_some,
      Res.ok_bind, Res.ok_bind, Res.ok_bind, Res.ok_bind, hcol _ _ ((ok1 _ (List.mem_of_getElem? e1)).2 p (List.mem_of_getElem? hp))
      ((ok2 _ (List.mem_of_getElem? e2)).2 q (List.mem_of_getElem? hq)),
      Res.ok_bind, Res.pure_eq]

theorem collect_congr {β : Type} (f g : Nat → Res β) (i n : Nat)
    (h : ∀ k, i ≤ k → k < i + n → f k = g k) : collect f i n = collect g i n := by
  induction n generalizing i with
  | zero => rfl
  | succ n ih =>
    rw [collect, collect, h i (by omega) (by omega), ih (i + 1) fun k h1 h2 => h k (by omega) (by omega)]

theorem length_valid {s : Sparse α} (h : ValidCsr s.rows s.cols s.rowStart s.column s.data) :
    s.length = .ok s.column.length := by
  obtain ⟨L, hL, -⟩ := (valid_iff s).mp h
  rw [length_ok hL, hL.2.2.1, List.length_map]

/-- C118: the Kronecker product of sparse matrices in machine words is that of C38 if there is
memory for it, and its columns are numbers of the machine; if there is no memory, the program
stops. -/
theorem c118_kron_partial [Mul α] (A B : Sparse α) (hk : Kind alloc limit)
    (hA : ValidCsr A.rows A.cols A.rowStart A.column A.data)
    (hB : ValidCsr B.rows B.cols B.rowStart B.column B.data)
    (hn : B.column.length * A.column.length < 2 ^ 63) (hr : B.rows * A.rows + 1 < 2 ^ 63)
    (hc : B.cols * A.cols < 2 ^ 63) :
    (B.column.length * A.column.length < limit → B.column.length * A.column.length < 2 ^ 60 →
      B.rows * A.rows + 1 < 2 ^ 60 → kron ov alloc A B = Sparse.kron A B) ∧
    (limit ≤ B.column.length * A.column.length ∧ B.column.length * A.column.length ≠ 0 ∨
      2 ^ 60 ≤ B.column.length * A.column.length ∨ 2 ^ 60 ≤ B.rows * A.rows + 1 →
      kron ov alloc A B = .abort) := by
  rw [kron, length_valid hA, length_valid hB, Res.ok_bind, Res.ok_bind, ← Nat.cast_mul, ← Nat.cast_mul,
    ← Nat.cast_mul, word_nat hn, word_nat (by omega), word_nat hc, Res.ok_bind, Res.ok_bind,
    Res.ok_bind, nat_ok, nat_ok, Res.ok_bind, Res.ok_bind,
    show ((B.rows * A.rows : Nat) : Int) + 1 = ((B.rows * A.rows + 1 : Nat) : Int) by push_cast; rfl,
    word_nat hr, Res.ok_bind]
  constructor
  · intro h1 h2 h3
    rw [Sparse.kron, length_valid hA, length_valid hB, Res.ok_bind, Res.ok_bind]
    by_cases h0 : B.column.length * A.column.length = 0
    · rw [if_pos h0, if_pos (by exact_mod_cast h0), newIndices_nat hr, if_pos h3, Res.ok_bind]
    · rw [if_neg h0, if_neg (by exact_mod_cast h0), hk _ hn, if_pos h1, Res.ok_bind, newIndices_nat hn,
        if_pos h2, Res.ok_bind, Res.ok_bind, newIndices_nat hr, if_pos h3, Res.ok_bind]
      obtain ⟨L2, hL2, ok2⟩ := (valid_iff A).mp hA
      obtain ⟨L1, hL1, ok1⟩ := (valid_iff B).mp hB
      rw [collect_congr _ (fun l => collect (Sparse.kronRow A B l) 0 B.rows)]
      intro l _ hl
      apply collect_congr
      intro k _ hk
      exact kronRow_same hL2 hL1 ok2 ok1 hc l k (by omega) (by omega)
  · intro h
    by_cases h0 : B.column.length * A.column.length = 0
    · rw [if_pos (by exact_mod_cast h0), newIndices_nat hr, if_neg (by omega)]
      rfl
    · rw [if_neg (by exact_mod_cast h0), hk _ hn]
      by_cases h1 : B.column.length * A.column.length < limit
      · rw [if_pos h1, Res.ok_bind, newIndices_nat hn]
        by_cases h2 : B.column.length * A.column.length < 2 ^ 60
        · rw [if_pos h2, Res.ok_bind, Res.ok_bind, newIndices_nat hr, if_neg (by omega), Res.abort_bind]
        · rw [if_neg h2, Res.abort_bind]
      · rw [if_neg h1, Res.abort_bind]

/-- C118 is false of the code if the number of stored elements, rows or columns of the Kronecker
product is not a number of the machine: the behaviour is undefined. -/
theorem c118_negation_kron [Mul α] (A B : Sparse α)
    (hA : ValidCsr A.rows A.cols A.rowStart A.column A.data)
    (hB : ValidCsr B.rows B.cols B.rowStart B.column B.data)
    (h : 2 ^ 63 ≤ B.column.length * A.column.length ∨ 2 ^ 63 ≤ B.rows * A.rows ∨
      2 ^ 63 ≤ B.cols * A.cols) :
    kron strict alloc A B = .ub := by
  rw [kron, length_valid hA, length_valid hB, Res.ok_bind, Res.ok_bind, ← Nat.cast_mul, ← Nat.cast_mul,
    ← Nat.cast_mul]
  by_cases h1 : B.column.length * A.column.length < 2 ^ 63
  · rw [word_nat h1, Res.ok_bind]
    by_cases h2 : B.rows * A.rows < 2 ^ 63
    · rw [word_nat h2, Res.ok_bind, word_big_nat (by omega), Res.ub_bind]
    · rw [word_big_nat (by omega), Res.ub_bind]
  · rw [word_big_nat (by omega), Res.ub_bind]

/-- The matrix with rows (0 2) and (3 0). -/
def small : Sparse Nat := ⟨2, 2, [0, 1, 2], [1, 0], [2, 3]⟩

theorem small_valid : ValidCsr small.rows small.cols small.rowStart small.column small.data := by
  refine ⟨rfl, rfl, by simp [small], rfl, rfl, ?_, by simp [small]⟩
  intro i a b ha hb
  match i with
  | 0 =>
    obtain rfl : 0 = a := Option.some.inj ha
    obtain rfl : 1 = b := Option.some.inj hb
    simp [small]
  | 1 =>
    obtain rfl : 1 = a := Option.some.inj ha
    obtain rfl : 2 = b := Option.some.inj hb
    simp [small]
  | i + 2 => simp [small] at hb

example : kron strict newReal small small =
    .ok ⟨4, 4, [0, 1, 2, 3, 4], [3, 2, 1, 0], [4, 6, 6, 9]⟩ :=
  ((c118_kron_partial small small c118_kinds.1 small_valid small_valid (by norm_num [small])
    (by norm_num [small]) (by norm_num [small])).1 (by norm_num [small]) (by norm_num [small])
    (by norm_num [small])).trans rfl
example : full strict newReal small = .ok ⟨[2, 2], [0, 3, 2, 0]⟩ := by decide
example : mmultST strict newReal small ⟨[2, 1], [10, 20]⟩ = .ok ⟨[2, 1], [40, 30]⟩ := by decide
example : Machinable (⟨[2, 1], [10, 20]⟩ : Tensor Nat) ∧ (⟨[2, 1], [10, 20]⟩ : Tensor Nat).WF := by
  refine ⟨⟨by simp, by simp⟩, by decide⟩

/-- One row with 2^40 columns, of which one is stored. -/
def wide : Sparse Nat := ⟨1, 2 ^ 40, [0, 1], [5], [7]⟩

theorem wide_valid : ValidCsr wide.rows wide.cols wide.rowStart wide.column wide.data := by
  refine ⟨rfl, rfl, by simp [wide], rfl, rfl, ?_, by simp [wide]⟩
  intro i a b _ _
  simp only [wide]
  exact List.Pairwise.sublist ((List.drop_sublist _ _).trans (List.take_sublist _ _)) (by simp)

/-- C118 is false of the code for small matrices with many columns: their product has one element,
but its number of columns overflows. -/
theorem c118_negation_columns :
    kron strict newReal wide wide = .ub ∧
    Sparse.kron wide wide = .ok ⟨1, 2 ^ 80, [0, 1], [5 + 2 ^ 40 * 5], [49]⟩ :=
  ⟨c118_negation_kron wide wide wide_valid wide_valid (Or.inr (Or.inr (by norm_num [wide]))), rfl⟩

/-- C118 is false of the code if overflows wrap: a product with 2^64 elements is empty. -/
theorem c118_negation_lost [Mul α] (A B : Sparse α)
    (hA : ValidCsr A.rows A.cols A.rowStart A.column A.data)
    (hB : ValidCsr B.rows B.cols B.rowStart B.column B.data)
    (h : B.column.length * A.column.length = 2 ^ 64) (hr : B.rows * A.rows + 1 < 2 ^ 60)
    (hc : B.cols * A.cols < 2 ^ 63) :
    kron wrap alloc A B = .ok (zeros (B.rows * A.rows) (B.cols * A.cols)) := by
  have hw : word wrap (((2 ^ 64 : Nat) : Int)) = .ok 0 := rfl
  rw [kron, length_valid hA, length_valid hB, Res.ok_bind, Res.ok_bind, ← Nat.cast_mul, ← Nat.cast_mul,
    ← Nat.cast_mul, h, hw, word_nat (by omega), word_nat hc, Res.ok_bind, Res.ok_bind,
    Res.ok_bind, nat_ok, nat_ok, Res.ok_bind, Res.ok_bind, if_pos rfl,
    show ((B.rows * A.rows : Nat) : Int) + 1 = ((B.rows * A.rows + 1 : Nat) : Int) by push_cast; rfl,
    word_nat (by omega), Res.ok_bind, newIndices_nat (by omega), if_pos hr, Res.ok_bind]
  rfl

/-- A matrix with all elements stored. -/
def dense (r c : Nat) (x : α) : Sparse α :=
  ⟨r, c, starts 0 (List.replicate r ((List.range c).map fun j => (j, x))),
    (List.replicate r ((List.range c).map fun j => (j, x))).flatten.map (·.1),
    (List.replicate r ((List.range c).map fun j => (j, x))).flatten.map (·.2)⟩

theorem dense_spec (r c : Nat) (x : α) :
    ValidCsr (dense r c x).rows (dense r c x).cols (dense r c x).rowStart (dense r c x).column
      (dense r c x).data ∧ (dense r c x).rows = r ∧ (dense r c x).cols = c ∧
      (dense r c x).column.length = r * c := by
  refine ⟨(valid_iff _).mpr ⟨List.replicate r ((List.range c).map fun j => (j, x)),
    ⟨List.length_replicate, rfl, rfl, rfl⟩, ?_⟩, rfl, rfl, ?_⟩
  · intro row hrow
    rw [List.eq_of_mem_replicate hrow]
    constructor
    · rw [List.map_map]
      exact (List.pairwise_lt_range (n := c)).imp (fun h => h) |>.map _ (fun _ _ h => h)
    · intro p hp
      obtain ⟨j, hj, rfl⟩ := List.mem_map.mp hp
      exact List.mem_range.mp hj
  · rw [dense]
    simp only [List.length_map, List.length_flatten, List.map_replicate, List.sum_replicate,
      List.length_range, smul_eq_mul]

example : ∃ A : Sparse Nat, ValidCsr A.rows A.cols A.rowStart A.column A.data ∧
    A.column.length * A.column.length = 2 ^ 64 ∧ A.rows * A.rows + 1 < 2 ^ 60 ∧
    A.cols * A.cols < 2 ^ 63 := by
  obtain ⟨h, hr, hc, hl⟩ := dense_spec (2 ^ 16) (2 ^ 16) (1 : Nat)
  generalize dense (2 ^ 16) (2 ^ 16) (1 : Nat) = A at *
  exact ⟨A, h, by rw [hl]; norm_num, by rw [hr]; norm_num, by rw [hc]; norm_num⟩

/-! full -/

theorem bind_ok {β γ : Type} {x : Res β} {f : β → Res γ} {c : γ} (h : (x >>= f) = .ok c) :
    ∃ b, x = .ok b ∧ f b = .ok c := by
  cases x with
  | ok b => exact ⟨b, rfl, h⟩
  | abort => cases h
  | ub => cases h

theorem fullRow_same (i : Nat) (hi : i < 2 ^ 63) (l : Nat) (cs : List Nat) (ds : List α)
    (hcs : ∀ c ∈ cs, c < 2 ^ 63) (out : Tensor α) (r c : Nat) (hd : out.dims = [r, c])
    (wf : out.WF) (hm : Machinable out) :
    fullRow ov i l cs ds out = Sparse.fullRow i l cs ds out ∧
    ∀ x, Sparse.fullRow i l cs ds out = .ok x → x.2.2.dims = [r, c] ∧ x.2.2.WF ∧ Machinable x.2.2 ∧
      ∀ c ∈ x.1, c < 2 ^ 63 := by
  induction l generalizing cs ds out with
  | zero =>
    refine ⟨rfl, fun x hx => ?_⟩
    cases hx
    exact ⟨hd, wf, hm, hcs⟩
  | succ l ih =>
    match cs, ds with
    | [], _ => exact ⟨rfl, fun x hx => by cases hx⟩
    | _ :: _, [] => exact ⟨rfl, fun x hx => by cases hx⟩
    | k :: cs, d :: ds =>
      have hset : Machine.set ov out [(i : Int), (k : Int)] d = out.set2 i k d :=
        c77_write out wf hm [(i : Int), (k : Int)] d (by simp) (by simp) (by
          intro x hx
          simp only [List.mem_cons, List.not_mem_nil, or_false] at hx
          rcases hx with rfl | rfl
          · exact fits_nat hi
          · exact fits_nat (hcs k (by simp)))
      rw [fullRow, Sparse.fullRow, hset]
      cases he : out.set2 i k d with
      | abort => exact ⟨rfl, fun x hx => by cases hx⟩
      | ub => exact ⟨rfl, fun x hx => by cases hx⟩
      | ok t =>
        rw [Res.ok_bind, Res.ok_bind]
        have ht : t.dims = out.dims ∧ t.data.length = out.data.length := by
          rw [Tensor.set2, hd] at he
          simp only [] at he
          obtain ⟨a, -, he⟩ := bind_ok he
          obtain ⟨b, -, he⟩ := bind_ok he
          rw [Tensor.dataSet] at he
          split at he
          · cases he
          · split at he
            · cases he
              exact ⟨hd ▸ rfl, by simp⟩
            · cases he
        exact ih cs ds (fun c hc => hcs c (by simp [hc])) t (by rw [ht.1, hd])
          (by rw [Tensor.WF, ht.1, ht.2]; exact wf)
          ⟨by rw [ht.1]; exact hm.1, by rw [ht.2]; exact hm.2⟩

theorem fullLoop_same (rs : List Nat) (n i : Nat) (hi : i + n < 2 ^ 63) (cs : List Nat) (ds : List α)
    (hcs : ∀ c ∈ cs, c < 2 ^ 63) (out : Tensor α) (r c : Nat) (hd : out.dims = [r, c])
    (wf : out.WF) (hm : Machinable out) :
    fullLoop ov rs i n cs ds out = Sparse.fullLoop rs i n cs ds out := by
  induction n generalizing i cs ds out with
  | zero => rfl
  | succ n ih =>
    rw [fullLoop, Sparse.fullLoop]
    cases rs[i]? with
    | none => rfl
    | some a =>
      cases rs[i + 1]? with
      | none => rfl
      | some b =>
        rw [Res.ofOption_some, Res.ofOption_some, Res.ok_bind, Res.ok_bind, Res.ok_bind, Res.ok_bind]
        by_cases h : b < a
        · rw [if_pos h, if_pos h]
        · rw [if_neg h, if_neg h]
          obtain ⟨e, k⟩ := fullRow_same (ov := ov) i (by omega) (b - a) cs ds hcs out r c hd wf hm
          rw [e]
          cases hx : Sparse.fullRow i (b - a) cs ds out with
          | abort => rfl
          | ub => rfl
          | ok x =>
            obtain ⟨k1, k2, k3, k4⟩ := k x hx
            rw [Res.ok_bind, Res.ok_bind]
            exact ih (i + 1) (by omega) x.1 x.2.1 k4 x.2.2 k1 k2 k3

/-- C118: full(s) in machine words is that of C35 if there is memory for the tensor; otherwise the
program stops, or the behaviour is undefined if its size is not a number of the machine. -/
theorem c118_full_partial [Zero α] (s : Sparse α) (hk : Kind alloc limit) (hr : s.rows < 2 ^ 63)
    (hc : s.cols < 2 ^ 63) (hcs : ∀ c ∈ s.column, c < 2 ^ 63) :
    (s.rows * s.cols < 2 ^ 63 → s.rows * s.cols < limit → full ov alloc s = Sparse.full s) ∧
    (s.rows * s.cols < 2 ^ 63 → limit ≤ s.rows * s.cols → full ov alloc s = .abort) ∧
    (2 ^ 63 ≤ s.rows * s.cols → full strict alloc s = .ub) := by
  refine ⟨fun h hl => ?_, fun h hl => ?_, fun h => ?_⟩
  · have hts : Tensor.totalSize [s.rows, s.cols] = s.rows * s.cols := by
      simp [Tensor.totalSize]
    rw [full, makeArgs, ← Nat.cast_mul, word_nat h, Res.ok_bind, hk _ h, if_pos hl, Res.ok_bind,
      Res.pure_eq, Res.ok_bind, if_neg (lt_irrefl _), Sparse.full, Tensor.fill, hts]
    by_cases h0 : s.rows ≠ 0 ∧ s.cols ≠ 0
    · rw [if_pos h0, if_pos h0]
      apply fullLoop_same _ _ _ (by omega) _ _ hcs _ s.rows s.cols rfl
      · rw [Tensor.WF, hts, List.length_replicate]
      · refine ⟨?_, by rw [List.length_replicate]; exact h⟩
        intro d hd
        simp only [List.mem_cons, List.not_mem_nil, or_false] at hd
        rcases hd with rfl | rfl
        · exact hr
        · exact hc
    · rw [if_neg h0, if_neg h0, Res.pure_eq]
  · rw [full, makeArgs, ← Nat.cast_mul, word_nat h, Res.ok_bind, hk _ h, if_neg (by omega),
      Res.abort_bind, Res.abort_bind]
  · rw [full, makeArgs, ← Nat.cast_mul, word_big_nat h, Res.ub_bind, Res.ub_bind]

theorem fullLoop_empty (N n i : Nat) (h : i + n = N) (out : Tensor α) :
    fullLoop ov (List.replicate (N + 1) 0) i n [] [] out = .ok out := by
  induction n generalizing i with
  | zero => rfl
  | succ n ih =>
    rw [fullLoop, List.getElem?_replicate, List.getElem?_replicate, if_pos (by omega), if_pos (by omega),
      Res.ofOption_some, Res.ok_bind, Res.ok_bind, if_neg (lt_irrefl _)]
    exact ih (i + 1) (by omega)

/-- C118 is false of the code if overflows wrap: the full form of an empty matrix with 2^64 elements
is a tensor with these dimensions and without memory. -/
theorem c118_negation_full [Zero α] (r c : Nat) (h : r * c = 2 ^ 64) :
    full wrap newReal (zeros r c : Sparse α) = .ok ⟨[r, c], []⟩ := by
  have hw : word wrap (((2 ^ 64 : Nat) : Int)) = .ok 0 := rfl
  have h0 : r ≠ 0 ∧ c ≠ 0 := by
    constructor
    · rintro rfl; rw [Nat.zero_mul] at h; omega
    · rintro rfl; rw [Nat.mul_zero] at h; omega
  rw [full, zeros, makeArgs, ← Nat.cast_mul, h, hw, Res.ok_bind,
    show newReal 0 = .ok (0, 0) from rfl, Res.ok_bind, Res.pure_eq, Res.ok_bind,
    if_neg (lt_irrefl _), if_pos h0, List.replicate_zero]
  exact fullLoop_empty r r 0 (by omega) _

example : (2 ^ 32 * 2 ^ 32 : Nat) = 2 ^ 64 := by norm_num

/-! mmult -/

/-- C118: the product of a sparse matrix and a tensor in machine words is that of C39 if there is
memory for the result; otherwise the program stops, or the behaviour is undefined if the size of the
result is not a number of the machine. -/
theorem c118_mmult_partial [Zero α] [Add α] [Mul α] (s : Sparse α) (t : Tensor α)
    (hk : Kind alloc limit) (wf : t.WF) (hm : Machinable t) (j : Nat)
    (ds : List Nat) (hd : t.dims = j :: ds) (h0 : ∀ d ∈ t.dims, d ≠ 0) (hj : j = s.cols) :
    (s.rows * prod ds < 2 ^ 63 → s.rows * prod ds < limit →
      mmultST ov alloc s t = Sparse.mmultST s t) ∧
    (s.rows * prod ds < 2 ^ 63 → limit ≤ s.rows * prod ds → mmultST ov alloc s t = .abort) ∧
    (s.rows < 2 ^ 63 → 2 ^ 63 ≤ s.rows * prod ds → mmultST strict alloc s t = .ub) := by
  have hds : ∀ d ∈ ds, d ≠ 0 := fun d h => h0 d (by rw [hd]; simp [h])
  have hp : prod ds < 2 ^ 63 := by
    have h1 := hm.prod wf (by rw [hd]; simp)
    rw [hd, prod_cons] at h1
    have : 0 < j := Nat.pos_of_ne_zero (h0 j (by rw [hd]; simp))
    exact lt_of_le_of_lt (Nat.le_mul_of_pos_left _ this) h1
  have hdim : t.dimension 0 = .ok j := by
    rw [Tensor.dimension, Tensor.rank, hd, Res.assert_pos (by simp), Res.ok_bind,
      Res.assert_pos (by omega), Res.ok_bind]
    rfl
  have hlen : ∀ ov, mulLoop ov 1 ((t.dims.tail).map Int.ofNat) = .ok (prod ds : Int) := by
    intro ov
    have := mulLoop_nat (ov := ov) ds 1 hds (by omega)
    rw [Nat.one_mul] at this
    rw [hd]
    exact this
  have hdim' : ∀ ov, s.rows * prod ds < 2 ^ 63 →
      Machine.totalSize ov ((s.rows :: ds).map Int.ofNat) = .ok ((s.rows * prod ds : Nat) : Int) := by
    intro ov h
    by_cases hr : s.rows = 0
    · have := (c77_total_size_zero [] ds (by simp)).1 (by simp) ov
      rw [hr, Nat.zero_mul]
      exact this
    · exact (c77_total_size (s.rows :: ds) (by simp) (by
        intro x hx
        rcases List.mem_cons.mp hx with rfl | hx
        · exact hr
        · exact hds x hx)).1 h ov
  have htail : t.dims.tail = ds := by rw [hd]; rfl
  refine ⟨fun h hl => ?_, fun h hl => ?_, fun hr h => ?_⟩
  · have hts : Tensor.totalSize (s.rows :: ds) = s.rows * prod ds := by
      rw [Tensor.totalSize, if_pos (by simp), foldl_mul, Nat.one_mul, prod_cons]
    rw [mmultST, hlen, hdim, Res.ok_bind, Res.ok_bind, Res.assert_pos hj, Res.ok_bind, htail, makeDims,
      hdim' ov h, Res.ok_bind, hk _ h, if_pos hl, Res.ok_bind, Res.pure_eq, Res.ok_bind,
      if_neg (lt_irrefl _), nat_ok, Res.ok_bind, Sparse.mmultST, hdim, Res.ok_bind, htail,
      Res.assert_pos hj, Res.ok_bind, foldl_mul, Nat.one_mul, Tensor.fill, hts]
  · rw [mmultST, hlen, hdim, Res.ok_bind, Res.ok_bind, Res.assert_pos hj, Res.ok_bind, htail, makeDims,
      hdim' ov h, Res.ok_bind, hk _ h, if_neg (by omega), Res.abort_bind, Res.abort_bind]
  · have hr0 : s.rows ≠ 0 := by
      intro h0; rw [h0, Nat.zero_mul] at h; omega
    have := (c77_total_size (s.rows :: ds) (by simp) (by
        intro x hx
        rcases List.mem_cons.mp hx with rfl | hx
        · exact hr0
        · exact hds x hx)).2 h
    rw [mmultST, hlen, hdim, Res.ok_bind, Res.ok_bind, Res.assert_pos hj, Res.ok_bind, htail, makeDims,
      this, Res.ub_bind, Res.ub_bind]

/-- C118 is false of the code for tensors without elements: a product without elements, as the tensor
which is multiplied, is undefined. -/
theorem c118_negation_mmult :
    mmultST strict newReal (⟨0, 0, [0], [], []⟩ : Sparse Nat) ⟨[0, 2 ^ 40, 2 ^ 40], []⟩ = .ub ∧
    makeDims strict newReal [0, 2 ^ 40, 2 ^ 40] = .ok ⟨[0, 2 ^ 40, 2 ^ 40], 0, 0⟩ := by
  constructor <;> rfl

end Verif.SparseMachine
