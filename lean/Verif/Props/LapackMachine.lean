import Verif.Model.LapackMachine
import Verif.Props.FoldMachine
import Verif.Props.Eig
/-
C113: sizes and workspaces which are given to LAPACK.

`w` is the number of bits of blas::integer; `q` is what LAPACK answers about the workspace.
-/
namespace Verif.LapackMachine

open Verif Tensor Machine

variable {α β γ : Type}

theorem wf_length {data : List α} {m n : Nat} (wf : (⟨[m, n], data⟩ : Tensor α).WF) : data.length = m * n := by
  have : data.length = Tensor.totalSize [m, n] := wf
  rw [this]
  simp [Tensor.totalSize]

theorem cells_nat (n : Nat) : cells (n : Int) = .ok n := by
  rw [cells, if_neg (by omega), Int.toNat_natCast]

theorem cells2_nat {r c : Nat} (h : r * c < 2 ^ 63) : cells2 (r : Int) (c : Int) = .ok (r * c) := by
  have e : (r : Int) * (c : Int) = ((r * c : Nat) : Int) := by push_cast; rfl
  rw [cells2, e, word, if_pos ⟨by omega, by omega⟩, Res.ok_bind, cells_nat]

theorem castTo_ok {bits q : Nat} (h : q < 2 ^ (bits - 1)) : castTo bits q = .ok (q : Int) := if_pos h

theorem castTo_ub {bits q : Nat} (h : 2 ^ (bits - 1) ≤ q) : castTo bits q = .ub := if_neg (by omega)

theorem mulI_nat {w a b : Nat} (h : a * b < 2 ^ (w - 1)) : mulI w (a : Int) (b : Int) = .ok ((a * b : Nat) : Int) := by
  have e : (a : Int) * (b : Int) = ((a * b : Nat) : Int) := by push_cast; rfl
  have e' : ((2 : Int) ^ (w - 1)) = ((2 ^ (w - 1) : Nat) : Int) := by push_cast; rfl
  rw [mulI, e, e', if_pos ⟨by omega, by omega⟩]

theorem rworkCells_nat {w f n : Nat} {cx : Bool} (h : cx = true → f * n < 2 ^ (w - 1)) :
    optional cx (rworkCells w (f : Int) (n : Int)) 0 = .ok (if cx then f * n else 0) := by
  cases cx
  · rfl
  · rw [optional, if_pos rfl, if_pos rfl, rworkCells, mulI_nat (h rfl), Res.ok_bind, cells_nat]

/-- The workspace of the manual of gesvd, for sizes that are not converted. -/
def svdLeast (cx : Bool) (m n : Nat) : Nat :=
  if cx then max 1 (2 * min m n + max m n) else max 1 (max (3 * min m n + max m n) (5 * min m n))

/-- The sizes of the arrays of svd can be computed. -/
structure Small (w : Nat) (cx : Bool) (m n : Nat) (wantU wantV economic : Bool) : Prop where
  u : wantU = true → m * (if economic then min m n else m) < 2 ^ 63
  v : wantV = true → (if economic then min m n else n) * n < 2 ^ 63
  rwork : cx = true → 5 * min m n < 2 ^ (w - 1)

theorem svd_core {w : Nat} {cx : Bool} {q : Nat} (g : Svd.Gesvd α β) {rows columns m n : Nat} (data : List α)
    (wantU wantV economic : Bool) (hr : 0 < rows) (hc : 0 < columns) (er : conv w rows = (m : Int))
    (ec : conv w columns = (n : Int)) (hm : 0 < m) (hn : 0 < n) (hl : m * n ≤ data.length)
    (hs : Small w cx m n wantU wantV economic) :
    svd w cx q g ⟨[rows, columns], data⟩ wantU wantV economic =
      if q < 2 ^ ((if cx then w else 32) - 1) then
        (if svdLeast cx m n ≤ q then Svd.svd g ⟨[m, n], data⟩ wantU wantV economic else .abort)
      else .ub := by
  have e0 : (⟨[rows, columns], data⟩ : Tensor α).dimension 0 = .ok rows := dimension_nat _ 0 _ rfl
  have e1 : (⟨[rows, columns], data⟩ : Tensor α).dimension 1 = .ok columns := dimension_nat _ 1 _ rfl
  have ek : min (m : Int) (n : Int) = ((min m n : Nat) : Int) := by omega
  have hk : 0 < min m n := by omega
  rw [Svd.svd_eq g _ rfl hm hn]
  simp only [svd, e0, e1, Res.ok_bind, er, ec, ek]
  rw [Res.assert_pos hr, Res.ok_bind, Res.assert_pos hc, Res.ok_bind, Res.assert_pos (by rfl), Res.ok_bind,
    cells_nat, Res.ok_bind]
  generalize hkk : min m n = k at *
  have hu : optional wantU (cells2 (m : Int) (if economic = true then (k : Int) else m)) 1 =
      .ok (if wantU = true then m * (if economic = true then k else m) else 1) := by
    have := hs.u
    cases wantU <;> cases economic <;> simp_all [optional, cells2_nat]
  have hv : optional wantV (cells2 (if economic = true then (k : Int) else n) (n : Int)) 1 =
      .ok (if wantV = true then (if economic = true then k else n) * n else 1) := by
    have := hs.v
    cases wantV <;> cases economic <;> simp_all [optional, cells2_nat]
  rw [hu, Res.ok_bind, hv, Res.ok_bind]
  have legal : ∀ (lwork : Int) (a s u v work rwork : Nat), GesvdCall.Legal ⟨Svd.job wantU economic, Svd.job wantV economic, m, n, m,
      if wantU = true then (m : Int) else 1, if wantV = true then (if economic = true then (k : Int) else n) else 1, lwork,
      a, s, u, v, work, rwork⟩ := by
    intro lwork a s u v work rwork
    unfold GesvdCall.Legal
    cases wantU <;> cases wantV <;> cases economic <;> simp [Svd.job] <;> omega
  rw [queryGesvd, if_pos (legal _ _ _ _ _ _ _), Res.ok_bind]
  by_cases hq : q < 2 ^ ((if cx = true then w else 32) - 1)
  · rw [if_pos hq, castTo_ok hq, Res.ok_bind, cells_nat, Res.ok_bind]
    have h5 := hs.rwork
    rw [hkk] at h5
    have h5' := rworkCells_nat (f := 5) h5
    simp only [Nat.cast_ofNat] at h5'
    rw [h5', Res.ok_bind, callGesvd]
    by_cases hle : svdLeast cx m n ≤ q
    · rw [if_pos hle, if_neg, if_neg]
      · simp only [Res.ok_bind, Int.toNat_natCast, Svd.called]
        cases wantU <;> cases wantV <;> cases economic <;> simp [hkk]
      · rw [not_not]
        unfold GesvdCall.Room
        have e3 : (m : Int) * n ≤ data.length := by exact_mod_cast hl
        cases cx <;> cases wantU <;> cases wantV <;> cases economic <;> simp [Svd.job, ek] <;> omega
      · rw [not_not]
        refine ⟨legal _ _ _ _ _ _ _, ?_⟩
        unfold GesvdCall.least
        unfold svdLeast at hle
        cases cx <;> simp at hle ⊢ <;> omega
    · rw [if_neg hle, if_pos, Res.abort_bind]
      intro ⟨_, h⟩
      refine hle ?_
      unfold GesvdCall.least at h
      unfold svdLeast
      cases cx <;> simp at h ⊢ <;> omega
  · rw [if_neg hq, castTo_ub (by omega), Res.ub_bind]

/-! ### svd -/

/-- C113: svd in machine words. If the sizes fit in blas::integer, the arrays in memory and the workspace in `int`
(complex numbers: blas::integer), it is the svd of unbounded integers; every call of LAPACK is as in the manual. -/
theorem c113_svd_partial {w : Nat} (hw : 1 ≤ w) {cx : Bool} {q : Nat} (g : Svd.Gesvd α β) (A : Tensor α) {m n : Nat}
    (wantU wantV economic : Bool) (hd : A.dims = [m, n]) (wf : A.WF) (hm : 0 < m) (hn : 0 < n) (hm' : m < 2 ^ (w - 1))
    (hn' : n < 2 ^ (w - 1)) (hs : Small w cx m n wantU wantV economic)
    (hq : q < 2 ^ ((if cx then w else 32) - 1)) (hl : svdLeast cx m n ≤ q) :
    svd w cx q g A wantU wantV economic = Svd.svd g A wantU wantV economic := by
  obtain ⟨dims, data⟩ := A
  simp only at hd
  subst hd
  have : m * n ≤ data.length := by
    have h : data.length = m * n := wf_length wf
    omega
  rw [svd_core g data wantU wantV economic hm hn (conv_nat hw hm') (conv_nat hw hn') hm hn this hs, if_pos hq, if_pos hl]

/-- C113: tensors which are not matrices, or have no elements, stop the program, whatever the words are. -/
theorem c113_svd_refused (w : Nat) (cx : Bool) (q : Nat) (g : Svd.Gesvd α β) (A : Tensor α) (wantU wantV economic : Bool)
    (h : ¬ ∃ m n, 0 < m ∧ 0 < n ∧ A.dims = [m, n]) : svd w cx q g A wantU wantV economic = .abort := by
  obtain ⟨dims, data⟩ := A
  match dims, h with
  | [], _ => rfl
  | [m], _ =>
    have e0 : (⟨[m], data⟩ : Tensor α).dimension 0 = .ok m := dimension_nat _ 0 _ rfl
    have e1 : (⟨[m], data⟩ : Tensor α).dimension 1 = .abort := rfl
    simp only [svd, e0, e1, Res.ok_bind, Res.abort_bind, Res.assert_bind]
    split <;> rfl
  | [m, n], h =>
    have e0 : (⟨[m, n], data⟩ : Tensor α).dimension 0 = .ok m := dimension_nat _ 0 _ rfl
    have e1 : (⟨[m, n], data⟩ : Tensor α).dimension 1 = .ok n := dimension_nat _ 1 _ rfl
    simp only [svd, e0, e1, Res.ok_bind, Res.assert_bind]
    by_cases hm : m > 0
    · rw [if_pos hm]
      by_cases hn : n > 0
      · exact absurd ⟨m, n, hm, hn, rfl⟩ h
      · rw [if_neg hn]
    · rw [if_neg hm]
  | m :: n :: k :: l, _ =>
    have e0 : (⟨m :: n :: k :: l, data⟩ : Tensor α).dimension 0 = .ok m := dimension_nat _ 0 _ rfl
    have e1 : (⟨m :: n :: k :: l, data⟩ : Tensor α).dimension 1 = .ok n := dimension_nat _ 1 _ rfl
    simp only [svd, e0, e1, Res.ok_bind, Res.assert_bind]
    have : ¬ (⟨m :: n :: k :: l, data⟩ : Tensor α).rank = 2 := by simp [rank]
    rw [if_neg this]
    split <;> [split <;> rfl; rfl]

theorem conv_add (n : Nat) (h : n < 2 ^ 31) : conv 32 ((2 ^ 32 + n : Nat) : Int) = (n : Int) := by
  have e : (((2 ^ 32 + n : Nat) : Int)) = (n : Int) + ((2 ^ 32 : Nat) : Int) := by push_cast; ring
  unfold conv
  rw [e, Int.add_bmod_right]
  exact conv_nat (w := 32) (by decide) h

theorem conv_zero : conv 32 ((2 ^ 32 : Nat) : Int) = 0 := by
  unfold conv
  exact Int.bmod_self

/-- C113, false of the code: with integers of 32 bits, svd of a matrix with 2^32 + m rows neither stops nor decomposes that
matrix. It takes the first elements in memory as a matrix with m rows, and answers with the decomposition of that one. -/
theorem c113_negation_rows {cx : Bool} {q : Nat} (g : Svd.Gesvd α β) {m n : Nat} (data : List α)
    (wantU wantV economic : Bool) (wf : (⟨[2 ^ 32 + m, n], data⟩ : Tensor α).WF) (hm : 0 < m) (hn : 0 < n)
    (hm' : m < 2 ^ 31) (hn' : n < 2 ^ 31) (hs : Small 32 cx m n wantU wantV economic) (hq : q < 2 ^ 31)
    (hl : svdLeast cx m n ≤ q) :
    svd 32 cx q g ⟨[2 ^ 32 + m, n], data⟩ wantU wantV economic = Svd.svd g ⟨[m, n], data⟩ wantU wantV economic := by
  have h : data.length = (2 ^ 32 + m) * n := wf_length wf
  have h' : m * n ≤ data.length := by rw [h]; exact Nat.mul_le_mul_right _ (by omega)
  have hq' : q < 2 ^ ((if cx then 32 else 32) - 1) := by simpa using hq
  rw [svd_core (w := 32) g data wantU wantV economic (by omega) hn (conv_add m hm') (conv_nat (w := 32) (by decide) hn') hm hn h'
    hs, if_pos hq', if_pos hl]

/-- C113, false of the code: so U may have fewer rows than the matrix. -/
theorem c113_negation_shape {cx : Bool} {q : Nat} (g : Svd.Gesvd α β) (data : List α)
    (wf : (⟨[2 ^ 32 + 1, 1], data⟩ : Tensor α).WF) (hq : q < 2 ^ 31) (hl : 5 ≤ q) :
    ∃ s u, svd 32 cx q g ⟨[2 ^ 32 + 1, 1], data⟩ true false true = .ok (s, some u, none) ∧ u.dims = [1, 1] := by
  have hs : Small 32 cx 1 1 true false true := ⟨fun _ => by norm_num, fun h => by simp at h, fun _ => by norm_num⟩
  have hl' : svdLeast cx 1 1 ≤ q := by unfold svdLeast; cases cx <;> simp <;> omega
  rw [c113_negation_rows g data true false true wf (by norm_num) (by norm_num) (by norm_num) (by norm_num) hs hq hl',
    Svd.svd_eq g _ rfl (by norm_num) (by norm_num)]
  exact ⟨_, _, rfl, rfl⟩

theorem svd_nothing {w q : Nat} (g : Svd.Gesvd α β) {m c : Nat} (data : List α) (hm : 0 < m) (hc : 0 < c)
    (er : conv w (m : Int) = (m : Int)) (ec : conv w (c : Int) = ((0 : Nat) : Int)) (hq : castTo 32 q = .ok (q : Int))
    (hl : m ≤ q) : ∃ s, svd w false q g ⟨[m, c], data⟩ false false true = .ok (s, none, none) ∧ s.dims = [0] := by
  have e0 : (⟨[m, c], data⟩ : Tensor α).dimension 0 = .ok m := dimension_nat _ 0 _ rfl
  have e1 : (⟨[m, c], data⟩ : Tensor α).dimension 1 = .ok c := dimension_nat _ 1 _ rfl
  have ek : min (m : Int) ((0 : Nat) : Int) = ((0 : Nat) : Int) := by omega
  simp only [svd, e0, e1, Res.ok_bind]
  rw [er, ec, ek, Res.assert_pos hm, Res.ok_bind, Res.assert_pos hc, Res.ok_bind, Res.assert_pos (by rfl), Res.ok_bind,
    cells_nat, Res.ok_bind]
  simp only [optional, Bool.false_eq_true, if_false, Res.ok_bind]
  rw [queryGesvd, if_pos, Res.ok_bind, hq, Res.ok_bind, cells_nat, Res.ok_bind, callGesvd, if_neg, if_neg, Res.ok_bind]
  · exact ⟨_, rfl, rfl⟩
  · rw [not_not]
    unfold GesvdCall.Room
    simp [Svd.job]
  · rw [not_not]
    constructor
    · unfold GesvdCall.Legal
      simp [Svd.job]
      omega
    · unfold GesvdCall.least
      simp
      omega
  · unfold GesvdCall.Legal
    simp [Svd.job]
    omega

/-- C113, false of the code: with integers of 32 bits, svd of a matrix with 2^32 columns, without VT, answers with no
singular values. -/
theorem c113_negation_columns {q : Nat} (g : Svd.Gesvd α β) {m : Nat} (data : List α) (hm : 0 < m)
    (hm' : m < 2 ^ 31) (hq : q < 2 ^ 31) (hl : m ≤ q) :
    ∃ s, svd 32 false q g ⟨[m, 2 ^ 32], data⟩ false false true = .ok (s, none, none) ∧ s.dims = [0] :=
  svd_nothing g data hm (by norm_num) (conv_nat (w := 32) (by decide) hm') conv_zero (castTo_ok hq) hl

/-- C113, false of the code: the real svd converts the size of the workspace to `int`. If LAPACK asks for 2^31 elements
(16 GB; blocked routines ask for a multiple of m n) the behaviour is undefined, with integers of 64 bits too. -/
theorem c113_negation_workspace {w : Nat} (hw : 1 ≤ w) {q : Nat} (g : Svd.Gesvd α β) (A : Tensor α) {m n : Nat}
    (wantU wantV economic : Bool) (hd : A.dims = [m, n]) (wf : A.WF) (hm : 0 < m) (hn : 0 < n) (hm' : m < 2 ^ (w - 1))
    (hn' : n < 2 ^ (w - 1)) (hs : Small w false m n wantU wantV economic) (hq : 2 ^ 31 ≤ q) :
    svd w false q g A wantU wantV economic = .ub := by
  obtain ⟨dims, data⟩ := A
  simp only at hd
  subst hd
  have : m * n ≤ data.length := by
    have h : data.length = m * n := wf_length wf
    omega
  rw [svd_core g data wantU wantV economic hm hn (conv_nat hw hm') (conv_nat hw hn') hm hn this hs, if_neg]
  simpa using hq

theorem cells2_ub {m : Nat} (hm : 2 ^ 32 ≤ m) : cells2 (m : Int) (m : Int) = .ub := by
  have h : 2 ^ 32 * 2 ^ 32 ≤ m * m := Nat.mul_le_mul hm hm
  have h' : ((2 ^ 32 * 2 ^ 32 : Nat) : Int) ≤ ((m * m : Nat) : Int) := by exact_mod_cast h
  push_cast at h'
  rw [cells2, word, if_neg (by unfold Fits; omega)]
  rfl

theorem svd_full {w : Nat} {cx : Bool} {q : Nat} (g : Svd.Gesvd α β) {m : Nat} (data : List α) (wantV : Bool) (hm : 0 < m)
    (h : cells2 (m : Int) (m : Int) = .ub) (er : conv w (m : Int) = (m : Int)) (ec : conv w ((1 : Nat) : Int) = ((1 : Nat) : Int)) :
    svd w cx q g ⟨[m, 1], data⟩ true wantV false = .ub := by
  have e0 : (⟨[m, 1], data⟩ : Tensor α).dimension 0 = .ok m := dimension_nat _ 0 _ rfl
  have e1 : (⟨[m, 1], data⟩ : Tensor α).dimension 1 = .ok 1 := dimension_nat _ 1 _ rfl
  have ek : min (m : Int) ((1 : Nat) : Int) = ((1 : Nat) : Int) := by omega
  simp only [svd, e0, e1, Res.ok_bind]
  rw [er, ec, ek, Res.assert_pos hm, Res.ok_bind, Res.assert_pos (by norm_num), Res.ok_bind, Res.assert_pos (by rfl),
    Res.ok_bind, cells_nat, Res.ok_bind]
  simp only [optional, if_true, Bool.false_eq_true, if_false, h, Res.ub_bind]

/-- C113, false of the code: with integers of 64 bits the number of elements of a U which is not economic overflows, already
for a vector. -/
theorem c113_negation_full {cx : Bool} {q : Nat} (g : Svd.Gesvd α β) {m : Nat} (data : List α) (wantV : Bool)
    (hm : 2 ^ 32 ≤ m) (hm' : m < 2 ^ 63) : svd 64 cx q g ⟨[m, 1], data⟩ true wantV false = .ub :=
  svd_full g data wantV (by omega) (cells2_ub hm) (conv_nat (w := 64) (by decide) hm') (conv_nat (by norm_num) (by norm_num))

/-! ### solve -/

/-- C113: solve in machine words. If the sizes and the number of right hand sides fit in blas::integer, it is the solve of
unbounded integers. -/
theorem c113_solve_partial {w : Nat} (hw : 1 ≤ w) (hw' : w ≤ 64) {cx : Bool} (g : Eig.Gesv α) (A B : Tensor α)
    (hA : ∀ n ∈ A.dims, n < 2 ^ (w - 1)) (hB : ∀ n ∈ B.dims, n < 2 ^ (w - 1))
    (hr : ∀ n, B.dims[0]? = some n → B.size / n < 2 ^ (w - 1)) : solve w cx g A B = Eig.solve g A B := by
  obtain ⟨da, a⟩ := A
  obtain ⟨db, b⟩ := B
  match da, hA with
  | [], _ => rfl
  | r :: da, hA =>
    have e0 : (⟨r :: da, a⟩ : Tensor α).dimension 0 = .ok r := dimension_nat _ 0 _ rfl
    have hr' : r < 2 ^ (w - 1) := hA r (by simp)
    match db, hB, hr with
    | [], _, _ => simp only [solve, Eig.solve, e0, Res.ok_bind]; rfl
    | l :: db, hB, hr =>
      have e1 : (⟨l :: db, b⟩ : Tensor α).dimension 0 = .ok l := dimension_nat _ 0 _ rfl
      have hl' : l < 2 ^ (w - 1) := hB l (by simp)
      match da, hA, e0 with
      | [], _, e0 => simp only [solve, Eig.solve, e0, e1, Res.ok_bind]; rfl
      | c :: da, hA, e0 =>
        have e2 : (⟨r :: c :: da, a⟩ : Tensor α).dimension 1 = .ok c := dimension_nat _ 1 _ rfl
        have hc' : c < 2 ^ (w - 1) := hA c (by simp)
        have h63 : 2 ^ (w - 1) ≤ 2 ^ 63 := Nat.pow_le_pow_right (by norm_num) (by omega)
        simp only [solve, Eig.solve, e0, e1, e2, Res.ok_bind, conv_nat hw hr', conv_nat hw hl', conv_nat hw hc']
        have hp : (if cx = true then (r : Int) = (c : Int) else toSize (r : Int) = c) ↔ r = c := by
          rw [toSize_nat (by omega)]
          cases cx <;> simp
        by_cases h1 : r = c
        · rw [Res.assert_pos (hp.2 h1), Res.assert_pos h1, Res.ok_bind, Res.ok_bind]
          subst h1
          by_cases h2 : r = l
          · subst h2
            rw [Res.assert_pos rfl, Res.assert_pos rfl, Res.ok_bind, Res.ok_bind]
            by_cases h3 : r = 0
            · rw [if_pos (by omega), if_pos h3]
            · rw [if_neg (by omega), if_neg h3]
              have hs := hr r rfl
              simp only [size] at hs ⊢
              have ed : ((b.length : Int)).tdiv (r : Int) = ((b.length / r : Nat) : Int) := by
                rw [Int.tdiv_eq_ediv_of_nonneg (by omega)]; rfl
              rw [ed, conv_nat hw hs, cells_nat, Res.ok_bind, callGesv, if_neg (fun h => h ⟨by omega, Int.natCast_nonneg _, by omega, by omega⟩)]
              have hb : (r : Int) * ((b.length / r : Nat) : Int) ≤ b.length := by
                exact_mod_cast Nat.mul_div_le b.length r
              have ha : (r : Int) * (r : Int) = ((r * r : Nat) : Int) := by push_cast; rfl
              by_cases h4 : a.length < r * r
              · rw [if_pos (show ¬ ((r : Int) * r ≤ a.length ∧ (r : Int) ≤ r ∧ (r : Int) * ((b.length / r : Nat) : Int) ≤ b.length) by
                  omega), Res.ub_bind]
                exact (if_pos h4).symm
              · rw [if_neg (show ¬ ¬ ((r : Int) * r ≤ a.length ∧ (r : Int) ≤ r ∧
                  (r : Int) * ((b.length / r : Nat) : Int) ≤ b.length) by omega), Res.ok_bind]
                refine Eq.trans ?_ (if_neg h4).symm
                simp only [Int.toNat_natCast]
                rfl
          · rw [Res.assert_neg (by omega), Res.assert_neg h2]
            rfl
        · rw [Res.assert_neg (fun h => h1 (hp.1 h)), Res.assert_neg h1]
          rfl

theorem solve_prefix {w : Nat} (g : Eig.Gesv α) {n N : Nat} (a b : List α) {rest : List Nat} (hn : 0 < n) (hn63 : n < 2 ^ 63)
    (hN : n < N) (h' : n * n ≤ a.length) (c1 : conv w (n : Int) = (n : Int)) (c2 : conv w (N : Int) = (n : Int))
    (c3 : conv w ((b.length / n : Nat) : Int) = ((b.length / n : Nat) : Int)) :
    solve w true g ⟨[n, N], a⟩ ⟨n :: rest, b⟩ = Eig.solve g ⟨[n, n], a⟩ ⟨n :: rest, b⟩ ∧
      solve w false g ⟨[n, N], a⟩ ⟨n :: rest, b⟩ = .abort := by
  have e0 : (⟨[n, N], a⟩ : Tensor α).dimension 0 = .ok n := dimension_nat _ 0 _ rfl
  have e1 : (⟨[n, N], a⟩ : Tensor α).dimension 1 = .ok N := dimension_nat _ 1 _ rfl
  have e2 : (⟨n :: rest, b⟩ : Tensor α).dimension 0 = .ok n := dimension_nat _ 0 _ rfl
  have ed : ((b.length : Int)).tdiv (n : Int) = ((b.length / n : Nat) : Int) := by
    rw [Int.tdiv_eq_ediv_of_nonneg (by omega)]; rfl
  constructor
  · rw [Eig.solve]
    have f0 : (⟨[n, n], a⟩ : Tensor α).dimension 0 = .ok n := dimension_nat _ 0 _ rfl
    have f1 : (⟨[n, n], a⟩ : Tensor α).dimension 1 = .ok n := dimension_nat _ 1 _ rfl
    simp only [solve, e0, e1, e2, f0, f1, Res.ok_bind, c1, c2, size, ed, c3, if_true]
    rw [Res.assert_pos trivial, Res.ok_bind, Res.ok_bind, Res.ok_bind, Res.ok_bind, if_neg (by omega), if_neg (by omega)]
    refine Eq.trans ?_ (if_neg (show ¬ a.length < n * n by omega)).symm
    rw [cells_nat, Res.ok_bind, callGesv, if_neg (fun h => h ⟨by omega, Int.natCast_nonneg _, by omega, by omega⟩), if_neg,
      Res.ok_bind]
    · simp only [Int.toNat_natCast]
      rfl
    · have hb : (n : Int) * ((b.length / n : Nat) : Int) ≤ b.length := by exact_mod_cast Nat.mul_div_le b.length n
      have ha : (n : Int) * (n : Int) = ((n * n : Nat) : Int) := by push_cast; rfl
      omega
  · simp only [solve, e0, e1, e2, Res.ok_bind, c1]
    rw [Res.assert_neg]
    · rfl
    · rw [toSize_nat hn63]
      simp
      omega

/-- C113, false of the code: with integers of 32 bits the complex solve takes a matrix with n rows and 2^32 + n columns as
square, and solves the equations of the first n columns. The real one stops. -/
theorem c113_negation_square (g : Eig.Gesv α) {n : Nat} (a : List α) (B : Tensor α) {rest : List Nat} (hn : 0 < n)
    (hn' : n < 2 ^ 31) (wf : (⟨[n, 2 ^ 32 + n], a⟩ : Tensor α).WF) (hB : B.dims = n :: rest)
    (hr : B.size / n < 2 ^ 31) :
    solve 32 true g ⟨[n, 2 ^ 32 + n], a⟩ B = Eig.solve g ⟨[n, n], a⟩ B ∧
      solve 32 false g ⟨[n, 2 ^ 32 + n], a⟩ B = .abort := by
  obtain ⟨db, b⟩ := B
  simp only at hB
  subst hB
  have h' : n * n ≤ a.length := by rw [wf_length wf]; exact Nat.mul_le_mul_left _ (by omega)
  exact solve_prefix g a b hn (by omega) (by omega) h' (conv_nat (w := 32) (by decide) hn') (conv_add n hn')
    (conv_nat (w := 32) (by decide) hr)

/-- C113, false of the code: with integers of 32 bits, solve with 2^32 right hand sides returns them as the solution, if gesv
leaves B as it is when it is called for none. -/
theorem c113_negation_sides {cx : Bool} (g : Eig.Gesv α) {n : Nat} (a : List α) (B : Tensor α) (hn : 0 < n)
    (hn' : n < 2 ^ 31) (wf : (⟨[n, n], a⟩ : Tensor α).WF) (hB : B.dims = [n, 2 ^ 32]) (wfB : B.WF)
    (hg : ∀ a b, (g n 0 a n b n).b = b) (hi : (g n 0 a n B.data n).info = 0) :
    solve 32 cx g ⟨[n, n], a⟩ B = .ok B := by
  obtain ⟨db, b⟩ := B
  simp only at hB
  subst hB
  have h : a.length = n * n := wf_length wf
  have hb : b.length = n * 2 ^ 32 := wf_length wfB
  have e0 : (⟨[n, n], a⟩ : Tensor α).dimension 0 = .ok n := dimension_nat _ 0 _ rfl
  have e1 : (⟨[n, n], a⟩ : Tensor α).dimension 1 = .ok n := dimension_nat _ 1 _ rfl
  have e2 : (⟨[n, 2 ^ 32], b⟩ : Tensor α).dimension 0 = .ok n := dimension_nat _ 0 _ rfl
  have c1 : conv 32 (n : Int) = (n : Int) := conv_nat (w := 32) (by decide) hn'
  have ed : ((b.length : Int)).tdiv (n : Int) = ((2 ^ 32 : Nat) : Int) := by
    rw [Int.tdiv_eq_ediv_of_nonneg (by omega), hb]
    push_cast
    exact Int.mul_ediv_cancel_left _ (by omega)
  have c3 : conv 32 ((b.length : Int).tdiv (n : Int)) = 0 := by rw [ed]; exact conv_zero
  simp only [solve, e0, e1, e2, Res.ok_bind, c1, size, c3]
  rw [Res.assert_pos (by rw [toSize_nat (by omega)]; simp), Res.ok_bind, Res.assert_pos trivial, Res.ok_bind, if_neg (by omega),
    cells_nat, Res.ok_bind, callGesv, if_neg (by omega), if_neg, Res.ok_bind]
  · simp only [Int.toNat_natCast, Int.toNat_zero]
    rw [if_pos hi, hg]
  · have ha : (n : Int) * (n : Int) = ((n * n : Nat) : Int) := by push_cast; rfl
    omega

theorem solve_rows {w : Nat} {cx : Bool} (g : Eig.Gesv α) {n N : Nat} (a b : List α) (hn : 0 < n) (hn63 : n < 2 ^ 63)
    (ha : a.length = n * n) (hb : b.length = N) (c1 : conv w (n : Int) = n) (c2 : conv w (N : Int) = n)
    (c3 : conv w ((N / n : Nat) : Int) = ((N / n : Nat) : Int)) (hi : (g n (N / n) a n b n).info = 0) :
    solve w cx g ⟨[n, n], a⟩ ⟨[N], b⟩ = .ok ⟨[N], (g n (N / n) a n b n).b⟩ := by
  have e0 : (⟨[n, n], a⟩ : Tensor α).dimension 0 = .ok n := dimension_nat _ 0 _ rfl
  have e1 : (⟨[n, n], a⟩ : Tensor α).dimension 1 = .ok n := dimension_nat _ 1 _ rfl
  have e2 : (⟨[N], b⟩ : Tensor α).dimension 0 = .ok N := dimension_nat _ 0 _ rfl
  have ed : ((b.length : Int)).tdiv (n : Int) = ((N / n : Nat) : Int) := by
    rw [Int.tdiv_eq_ediv_of_nonneg (by omega), hb]; rfl
  have hm : (n : Int) * ((N / n : Nat) : Int) ≤ b.length := by
    rw [hb]
    exact_mod_cast Nat.mul_div_le N n
  have ha' : (n : Int) * (n : Int) = ((n * n : Nat) : Int) := by push_cast; rfl
  simp only [solve, e0, e1, e2, Res.ok_bind, c1, c2, size, ed, c3]
  rw [Res.assert_pos (by rw [toSize_nat hn63]; simp), Res.ok_bind, Res.assert_pos trivial, Res.ok_bind, if_neg (by omega),
    cells_nat, Res.ok_bind, callGesv, if_neg (fun h => h ⟨by omega, Int.natCast_nonneg _, by omega, by omega⟩),
    if_neg (fun h => h ⟨by omega, by omega, hm⟩), Res.ok_bind]
  simp only [Int.toNat_natCast]
  rw [if_pos hi]

/-- C113, false of the code: with integers of 32 bits, solve takes a right hand side of 2^32 + n elements for n equations,
and gives as result one of 2^32 + n elements: what gesv makes of the first n * ((2^32 + n) / n) elements, as that many right
hand sides. For unbounded integers the program stops. -/
theorem c113_negation_equations {cx : Bool} (g : Eig.Gesv α) {n : Nat} (a b : List α) (hn : 3 ≤ n) (hn' : n < 2 ^ 31)
    (wf : (⟨[n, n], a⟩ : Tensor α).WF) (hb : b.length = 2 ^ 32 + n)
    (hi : (g n ((2 ^ 32 + n) / n) a n b n).info = 0) :
    solve 32 cx g ⟨[n, n], a⟩ ⟨[2 ^ 32 + n], b⟩ = .ok ⟨[2 ^ 32 + n], (g n ((2 ^ 32 + n) / n) a n b n).b⟩ ∧
      Eig.solve g ⟨[n, n], a⟩ ⟨[2 ^ 32 + n], b⟩ = .abort := by
  have hq : (2 ^ 32 + n) / n < 2 ^ 31 := by
    rw [Nat.div_lt_iff_lt_mul (by omega)]
    omega
  refine ⟨solve_rows g a b (by omega) (by omega) (wf_length wf) hb (conv_nat (w := 32) (by decide) hn') (conv_add n hn')
    (conv_nat (w := 32) (by decide) hq) hi, ?_⟩
  generalize hN : 2 ^ 32 + n = N
  have e0 : (⟨[n, n], a⟩ : Tensor α).dimension 0 = .ok n := dimension_nat _ 0 _ rfl
  have e1 : (⟨[n, n], a⟩ : Tensor α).dimension 1 = .ok n := dimension_nat _ 1 _ rfl
  have e2 : (⟨[N], b⟩ : Tensor α).dimension 0 = .ok N := dimension_nat _ 0 _ rfl
  have hne : n ≠ N := by omega
  simp only [Eig.solve, e0, e1, e2, Res.ok_bind]
  rw [Res.assert_pos trivial, Res.ok_bind, Res.assert_neg hne]
  rfl

/-! ### eig, eig_sym -/

theorem order_nat {w : Nat} (hw : 1 ≤ w) (hw' : w ≤ 64) (A : Tensor α) {n : Nat} (hd : A.dims = [n, n]) (hn : 0 < n)
    (hn' : n < 2 ^ (w - 1)) : order w A = .ok (n : Int) := by
  have h63 : 2 ^ (w - 1) ≤ 2 ^ 63 := Nat.pow_le_pow_right (by norm_num) (by omega)
  simp only [order, Eig.checks_ok A hd hn, Res.ok_bind]
  rw [conv_nat hw hn', Res.assert_pos (toSize_nat (by omega)), Res.ok_bind]

theorem order_abort {w : Nat} (hw : 1 ≤ w) (hw' : w ≤ 64) (A : Tensor α)
    (h : ¬ ∃ n, 0 < n ∧ n < 2 ^ (w - 1) ∧ A.dims = [n, n]) (hA : ∀ n ∈ A.dims, n < 2 ^ 63) : order w A = .abort := by
  by_cases h' : ∃ n, 0 < n ∧ A.dims = [n, n]
  · obtain ⟨n, hn, hd⟩ := h'
    have hn' : 2 ^ (w - 1) ≤ n := by
      by_contra hc
      exact h ⟨n, hn, by omega, hd⟩
    have h63 : n < 2 ^ 63 := hA n (by simp [hd])
    simp only [order, Eig.checks_ok A hd hn, Res.ok_bind]
    rw [Res.assert_neg, Res.abort_bind]
    have hp : (0 : Nat) < 2 ^ w := Nat.pow_pos (by norm_num)
    have e : (2 : Nat) ^ w = 2 ^ (w - 1) * 2 := by rw [← pow_succ]; congr 1; omega
    have hlt : conv w (n : Int) < ((2 : Nat) ^ w + 1) / 2 := Int.bmod_lt hp
    have hle : -((2 : Nat) ^ w / 2 : Int) ≤ conv w (n : Int) := Int.le_bmod hp
    have hb : (2 : Nat) ^ (w - 1) ≤ 2 ^ 63 := Nat.pow_le_pow_right (by norm_num) (by omega)
    have e' : ((2 : Nat) : Int) ^ w = ((2 ^ (w - 1) : Nat) : Int) * 2 := by exact_mod_cast congrArg (Nat.cast (R := Int)) e
    rw [e'] at hlt hle
    clear e e' hp
    generalize 2 ^ (w - 1) = P at *
    unfold toSize
    intro hc
    omega
  · rw [order, Eig.checks_abort A h', Res.abort_bind]

/-- The workspace of the manual of geev, for sizes that are not converted. -/
def eigLeast (cx wantR wantL : Bool) (n : Nat) : Nat :=
  if cx then 2 * n else if wantR || wantL then 4 * n else 3 * n

theorem geevArgs_core {w : Nat} (hw : 1 ≤ w) (hw' : w ≤ 64) {cx : Bool} {q : Nat} (A : Tensor α) {n : Nat}
    (wantR wantL : Bool) (hd : A.dims = [n, n]) (wf : A.WF) (hn : 0 < n) (hn' : n < 2 ^ (w - 1)) (hm : n * n < 2 ^ 63)
    (h2 : cx = true → 2 * n < 2 ^ (w - 1)) :
    geevArgs w cx q A wantR wantL =
      if q < 2 ^ ((if cx then w else 32) - 1) then (if eigLeast cx wantR wantL n ≤ q then .ok n else .abort) else .ub := by
  have hl : A.data.length = n * n := by
    obtain ⟨dims, data⟩ := A
    simp only at hd
    subst hd
    exact wf_length wf
  have ha : (n : Int) * (n : Int) = ((n * n : Nat) : Int) := by push_cast; rfl
  have h2' := rworkCells_nat (f := 2) h2
  simp only [Nat.cast_ofNat] at h2'
  have opt : ∀ b, optional b (.ok (n * n)) 0 = .ok (if b = true then n * n else 0) := by intro b; cases b <;> rfl
  have ok : geevOk wantL wantR n n n n := by
    unfold geevOk
    refine ⟨by omega, by omega, by omega, fun _ => le_refl _, by omega, fun _ => le_refl _⟩
  rw [geevArgs, order_nat hw hw' A hd hn hn', Res.ok_bind, cells2_nat hm, opt, Res.ok_bind, opt, Res.ok_bind, cells_nat,
    Res.ok_bind, h2', Res.ok_bind, Res.assert_pos ok, Res.ok_bind]
  by_cases hq : q < 2 ^ ((if cx = true then w else 32) - 1)
  · rw [if_pos hq, castTo_ok hq, Res.ok_bind, cells_nat, Res.ok_bind]
    have key : geevLeast cx wantL wantR n ≤ q ↔ eigLeast cx wantR wantL n ≤ q := by
      unfold geevLeast eigLeast
      cases cx <;> cases wantL <;> cases wantR <;> simp <;> omega
    by_cases hle : eigLeast cx wantR wantL n ≤ q
    · rw [if_pos hle, if_neg (not_not.2 ⟨ok, key.2 hle⟩), if_neg, Int.toNat_natCast]
      rw [not_not]
      unfold geevRoom
      refine ⟨by omega, le_refl _, ?_, ?_, le_refl _, ?_⟩
      · rintro rfl; exact ha.le
      · rintro rfl; exact ha.le
      · rintro rfl; simp
    · rw [if_neg hle, if_pos (fun h => hle (key.1 h.2))]
  · rw [if_neg hq, castTo_ub (by omega), Res.ub_bind]

/-- C113: eig in machine words. If the size fits in blas::integer, the matrices of vectors in memory and the workspace in `int`
(complex numbers: blas::integer), it is the eig of unbounded integers. -/
theorem c113_eig_partial {w : Nat} (hw : 1 ≤ w) (hw' : w ≤ 64) [Zero β] [DecidableEq β] (g : Eig.Dgeev β) (g' : Eig.Zgeev γ)
    (mk : β → β → γ) (neg : β → β) (A : Tensor β) (A' : Tensor γ) {n q q' : Nat} (wantR wantL : Bool) (hd : A.dims = [n, n])
    (hd' : A'.dims = [n, n]) (wf : A.WF) (wf' : A'.WF) (hn : 0 < n) (hm : n * n < 2 ^ 63) (h2 : 2 * n < 2 ^ (w - 1))
    (hq : q < 2 ^ 31) (hl : (if wantR || wantL then 4 * n else 3 * n) ≤ q) (hq' : q' < 2 ^ (w - 1)) (hl' : 2 * n ≤ q') :
    eigReal w q g mk neg A wantR wantL = Eig.eigReal g mk neg A wantR wantL ∧
      eigComplex w q' g' A' wantR wantL = Eig.eigComplex g' A' wantR wantL := by
  constructor
  · rw [eigReal, geevArgs_core hw hw' A wantR wantL hd wf hn (by omega) hm (fun _ => h2), if_pos (by exact hq),
      if_pos (by simpa [eigLeast] using hl), Eig.eigReal, Eig.checks_ok A hd hn]
  · rw [eigComplex, geevArgs_core hw hw' A' wantR wantL hd' wf' hn (by omega) hm (fun _ => h2), if_pos (by exact hq'),
      if_pos (by simpa [eigLeast] using hl'), Eig.eigComplex, Eig.checks_ok A' hd' hn]

theorem eigSym_core {w : Nat} (hw : 1 ≤ w) (hw' : w ≤ 64) {cx : Bool} {q : Nat} (g : Eig.Syev α β) (A : Tensor α) {n : Nat}
    (want : Bool) (hd : A.dims = [n, n]) (wf : A.WF) (hn : 0 < n) (hn' : n < 2 ^ (w - 1))
    (h3 : cx = true → 3 * n < 2 ^ (w - 1)) :
    eigSym w cx q g A want =
      if q < 2 ^ 31 then (if (if cx then 2 * n - 1 else 3 * n - 1) ≤ q then Eig.eigSym g A want else .abort) else .ub := by
  have hl : A.data.length = n * n := by
    obtain ⟨dims, data⟩ := A
    simp only at hd
    subst hd
    exact wf_length wf
  have ha : (n : Int) * (n : Int) = ((n * n : Nat) : Int) := by push_cast; rfl
  have h3' := rworkCells_nat (f := 3) h3
  simp only [Nat.cast_ofNat] at h3'
  rw [eigSym, order_nat hw hw' A hd hn hn', Res.ok_bind, cells_nat, Res.ok_bind, h3', Res.ok_bind, Res.assert_pos (by omega),
    Res.ok_bind, Eig.eigSym, Eig.checks_ok A hd hn, Res.ok_bind]
  by_cases hq : q < 2 ^ 31
  · rw [if_pos hq, castTo_ok (by simpa using hq), Res.ok_bind, cells_nat, Res.ok_bind]
    by_cases hle : (if cx = true then 2 * n - 1 else 3 * n - 1) ≤ q
    · rw [if_pos hle, if_neg, if_neg]
      · simp only [Int.toNat_natCast]
      · rw [not_not]
        refine ⟨by omega, le_refl _, le_refl _, ?_⟩
        rintro rfl
        simp
        omega
      · rw [not_not]
        refine ⟨by omega, by omega, ?_⟩
        cases cx <;> simp at hle ⊢ <;> omega
    · rw [if_neg hle, if_pos]
      rintro ⟨_, _, h⟩
      refine hle ?_
      cases cx <;> simp at h ⊢ <;> omega
  · rw [if_neg hq, castTo_ub (by simpa using hq), Res.ub_bind]

/-- C113: eig_sym in machine words. -/
theorem c113_eig_sym_partial {w : Nat} (hw : 1 ≤ w) (hw' : w ≤ 64) {cx : Bool} {q : Nat} (g : Eig.Syev α β) (A : Tensor α)
    {n : Nat} (want : Bool) (hd : A.dims = [n, n]) (wf : A.WF) (hn : 0 < n) (hn' : n < 2 ^ (w - 1))
    (h3 : cx = true → 3 * n < 2 ^ (w - 1)) (hq : q < 2 ^ 31) (hl : (if cx then 2 * n - 1 else 3 * n - 1) ≤ q) :
    eigSym w cx q g A want = Eig.eigSym g A want := by
  rw [eigSym_core hw hw' g A want hd wf hn hn' h3, if_pos hq, if_pos hl]

/-- C113: unlike svd and solve, eig and eig_sym stop for every matrix whose size does not fit in blas::integer, and for tensors
which are not square matrices or have no elements. -/
theorem c113_stops {w : Nat} (hw : 1 ≤ w) (hw' : w ≤ 64) {cx : Bool} {q : Nat} [Zero β] [DecidableEq β] (g : Eig.Dgeev β)
    (g' : Eig.Zgeev γ) (gs : Eig.Syev α β) (mk : β → β → γ) (neg : β → β) (A : Tensor β) (A' : Tensor γ) (As : Tensor α)
    (wantR wantL : Bool) (hA : ∀ n ∈ A.dims, n < 2 ^ 63) (e' : A'.dims = A.dims) (es : As.dims = A.dims)
    (h : ¬ ∃ n, 0 < n ∧ n < 2 ^ (w - 1) ∧ A.dims = [n, n]) :
    eigReal w q g mk neg A wantR wantL = .abort ∧ eigComplex w q g' A' wantR wantL = .abort ∧
      eigSym w cx q gs As wantR = .abort := by
  refine ⟨?_, ?_, ?_⟩
  · rw [eigReal, geevArgs, order_abort hw hw' A h hA, Res.abort_bind, Res.abort_bind]
  · rw [eigComplex, geevArgs, order_abort hw hw' A' (by rwa [e']) (by rwa [e']), Res.abort_bind, Res.abort_bind]
  · rw [eigSym, order_abort hw hw' As (by rwa [es]) (by rwa [es]), Res.abort_bind]

/-- C113, false of the code: the workspace is undefined for eig and eig_sym too if LAPACK asks for 2^31 elements. -/
theorem c113_negation_workspace_eig {w : Nat} (hw : 1 ≤ w) (hw' : w ≤ 64) {cx : Bool} {q : Nat} [Zero β] [DecidableEq β]
    (g : Eig.Dgeev β) (gs : Eig.Syev α β) (mk : β → β → γ) (neg : β → β) (A : Tensor β) (As : Tensor α) {n : Nat}
    (wantR wantL : Bool) (hd : A.dims = [n, n]) (hds : As.dims = [n, n]) (wf : A.WF) (wfs : As.WF) (hn : 0 < n)
    (hn' : n < 2 ^ (w - 1)) (hm : n * n < 2 ^ 63) (h3 : cx = true → 3 * n < 2 ^ (w - 1)) (hq : 2 ^ 31 ≤ q) :
    eigReal w q g mk neg A wantR wantL = .ub ∧ eigSym w cx q gs As wantR = .ub := by
  constructor
  · rw [eigReal, geevArgs_core hw hw' A wantR wantL hd wf hn hn' hm (fun h => by simp at h), if_neg (by simpa using hq), Res.ub_bind]
  · rw [eigSym_core hw hw' gs As wantR hds wfs hn hn' h3, if_neg (by omega)]

/-! ### Instances -/

example (g : Svd.Gesvd Int Int) : svd 32 false 100 g ⟨[3, 2], [1, 2, 3, 4, 5, 6]⟩ true true true =
    Svd.svd g ⟨[3, 2], [1, 2, 3, 4, 5, 6]⟩ true true true :=
  c113_svd_partial (m := 3) (n := 2) (by decide) g _ _ _ _ rfl (by simp [Tensor.WF, Tensor.totalSize]) (by decide) (by decide)
    (by decide) (by decide) ⟨fun _ => by decide, fun _ => by decide, fun _ => by decide⟩ (by decide) (by decide)

example : Small 32 true 5 3 true true false := ⟨fun _ => by decide, fun _ => by decide, fun _ => by decide⟩

example (g : Eig.Gesv Int) : solve 32 true g ⟨[2, 2], [1, 2, 3, 4]⟩ ⟨[2, 1], [1, 2]⟩ =
    Eig.solve g ⟨[2, 2], [1, 2, 3, 4]⟩ ⟨[2, 1], [1, 2]⟩ :=
  c113_solve_partial (by decide) (by decide) g _ _ (by decide) (by decide) (by intro n h; simp at h; subst h; decide)

example (g : Svd.Gesvd Int Int) : ∃ s u, svd 32 false 5 g ⟨[2 ^ 32 + 1, 1], List.replicate (2 ^ 32 + 1) 7⟩ true false true =
    .ok (s, some u, none) ∧ u.dims = [1, 1] :=
  c113_negation_shape g _ (Svd.wf2 (by rw [List.length_replicate, Nat.mul_one])) (by norm_num) (le_refl _)

example (g : Eig.Gesv Int) : solve 32 false g ⟨[1, 2 ^ 32 + 1], List.replicate (2 ^ 32 + 1) 7⟩ ⟨[1, 1], [3]⟩ = .abort :=
  (c113_negation_square (n := 1) g _ ⟨[1, 1], [3]⟩ (by norm_num) (by norm_num)
    (Svd.wf2 (by rw [List.length_replicate, Nat.one_mul])) rfl (by norm_num [size])).2

example : solve 32 true (fun _ _ _ _ b _ => ⟨0, b⟩) ⟨[1, 1], [(2 : Int)]⟩ ⟨[1, 2 ^ 32], List.replicate (2 ^ 32) 7⟩ =
    .ok ⟨[1, 2 ^ 32], List.replicate (2 ^ 32) 7⟩ :=
  c113_negation_sides (n := 1) _ _ _ (by norm_num) (by norm_num) (Svd.wf2 rfl) rfl
    (Svd.wf2 (by rw [List.length_replicate, Nat.one_mul])) (fun _ _ => rfl) rfl

example : ∃ x, solve 32 true (fun _ _ _ _ b _ => ⟨0, b⟩) ⟨[3, 3], List.replicate (3 * 3) (2 : Int)⟩
    ⟨[2 ^ 32 + 3], List.replicate (2 ^ 32 + 3) 7⟩ = .ok x :=
  ⟨_, (c113_negation_equations (n := 3) _ _ _ (by norm_num) (by norm_num) (Svd.wf2 List.length_replicate)
    List.length_replicate rfl).1⟩

example (g : Eig.Syev Int Int) : eigSym 32 true 5 g ⟨[2, 2], [1, 0, 0, 1]⟩ true = Eig.eigSym g ⟨[2, 2], [1, 0, 0, 1]⟩ true :=
  c113_eig_sym_partial (n := 2) (by norm_num) (by norm_num) g _ _ rfl (Svd.wf2 rfl) (by norm_num) (by norm_num)
    (fun _ => by norm_num) (by norm_num) (by norm_num)

example (g : Eig.Dgeev Int) (g' : Eig.Zgeev Int) :
    eigReal 32 8 g (fun x _ => x) (fun x => -x) ⟨[2, 2], [1, 0, 0, 1]⟩ true false =
        Eig.eigReal g (fun x _ => x) (fun x => -x) ⟨[2, 2], [1, 0, 0, 1]⟩ true false ∧
      eigComplex 32 4 g' ⟨[2, 2], [1, 0, 0, 1]⟩ true false = Eig.eigComplex g' ⟨[2, 2], [1, 0, 0, 1]⟩ true false :=
  c113_eig_partial (n := 2) (by norm_num) (by norm_num) g g' _ _ _ _ _ _ rfl rfl (Svd.wf2 rfl) (Svd.wf2 rfl) (by norm_num)
    (by norm_num) (by norm_num) (by norm_num) (by norm_num) (by norm_num) (by norm_num)

end Verif.LapackMachine
