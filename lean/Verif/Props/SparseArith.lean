import Verif.Props.SparseFull
import Verif.Lemmas.Arith
import Verif.Props.Sort
/-
C37: arithmetic of sparse matrices.  C36: their structure.
-/
namespace Verif.Sparse

open Verif Verif.Spec

variable {α β : Type}

theorem push_ok [Zero α] [DecidableEq α] (cap : Nat) (out : List (Nat × α)) (c : Nat) (v : α)
    (h : out.length < cap) :
    push cap out c v = .ok (out ++ if v = 0 then [] else [(c, v)]) := by
  rw [push]
  by_cases hv : v = 0
  · simp [hv]
  · simp [hv, h]

theorem look_push [Zero α] [DecidableEq α] (c : Nat) (v : α) (row : List (Nat × α))
    (h : ∀ p ∈ row, c < p.1) (j : Nat) :
    look ((if v = 0 then [] else [(c, v)]) ++ row) j = if j = c then v else look row j := by
  by_cases hv : v = 0
  · rw [if_pos hv, List.nil_append]
    split
    · rename_i hj
      subst hj
      rw [hv]
      apply look_of_not_mem
      intro w hw
      have := h _ hw
      simp at this
    · rfl
  · rw [if_neg hv, List.singleton_append, look_cons]
    by_cases hj : j = c
    · subst hj; simp
    · rw [if_neg (by simp only; omega), if_neg hj]

theorem rowOk_push [Zero α] [DecidableEq α] {cols c : Nat} (v : α) {row : List (Nat × α)}
    (h : RowOk cols row) (hc : c < cols) (hlt : ∀ p ∈ row, c < p.1) :
    RowOk cols ((if v = 0 then [] else [(c, v)]) ++ row) := by
  by_cases hv : v = 0
  · rw [if_pos hv, List.nil_append]; exact h
  · rw [if_neg hv, List.singleton_append]
    constructor
    · rw [List.map_cons, List.pairwise_cons]
      refine ⟨fun b hb => ?_, h.1⟩
      obtain ⟨p, hp, rfl⟩ := List.mem_map.mp hb
      exact hlt p hp
    · intro p hp
      rcases List.mem_cons.mp hp with rfl | hp
      · exact hc
      · exact h.2 p hp

theorem RowOk.tail {cols : Nat} {p : Nat × α} {row : List (Nat × α)} (h : RowOk cols (p :: row)) :
    RowOk cols row ∧ p.1 < cols ∧ ∀ q ∈ row, p.1 < q.1 := by
  have h1 := h.1
  rw [List.map_cons, List.pairwise_cons] at h1
  exact ⟨⟨h1.2, fun q hq => h.2 q (List.mem_cons_of_mem _ hq)⟩, h.2 p (by simp),
    fun q hq => h1.1 q.1 (List.mem_map_of_mem hq)⟩

theorem look_lt [Zero α] {row : List (Nat × α)} {j : Nat} (h : ∀ q ∈ row, j < q.1) : look row j = 0 := by
  apply look_of_not_mem
  intro v hv
  have := h _ hv
  simp at this

/-- Result of merging two rows. -/
structure Merged [Zero α] (op : α → α → α) (cols : Nat) (row1 row2 row3 : List (Nat × α)) : Prop where
  len : row3.length ≤ row1.length + row2.length
  ok : RowOk cols row3
  nz : ∀ p ∈ row3, p.2 ≠ 0
  low : ∀ b, (∀ p ∈ row1, b < p.1) → (∀ p ∈ row2, b < p.1) → ∀ p ∈ row3, b < p.1
  val : ∀ j < cols, look row3 j = op (look row1 j) (look row2 j)

theorem mergeRow_ok [Zero α] [DecidableEq α] (op : α → α → α) (hop : op 0 0 = 0) (cols cap n : Nat)
    (row1 row2 : List (Nat × α)) (h1 : RowOk cols row1) (h2 : RowOk cols row2)
    (hn : row1.length + row2.length < n) (cs1 cs2 : List Nat) (ds1 ds2 : List α) (out : List (Nat × α))
    (hcap : out.length + (row1.length + row2.length) ≤ cap) :
    ∃ row3, mergeRow op cols cap n row1.length row2.length
        (row1.map (·.1) ++ cs1, row1.map (·.2) ++ ds1) (row2.map (·.1) ++ cs2, row2.map (·.2) ++ ds2)
        out = .ok ((cs1, ds1), (cs2, ds2), out ++ row3) ∧ Merged op cols row1 row2 row3 := by
  induction n generalizing row1 row2 out with
  | zero => omega
  | succ n ih =>
    have key : ∀ (c : Nat) (v : α) (r1 r2 : List (Nat × α)), RowOk cols r1 → RowOk cols r2 → c < cols →
        r1.length + r2.length < row1.length + row2.length →
        (∀ q ∈ r1, c < q.1) → (∀ q ∈ r2, c < q.1) →
        (∀ j < cols, op (look row1 j) (look row2 j) = if j = c then v else op (look r1 j) (look r2 j)) →
        (∀ b, (∀ p ∈ row1, b < p.1) → (∀ p ∈ row2, b < p.1) → b < c) →
        ∃ row3, (push cap out c v >>= fun out =>
          mergeRow op cols cap n r1.length r2.length (r1.map (·.1) ++ cs1, r1.map (·.2) ++ ds1)
            (r2.map (·.1) ++ cs2, r2.map (·.2) ++ ds2) out) =
            .ok ((cs1, ds1), (cs2, ds2), out ++ row3) ∧ Merged op cols row1 row2 row3 := by
      intro c v r1 r2 g1 g2 hc hlen hl1 hl2 hval hlow
      have hpl : (if v = 0 then [] else [(c, v)] : List (Nat × α)).length ≤ 1 := by split <;> simp
      obtain ⟨row3, e, m⟩ := ih r1 r2 g1 g2 (by omega) (out ++ if v = 0 then [] else [(c, v)])
        (by rw [List.length_append]; omega)
      have hl3 := m.low c hl1 hl2
      refine ⟨(if v = 0 then [] else [(c, v)]) ++ row3, ?_, ?_, ?_, ?_, ?_, ?_⟩
      · rw [push_ok cap out c v (by omega), Res.ok_bind, e, List.append_assoc]
      · rw [List.length_append]; have := m.len; omega
      · exact rowOk_push v m.ok hc hl3
      · intro p hp
        rcases List.mem_append.mp hp with hp | hp
        · split at hp
          · simp at hp
          · simp only [List.mem_singleton] at hp; subst hp; assumption
        · exact m.nz p hp
      · intro b hb1 hb2 p hp
        have hbc := hlow b hb1 hb2
        rcases List.mem_append.mp hp with hp | hp
        · split at hp
          · simp at hp
          · simp only [List.mem_singleton] at hp; subst hp; exact hbc
        · have := hl3 p hp; omega
      · intro j hj
        rw [look_push c v row3 hl3, hval j hj]
        split
        · rfl
        · exact m.val j hj
    cases row1 with
    | nil =>
      cases row2 with
      | nil =>
        refine ⟨[], ?_, ⟨by simp, ⟨by simp, by simp⟩, by simp, by simp, fun j _ => by rw [look_nil, hop]⟩⟩
        rw [mergeRow]
        simp
      | cons q r2 =>
        obtain ⟨g2, hq, hl2⟩ := RowOk.tail h2
        obtain ⟨row3, e, m⟩ := key q.1 (op 0 q.2) [] r2 h1 g2 hq (by simp) (by simp) hl2
          (by
            intro j hj
            rw [look_nil, look_cons]
            by_cases hjq : j = q.1
            · rw [if_pos hjq.symm, if_pos hjq]
            · rw [if_neg (fun h => hjq h.symm), if_neg hjq])
          (by intro b hb1 hb2; exact hb2 q (by simp))
        refine ⟨row3, ?_, m⟩
        rw [mergeRow]
        simp only [List.length_nil, List.length_cons, List.map_nil, List.nil_append, List.map_cons,
          List.cons_append, List.head?_cons, Res.ofOption_some, List.tail_cons, Nat.add_sub_cancel,
          ne_eq, not_true_eq_false, if_false, Nat.succ_ne_zero, not_false_eq_true, if_true, Res.ok_bind,
          and_true, and_false, or_false]
        rw [if_neg (by omega), if_neg (by omega), if_pos hq]
        simpa using e
    | cons p r1 =>
      obtain ⟨g1, hp, hl1⟩ := RowOk.tail h1
      cases row2 with
      | nil =>
        obtain ⟨row3, e, m⟩ := key p.1 (op p.2 0) r1 [] g1 h2 hp (by simp) hl1 (by simp)
          (by
            intro j hj
            rw [look_nil, look_cons]
            by_cases hjq : j = p.1
            · rw [if_pos hjq.symm, if_pos hjq]
            · rw [if_neg (fun h => hjq h.symm), if_neg hjq])
          (by intro b hb1 hb2; exact hb1 p (by simp))
        refine ⟨row3, ?_, m⟩
        rw [mergeRow]
        simp only [List.length_nil, List.length_cons, List.map_nil, List.nil_append, List.map_cons,
          List.cons_append, List.head?_cons, Res.ofOption_some, List.tail_cons, Nat.add_sub_cancel,
          ne_eq, not_true_eq_false, if_false, Nat.succ_ne_zero, not_false_eq_true, if_true, Res.ok_bind,
          and_true, and_false, false_or]
        rw [if_neg (by omega), if_pos hp]
        simpa using e
      | cons q r2 =>
        obtain ⟨g2, hq, hl2⟩ := RowOk.tail h2
        have unfold1 : mergeRow op cols cap (n + 1) (p :: r1).length (q :: r2).length
            ((p :: r1).map (·.1) ++ cs1, (p :: r1).map (·.2) ++ ds1)
            ((q :: r2).map (·.1) ++ cs2, (q :: r2).map (·.2) ++ ds2) out =
            if p.1 < q.1 then push cap out p.1 (op p.2 0) >>= fun out =>
              mergeRow op cols cap n r1.length (q :: r2).length
                (r1.map (·.1) ++ cs1, r1.map (·.2) ++ ds1)
                ((q :: r2).map (·.1) ++ cs2, (q :: r2).map (·.2) ++ ds2) out
            else if q.1 < p.1 then push cap out q.1 (op 0 q.2) >>= fun out =>
              mergeRow op cols cap n (p :: r1).length r2.length
                ((p :: r1).map (·.1) ++ cs1, (p :: r1).map (·.2) ++ ds1)
                (r2.map (·.1) ++ cs2, r2.map (·.2) ++ ds2) out
            else push cap out p.1 (op p.2 q.2) >>= fun out =>
              mergeRow op cols cap n r1.length r2.length
                (r1.map (·.1) ++ cs1, r1.map (·.2) ++ ds1)
                (r2.map (·.1) ++ cs2, r2.map (·.2) ++ ds2) out := by
          rw [mergeRow]
          simp only [List.length_cons, List.map_cons,
            List.cons_append, List.head?_cons, Res.ofOption_some, List.tail_cons, Nat.add_sub_cancel,
            ne_eq, if_false, Nat.succ_ne_zero, not_false_eq_true, if_true, Res.ok_bind,
            and_false, or_self, hq]
        rw [unfold1]
        by_cases hlt : p.1 < q.1
        · rw [if_pos hlt]
          refine key p.1 (op p.2 0) r1 (q :: r2) g1 h2 hp (by simp) hl1 ?_ ?_ ?_
          · intro x hx
            rcases List.mem_cons.mp hx with rfl | hx
            · exact hlt
            · have := hl2 x hx; omega
          · intro j hj
            rw [look_cons p]
            by_cases hjq : j = p.1
            · rw [if_pos hjq.symm, if_pos hjq, look_lt (row := q :: r2)]
              intro x hx
              rcases List.mem_cons.mp hx with rfl | hx
              · omega
              · have := hl2 x hx; omega
            · rw [if_neg (fun h => hjq h.symm), if_neg hjq]
          · intro b hb1 hb2; exact hb1 p (by simp)
        · rw [if_neg hlt]
          by_cases hgt : q.1 < p.1
          · rw [if_pos hgt]
            refine key q.1 (op 0 q.2) (p :: r1) r2 h1 g2 hq (by simp) ?_ hl2 ?_ ?_
            · intro x hx
              rcases List.mem_cons.mp hx with rfl | hx
              · exact hgt
              · have := hl1 x hx; omega
            · intro j hj
              rw [look_cons q]
              by_cases hjq : j = q.1
              · rw [if_pos hjq.symm, if_pos hjq, look_lt (row := p :: r1)]
                intro x hx
                rcases List.mem_cons.mp hx with rfl | hx
                · omega
                · have := hl1 x hx; omega
              · rw [if_neg (fun h => hjq h.symm), if_neg hjq]
            · intro b hb1 hb2; exact hb2 q (by simp)
          · rw [if_neg hgt]
            have heq : q.1 = p.1 := by omega
            refine key p.1 (op p.2 q.2) r1 r2 g1 g2 hp (by simp; omega) hl1 (by rw [← heq]; exact hl2) ?_ ?_
            · intro j hj
              rw [look_cons p, look_cons q, heq]
              by_cases hjq : j = p.1
              · rw [if_pos hjq.symm, if_pos hjq.symm, if_pos hjq]
              · rw [if_neg (fun h => hjq h.symm), if_neg (fun h => hjq h.symm), if_neg hjq]
            · intro b hb1 hb2; exact hb1 p (by simp)

theorem mergeLoop_ok [Zero α] [DecidableEq α] (op : α → α → α) (hop : op 0 0 = 0) (cols cap : Nat)
    (L1 L2 : List (List (Nat × α))) (hlen : L1.length = L2.length) (h1 : ∀ row ∈ L1, RowOk cols row)
    (h2 : ∀ row ∈ L2, RowOk cols row) (rs1 rs2 : List Nat) (i k1 k2 : Nat)
    (hr1 : rs1.drop i = starts k1 L1) (hr2 : rs2.drop i = starts k2 L2) (cs1 cs2 : List Nat)
    (ds1 ds2 : List α) (out : List (Nat × α))
    (hcap : out.length + (L1.flatten.length + L2.flatten.length) ≤ cap) :
    ∃ L3 : List (List (Nat × α)), L3.length = L1.length ∧
      mergeLoop op cols cap rs1 rs2 i L1.length
        (L1.flatten.map (·.1) ++ cs1, L1.flatten.map (·.2) ++ ds1)
        (L2.flatten.map (·.1) ++ cs2, L2.flatten.map (·.2) ++ ds2) out =
        .ok (rowEnds out.length L3, out ++ L3.flatten) ∧
      ∀ (k : Nat) row1 row2 row3, L1[k]? = some row1 → L2[k]? = some row2 → L3[k]? = some row3 →
        Merged op cols row1 row2 row3 := by
  induction L1 generalizing L2 i k1 k2 out with
  | nil => exact ⟨[], rfl, by simp [mergeLoop, rowEnds], by simp⟩
  | cons row1 L1 ih =>
    cases L2 with
    | nil => simp at hlen
    | cons row2 L2 =>
      obtain ⟨a1, a2, a3⟩ := drop_starts hr1
      obtain ⟨b1, b2, b3⟩ := drop_starts hr2
      rw [List.flatten_cons, List.flatten_cons, List.length_append, List.length_append] at hcap
      obtain ⟨row3, e, m⟩ := mergeRow_ok op hop cols cap (row1.length + row2.length + 1) row1 row2
        (h1 row1 (by simp)) (h2 row2 (by simp)) (by omega) (L1.flatten.map (·.1) ++ cs1)
        (L2.flatten.map (·.1) ++ cs2) (L1.flatten.map (·.2) ++ ds1) (L2.flatten.map (·.2) ++ ds2) out
        (by omega)
      have hm := m.len
      obtain ⟨L3, l3, e', m'⟩ := ih L2 (by simpa using hlen)
        (fun r hr => h1 r (List.mem_cons_of_mem _ hr)) (fun r hr => h2 r (List.mem_cons_of_mem _ hr))
        (i + 1) _ _ a3 b3 (out ++ row3) (by rw [List.length_append]; omega)
      refine ⟨row3 :: L3, by simp [l3], ?_, ?_⟩
      · rw [List.length_cons, mergeLoop, a1, a2, b1, b2]
        simp only [Res.ofOption_some, Res.ok_bind]
        rw [if_neg (by omega), show k1 + row1.length - k1 = row1.length by omega,
          show k2 + row2.length - k2 = row2.length by omega]
        simp only [List.flatten_cons, List.map_append, List.append_assoc]
        rw [e, Res.ok_bind]
        simp only
        rw [e', Res.ok_bind]
        simp only [Res.pure_eq, rowEnds, List.length_append, List.append_assoc]
      · intro k r1 r2 r3 g1 g2 g3
        cases k with
        | zero =>
          simp only [List.getElem?_cons_zero, Option.some.injEq] at g1 g2 g3
          subst g1 g2 g3
          exact m
        | succ k =>
          rw [List.getElem?_cons_succ] at g1 g2 g3
          exact m' k r1 r2 r3 g1 g2 g3

theorem zeros_isCsr [Zero α] (r c : Nat) :
    IsCsr (zeros r c : Sparse α).rows (zeros r c : Sparse α).cols (zeros r c : Sparse α).rowStart
      (zeros r c : Sparse α).column (zeros r c : Sparse α).data r c fun _ _ => 0 := by
  apply isCsr_of_rows (L := List.replicate r [])
  · refine ⟨by simp [zeros], ?_, by simp [zeros], by simp [zeros]⟩
    show List.replicate (r + 1) 0 = starts 0 (List.replicate r [])
    induction r with
    | zero => rfl
    | succ r ih =>
      rw [List.replicate_succ (n := r), starts, List.length_nil, ← ih, List.replicate_succ]
  · intro row hrow
    rw [List.eq_of_mem_replicate hrow]
    exact ⟨by simp, by simp⟩
  · rfl
  · rfl
  · intro i j row hi _
    have := List.mem_of_getElem? hi
    rw [List.eq_of_mem_replicate this, look_nil]

/-- C37: the operations between sparse matrices (with op(0,0) = 0, as for +, - and *) are those of
the entries, and no zeros are stored. -/
theorem c37_binop [Zero α] [DecidableEq α] (op : α → α → α) (hop : op 0 0 = 0) (a b : Sparse α)
    (r c : Nat) (f g : Nat → Nat → α)
    (ha : IsCsr a.rows a.cols a.rowStart a.column a.data r c f)
    (hb : IsCsr b.rows b.cols b.rowStart b.column b.data r c g) :
    ∃ s, binop op a b = .ok s ∧
      IsCsr s.rows s.cols s.rowStart s.column s.data r c (fun i j => op (f i j) (g i j)) ∧
      ∀ v ∈ s.data, v ≠ 0 := by
  obtain ⟨L1, hL1, len1, ok1, v1⟩ := IsCsr_rows ha
  obtain ⟨L2, hL2, len2, ok2, v2⟩ := IsCsr_rows hb
  obtain ⟨ar, ac, -, -⟩ := ha
  obtain ⟨br, bc, -, -⟩ := hb
  rw [binop, ar, ac, br, bc, Res.assert_pos ⟨rfl, rfl⟩, Res.ok_bind]
  by_cases h0 : r = 0 ∨ c = 0
  · rw [if_pos h0]
    obtain ⟨z1, z2, z3, z4⟩ := zeros_isCsr (α := α) r c
    refine ⟨_, rfl, ⟨z1, z2, z3, ?_⟩, by simp [zeros]⟩
    intro i j hi hj
    omega
  · rw [if_neg h0]
    have hd1 : a.data.length = L1.flatten.length := by rw [hL1.2.2.2, List.length_map]
    have hd2 : b.data.length = L2.flatten.length := by rw [hL2.2.2.2, List.length_map]
    obtain ⟨L3, l3, e, m⟩ := mergeLoop_ok op hop c (a.data.length + b.data.length) L1 L2
      (by omega) ok1 ok2 a.rowStart b.rowStart 0 0 0 (by rw [List.drop_zero, hL1.2.1])
      (by rw [List.drop_zero, hL2.2.1]) [] [] [] [] [] (by rw [hd1, hd2]; simp)
    simp only [List.append_nil, List.nil_append, List.length_nil] at e
    rw [← hL1.2.2.1, ← hL1.2.2.2, ← hL2.2.2.1, ← hL2.2.2.2, len1] at e
    have l3r : L3.length = r := by omega
    have hs : starts 0 L3 = 0 :: rowEnds 0 L3 := starts_eq 0 L3
    simp only [e, Res.ok_bind]
    rw [← hs, runWrites_seq' _ _ (starts 0 L3) rfl (by rw [starts_length, l3r]), Res.ok_bind, make,
      Res.assert_pos (by rw [starts_length, l3r]), Res.ok_bind]
    have hm : ∀ (i : Nat) row, L3[i]? = some row → ∃ r1 r2, L1[i]? = some r1 ∧ L2[i]? = some r2 ∧
        Merged op c r1 r2 row := by
      intro i row hi
      have hlt := (List.getElem?_eq_some_iff.mp hi).1
      have g1 := List.getElem?_eq_getElem (show i < L1.length by omega)
      have g2 := List.getElem?_eq_getElem (show i < L2.length by omega)
      exact ⟨_, _, g1, g2, m i _ _ _ g1 g2 hi⟩
    refine ⟨_, rfl, isCsr_of_rows (L := L3) ⟨l3r, rfl, rfl, rfl⟩ ?_ rfl rfl ?_, ?_⟩
    · intro row hrow
      obtain ⟨i, hi⟩ := List.mem_iff_getElem?.mp hrow
      obtain ⟨r1, r2, g1, g2, mm⟩ := hm i row hi
      exact mm.ok
    · intro i j row hi hj
      obtain ⟨r1, r2, g1, g2, mm⟩ := hm i row hi
      rw [mm.val j hj, v1 i j r1 g1 hj, v2 i j r2 g2 hj]
    · intro v hv
      obtain ⟨p, hp, rfl⟩ := List.mem_map.mp hv
      obtain ⟨row, hrow, hp⟩ := List.mem_flatten.mp hp
      obtain ⟨i, hi⟩ := List.mem_iff_getElem?.mp hrow
      obtain ⟨r1, r2, g1, g2, mm⟩ := hm i row hi
      exact mm.nz p hp

/-- C37: matrices of different sizes stop the program. -/
theorem c37_mismatch [Zero α] [DecidableEq α] (op : α → α → α) (a b : Sparse α)
    (h : a.rows ≠ b.rows ∨ a.cols ≠ b.cols) : binop op a b = .abort := by
  rw [binop, Res.assert_neg (by rintro ⟨h1, h2⟩; rcases h with h | h <;> contradiction)]
  rfl

theorem look_map [Zero α] [Zero β] (φ : α → β) (hφ : φ 0 = 0) (row : List (Nat × α)) (j : Nat) :
    look (row.map fun p => (p.1, φ p.2)) j = φ (look row j) := by
  induction row with
  | nil => simp [look_nil, hφ]
  | cons p ps ih =>
    rw [List.map_cons, look_cons, look_cons, ih]
    split <;> rfl

/-- C37: functions of the entries which keep zero (the sign, the product and the quotient with a number,
conj, real, imag). -/
theorem c37_map [Zero α] [Zero β] (φ : α → β) (hφ : φ 0 = 0) (a : Sparse α)
    (r c : Nat) (f : Nat → Nat → α) (ha : IsCsr a.rows a.cols a.rowStart a.column a.data r c f) :
    ∃ s, mapData φ a = .ok s ∧
      IsCsr s.rows s.cols s.rowStart s.column s.data r c fun i j => φ (f i j) := by
  obtain ⟨L, hL, len, ok, v⟩ := IsCsr_rows ha
  obtain ⟨hr, hc, -, -⟩ := ha
  have hst : ∀ k, starts k (L.map fun row => row.map fun p => (p.1, φ p.2)) = starts k L := by
    intro k
    clear hL len ok v
    induction L generalizing k with
    | nil => rfl
    | cons row L ih => rw [List.map_cons, starts, starts, List.length_map, ih]
  rw [mapData, make, Res.assert_pos (by rw [hL.2.1, starts_length, hL.1]), Res.ok_bind]
  refine ⟨_, rfl, isCsr_of_rows (L := L.map fun row => row.map fun p => (p.1, φ p.2))
    ⟨by simp [hL.1], ?_, ?_, ?_⟩ ?_ hr hc ?_⟩
  · rw [hst, hL.2.1]
  · rw [hL.2.2.1, ← List.map_flatten, List.map_map]; rfl
  · rw [hL.2.2.2, ← List.map_flatten, List.map_map, List.map_map]; rfl
  · intro row hrow
    obtain ⟨row, hm, rfl⟩ := List.mem_map.mp hrow
    have := ok row hm
    rw [hc]
    constructor
    · rw [List.map_map]; exact this.1
    · intro p hp
      obtain ⟨q, hq, rfl⟩ := List.mem_map.mp hp
      exact this.2 q hq
  · intro i j row hi hj
    rw [List.getElem?_map, Option.map_eq_some_iff] at hi
    obtain ⟨row, hi, rfl⟩ := hi
    rw [look_map φ hφ, v i j row hi hj]

/-- C37: full(a op b) = full(a) op full(b). -/
theorem c37_full_binop [Zero α] [DecidableEq α] (op : α → α → α) (hop : op 0 0 = 0) (a b : Sparse α)
    (ha : ValidCsr a.rows a.cols a.rowStart a.column a.data)
    (hb : ValidCsr b.rows b.cols b.rowStart b.column b.data)
    (hr : a.rows = b.rows) (hc : a.cols = b.cols) :
    ∃ s fa fb fs, binop op a b = .ok s ∧ full a = .ok fa ∧ full b = .ok fb ∧ full s = .ok fs ∧
      Tensor.binopTT op fa fb = .ok fs := by
  obtain ⟨f, hf⟩ := exists_isCsr a ha
  obtain ⟨g, hg⟩ := exists_isCsr b hb
  rw [← hr, ← hc] at hg
  rw [hr, hc] at hg
  obtain ⟨s, e, hs, -⟩ := c37_binop op hop a b _ _ f g hf (by rw [hr, hc]; exact hg)
  obtain ⟨fa, e1, m1⟩ := c35_full a _ _ f hf
  obtain ⟨fb, e2, m2⟩ := c35_full b _ _ g hg
  obtain ⟨fs, e3, m3⟩ := c35_full s _ _ _ hs
  obtain ⟨t, e4, m4⟩ := Tensor.binop_isMat op m1 (by rw [hr, hc]; exact m2)
  exact ⟨s, fa, fb, fs, e, e1, e2, e3, by rw [e4, IsMat.unique m4 m3 fun i j _ _ => rfl]⟩

/-- C37: full(φ(a)) = φ(full(a)). -/
theorem c37_full_map [Zero α] [Zero β] (φ : α → β) (hφ : φ 0 = 0) (a : Sparse α)
    (ha : ValidCsr a.rows a.cols a.rowStart a.column a.data) :
    ∃ s fa fs, mapData φ a = .ok s ∧ full a = .ok fa ∧ full s = .ok fs ∧
      Tensor.unop φ fa = .ok fs := by
  obtain ⟨f, hf⟩ := exists_isCsr a ha
  obtain ⟨s, e, hs⟩ := c37_map φ hφ a _ _ f hf
  obtain ⟨fa, e1, m1⟩ := c35_full a _ _ f hf
  obtain ⟨fs, e3, m3⟩ := c35_full s _ _ _ hs
  refine ⟨s, fa, fs, e, e1, e3, ?_⟩
  rw [Tensor.unop_ok φ fa (IsMat.wf m1)]
  congr 1
  apply IsMat.unique (f := fun i j => φ (f i j)) _ m3 fun i j _ _ => rfl
  refine ⟨m1.1, by simp [m1.2.1], ?_⟩
  intro i j hi hj
  rw [Tensor.elem_map, m1.2.2 i j hi hj]; rfl

theorem eye_starts [One α] (n i k : Nat) :
    starts (min i k) ((List.range' i n).map fun a => if a < k then [(a, (1 : α))] else []) =
      (List.range' i (n + 1)).map fun a => min a k := by
  induction n generalizing i with
  | zero => rfl
  | succ n ih =>
    rw [List.range'_succ (n := n), List.map_cons, starts, List.range'_succ (n := n + 1), List.map_cons]
    congr 1
    rw [← ih (i + 1)]
    congr 1
    split
    · simp only [List.length_singleton]; omega
    · simp only [List.length_nil]; omega

theorem eye_flatten [One α] (n k : Nat) :
    ((List.range n).map fun a => if a < k then [(a, (1 : α))] else []).flatten =
      (List.range (min n k)).map fun a => (a, 1) := by
  induction n with
  | zero => simp
  | succ n ih =>
    rw [List.range_succ, List.map_append, List.flatten_append, ih]
    by_cases h : n < k
    · rw [show min (n + 1) k = min n k + 1 by omega, List.range_succ, List.map_append,
        show min n k = n by omega]
      simp [h]
    · rw [show min (n + 1) k = min n k by omega]
      simp [h]

theorem iota_nat (n : Nat) :
    ∃ l, Indices.range 0 ((n : Int) - 1) 1 = .ok l ∧ l.map Int.toNat = List.range n := by
  by_cases hn : n = 0
  · subst hn; exact ⟨[], by decide, rfl⟩
  · refine ⟨_, Tensor.iota_eq n hn, ?_⟩
    rw [List.map_map]
    conv_rhs => rw [← List.map_id (List.range n)]
    exact List.map_congr_left fun i _ => rfl

/-- C36: the identity matrix. -/
theorem c36_eye [Zero α] [One α] (r c : Nat) :
    ∃ s : Sparse α, eye r c = .ok s ∧
      IsCsr s.rows s.cols s.rowStart s.column s.data r c fun i j => if i = j then 1 else 0 := by
  obtain ⟨l, e, hl⟩ := iota_nat (min r c)
  rw [eye]
  simp only [e, Res.ok_bind, hl]
  rw [make, Res.assert_pos (by simp), Res.ok_bind]
  refine ⟨_, rfl, isCsr_of_rows
    (L := (List.range r).map fun a => if a < min r c then [(a, (1 : α))] else []) ⟨by simp, ?_, ?_, ?_⟩
    ?_ rfl rfl ?_⟩
  · have := eye_starts (α := α) r 0 (min r c)
    rw [Nat.zero_min, ← List.range_eq_range', ← List.range_eq_range'] at this
    exact this.symm
  · rw [eye_flatten, show min r (min r c) = min r c by omega, List.map_map]
    exact (List.map_id _).symm
  · rw [eye_flatten, show min r (min r c) = min r c by omega, List.map_map,
      show ((fun x : Nat × α => x.2) ∘ fun a : Nat => (a, (1 : α))) = fun _ => 1 from rfl,
      List.map_const', List.length_range]
  · intro row hrow
    obtain ⟨a, ha, rfl⟩ := List.mem_map.mp hrow
    split
    · refine ⟨by simp, ?_⟩
      intro p hp
      simp only [List.mem_singleton] at hp
      subst hp
      show a < c
      omega
    · exact ⟨by simp, by simp⟩
  · intro i j row hi hj
    have hlt := (List.getElem?_eq_some_iff.mp hi).1
    simp only [List.length_map, List.length_range] at hlt
    rw [List.getElem?_map, List.getElem?_range hlt] at hi
    simp only [Option.map_some, Option.some.injEq] at hi
    subst hi
    by_cases hij : i = j
    · subst hij
      rw [if_pos rfl, if_pos (by omega), look_cons, if_pos rfl]
    · rw [if_neg hij]
      split
      · rw [look_cons, if_neg hij, look_nil]
      · rw [look_nil]

end Verif.Sparse
