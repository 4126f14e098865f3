import Verif.Lemmas.Sparse
import Verif.Lemmas.Kron
/-
C35: conversions between dense and sparse matrices.
-/
namespace Verif.Sparse

open Verif Verif.Spec

variable {α β : Type}

theorem drop_starts {rs : List Nat} {i k : Nat} {row : List β} {L : List (List β)}
    (h : rs.drop i = starts k (row :: L)) :
    rs[i]? = some k ∧ rs[i + 1]? = some (k + row.length) ∧
      rs.drop (i + 1) = starts (k + row.length) L := by
  have e0 : rs[i]? = (rs.drop i)[0]? := by rw [List.getElem?_drop, Nat.add_zero]
  have e1 : rs[i + 1]? = (rs.drop i)[1]? := by rw [List.getElem?_drop]
  have e2 : rs.drop (i + 1) = (rs.drop i).drop 1 := by rw [List.drop_drop]
  rw [e0, e1, e2, h]
  refine ⟨by simp [starts], ?_, by simp [starts]⟩
  rw [starts, List.getElem?_cons_succ, starts_eq]; rfl

theorem fullRow_isMat [Zero α] {r c : Nat} (row : List (Nat × α)) (hrow : RowOk c row) (i : Nat)
    (hi : i < r) (cs : List Nat) (ds : List α) (out : Tensor α) (f : Nat → Nat → α)
    (h : IsMat out.dims out.data r c f) :
    ∃ out', fullRow i row.length (row.map (·.1) ++ cs) (row.map (·.2) ++ ds) out = .ok (cs, ds, out') ∧
      IsMat out'.dims out'.data r c fun a b =>
        if a = i ∧ b ∈ row.map (·.1) then look row b else f a b := by
  induction row generalizing out f with
  | nil => exact ⟨out, rfl, h.congr fun a b _ _ => by simp⟩
  | cons p ps ih =>
    have hp := hrow.1
    rw [List.map_cons, List.pairwise_cons] at hp
    obtain ⟨t, e, ht⟩ := Tensor.set2_isMat h i p.1 hi (hrow.2 p (by simp)) p.2
    obtain ⟨out', e', h'⟩ := ih ⟨hp.2, fun q hq => hrow.2 q (List.mem_cons_of_mem _ hq)⟩ t _ ht
    refine ⟨out', ?_, h'.congr ?_⟩
    · rw [List.length_cons, List.map_cons, List.map_cons, List.cons_append, List.cons_append, fullRow,
        e, Res.ok_bind, e']
    · intro a b ha hb
      simp only [look_cons, List.map_cons, List.mem_cons]
      by_cases h1 : a = i
      · subst h1
        by_cases h2 : b ∈ ps.map (·.1)
        · have := hp.1 b h2
          simp [h2, show ¬ p.1 = b by omega]
        · by_cases h3 : b = p.1
          · subst h3; simp [h2]
          · simp [h2, h3]
      · simp [h1]

theorem fullLoop_isMat [Zero α] {r c : Nat} (L : List (List (Nat × α))) (hok : ∀ row ∈ L, RowOk c row)
    (rs : List Nat) (i k : Nat) (hrs : rs.drop i = starts k L) (hi : i + L.length ≤ r) (out : Tensor α)
    (f : Nat → Nat → α) (h : IsMat out.dims out.data r c f) (cs : List Nat) (ds : List α) :
    ∃ out', fullLoop rs i L.length (L.flatten.map (·.1) ++ cs) (L.flatten.map (·.2) ++ ds) out =
        .ok out' ∧
      IsMat out'.dims out'.data r c fun a b =>
        match (if i ≤ a then L[a - i]? else none) with
        | some row => if b ∈ row.map (·.1) then look row b else f a b
        | none => f a b := by
  induction L generalizing i k out f with
  | nil => exact ⟨out, rfl, h.congr fun a b _ _ => by simp⟩
  | cons row L ih =>
    obtain ⟨h1, h2, h3⟩ := drop_starts hrs
    rw [List.length_cons] at hi
    obtain ⟨t, e, ht⟩ := fullRow_isMat row (hok row (by simp)) i (by omega)
      (L.flatten.map (·.1) ++ cs) (L.flatten.map (·.2) ++ ds) out f h
    obtain ⟨out', e', h'⟩ := ih (fun q hq => hok q (List.mem_cons_of_mem _ hq)) (i + 1) _ h3 (by omega) t _ ht
    refine ⟨out', ?_, h'.congr ?_⟩
    · rw [List.length_cons, List.flatten_cons, List.map_append, List.map_append, List.append_assoc,
        List.append_assoc, fullLoop, h1, h2, Res.ofOption_some, Res.ofOption_some, Res.ok_bind,
        Res.ok_bind, if_neg (by omega), show k + row.length - k = row.length by omega, e, Res.ok_bind, e']
    · intro a b ha hb
      by_cases hlt : a < i
      · simp [show ¬ i + 1 ≤ a by omega, show ¬ i ≤ a by omega, show a ≠ i by omega]
      · by_cases heq : a = i
        · subst heq
          rw [if_neg (by omega), if_pos (Nat.le_refl a), Nat.sub_self, List.getElem?_cons_zero]
          by_cases hm : b ∈ row.map (·.1)
          · simp only [hm, and_self, if_true]
          · simp only [hm, and_false, if_false]
        · rw [if_pos (show i + 1 ≤ a by omega), if_pos (show i ≤ a by omega),
            show a - i = (a - (i + 1)) + 1 by omega, List.getElem?_cons_succ]
          cases L[a - (i + 1)]? <;> simp [heq]

/-- C35: the dense matrix of a sparse one has its entries. -/
theorem c35_full [Zero α] (s : Sparse α) (r c : Nat) (f : Nat → Nat → α)
    (h : IsCsr s.rows s.cols s.rowStart s.column s.data r c f) :
    ∃ t, full s = .ok t ∧ IsMat t.dims t.data r c f := by
  obtain ⟨L, hL, hlen, hok, hf⟩ := IsCsr_rows h
  obtain ⟨hr, hc, -, -⟩ := h
  rw [full, hr, hc]
  split
  · obtain ⟨t, e, ht⟩ := fullLoop_isMat L hok s.rowStart 0 0 (by rw [List.drop_zero, hL.2.1])
      (by omega) _ _ (Tensor.fill_isMat r c (0 : α)) [] []
    rw [hlen, List.append_nil, List.append_nil, ← hL.2.2.1, ← hL.2.2.2] at e
    refine ⟨t, e, ht.congr ?_⟩
    intro a b ha hb
    have hrow := List.getElem?_eq_getElem (show a < L.length by omega)
    rw [if_pos (Nat.zero_le a), Nat.sub_zero, hrow]
    simp only
    rw [← hf a b _ hrow hb]
    split
    · rfl
    · rename_i hn
      refine (look_of_not_mem ?_).symm
      intro v hv
      exact hn (List.mem_map_of_mem (f := (·.1)) hv)
  · rename_i hne
    refine ⟨_, rfl, (Tensor.fill_isMat r c (0 : α)).congr ?_⟩
    intro a b ha hb
    exact absurd ⟨by omega, by omega⟩ hne

theorem getLoop_eq [Zero α] (s : Sparse α) (row : List (Nat × α)) (hrow : (row.map (·.1)).Pairwise (· < ·))
    (k : Nat) (hc : ∀ x p, row[x]? = some p → s.column[k + x]? = some p.1 ∧ s.data[k + x]? = some p.2)
    (j : Nat) : getLoop s j k row.length = .ok (look row j) := by
  induction row generalizing k with
  | nil => rfl
  | cons p ps ih =>
    rw [List.map_cons, List.pairwise_cons] at hrow
    obtain ⟨h1, h2⟩ := hc 0 p (by simp)
    rw [Nat.add_zero] at h1 h2
    rw [List.length_cons, getLoop, h1, h2, Res.ofOption_some, Res.ofOption_some, Res.ok_bind, look_cons]
    by_cases he : p.1 = j
    · rw [if_pos (by rw [he]), if_pos he]
    · rw [if_neg (by omega), if_neg he]
      split
      · rename_i hgt
        rw [look_of_not_mem]
        intro v hv
        have := hrow.1 j (List.mem_map_of_mem (f := (·.1)) hv)
        omega
      · apply ih hrow.2
        intro x q hq
        have := hc (x + 1) q (by simpa using hq)
        rw [show k + 1 + x = k + (x + 1) by omega]
        exact this

theorem rows_get {s : Sparse α} {L : List (List (Nat × α))} (hL : HasRows s L) (i : Nat)
    (row : List (Nat × α)) (hi' : L[i]? = some row) :
    ∃ a, s.rowStart[i]? = some a ∧ s.rowStart[i + 1]? = some (a + row.length) ∧
      ∀ x p, row[x]? = some p → s.column[a + x]? = some p.1 ∧ s.data[a + x]? = some p.2 := by
  obtain ⟨hi, rfl⟩ := List.getElem?_eq_some_iff.mp hi'
  obtain ⟨h1, h2, h3, h4⟩ := hL
  have e2 : (L.take (i + 1)).flatten.length = (L.take i).flatten.length + L[i].length := by
    rw [List.take_add_one, List.getElem?_eq_getElem hi, List.flatten_append, List.length_append]
    simp only [Option.toList_some, List.flatten_singleton]
  refine ⟨(L.take i).flatten.length, ?_, ?_, ?_⟩
  · rw [h2, starts_get 0 L i (by omega), Nat.zero_add]
  · rw [h2, starts_get 0 L (i + 1) (by omega), Nat.zero_add, e2]
  · intro x p hx
    have hxl := (List.getElem?_eq_some_iff.mp hx).1
    rw [← flatten_take_drop L i hi, List.getElem?_drop, List.getElem?_take, e2, if_pos (by omega)] at hx
    rw [h3, h4, List.getElem?_map, List.getElem?_map, hx]
    exact ⟨rfl, rfl⟩

/-- C35: access to an element of a sparse matrix, also with negative indices, which count from the
end; the program stops if the indices are out of range. -/
theorem c35_get [Zero α] (s : Sparse α) (r c : Nat) (f : Nat → Nat → α)
    (h : IsCsr s.rows s.cols s.rowStart s.column s.data r c f) (row col : Int) :
    (∀ i j, norm r row = some i → norm c col = some j → s.get row col = .ok (f i j)) ∧
    ((norm r row = none ∨ norm c col = none) → s.get row col = .abort) := by
  obtain ⟨L, hL, hlen, hok, hf⟩ := IsCsr_rows h
  obtain ⟨hr, hc, -, -⟩ := h
  constructor
  · intro i j hi hj
    have hil : i < r := by unfold norm at hi; split at hi <;> simp at hi <;> omega
    have hjl : j < c := by unfold norm at hj; split at hj <;> simp at hj <;> omega
    rw [get, hr, hc, Tensor.normalizeIndex_eq, Tensor.normalizeIndex_eq, hi, hj]
    simp only [Res.ok_bind]
    have hrow := List.getElem?_eq_getElem (show i < L.length by omega)
    obtain ⟨a, h1, h2, h3⟩ := rows_get hL i _ hrow
    rw [show ((i : Int) + 1).toNat = i + 1 by omega, Int.toNat_natCast, h1, h2, Res.ofOption_some,
      Res.ofOption_some, Res.ok_bind, Res.ok_bind, show a + L[i].length - a = L[i].length by omega,
      getLoop_eq s _ (hok _ (List.getElem_mem _)).1 a h3, hf i j _ hrow (by omega)]
  · intro hn
    rw [get, hr, hc, Tensor.normalizeIndex_eq, Tensor.normalizeIndex_eq]
    rcases hn with hn | hn
    · rw [hn]; rfl
    · rw [hn]; cases norm r row <;> rfl

theorem ofTensorRow_eq [Zero α] [DecidableEq α] (t : Tensor α) (r c : Nat) (f : Nat → Nat → α)
    (h : IsMat t.dims t.data r c f) (i j n : Nat) (hi : i < r) (hj : j + n ≤ c) :
    ∃ row, ofTensorRow t i j n = .ok row ∧ (row.map (·.1)).Pairwise (· < ·) ∧
      (∀ p ∈ row, j ≤ p.1 ∧ p.1 < j + n ∧ p.2 = f i p.1 ∧ p.2 ≠ 0) ∧
      (∀ b, j ≤ b → b < j + n → f i b ≠ 0 → (b, f i b) ∈ row) ∧
      row.length = ((List.range' j n).map (f i)).countP fun x => !decide (x = 0) := by
  induction n generalizing j with
  | zero => exact ⟨[], rfl, by simp, by simp, by intros; omega, by simp⟩
  | succ n ih =>
    obtain ⟨row, e, h1, h2, h3, h4⟩ := ih (j + 1) (by omega)
    have hg : t.get2 i j = .ok (f i j) := by
      have := (Tensor.c04_read t (IsMat.wf h) [(i : Int), (j : Int)] (by simp) (by simp)).1 [i, j]
        (by rw [h.1]; exact Tensor.normAll2 hi (by omega))
      obtain ⟨v, e1, e2⟩ := this
      rw [h.2.2 i j hi (by omega)] at e1
      cases e1
      exact e2
    rw [ofTensorRow, hg, Res.ok_bind, e, Res.ok_bind, List.range'_succ]
    by_cases h0 : f i j = 0
    · refine ⟨row, by rw [if_pos h0]; rfl, h1, ?_, ?_, ?_⟩
      · intro p hp; obtain ⟨a1, a2, a3⟩ := h2 p hp; exact ⟨by omega, by omega, a3⟩
      · intro b hb1 hb2 hb3
        by_cases hbj : b = j
        · subst hbj; exact absurd h0 hb3
        · exact h3 b (by omega) (by omega) hb3
      · rw [h4, List.map_cons, List.countP_cons]; simp [h0]
    · refine ⟨(j, f i j) :: row, by rw [if_neg h0]; rfl, ?_, ?_, ?_, ?_⟩
      · rw [List.map_cons, List.pairwise_cons]
        refine ⟨fun b hb => ?_, h1⟩
        obtain ⟨p, hp, rfl⟩ := List.mem_map.mp hb
        have := (h2 p hp).1
        show j < p.1
        omega
      · intro p hp
        rcases List.mem_cons.mp hp with rfl | hp
        · exact ⟨le_refl _, by omega, rfl, h0⟩
        · obtain ⟨a1, a2, a3⟩ := h2 p hp; exact ⟨by omega, by omega, a3⟩
      · intro b hb1 hb2 hb3
        by_cases hbj : b = j
        · subst hbj; simp
        · exact List.mem_cons_of_mem _ (h3 b (by omega) (by omega) hb3)
      · rw [List.length_cons, h4, List.map_cons, List.countP_cons]; simp [h0]

theorem countP_range (n : Nat) (g : Nat → β) (q : β → Bool) :
    ((List.range n).map g).countP q = ∑ k ∈ Finset.range n, if q (g k) then 1 else 0 := by
  induction n with
  | zero => rfl
  | succ n ih =>
    rw [List.range_succ, List.map_append, List.countP_append, ih, Finset.sum_range_succ]
    simp [List.countP_cons]

theorem data_eq_range {t : Tensor α} {r c : Nat} {f : Nat → Nat → α}
    (h : IsMat t.dims t.data r c f) :
    t.data = (List.range (r * c)).map fun p => f (p % r) (p / r) := by
  apply List.ext_getElem?
  intro p
  by_cases hp : p < r * c
  · have hr : 0 < r := Nat.pos_of_ne_zero (by rintro rfl; simp at hp)
    have h1 := Nat.mod_lt p hr
    have h2 : p / r < c := Nat.div_lt_of_lt_mul hp
    have := Tensor.isMat_pos h h1 h2
    rw [Nat.mod_add_div] at this
    rw [this, List.getElem?_map, List.getElem?_range hp]; rfl
  · rw [List.getElem?_eq_none (by rw [h.2.1]; omega), List.getElem?_eq_none (by simp; omega)]

/-- C35: conversion of a matrix to a sparse matrix: it has the same entries, and only those which are
not zero are stored. -/
theorem c35_sparse [Zero α] [DecidableEq α] (t : Tensor α) (r c : Nat) (f : Nat → Nat → α)
    (h : IsMat t.dims t.data r c f) :
    ∃ s, ofTensor t = .ok s ∧ IsCsr s.rows s.cols s.rowStart s.column s.data r c f ∧
      ∀ v ∈ s.data, v ≠ 0 := by
  have hex : ∀ i, ∃ row, i < r → ofTensorRow t i 0 c = .ok row ∧ (row.map (·.1)).Pairwise (· < ·) ∧
      (∀ p ∈ row, p.1 < c ∧ p.2 = f i p.1 ∧ p.2 ≠ 0) ∧
      (∀ b, b < c → f i b ≠ 0 → (b, f i b) ∈ row) ∧
      row.length = ((List.range c).map (f i)).countP fun x => !decide (x = 0) := by
    intro i
    by_cases hi : i < r
    · obtain ⟨row, e, h1, h2, h3, h4⟩ := ofTensorRow_eq t r c f h i 0 c hi (by omega)
      refine ⟨row, fun _ => ⟨e, h1, ?_, ?_, by rw [h4, List.range_eq_range']⟩⟩
      · intro p hp; obtain ⟨-, a, b⟩ := h2 p hp; exact ⟨by omega, b⟩
      · intro b hb; exact h3 b (by omega) (by omega)
    · exact ⟨[], fun h => absurd h hi⟩
  choose g hg using hex
  have hcol := collect_ok (fun i => ofTensorRow t i 0 c) g 0 r
    (fun k _ hk => (hg k (by omega)).1)
  rw [← List.range_eq_range'] at hcol
  generalize hL : (List.range r).map g = L at hcol
  have hLlen : L.length = r := by rw [← hL]; simp
  have hcount : t.data.countP (fun x => !decide (x = 0)) = L.flatten.length := by
    rw [data_eq_range h, countP_range, sum_range_mul, Finset.sum_comm, List.length_flatten, ← hL,
      List.map_map]
    have : ((List.range r).map (List.length ∘ g)).sum = ∑ i ∈ Finset.range r, (g i).length := rfl
    rw [this]
    apply Finset.sum_congr rfl
    intro i hi
    have hi := Finset.mem_range.mp hi
    rw [(hg i hi).2.2.2.2, countP_range]
    apply Finset.sum_congr rfl
    intro j hj
    have hr : 0 < r := by omega
    rw [Nat.add_mul_mod_self_left, Nat.mod_eq_of_lt hi, Nat.add_mul_div_left _ _ hr,
      Nat.div_eq_of_lt hi, Nat.zero_add]
  have hof : ofTensor t = .ok ⟨r, c, starts 0 L, L.flatten.map (·.1), L.flatten.map (·.2)⟩ := by
    rw [ofTensor, h.1]
    simp only
    rw [hcol, Res.ok_bind, hcount]
    rw [runWrites_seq' _ _ (L.flatten.map (·.2)) (by rw [List.map_map]; rfl) (by rw [List.length_map]),
      Res.ok_bind,
      runWrites_seq' _ _ (L.flatten.map (·.1)) (by rw [List.map_map]; rfl) (by rw [List.length_map]),
      Res.ok_bind, ← starts_eq, runWrites_seq' _ _ (starts 0 L) rfl (by rw [starts_length, hLlen]),
      Res.ok_bind]
    rfl
  have hrow : ∀ i row, L[i]? = some row → i < r ∧ row = g i := by
    intro i row hi
    have hlt := (List.getElem?_eq_some_iff.mp hi).1
    rw [hLlen] at hlt
    rw [← hL, List.getElem?_map, List.getElem?_range hlt] at hi
    exact ⟨hlt, (Option.some.inj hi).symm⟩
  refine ⟨_, hof, isCsr_of_rows (L := L) ⟨hLlen, rfl, rfl, rfl⟩ ?_ rfl rfl ?_, ?_⟩
  · intro row hm
    obtain ⟨i, hi⟩ := List.mem_iff_getElem?.mp hm
    obtain ⟨h1, rfl⟩ := hrow i row hi
    exact ⟨(hg i h1).2.1, fun p hp => ((hg i h1).2.2.1 p hp).1⟩
  · intro i j row hi hj
    obtain ⟨h1, rfl⟩ := hrow i row hi
    obtain ⟨-, a1, a2, a3, -⟩ := hg i h1
    by_cases h0 : f i j = 0
    · rw [h0, look_of_not_mem]
      intro v hv
      obtain ⟨-, b2, b3⟩ := a2 _ hv
      exact b3 (b2.trans h0)
    · exact (look_of_mem a1 (a3 j hj h0)).symm
  · intro v hv
    obtain ⟨p, hp, rfl⟩ := List.mem_map.mp hv
    obtain ⟨row, hm, hp⟩ := List.mem_flatten.mp hp
    obtain ⟨i, hi⟩ := List.mem_iff_getElem?.mp hm
    obtain ⟨h1, rfl⟩ := hrow i row hi
    exact ((hg i h1).2.2.1 p hp).2.2

/-- C35: full(Sparse(t)) = t, and the elements of Sparse(t) are those of t. -/
theorem c35_round_trip [Zero α] [DecidableEq α] (t : Tensor α) (wf : t.WF) (r c : Nat)
    (hd : t.dims = [r, c]) :
    ∃ s, ofTensor t = .ok s ∧ full s = .ok t ∧ (∀ v ∈ s.data, v ≠ 0) ∧
      ∀ i j : Int, s.get i j = t.get2 i j := by
  obtain ⟨f, hf⟩ := Tensor.exists_isMat t wf r c hd
  obtain ⟨s, e, hs, hz⟩ := c35_sparse t r c f hf
  obtain ⟨t', e', ht'⟩ := c35_full s r c f hs
  refine ⟨s, e, ?_, hz, ?_⟩
  · rw [e', IsMat.unique ht' hf fun i j _ _ => rfl]
  · intro i j
    have hg := c35_get s r c f hs i j
    have ht := Tensor.c04_read t wf [i, j] (by simp) (by simp)
    rw [hd] at ht
    rw [normAll] at ht
    cases hi : norm r i with
    | none =>
      rw [hg.2 (Or.inl hi)]
      exact (ht.2 (by simp [hi])).symm
    | some a =>
      cases hj : norm c j with
      | none =>
        rw [hg.2 (Or.inr hj)]
        exact (ht.2 (by simp [normAll, hj])).symm
      | some b =>
        rw [hg.1 a b hi hj]
        obtain ⟨v, e1, e2⟩ := ht.1 [a, b] (by simp [normAll, hi, hj])
        have ha : a < r := by unfold norm at hi; split at hi <;> simp at hi <;> omega
        have hb : b < c := by unfold norm at hj; split at hj <;> simp at hj <;> omega
        have := hf.2.2 a b ha hb
        rw [hd, e1] at this
        cases this
        exact e2.symm

theorem row_unique {row row' : List (Nat × α)} (h : (row.map (·.1)).Pairwise (· < ·))
    (h' : (row'.map (·.1)).Pairwise (· < ·)) (e : ∀ p, p ∈ row ↔ p ∈ row') : row = row' := by
  rw [List.pairwise_map] at h h'
  have : Std.Asymm (fun p q : Nat × α => p.1 < q.1) := ⟨fun p q h => by omega⟩
  have : Std.Irrefl (fun p q : Nat × α => p.1 < q.1) := ⟨fun p => by omega⟩
  exact List.Pairwise.eq_of_mem_iff h h' e

/-- Two sparse matrices with the same entries, in which no zeros are stored, are equal. -/
theorem csr_unique [Zero α] {s s' : Sparse α} {r c : Nat} {f : Nat → Nat → α}
    (h : IsCsr s.rows s.cols s.rowStart s.column s.data r c f)
    (h' : IsCsr s'.rows s'.cols s'.rowStart s'.column s'.data r c f)
    (hz : ∀ v ∈ s.data, v ≠ 0) (hz' : ∀ v ∈ s'.data, v ≠ 0) : s = s' := by
  obtain ⟨L, hL, hlen, hok, hf⟩ := IsCsr_rows h
  obtain ⟨L', hL', hlen', hok', hf'⟩ := IsCsr_rows h'
  have key : ∀ {s : Sparse α} {L : List (List (Nat × α))}, HasRows s L → (∀ v ∈ s.data, v ≠ 0) →
      (∀ row ∈ L, RowOk c row) → (∀ i j row, L[i]? = some row → j < c → look row j = f i j) →
      ∀ i row, L[i]? = some row → ∀ p, p ∈ row ↔ (p.1 < c ∧ f i p.1 = p.2 ∧ p.2 ≠ 0) := by
    intro s L hL hz hok hf i row hi p
    have hm := List.mem_of_getElem? hi
    have hro := hok _ hm
    constructor
    · intro hp
      have hc := hro.2 p hp
      refine ⟨hc, ?_, ?_⟩
      · rw [← hf i p.1 row hi hc]; exact look_of_mem hro.1 hp
      · apply hz
        rw [hL.2.2.2]
        exact List.mem_map_of_mem (List.mem_flatten_of_mem hm hp)
    · rintro ⟨h1, h2, h3⟩
      by_contra hn
      rw [← hf i p.1 row hi h1] at h2
      apply h3
      rw [← h2]
      by_cases hm : ∃ v, (p.1, v) ∈ row
      · obtain ⟨v, hv⟩ := hm
        have := look_of_mem hro.1 hv
        rw [h2] at this
        subst this
        exact absurd hv hn
      · push Not at hm
        exact look_of_not_mem hm
  have e : L = L' := by
    apply List.ext_getElem (by omega)
    intro i h1 h2
    have g1 := List.getElem?_eq_getElem h1
    have g2 := List.getElem?_eq_getElem h2
    apply row_unique (hok _ (List.getElem_mem _)).1 (hok' _ (List.getElem_mem _)).1
    intro p
    rw [key hL hz hok hf i _ g1, key hL' hz' hok' hf' i _ g2]
  subst e
  obtain ⟨r1, c1, -, -⟩ := h
  obtain ⟨r2, c2, -, -⟩ := h'
  obtain ⟨a1, a2, a3, a4⟩ := hL
  obtain ⟨b1, b2, b3, b4⟩ := hL'
  cases s; cases s'
  simp only at *
  subst a2 a3 a4 b2 b3 b4 r1 c1 r2 c2
  rfl

theorem exists_isCsr [Zero α] (s : Sparse α)
    (h : ValidCsr s.rows s.cols s.rowStart s.column s.data) :
    ∃ f, IsCsr s.rows s.cols s.rowStart s.column s.data s.rows s.cols f := by
  obtain ⟨L, hL, hok⟩ := (valid_iff s).mp h
  exact ⟨fun i j => look (L.getD i []) j, isCsr_of_rows hL hok rfl rfl fun i j row hi _ => by
    rw [List.getD_eq_getElem?_getD, hi]; rfl⟩

/-- C35: Sparse(full(s)) = s if no zeros are stored. -/
theorem c35_full_sparse [Zero α] [DecidableEq α] (s : Sparse α)
    (h : ValidCsr s.rows s.cols s.rowStart s.column s.data) (hz : ∀ v ∈ s.data, v ≠ 0) :
    ∃ t, full s = .ok t ∧ ofTensor t = .ok s := by
  obtain ⟨f, hf⟩ := exists_isCsr s h
  obtain ⟨t, e, ht⟩ := c35_full s _ _ f hf
  obtain ⟨s', e', hs', hz'⟩ := c35_sparse t _ _ f ht
  exact ⟨t, e, by rw [e', csr_unique hf hs' hz hz']⟩

/-- Cases in which the hypotheses hold. -/
example : IsMat [2, 2] ([0, 3, 4, 0] : List Int) 2 2 fun i j => if i = j then 0 else if i = 1 then 3 else 4 :=
  ⟨rfl, rfl, by
    intro i j hi hj
    have hi : i = 0 ∨ i = 1 := by omega
    have hj : j = 0 ∨ j = 1 := by omega
    rcases hi with rfl | rfl <;> rcases hj with rfl | rfl <;> rfl⟩

example : ValidCsr 2 2 [0, 1, 2] [1, 0] ([3, 4] : List Int) where
  len := rfl
  first := rfl
  mono := by decide
  last := rfl
  data := rfl
  incr := by
    intro i a b ha hb
    match i, ha, hb with
    | 0, ha, hb => cases ha; cases hb; decide
    | 1, ha, hb => cases ha; cases hb; decide
    | i + 2, ha, hb => simp at hb
  range := by decide

end Verif.Sparse
