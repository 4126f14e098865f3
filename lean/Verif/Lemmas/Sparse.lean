import Mathlib.Data.List.Basic
import Verif.Spec.Sparse
import Verif.Lemmas.Modify
import Verif.Lemmas.Matrix
import Verif.Model.Sparse
/-
Sparse matrices as lists of rows.
-/
namespace Verif.Sparse

open Verif Verif.Spec

variable {α β : Type}

/-- Row pointers of a list of rows. -/
def starts (k : Nat) : List (List β) → List Nat
  | [] => [k]
  | r :: rs => k :: starts (k + r.length) rs

theorem starts_eq (k : Nat) (L : List (List β)) : starts k L = k :: rowEnds k L := by
  induction L generalizing k with
  | nil => rfl
  | cons r rs ih => rw [starts, ih, rowEnds]

@[simp] theorem starts_length (k : Nat) (L : List (List β)) : (starts k L).length = L.length + 1 := by
  induction L generalizing k with
  | nil => rfl
  | cons r rs ih => simp [starts, ih]

theorem starts_get (k : Nat) (L : List (List β)) (i : Nat) (hi : i ≤ L.length) :
    (starts k L)[i]? = some (k + (L.take i).flatten.length) := by
  induction L generalizing k i with
  | nil => have : i = 0 := by simpa using hi
           subst this; simp [starts]
  | cons r rs ih =>
    cases i with
    | zero => simp [starts]
    | succ i =>
      rw [starts, List.getElem?_cons_succ, ih _ _ (by simpa using hi)]
      simp [Nat.add_assoc]

theorem starts_none (k : Nat) (L : List (List β)) (i : Nat) (hi : L.length < i) :
    (starts k L)[i]? = none := by
  rw [List.getElem?_eq_none_iff, starts_length]; omega

theorem starts_ge (k : Nat) (L : List (List β)) : ∀ x ∈ starts k L, k ≤ x := by
  induction L generalizing k with
  | nil => simp [starts]
  | cons r rs ih =>
    intro x hx
    rw [starts, List.mem_cons] at hx
    rcases hx with rfl | hx
    · exact le_refl _
    · have := ih _ x hx; omega

theorem starts_mono (k : Nat) (L : List (List β)) : (starts k L).Pairwise (· ≤ ·) := by
  induction L generalizing k with
  | nil => simp [starts]
  | cons r rs ih =>
    rw [starts, List.pairwise_cons]
    refine ⟨fun x hx => ?_, ih _⟩
    have := starts_ge _ _ x hx; omega

theorem starts_last (k : Nat) (L : List (List β)) :
    (starts k L).getLast? = some (k + L.flatten.length) := by
  induction L generalizing k with
  | nil => simp [starts]
  | cons r rs ih =>
    rw [starts, List.getLast?_cons, ih]; simp [Nat.add_assoc]

/-- Cut a list into rows, given the row pointers. -/
def cut : List Nat → List β → List (List β)
  | a :: b :: rest, l => l.take (b - a) :: cut (b :: rest) (l.drop (b - a))
  | _, _ => []

theorem cut_spec (rs : List Nat) (a : Nat) (l : List β) (hm : (a :: rs).Pairwise (· ≤ ·))
    (hl : (a :: rs).getLast? = some (a + l.length)) :
    starts a (cut (a :: rs) l) = a :: rs ∧ (cut (a :: rs) l).flatten = l ∧
      (cut (a :: rs) l).length = rs.length := by
  induction rs generalizing a l with
  | nil =>
    simp only [List.getLast?_singleton, Option.some.injEq] at hl
    have : l = [] := List.eq_nil_of_length_eq_zero (by omega)
    subst this
    simp [cut, starts]
  | cons b rest ih =>
    rw [List.pairwise_cons] at hm
    have hab : a ≤ b := hm.1 b (by simp)
    have hlast : b ≤ a + l.length := by
      rw [List.getLast?_cons_cons] at hl
      have hmem := List.mem_of_getLast? hl
      rcases List.mem_cons.mp hmem with h | h
      · omega
      · exact (List.pairwise_cons.mp hm.2).1 _ h
    obtain ⟨h1, h2, h3⟩ := ih b (l.drop (b - a)) hm.2 (by
      rw [List.getLast?_cons_cons] at hl
      rw [hl, List.length_drop]; congr 1; omega)
    refine ⟨?_, ?_, ?_⟩
    · rw [cut, starts, List.length_take, Nat.min_eq_left (by omega),
        show a + (b - a) = b by omega, h1]
    · rw [cut, List.flatten_cons, h2, List.take_append_drop]
    · rw [cut, List.length_cons, h3, List.length_cons]

/-- The arrays of a sparse matrix contain the rows `L`. -/
def HasRows (s : Sparse α) (L : List (List (Nat × α))) : Prop :=
  L.length = s.rows ∧ s.rowStart = starts 0 L ∧ s.column = L.flatten.map (·.1) ∧
    s.data = L.flatten.map (·.2)

/-- The columns of a row increase and are in range. -/
def RowOk (cols : Nat) (row : List (Nat × α)) : Prop :=
  (row.map (·.1)).Pairwise (· < ·) ∧ ∀ p ∈ row, p.1 < cols

theorem flatten_take_drop (L : List (List β)) (i : Nat) (hi : i < L.length) :
    (L.flatten.take (L.take (i + 1)).flatten.length).drop (L.take i).flatten.length = L[i] := by
  have e : L = L.take i ++ L[i] :: L.drop (i + 1) := by
    rw [← List.drop_eq_getElem_cons hi, List.take_append_drop]
  have e1 : L.flatten = (L.take i).flatten ++ (L[i] ++ (L.drop (i + 1)).flatten) := by
    have := congrArg List.flatten e
    rw [List.flatten_append, List.flatten_cons] at this
    exact this
  have e2 : (L.take (i + 1)).flatten.length = (L.take i).flatten.length + L[i].length := by
    rw [List.take_add_one, List.getElem?_eq_getElem hi, List.flatten_append, List.length_append]
    simp only [Option.toList_some, List.flatten_singleton]
  rw [e2, e1, List.take_length_add_append, List.drop_left' rfl, List.take_left' rfl]

theorem valid_iff (s : Sparse α) :
    ValidCsr s.rows s.cols s.rowStart s.column s.data ↔
      ∃ L, HasRows s L ∧ ∀ row ∈ L, RowOk s.cols row := by
  constructor
  · intro h
    have hz : (s.column.zip s.data).length = s.column.length := by
      rw [List.length_zip, h.data]; simp
    obtain ⟨rs, hrs⟩ : ∃ rs, s.rowStart = 0 :: rs := by
      have := h.first
      cases hr : s.rowStart with
      | nil => simp [hr] at this
      | cons a rs => rw [hr] at this; simp only [List.head?_cons, Option.some.injEq] at this
                     subst this; exact ⟨rs, rfl⟩
    have hm := h.mono
    have hl := h.last
    have hlen := h.len
    rw [hrs] at hm hl hlen
    obtain ⟨h1, h2, h3⟩ := cut_spec rs 0 (s.column.zip s.data) hm (by rw [hl, hz]; simp)
    have hL : HasRows s (cut (0 :: rs) (s.column.zip s.data)) := by
      refine ⟨by rw [h3]; simpa using hlen, by rw [h1, hrs], ?_, ?_⟩
      · rw [h2]; exact (List.map_fst_zip (by rw [h.data])).symm
      · rw [h2]; exact (List.map_snd_zip (by rw [h.data])).symm
    refine ⟨_, hL, ?_⟩
    intro row hrow
    obtain ⟨i, hi, rfl⟩ := List.getElem_of_mem hrow
    generalize hLL : cut (0 :: rs) (s.column.zip s.data) = L at *
    constructor
    · have hi' := h.incr i _ _ (by rw [hL.2.1]; exact starts_get 0 L i (by omega))
        (by rw [hL.2.1]; exact starts_get 0 L (i + 1) (by omega))
      rw [hL.2.2.1, ← List.map_take, ← List.map_drop] at hi'
      simpa only [Nat.zero_add, flatten_take_drop L i hi] using hi'
    · intro p hp
      apply h.range
      rw [hL.2.2.1]
      exact List.mem_map_of_mem (List.mem_flatten_of_mem hrow hp)
  · rintro ⟨L, ⟨h1, h2, h3, h4⟩, hok⟩
    refine ⟨?_, ?_, ?_, ?_, ?_, ?_, ?_⟩
    · rw [h2, starts_length, h1]
    · rw [h2, starts_eq]; rfl
    · rw [h2]; exact starts_mono 0 L
    · rw [h2, starts_last, h3, List.length_map, Nat.zero_add]
    · rw [h3, h4, List.length_map, List.length_map]
    · intro i a b ha hb
      rw [h2] at ha hb
      by_cases hi : i < L.length
      · rw [starts_get 0 L i (by omega)] at ha
        rw [starts_get 0 L (i + 1) (by omega)] at hb
        simp only [Nat.zero_add, Option.some.injEq] at ha hb
        rw [h3, ← ha, ← hb, ← List.map_take, ← List.map_drop, flatten_take_drop L i hi]
        exact (hok _ (List.getElem_mem hi)).1
      · rw [starts_none 0 L (i + 1) (by omega)] at hb
        simp at hb
    · intro c hc
      rw [h3, List.mem_map] at hc
      obtain ⟨p, hp, rfl⟩ := hc
      obtain ⟨row, hr, hp⟩ := List.mem_flatten.mp hp
      exact (hok row hr).2 p hp

/-- What is stored in the arrays are the elements of the rows. -/
theorem stored_iff {s : Sparse α} {L : List (List (Nat × α))} (h : HasRows s L) (i j : Nat) (v : α) :
    Stored s.rowStart s.column s.data i j v ↔ ∃ row, L[i]? = some row ∧ (j, v) ∈ row := by
  obtain ⟨h1, h2, h3, h4⟩ := h
  constructor
  · rintro ⟨a, b, k, ha, hb, hak, hkb, hc, hd⟩
    rw [h2] at ha hb
    have hi : i < L.length := by
      by_contra hi
      rw [starts_none 0 L (i + 1) (by omega)] at hb
      simp at hb
    rw [starts_get 0 L i (by omega)] at ha
    rw [starts_get 0 L (i + 1) (by omega)] at hb
    simp only [Nat.zero_add, Option.some.injEq] at ha hb
    refine ⟨L[i], List.getElem?_eq_getElem hi, ?_⟩
    rw [h3, List.getElem?_map, Option.map_eq_some_iff] at hc
    rw [h4, List.getElem?_map, Option.map_eq_some_iff] at hd
    obtain ⟨p, hp, rfl⟩ := hc
    obtain ⟨q, hq, rfl⟩ := hd
    rw [hp] at hq
    cases hq
    rw [← flatten_take_drop L i hi, hb, ha, List.mem_iff_getElem?]
    refine ⟨k - a, ?_⟩
    rw [List.getElem?_drop, show a + (k - a) = k by omega, List.getElem?_take, if_pos hkb, hp]
  · rintro ⟨row, hrow, hm⟩
    obtain ⟨hi, rfl⟩ := List.getElem?_eq_some_iff.mp hrow
    rw [← flatten_take_drop L i hi] at hm
    obtain ⟨k, hk⟩ := List.mem_iff_getElem?.mp hm
    rw [List.getElem?_drop, List.getElem?_take] at hk
    split at hk
    · rename_i hlt
      refine ⟨_, _, (L.take i).flatten.length + k, by rw [h2]; exact starts_get 0 L i (by omega),
        by rw [h2]; exact starts_get 0 L (i + 1) (by omega), ?_, ?_, ?_, ?_⟩
      · omega
      · omega
      · rw [h3, List.getElem?_map, hk]; rfl
      · rw [h4, List.getElem?_map, hk]; rfl
    · simp at hk

/-- The entry in column j of a row. -/
def look [Zero α] (row : List (Nat × α)) (j : Nat) : α :=
  match row.find? (fun p => p.1 == j) with
  | some p => p.2
  | none => 0

theorem look_nil [Zero α] (j : Nat) : look ([] : List (Nat × α)) j = 0 := rfl

theorem look_cons [Zero α] (p : Nat × α) (row : List (Nat × α)) (j : Nat) :
    look (p :: row) j = if p.1 = j then p.2 else look row j := by
  by_cases h : p.1 = j
  · simp [look, h]
  · simp [look, h]

theorem look_of_mem [Zero α] {row : List (Nat × α)} {j : Nat} {v : α}
    (h : (row.map (·.1)).Pairwise (· < ·)) (hm : (j, v) ∈ row) : look row j = v := by
  induction row with
  | nil => simp at hm
  | cons p ps ih =>
    rw [List.map_cons, List.pairwise_cons] at h
    rw [look_cons]
    rcases List.mem_cons.mp hm with rfl | hm
    · simp
    · have := h.1 j (List.mem_map_of_mem (f := (·.1)) hm)
      rw [if_neg (by omega), ih h.2 hm]

theorem look_of_not_mem [Zero α] {row : List (Nat × α)} {j : Nat} (h : ∀ v, (j, v) ∉ row) :
    look row j = 0 := by
  induction row with
  | nil => rfl
  | cons p ps ih =>
    rw [look_cons, if_neg, ih]
    · intro v hv; exact h v (List.mem_cons_of_mem _ hv)
    · intro e; exact h p.2 (by rw [← e]; simp)

/-- A sparse matrix with the rows `L`. -/
theorem isCsr_of_rows [Zero α] {s : Sparse α} {L : List (List (Nat × α))} (h : HasRows s L)
    (hok : ∀ row ∈ L, RowOk s.cols row) {r c : Nat} {f : Nat → Nat → α} (hr : s.rows = r)
    (hc : s.cols = c) (hf : ∀ i j row, L[i]? = some row → j < c → f i j = look row j) :
    IsCsr s.rows s.cols s.rowStart s.column s.data r c f := by
  refine ⟨hr, hc, (valid_iff s).mpr ⟨L, h, hok⟩, ?_⟩
  intro i j hi hj
  have hiL : i < L.length := by rw [h.1, hr]; exact hi
  have hrow := List.getElem?_eq_getElem hiL
  rw [hf i j _ hrow hj]
  have hro := hok _ (List.getElem_mem hiL)
  by_cases hm : ∃ v, (j, v) ∈ L[i]
  · obtain ⟨v, hv⟩ := hm
    left
    rw [stored_iff h]
    exact ⟨_, hrow, by rw [look_of_mem hro.1 hv]; exact hv⟩
  · right
    push Not at hm
    refine ⟨look_of_not_mem hm, ?_⟩
    intro v hv
    rw [stored_iff h] at hv
    obtain ⟨row, hr', hv⟩ := hv
    rw [hrow] at hr'
    cases hr'
    exact hm v hv

theorem IsCsr_rows [Zero α] {s : Sparse α} {r c : Nat} {f : Nat → Nat → α}
    (h : IsCsr s.rows s.cols s.rowStart s.column s.data r c f) :
    ∃ L, HasRows s L ∧ L.length = r ∧ (∀ row ∈ L, RowOk c row) ∧
      ∀ i j row, L[i]? = some row → j < c → look row j = f i j := by
  obtain ⟨hr, hc, hv, hf⟩ := h
  obtain ⟨L, hL, hok⟩ := (valid_iff s).mp hv
  refine ⟨L, hL, by rw [hL.1, hr], by rw [← hc]; exact hok, ?_⟩
  intro i j row hrow hj
  obtain ⟨hi, rfl⟩ := List.getElem?_eq_some_iff.mp hrow
  rcases hf i j (by rw [← hr, ← hL.1]; exact hi) hj with hs | ⟨h0, hn⟩
  · rw [stored_iff hL] at hs
    obtain ⟨row, hr', hs⟩ := hs
    rw [hrow] at hr'
    cases hr'
    exact look_of_mem (hok _ (List.getElem_mem hi)).1 hs
  · rw [h0]
    apply look_of_not_mem
    intro v hv
    exact hn v ((stored_iff hL i j v).mpr ⟨_, hrow, hv⟩)

theorem collect_ok {β : Type} (f : Nat → Res β) (g : Nat → β) (i n : Nat)
    (h : ∀ k, i ≤ k → k < i + n → f k = .ok (g k)) :
    collect f i n = .ok ((List.range' i n).map g) := by
  induction n generalizing i with
  | zero => rfl
  | succ n ih =>
    rw [collect, h i (by omega) (by omega), Res.ok_bind, ih (i + 1) (fun k h1 h2 => h k (by omega) (by omega))]
    rfl

theorem collect_list {β : Type} (f : Nat → Res β) (L : List β) (i : Nat)
    (h : ∀ k x, L[k]? = some x → f (i + k) = .ok x) : collect f i L.length = .ok L := by
  induction L generalizing i with
  | nil => rfl
  | cons x xs ih =>
    rw [List.length_cons, collect]
    have := h 0 x (by simp)
    rw [Nat.add_zero] at this
    rw [this, Res.ok_bind, ih (i + 1)]
    · rfl
    · intro k y hk
      have := h (k + 1) y (by simpa using hk)
      rw [← this]; congr 1; omega

end Verif.Sparse
