import Verif.Core.Modify
import Verif.Lemmas.Res
import Verif.Lemmas.Index
import Verif.Lemmas.Loop
/-
Lemmas about buffers modified in place.
-/
namespace Verif

open Spec

variable {α β : Type}

theorem writeAll_append (buf : List (Option α)) (w1 w2 : List (Nat × Option α)) :
    writeAll buf (w1 ++ w2) = writeAll buf w1 >>= fun b => writeAll b w2 := by
  induction w1 generalizing buf with
  | nil => rfl
  | cons w ws ih =>
    obtain ⟨p, v⟩ := w
    cases v with
    | none => rfl
    | some v =>
      simp only [List.cons_append, writeAll]
      by_cases h : p < buf.length
      · simp [h, ih]
      · simp [h]

theorem writeAll_seq (vals : List α) (pre mid post : List (Option α))
    (h : mid.length = vals.length) :
    writeAll (pre ++ (mid ++ post)) (seqFrom pre.length (vals.map some)) =
      .ok (pre ++ (vals.map some ++ post)) := by
  induction vals generalizing pre mid with
  | nil =>
    cases mid with
    | nil => rfl
    | cons => simp at h
  | cons v vs ih =>
    cases mid with
    | nil => simp at h
    | cons m ms =>
      simp only [List.length_cons, Nat.add_right_cancel_iff] at h
      simp only [List.map_cons, seqFrom, writeAll]
      rw [if_pos (by simp)]
      have := ih (pre ++ [some v]) ms h
      simp only [List.length_append, List.length_singleton] at this
      rw [show (pre ++ (m :: ms ++ post)).set pre.length (some v) =
        pre ++ [some v] ++ (ms ++ post) by simp, this]
      simp

theorem runWrites_seq (l : List α) : runWrites l.length (seqFrom 0 (l.map some)) = .ok l := by
  have := writeAll_seq l [] (List.replicate l.length none) [] (by simp)
  simp only [List.nil_append, List.append_nil, List.length_nil] at this
  rw [runWrites, this, Res.ok_bind, finish_map_some]

theorem runWrites_seq' (n : Nat) (vals : List (Option α)) (l : List α) (h : vals = l.map some)
    (hn : n = l.length) : runWrites n (seqFrom 0 vals) = .ok l := by
  subst h hn; exact runWrites_seq l

/-- Result of modifying a buffer with a source which does not change: each position gets the
modifications which are addressed to it, in their order. -/
theorem modLoop_get (f : α → β → α) (src : List β) (ss : List (Nat × Nat)) (buf : List α)
    (h : ∀ s ∈ ss, s.1 < buf.length ∧ s.2 < src.length) :
    ∃ l, modLoop f (fun _ => src) ss buf = .ok l ∧ l.length = buf.length ∧
      ∀ p x, buf[p]? = some x →
        l[p]? = some ((((ss.filter fun s => s.1 = p).filterMap fun s => src[s.2]?)).foldl f x) := by
  induction ss generalizing buf with
  | nil => exact ⟨buf, rfl, rfl, fun p x hx => by simpa using hx⟩
  | cons s ss ih =>
    obtain ⟨p, q⟩ := s
    obtain ⟨hp, hq⟩ := h (p, q) (by simp)
    simp only at hp hq
    obtain ⟨l, e, hl, hget⟩ := ih (buf.set p (f buf[p] src[q])) (by
      intro s hs
      have := h s (by simp [hs])
      simpa using this)
    refine ⟨l, ?_, by simpa using hl, ?_⟩
    · simp [modLoop, hp, hq, e]
    · intro p' x hx
      by_cases hpp : p = p'
      · subst hpp
        have hx' : x = buf[p] := by
          rw [List.getElem?_eq_getElem hp] at hx; simpa using hx.symm
        subst hx'
        rw [hget p (f buf[p] src[q]) (by simp [hp])]
        simp [hq]
      · rw [hget p' x (by simp [List.getElem?_set_ne hpp, hx])]
        simp [hpp]

theorem flatMap_range_single (n i : Nat) (hi : i < n) (g : Nat → List β)
    (h : ∀ j < n, j ≠ i → g j = []) : (List.range n).flatMap g = g i := by
  induction n with
  | zero => omega
  | succ n ih =>
    rw [List.range_succ, List.flatMap_append, List.flatMap_singleton]
    by_cases hin : i = n
    · subst hin
      have : (List.range i).flatMap g = [] := by
        rw [List.flatMap_eq_nil_iff]
        intro j hj
        have := List.mem_range.1 hj
        exact h j (by omega) (by omega)
      rw [this, List.nil_append]
    · rw [ih (by omega) (fun j hj hne => h j (by omega) hne), h n (by omega) (Ne.symm hin),
        List.append_nil]

theorem map_eq_flatMap_single (n : Nat) (g : Nat → β) :
    (List.range n).map g = (List.range n).flatMap fun i => [g i] := by
  induction n with
  | zero => rfl
  | succ n ih => rw [List.range_succ, List.map_append, List.flatMap_append, ih]; simp

theorem foldl_add_range [AddCommMonoid α] (n : Nat) (g : Nat → α) (z : α) :
    ((List.range n).map g).foldl (· + ·) z = z + ∑ i ∈ Finset.range n, g i := by
  induction n with
  | zero => simp
  | succ n ih =>
    rw [List.range_succ, List.map_append, List.foldl_append, ih, Finset.sum_range_succ]
    simp [add_assoc]

theorem accum_range [AddCommMonoid α] (n : Nat) (v : Nat → Option α) (g : Nat → α) (z : α)
    (h : ∀ i < n, v i = some (g i)) :
    accum z ((List.range n).map v) = some (z + ∑ i ∈ Finset.range n, g i) := by
  have : (List.range n).map v = ((List.range n).map g).map some := by
    rw [List.map_map]
    apply List.map_congr_left
    intro i hi
    exact h i (List.mem_range.1 hi)
  rw [this, ← foldl_add_range]
  generalize (List.range n).map g = l
  induction l generalizing z with
  | nil => rfl
  | cons x xs ih => simp [accum, ih]

theorem accum_list [AddCommMonoid α] (l : List α) (z : α) :
    accum z (l.map some) = some (z + l.sum) := by
  induction l generalizing z with
  | nil => simp [accum]
  | cons x xs ih => simp [accum, ih, add_assoc]

theorem pos_inj' {d i j a b : Nat} (hi : i < d) (hj : j < d) (h : i + d * a = j + d * b) :
    i = j ∧ a = b := by
  have h1 := congrArg (· % d) h
  simp only [Nat.add_mul_mod_self_left, Nat.mod_eq_of_lt hi, Nat.mod_eq_of_lt hj] at h1
  subst h1
  exact ⟨rfl, Nat.eq_of_mul_eq_mul_left (by omega) (Nat.add_left_cancel h)⟩

theorem pos_lt' {d i a n : Nat} (hi : i < d) (ha : a < n) : i + d * a < d * n := by
  calc i + d * a < d + d * a := by omega
    _ = d * (a + 1) := by ring
    _ ≤ d * n := Nat.mul_le_mul_left d ha

theorem sum_range_mul [AddCommMonoid α] (a b : Nat) (f : Nat → α) :
    ∑ x ∈ Finset.range (a * b), f x =
      ∑ j ∈ Finset.range b, ∑ i ∈ Finset.range a, f (i + a * j) := by
  induction b with
  | zero => simp
  | succ b ih =>
    rw [Nat.mul_succ, Finset.sum_range_add, ih, Finset.sum_range_succ]
    congr 1
    apply Finset.sum_congr rfl
    intro i _
    rw [Nat.add_comm]

end Verif
