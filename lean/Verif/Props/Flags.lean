import Verif.Model.Flags
import Mathlib.Data.List.Nodup
/-
C59: flags.
-/
namespace Verif.Flags

open Verif

variable {α : Type}

/-- How many flags a history creates. -/
def created : List (Op α) → Nat
  | [] => 0
  | .create _ :: ops => created ops + 1
  | .set _ _ :: ops => created ops

/-- The value of the flag `k` after a history, most recent operation first: the one of the last
operation which sets it, or the one with which it was created. -/
def lastValue (k : Nat) : List (Op α) → Option α
  | [] => none
  | .create v :: ops => if created ops = k then some v else lastValue k ops
  | .set code v :: ops => if code = k then some v else lastValue k ops

/-- All the flags which a history (most recent operation first) sets have been created before. -/
def Valid : List (Op α) → Prop
  | [] => True
  | .create _ :: ops => Valid ops
  | .set code _ :: ops => code < created ops ∧ Valid ops

theorem run_append (s : List α) (a b : List (Op α)) :
    run s (a ++ b) = (do
      let x ← run s a
      let y ← run x.2 b
      pure (x.1 ++ y.1, y.2)) := by
  induction a generalizing s with
  | nil =>
    simp only [List.nil_append, run, Res.pure_eq, Res.ok_bind]
    cases run s b <;> rfl
  | cons op a ih =>
    rw [List.cons_append, run, run]
    cases step s op with
    | ok x =>
      simp only [Res.ok_bind, ih]
      cases run x.2 a with
      | ok y =>
        simp only [Res.ok_bind, Res.pure_eq]
        cases run y.2 b <;> simp
      | _ => rfl
    | _ => rfl

/-- C59: after any valid history, each flag has the value of the last operation which has set it, or
the value with which it was created, and the codes are 0, 1, 2, ... so that each new one is
different from the ones before. Reading a flag does not change anything. -/
theorem c59_history (h : List (Op α)) (hv : Valid h) :
    ∃ s, run init h.reverse = .ok (List.range (created h), s) ∧
      (∀ k, k < created h → ∃ v, lastValue k h = some v ∧ get s k = .ok v) ∧
      ∀ k, created h ≤ k → get s k = .ub ∧ ∀ v, set s k v = .abort := by
  suffices H : ∃ s : List α, run init h.reverse = .ok (List.range (created h), s) ∧
      s.length = created h ∧ ∀ k, s[k]? = lastValue k h by
    obtain ⟨s, h1, h2, h3⟩ := H
    refine ⟨s, h1, fun k hk => ?_, fun k hk => ⟨?_, fun v => ?_⟩⟩
    · refine ⟨s[k]'(by omega), ?_, ?_⟩
      · rw [← h3, List.getElem?_eq_getElem]
      · rw [get, List.getElem?_eq_getElem (by omega)]; rfl
    · rw [get, List.getElem?_eq_none (by omega)]; rfl
    · rw [set, Res.assert_bind, if_neg (by omega)]
  induction h with
  | nil => exact ⟨[], rfl, rfl, fun k => rfl⟩
  | cons op h ih =>
    cases op with
    | create v =>
      obtain ⟨s, h1, h2, h3⟩ := ih hv
      refine ⟨s ++ [v], ?_, by simp [created, h2], fun k => ?_⟩
      · rw [List.reverse_cons, run_append, h1]
        simp [run, step, createKey, created, List.range_succ, h2]
      · simp only [lastValue]
        split
        · rename_i e
          simp [← e, ← h2]
        · rename_i e
          rw [← h3]
          by_cases hk : k < s.length
          · rw [List.getElem?_append_left hk]
          · rw [List.getElem?_eq_none (by simp; omega), List.getElem?_eq_none (by omega)]
    | set code v =>
      obtain ⟨h0, hv⟩ := hv
      obtain ⟨s, h1, h2, h3⟩ := ih hv
      refine ⟨s.set code v, ?_, by simp [created, h2], fun k => ?_⟩
      · rw [List.reverse_cons, run_append, h1]
        simp only [Res.ok_bind, run, step, set]
        rw [Res.assert_bind, if_pos (by omega)]
        simp [created]
      · simp only [lastValue]
        split
        · rename_i e
          rw [← e, List.getElem?_set_self (by omega)]
        · rename_i e
          rw [List.getElem?_set_ne e, h3]

example : Valid [Op.set 0 (7 : Nat), .create 5, .create 4] ∧
    lastValue 0 [Op.set 0 (7 : Nat), .create 5, .create 4] = some 7 ∧
    lastValue 1 [Op.set 0 (7 : Nat), .create 5, .create 4] = some 5 := by
  simp [Valid, created, lastValue]

/-- C59: a history which sets a flag before it is created stops the program. -/
theorem c59_invalid (h : List (Op α)) (hv : Valid h) (code : Nat) (v : α) (hc : created h ≤ code) :
    run init (.set code v :: h).reverse = .abort := by
  obtain ⟨s, h1, -, h3⟩ := c59_history h hv
  rw [List.reverse_cons, run_append, h1]
  simp only [Res.ok_bind, run, step, (h3 code hc).2]
  rfl

example : Valid ([] : List (Op Nat)) ∧ created ([] : List (Op Nat)) ≤ 0 := ⟨trivial, Nat.le_refl _⟩

end Verif.Flags
