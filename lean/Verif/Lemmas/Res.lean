import Verif.Core.Res
import Mathlib.Algebra.BigOperators.Group.Finset.Basic
/-
Lemmas about the checked writes of `Verif.Core.Res`.
-/
namespace Verif

variable {α : Type*}

theorem writeAll_spec (f : Nat → α) (ws : List (Nat × Option α)) (buf : List (Option α))
    (h : ∀ w ∈ ws, w.1 < buf.length ∧ w.2 = some (f w.1)) :
    ∃ buf', writeAll buf ws = .ok buf' ∧ buf'.length = buf.length ∧
      (∀ p < buf.length, (∃ w ∈ ws, w.1 = p) → buf'[p]? = some (some (f p))) ∧
      (∀ p, (∀ w ∈ ws, w.1 ≠ p) → buf'[p]? = buf[p]?) := by
  induction ws generalizing buf with
  | nil => exact ⟨buf, rfl, rfl, by simp, by simp⟩
  | cons w ws ih =>
    obtain ⟨p, v⟩ := w
    have hw := h (p, v) (by simp)
    obtain ⟨hp, hv⟩ := hw
    simp only at hp hv
    subst hv
    have ih' := ih (buf.set p (some (f p))) (by
      intro w hw
      have := h w (by simp [hw])
      simpa using this)
    obtain ⟨b', e, l, h1, h2⟩ := ih'
    refine ⟨b', by simp [writeAll, hp, e], by simpa using l, ?_, ?_⟩
    · intro q hq hex
      by_cases hm : ∃ w ∈ ws, w.1 = q
      · exact h1 q (by simpa using hq) hm
      · have hqp : p = q := by
          obtain ⟨w, hw, e⟩ := hex
          rcases List.mem_cons.1 hw with rfl | hw
          · exact e
          · exact absurd ⟨w, hw, e⟩ hm
        subst hqp
        rw [h2 p (fun w hw e => hm ⟨w, hw, e⟩)]
        simp [hp]
    · intro q hq
      rw [h2 q (fun w hw => hq w (by simp [hw]))]
      have : p ≠ q := hq (p, some (f p)) (by simp)
      simp [List.getElem?_set_ne this]

theorem mapM_id_of_all_some (l : List (Option α)) (r : List α) (h : l = r.map some) :
    l.mapM id = some r := by
  subst h
  induction r with
  | nil => rfl
  | cons a r ih => simp_all

theorem finish_map_some (r : List α) : finish (r.map some) = .ok r := by
  simp [finish, mapM_id_of_all_some _ r rfl]

/-- If every write to a position carries the value that `f` gives for the position, and every
position is written, the resulting buffer is the table of `f`. -/
theorem runWrites_eq (n : Nat) (f : Nat → α) (ws : List (Nat × Option α))
    (h1 : ∀ w ∈ ws, w.1 < n ∧ w.2 = some (f w.1))
    (h2 : ∀ p < n, ∃ w ∈ ws, w.1 = p) :
    runWrites n ws = .ok ((List.range n).map f) := by
  obtain ⟨b', e, l, g1, -⟩ := writeAll_spec f ws (List.replicate n none)
    (by simpa using h1)
  have : b' = ((List.range n).map f).map some := by
    apply List.ext_getElem?
    intro i
    by_cases hi : i < n
    · rw [g1 i (by simpa using hi) (h2 i hi)]
      simp [hi]
    · have hl : b'.length ≤ i := by simp at l; omega
      rw [List.getElem?_eq_none hl]
      simp [hi]
  rw [runWrites, e, Res.ok_bind, this, finish_map_some]

/-- In place version: positions written get the value of `f`, other positions are unchanged. -/
theorem updWrites_eq (l : List α) (f : Nat → α) (ws : List (Nat × Option α))
    (h1 : ∀ w ∈ ws, w.1 < l.length ∧ w.2 = some (f w.1)) :
    ∃ l', updWrites l ws = .ok l' ∧ l'.length = l.length ∧
      (∀ p < l.length, (∃ w ∈ ws, w.1 = p) → l'[p]? = some (f p)) ∧
      (∀ p, (∀ w ∈ ws, w.1 ≠ p) → l'[p]? = l[p]?) := by
  obtain ⟨b', e, hl, g1, g2⟩ := writeAll_spec f ws (l.map some) (by simpa using h1)
  classical
  let r : List α := (List.range l.length).map fun p =>
    if (∃ w ∈ ws, w.1 = p) then f p else (l[p]?).getD (f p)
  have hr : b' = r.map some := by
    apply List.ext_getElem?
    intro i
    by_cases hi : i < l.length
    · by_cases hw : ∃ w ∈ ws, w.1 = i
      · rw [g1 i (by simpa using hi) hw]
        simp only [r, List.map_map, List.getElem?_map, List.getElem?_range hi, Option.map_some,
          Function.comp, if_pos hw]
      · rw [g2 i (fun w h e => hw ⟨w, h, e⟩)]
        simp [r, hi]
        intro x hx; exact absurd ⟨_, hx, rfl⟩ hw
    · have : b'.length ≤ i := by simp at hl; omega
      rw [List.getElem?_eq_none this]
      simp [r, hi]
  refine ⟨r, by rw [updWrites, e, Res.ok_bind, hr, finish_map_some], by simp [r], ?_, ?_⟩
  · intro p hp hw
    simp only [r, List.getElem?_map, List.getElem?_range hp, Option.map_some, if_pos hw]
  · intro p hp
    by_cases hi : p < l.length
    · have : ¬ ∃ w ∈ ws, w.1 = p := fun ⟨w, h, e⟩ => hp w h e
      simp only [r, List.getElem?_map, List.getElem?_range hi, Option.map_some, this, if_false]
      simp [hi]
    · simp [r, hi]

theorem sumO_succ [AddCommMonoid α] (n : Nat) (f : Nat → Option α) :
    sumO (n + 1) f = (sumO n f).bind fun a => (f n).map (a + ·) := by
  simp [sumO, List.range_succ, List.foldlM_append]

theorem sumO_eq [AddCommMonoid α] (n : Nat) (f : Nat → Option α) (g : Nat → α)
    (h : ∀ i < n, f i = some (g i)) :
    sumO n f = some (∑ i ∈ Finset.range n, g i) := by
  induction n with
  | zero => rfl
  | succ n ih =>
    rw [sumO_succ, ih (fun i hi => h i (by omega)), h n (by omega), Finset.sum_range_succ]
    rfl

end Verif
