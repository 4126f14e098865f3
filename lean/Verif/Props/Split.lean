import Verif.Model.Jobs
/-
C52: splitting strings.
-/
namespace Verif.Jobs

open Verif

/-- A text made of separators `g`, and of pieces with the separators after them. -/
def joined (g : Str) (ps : List (Str × Str)) : Str := g ++ ps.flatMap fun p => p.1 ++ p.2

/-- `joined g ps` is a decomposition in pieces: the gaps consist of separators, pieces are not empty
and have no separators, and there is a gap between two pieces. -/
def Pieces : Str → List (Str × Str) → Prop
  | g, [] => ∀ c ∈ g, isSep c = true
  | g, p :: ps => (∀ c ∈ g, isSep c = true) ∧ p.1 ≠ [] ∧ (∀ c ∈ p.1, isSep c = false) ∧
      (ps ≠ [] → p.2 ≠ []) ∧ Pieces p.2 ps

theorem split_eq (s : Str) : split s = match s.dropWhile isSep with
    | [] => []
    | c :: r => (c :: r.takeWhile (fun x => !isSep x)) :: split (r.dropWhile (fun x => !isSep x)) := by
  rw [split]
  split
  · rename_i h; rw [h]
  · rename_i h; rw [h]

theorem dropWhile_all {p : Char → Bool} (g r : Str) (h : ∀ c ∈ g, p c = true) :
    (g ++ r).dropWhile p = r.dropWhile p := by
  induction g with
  | nil => rfl
  | cons a g ih =>
    rw [List.cons_append, List.dropWhile_cons, if_pos (h a (by simp))]
    exact ih fun c hc => h c (by simp [hc])

theorem takeWhile_all {p : Char → Bool} (g r : Str) (h : ∀ c ∈ g, p c = true) :
    (g ++ r).takeWhile p = g ++ r.takeWhile p := by
  induction g with
  | nil => rfl
  | cons a g ih =>
    rw [List.cons_append, List.takeWhile_cons, if_pos (h a (by simp)), List.cons_append,
      ih fun c hc => h c (by simp [hc])]

/-- The separators of split_string are the space, the tabulator, the end of a line, the comma and
the semicolon. -/
theorem c52_separators (c : Char) : isSep c = true ↔ c ∈ [' ', '\t', '\n', ',', ';'] := by
  simp [isSep, or_assoc]

example : isSep ',' = true ∧ isSep 'a' = false := by decide

/-- C52: joining pieces with separators between them (and perhaps before and after them) and
splitting the text gives the pieces. -/
theorem c52_join {g : Str} {ps : List (Str × Str)} (h : Pieces g ps) :
    split (joined g ps) = ps.map Prod.fst := by
  induction ps generalizing g with
  | nil =>
    rw [split_eq]
    have : (joined g []).dropWhile isSep = [] := by
      have := dropWhile_all g [] h
      simpa [joined] using this
    rw [this]
    rfl
  | cons p ps ih =>
    obtain ⟨h1, h2, h3, h4, h5⟩ := h
    obtain ⟨p1, p2⟩ := p
    match p1, h2, h3 with
    | c :: w, _, h3 =>
      have e : joined g ((c :: w, p2) :: ps) = g ++ (c :: (w ++ joined p2 ps)) := by
        simp [joined]
      have hc : isSep c = false := h3 c (by simp)
      have hw : ∀ x ∈ w, (!isSep x) = true := fun x hx => by simp [h3 x (by simp [hx])]
      -- what follows the piece begins with a separator, or is empty
      have hr : (joined p2 ps).takeWhile (fun x => !isSep x) = [] ∧
          (joined p2 ps).dropWhile (fun x => !isSep x) = joined p2 ps := by
        match p2, h4, h5 with
        | [], h4, h5 =>
          have : ps = [] := by
            by_contra hps
            exact h4 hps rfl
          subst this
          exact ⟨rfl, rfl⟩
        | x :: q, _, h5 =>
          have hx : isSep x = true := by
            cases ps with
            | nil => exact h5 x (by simp)
            | cons y ps => exact h5.1 x (by simp)
          simp [joined, hx]
      rw [e, split_eq, dropWhile_all g _ h1, List.dropWhile_cons, if_neg (by simp [hc])]
      simp only
      rw [takeWhile_all w _ hw, dropWhile_all w _ hw, hr.1, hr.2, ih h5]
      simp

example : Pieces " ".toList [("a1".toList, ",\t".toList), ("b".toList, [])] ∧
    joined " ".toList [("a1".toList, ",\t".toList), ("b".toList, [])] = " a1,\tb".toList ∧
    split " a1,\tb".toList = ["a1".toList, "b".toList] := by
  have h : Pieces " ".toList [("a1".toList, ",\t".toList), ("b".toList, [])] := by
    simp [Pieces, isSep]
  refine ⟨h, rfl, c52_join h⟩

/-- C52: every text is a decomposition in pieces (so that `c52_join` determines what split_string
returns for every text). -/
theorem c52_decomposition (s : Str) : ∃ g ps, Pieces g ps ∧ joined g ps = s := by
  induction h : s.length using Nat.strongRecOn generalizing s with
  | ind n ih =>
    have hs := List.takeWhile_append_dropWhile (p := isSep) (l := s)
    have hg : ∀ c ∈ s.takeWhile isSep, isSep c = true := fun c hc => List.mem_takeWhile_imp hc
    match hd : s.dropWhile isSep with
    | [] =>
      rw [hd] at hs
      exact ⟨s.takeWhile isSep, [], hg, by simpa [joined] using hs⟩
    | c :: r =>
      have hc : isSep c = false := by
        have := List.head_dropWhile_not (p := isSep) (l := s) (by simp [hd])
        simpa [hd] using this
      have hlen := (List.dropWhile_sublist isSep (l := s)).length_le
      have hr := List.takeWhile_append_dropWhile (p := fun x => !isSep x) (l := r)
      have hlen2 := (List.dropWhile_sublist (fun x => !isSep x) (l := r)).length_le
      rw [hd, List.length_cons] at hlen
      obtain ⟨g, ps, h1, h2⟩ := ih (r.dropWhile (fun x => !isSep x)).length (by omega) _ rfl
      refine ⟨s.takeWhile isSep, (c :: r.takeWhile (fun x => !isSep x), g) :: ps,
        ⟨hg, by simp, ?_, ?_, h1⟩, ?_⟩
      · intro x hx
        rcases List.mem_cons.1 hx with rfl | hx
        · exact hc
        · simpa using List.mem_takeWhile_imp hx
      · rintro hps rfl
        match ps, hps, h1, h2 with
        | q :: ps, _, h1, h2 =>
          obtain ⟨-, h4, h5, -⟩ := h1
          match q, h4, h5 with
          | (y :: z, q2), _, h5 =>
            have hy : isSep y = false := h5 y (by simp)
            have hne : r.dropWhile (fun x => !isSep x) ≠ [] := by
              rw [← h2]; simp [joined]
            have := List.head_dropWhile_not (p := fun x => !isSep x) (l := r) hne
            simp only [← h2] at this
            simp [joined, hy] at this
      · have e : joined (s.takeWhile isSep) ((c :: r.takeWhile (fun x => !isSep x), g) :: ps)
            = s.takeWhile isSep ++ (c :: (r.takeWhile (fun x => !isSep x) ++ joined g ps)) := by
          simp [joined]
        rw [e, h2, hr, ← hd, hs]

/-- C52: no piece is empty or has a separator. -/
theorem c52_pieces (s : Str) : ∀ p ∈ split s, p ≠ [] ∧ ∀ c ∈ p, isSep c = false := by
  obtain ⟨g, ps, h, rfl⟩ := c52_decomposition s
  rw [c52_join h]
  induction ps generalizing g with
  | nil => simp
  | cons q ps ih =>
    intro p hp
    rw [List.map_cons, List.mem_cons] at hp
    rcases hp with rfl | hp
    · exact ⟨h.2.1, h.2.2.1⟩
    · exact ih _ h.2.2.2.2 p hp

end Verif.Jobs
