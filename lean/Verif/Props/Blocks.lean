import Verif.Model.Blocks
import Verif.Spec.Blocks
import Verif.Lemmas.Matrix
import Verif.Lemmas.Trace
import Mathlib.Data.Finset.Card
import Mathlib.Tactic.Linarith
import Mathlib.Tactic.IntervalCases
/-
C56: find_blocks.
-/
namespace Verif.Blocks

open Verif Spec

theorem replace_get (v : List Int) (o w : Int) (i : Nat) :
    (replaceInteger v o w)[i]? = (v[i]?).map fun x => if x = o then w else x := by
  simp [replaceInteger]

/-- The labels which are in use. -/
def labels (l : List Int) : Finset Int := (l.filter (· ≠ -1)).toFinset

theorem mem_labels {l : List Int} {b : Int} : b ∈ labels l ↔ b ∈ l ∧ b ≠ -1 := by
  simp [labels]

theorem mem_labels' {l : List Int} {b : Int} : b ∈ labels l ↔ (∃ i : Nat, l[i]? = some b) ∧ b ≠ -1 := by
  rw [mem_labels, List.mem_iff_getElem?]

/-- Between two columns. -/
structure Between (sig : Nat → Nat → Prop) (n col : Nat) (rows cols : List Int) (nb : Int) : Prop where
  lr : rows.length = n
  lc : cols.length = col
  rowlab : ∀ (r : Nat) (b : Int), rows[r]? = some b → b ≠ -1 → ∃ c : Nat, sig r c ∧ cols[c]? = some b
  done : ∀ r c, c < col → sig r c → ∃ b : Int, b ≠ -1 ∧ rows[r]? = some b ∧ cols[c]? = some b
  colact : ∀ (c : Nat) (b : Int), cols[c]? = some b → b ≠ -1 → ∃ r, sig r c
  bnd : ∀ (c : Nat) (b : Int), cols[c]? = some b → b < col
  link : ∀ x y (b : Int), b ≠ -1 → x.elim (rows[·]?) (cols[·]?) = some b →
    y.elim (rows[·]?) (cols[·]?) = some b → Linked sig x y
  count : nb = (labels cols).card

/-- The label of a row or a column within the loop over rows. -/
def lab (col : Nat) (s : S) : Nat ⊕ Nat → Option Int
  | .inl r => s.rows[r]?
  | .inr c => if c = col then some s.cur else s.cols[c]?

/-- Within a column. -/
structure Mid (sig : Nat → Nat → Prop) (n col row : Nat) (s : S) : Prop where
  lr : s.rows.length = n
  lc : s.cols.length = col
  rowlab : ∀ (r : Nat) (b : Int), s.rows[r]? = some b → b ≠ -1 →
    ∃ c : Nat, sig r c ∧ (s.cols[c]? = some b ∨ c = col ∧ b = s.cur ∧ s.set = true)
  done : ∀ r c, c < col → sig r c → ∃ b : Int, b ≠ -1 ∧ s.rows[r]? = some b ∧ s.cols[c]? = some b
  donec : ∀ r, r < row → sig r col → s.rows[r]? = some s.cur ∧ s.set = true
  act : s.set = true → ∃ r, sig r col
  colact : ∀ (c : Nat) (b : Int), s.cols[c]? = some b → b ≠ -1 → ∃ r, sig r c
  fresh : s.set = false → s.cur = col
  cur0 : s.cur ≠ -1
  curle : s.cur ≤ col
  bnd : ∀ (c : Nat) (b : Int), s.cols[c]? = some b → b < col
  link : ∀ x y (b : Int), b ≠ -1 → lab col s x = some b → lab col s y = some b → Linked sig x y
  count : s.nb = (insert s.cur (labels s.cols)).card - 1

theorem Mid.start {sig : Nat → Nat → Prop} {n col : Nat} {rows cols : List Int} {nb : Int}
    (h : Between sig n col rows cols nb) : Mid sig n col 0 ⟨rows, cols, nb, col, false⟩ where
  lr := h.lr
  lc := h.lc
  rowlab := fun r b h1 h2 => by
    obtain ⟨c, h3, h4⟩ := h.rowlab r b h1 h2
    exact ⟨c, h3, .inl h4⟩
  done := h.done
  donec := fun r hr => absurd hr (by omega)
  act := by simp
  colact := h.colact
  fresh := fun _ => rfl
  cur0 := by simp only; omega
  curle := by simp
  bnd := h.bnd
  link := by
    -- no row and no earlier column has the label of the column
    have hr : ∀ r : Nat, rows[r]? ≠ some (col : Int) := by
      intro r hr
      obtain ⟨c, _, hc⟩ := h.rowlab r _ hr (by omega)
      have := h.bnd c _ hc
      omega
    have hc : ∀ c : Nat, cols[c]? ≠ some (col : Int) := by
      intro c hc
      have := h.bnd c _ hc
      omega
    have key : ∀ z (b : Int), lab col ⟨rows, cols, nb, col, false⟩ z = some b →
        (z = .inr col ∧ b = col) ∨ (z.elim (rows[·]?) (cols[·]?) = some b ∧ b ≠ col) := by
      intro z b hz
      cases z with
      | inl r =>
        right
        refine ⟨hz, ?_⟩
        rintro rfl
        exact hr r hz
      | inr c =>
        simp only [lab] at hz
        split at hz
        · rename_i hcc
          left
          injection hz with hz
          exact ⟨by rw [hcc], hz.symm⟩
        · right
          refine ⟨hz, ?_⟩
          rintro rfl
          exact hc c hz
    intro x y b hb hx hy
    rcases key x b hx with ⟨rfl, rfl⟩ | ⟨hx', hne⟩
    · rcases key y _ hy with ⟨rfl, _⟩ | ⟨_, hne⟩
      · exact Relation.EqvGen.refl _
      · exact absurd rfl hne
    · rcases key y b hy with ⟨_, he⟩ | ⟨hy', _⟩
      · exact absurd he hne
      · exact h.link x y b hb hx' hy'
  count := by
    simp only
    rw [Finset.card_insert_of_notMem, h.count]
    · simp
    · intro hm
      obtain ⟨⟨i, hi⟩, _⟩ := mem_labels'.1 hm
      have := h.bnd i _ hi
      omega

theorem Mid.finish {sig : Nat → Nat → Prop} {n col : Nat} {s : S} (hs : ∀ r c, sig r c → r < n)
    (h : Mid sig n col n s) :
    if s.set then Between sig n (col + 1) s.rows (s.cols ++ [s.cur]) (s.nb + 1)
    else Between sig n (col + 1) s.rows (s.cols ++ [-1]) s.nb := by
  have hlt : ∀ {c : Nat} {b : Int}, s.cols[c]? = some b → c < col := by
    intro c b hc
    have := (List.getElem?_eq_some_iff.1 hc).1
    rw [h.lc] at this
    exact this
  have app : ∀ (x : Int) (c : Nat), (s.cols ++ [x])[c]? = if c = col then some x else s.cols[c]? := by
    intro x c
    by_cases hc : c < col
    · rw [if_neg (by omega), List.getElem?_append_left (by rw [h.lc]; exact hc)]
    · rw [List.getElem?_append_right (by rw [h.lc]; omega), h.lc]
      by_cases hcc : c = col
      · rw [if_pos hcc, hcc]; simp
      · rw [if_neg hcc, List.getElem?_eq_none (by simp; omega),
          List.getElem?_eq_none (by rw [h.lc]; omega)]
  split
  · rename_i hset
    refine ⟨h.lr, by simp [h.lc], ?_, ?_, ?_, ?_, ?_, ?_⟩
    · intro r b h1 h2
      obtain ⟨c, h3, h4 | ⟨h4, h5, _⟩⟩ := h.rowlab r b h1 h2
      · refine ⟨c, h3, ?_⟩
        rw [app, if_neg (by have := hlt h4; omega), h4]
      · refine ⟨c, h3, ?_⟩
        rw [app, if_pos h4, h5]
    · intro r c h1 h2
      by_cases hc : c = col
      · subst hc
        refine ⟨s.cur, h.cur0, (h.donec r (hs _ _ h2) h2).1, ?_⟩
        rw [app, if_pos rfl]
      · obtain ⟨b, h3, h4, h5⟩ := h.done r c (by omega) h2
        exact ⟨b, h3, h4, by rw [app, if_neg hc, h5]⟩
    · intro c b h1 h2
      rw [app] at h1
      split at h1
      · rename_i hc
        rw [hc]
        exact h.act hset
      · exact h.colact c b h1 h2
    · intro c b h1
      rw [app] at h1
      split at h1
      · injection h1 with h1
        have := h.curle
        push_cast
        omega
      · have := h.bnd c b h1
        push_cast
        omega
    · intro x y b hb hx hy
      refine h.link x y b hb ?_ ?_
      · cases x with
        | inl r => exact hx
        | inr c => simpa only [Sum.elim_inr, app, lab] using hx
      · cases y with
        | inl r => exact hy
        | inr c => simpa only [Sum.elim_inr, app, lab] using hy
    · have : labels (s.cols ++ [s.cur]) = insert s.cur (labels s.cols) := by
        ext b
        simp only [mem_labels, List.mem_append, List.mem_singleton, Finset.mem_insert]
        constructor
        · rintro ⟨h1 | h1, h2⟩
          · exact .inr ⟨h1, h2⟩
          · exact .inl h1
        · rintro (h1 | ⟨h1, h2⟩)
          · subst h1; exact ⟨.inr rfl, h.cur0⟩
          · exact ⟨.inl h1, h2⟩
      rw [this, h.count]
      omega
  · rename_i hset
    have hset : s.set = false := by simpa using hset
    have hcur := h.fresh hset
    refine ⟨h.lr, by simp [h.lc], ?_, ?_, ?_, ?_, ?_, ?_⟩
    · intro r b h1 h2
      obtain ⟨c, h3, h4 | ⟨_, _, h6⟩⟩ := h.rowlab r b h1 h2
      · refine ⟨c, h3, ?_⟩
        rw [app, if_neg (by have := hlt h4; omega), h4]
      · rw [hset] at h6; cases h6
    · intro r c h1 h2
      by_cases hc : c = col
      · subst hc
        have := (h.donec r (hs _ _ h2) h2).2
        rw [hset] at this; cases this
      · obtain ⟨b, h3, h4, h5⟩ := h.done r c (by omega) h2
        exact ⟨b, h3, h4, by rw [app, if_neg hc, h5]⟩
    · intro c b h1 h2
      rw [app] at h1
      split at h1
      · injection h1 with h1
        exact absurd h1.symm h2
      · exact h.colact c b h1 h2
    · intro c b h1
      rw [app] at h1
      split at h1
      · injection h1 with h1
        omega
      · have := h.bnd c b h1
        push_cast
        omega
    · have hh : ∀ z : Nat ⊕ Nat, ∀ b : Int, b ≠ -1 → z.elim (s.rows[·]?) ((s.cols ++ [-1])[·]?) = some b →
          lab col s z = some b := by
        intro z b hb hz
        cases z with
        | inl r => exact hz
        | inr c =>
          simp only [Sum.elim_inr, app] at hz
          simp only [lab]
          split at hz
          · injection hz with hz
            exact absurd hz.symm hb
          · rename_i hc
            rw [if_neg hc, hz]
      intro x y b hb hx hy
      exact h.link x y b hb (hh x b hb hx) (hh y b hb hy)
    · have : labels (s.cols ++ [-1]) = labels s.cols := by
        ext b
        simp only [mem_labels, List.mem_append, List.mem_singleton]
        constructor
        · rintro ⟨h1 | h1, h2⟩
          · exact ⟨h1, h2⟩
          · exact absurd h1 h2
        · rintro ⟨h1, h2⟩
          exact ⟨.inl h1, h2⟩
      rw [this, h.count, Finset.card_insert_of_notMem]
      · push_cast; omega
      · intro hm
        obtain ⟨⟨i, hi⟩, _⟩ := mem_labels'.1 hm
        have := h.bnd i _ hi
        omega

theorem touch_linked {sig : Nat → Nat → Prop} {r c : Nat} (h : sig r c) : Linked sig (.inl r) (.inr c) :=
  Relation.EqvGen.rel _ _ ⟨r, c, rfl, rfl, h⟩

/-- Two labels are joined. -/
def join (cur b x : Int) : Int := if x = cur then b else x

theorem Mid.step {sig : Nat → Nat → Prop} {n col row : Nat} {s : S} (hrow : row < n)
    {g : Bool} (hg : g = true ↔ sig row col) (h : Mid sig n col row s) :
    ∃ s', rowStep g row s = .ok s' ∧ Mid sig n col (row + 1) s' := by
  cases g with
  | false =>
    refine ⟨s, rfl, ⟨h.lr, h.lc, h.rowlab, h.done, ?_, h.act, h.colact, h.fresh, h.cur0, h.curle, h.bnd,
      h.link, h.count⟩⟩
    intro r hr hs
    by_cases hrr : r = row
    · subst hrr; exact absurd (hg.2 hs) (by simp)
    · exact h.donec r (by omega) hs
  | true =>
    have hsig := hg.1 rfl
    have hget : s.rows[row]? = some (s.rows[row]'(by rw [h.lr]; exact hrow)) :=
      List.getElem?_eq_getElem _
    generalize s.rows[row]'(by rw [h.lr]; exact hrow) = b at hget
    by_cases hb : b = -1
    · -- a row without a label
      subst hb
      refine ⟨{ s with rows := s.rows.set row s.cur, set := true }, ?_, ?_⟩
      · rw [rowStep, if_pos rfl, hget]; rfl
      have hset : ∀ r : Nat, (s.rows.set row s.cur)[r]? = if r = row then some s.cur else s.rows[r]? := by
        intro r
        rw [List.getElem?_set]
        by_cases hr : row = r
        · subst hr; simp [h.lr, hrow]
        · rw [if_neg hr, if_neg (fun e => hr e.symm)]
      refine ⟨by simp [h.lr], h.lc, ?_, ?_, ?_, fun _ => ⟨row, hsig⟩, h.colact, by simp, h.cur0, h.curle,
        h.bnd, ?_, h.count⟩
      · intro r b h1 h2
        simp only [hset] at h1
        split at h1
        · rename_i hr
          injection h1 with h1
          exact ⟨col, by rw [hr]; exact hsig, .inr ⟨rfl, h1.symm, rfl⟩⟩
        · obtain ⟨c, h3, h4 | ⟨h4, h5, _⟩⟩ := h.rowlab r b h1 h2
          · exact ⟨c, h3, .inl h4⟩
          · exact ⟨c, h3, .inr ⟨h4, h5, rfl⟩⟩
      · intro r c h1 h2
        obtain ⟨b, h3, h4, h5⟩ := h.done r c h1 h2
        refine ⟨b, h3, ?_, h5⟩
        simp only [hset]
        rw [if_neg, h4]
        rintro rfl
        rw [hget] at h4
        injection h4 with h4
        exact h3 h4.symm
      · intro r hr hs
        refine ⟨?_, rfl⟩
        simp only [hset]
        split
        · rfl
        · exact (h.donec r (by omega) hs).1
      · have key : ∀ z (d : Int), d ≠ -1 → lab col { s with rows := s.rows.set row s.cur, set := true } z
            = some d → (z = .inl row ∧ d = s.cur) ∨ lab col s z = some d := by
          intro z d hd hz
          cases z with
          | inl r =>
            simp only [lab, hset] at hz
            split at hz
            · rename_i hr
              injection hz with hz
              exact .inl ⟨by rw [hr], hz.symm⟩
            · exact .inr hz
          | inr c => exact .inr hz
        have hcol : lab col s (.inr col) = some s.cur := by simp [lab]
        have hl := touch_linked hsig
        intro x y d hd hx hy
        rcases key x d hd hx with ⟨rfl, rfl⟩ | hx'
        · rcases key y _ hd hy with ⟨rfl, _⟩ | hy'
          · exact Relation.EqvGen.refl _
          · exact hl.trans _ _ _ (h.link _ _ _ hd hcol hy')
        · rcases key y d hd hy with ⟨rfl, rfl⟩ | hy'
          · exact (h.link _ _ _ hd hx' hcol).trans _ _ _ hl.symm
          · exact h.link x y d hd hx' hy'
    by_cases hc : b = s.cur
    · -- a row of the current block
      subst hc
      refine ⟨{ s with set := true }, ?_, ?_⟩
      · rw [rowStep, if_pos rfl, hget, Res.ofOption_some, Res.ok_bind, if_neg hb, if_neg (by simp)]; rfl
      refine ⟨h.lr, h.lc, ?_, h.done, ?_, fun _ => ⟨row, hsig⟩, h.colact, by simp, h.cur0, h.curle,
        h.bnd, h.link, h.count⟩
      · intro r b h1 h2
        obtain ⟨c, h3, h4 | ⟨h4, h5, _⟩⟩ := h.rowlab r b h1 h2
        · exact ⟨c, h3, .inl h4⟩
        · exact ⟨c, h3, .inr ⟨h4, h5, rfl⟩⟩
      · intro r hr hs
        refine ⟨?_, rfl⟩
        by_cases hrr : r = row
        · rw [hrr]; exact hget
        · exact (h.donec r (by omega) hs).1
    · -- two blocks are joined
      refine ⟨⟨replaceInteger s.rows s.cur b, replaceInteger s.cols s.cur b, s.nb - 1, b, true⟩, ?_, ?_⟩
      · rw [rowStep, if_pos rfl, hget, Res.ofOption_some, Res.ok_bind, if_neg hb, if_pos hc]; rfl
      have hr' : ∀ r : Nat, (replaceInteger s.rows s.cur b)[r]? = (s.rows[r]?).map (join s.cur b) :=
        fun r => replace_get _ _ _ r
      have hc' : ∀ c : Nat, (replaceInteger s.cols s.cur b)[c]? = (s.cols[c]?).map (join s.cur b) :=
        fun c => replace_get _ _ _ c
      have hj : ∀ x, join s.cur b x ≠ -1 → x ≠ -1 := by
        rintro x hx rfl
        rw [join, if_neg (fun e => h.cur0 e.symm)] at hx
        exact hx rfl
      have hj' : ∀ x, x ≠ -1 → join s.cur b x ≠ -1 := by
        intro x hx
        rw [join]
        split
        · exact hb
        · exact hx
      have hjc : join s.cur b s.cur = b := by rw [join, if_pos rfl]
      have hjb : join s.cur b b = b := by rw [join, if_neg hc]
      -- the label of the row is that of an earlier column
      obtain ⟨c0, _, hc0⟩ : ∃ c : Nat, sig row c ∧ s.cols[c]? = some b := by
        obtain ⟨c, h3, h4 | ⟨_, h5, _⟩⟩ := h.rowlab row b hget hb
        · exact ⟨c, h3, h4⟩
        · exact absurd h5 hc
      refine ⟨by simp [replaceInteger, h.lr], by simp [replaceInteger, h.lc], ?_, ?_, ?_,
        fun _ => ⟨row, hsig⟩, ?_, by simp, hb, ?_, ?_, ?_, ?_⟩
      · intro r d h1 h2
        simp only [hr', Option.map_eq_some_iff] at h1
        obtain ⟨d', h1, rfl⟩ := h1
        obtain ⟨c, h3, h4 | ⟨h4, h5, _⟩⟩ := h.rowlab r d' h1 (hj _ h2)
        · exact ⟨c, h3, .inl (by simp only [hc', h4, Option.map_some])⟩
        · exact ⟨c, h3, .inr ⟨h4, by rw [h5]; exact hjc, rfl⟩⟩
      · intro r c h1 h2
        obtain ⟨d, h3, h4, h5⟩ := h.done r c h1 h2
        exact ⟨join s.cur b d, hj' d h3, by simp only [hr', h4, Option.map_some],
          by simp only [hc', h5, Option.map_some]⟩
      · intro r hr hs
        refine ⟨?_, rfl⟩
        simp only [hr']
        by_cases hrr : r = row
        · rw [hrr, hget, Option.map_some, hjb]
        · rw [(h.donec r (by omega) hs).1, Option.map_some, hjc]
      · intro c d h1 h2
        simp only [hc', Option.map_eq_some_iff] at h1
        obtain ⟨d', h1, rfl⟩ := h1
        exact h.colact c d' h1 (hj _ h2)
      · have := h.bnd c0 b hc0
        simp only
        omega
      · intro c d h1
        simp only [hc', Option.map_eq_some_iff] at h1
        obtain ⟨d', h1, rfl⟩ := h1
        rw [join]
        split
        · exact h.bnd c0 b hc0
        · exact h.bnd c d' h1
      · have key : ∀ z (d : Int), lab col ⟨replaceInteger s.rows s.cur b, replaceInteger s.cols s.cur b,
            s.nb - 1, b, true⟩ z = some d → ∃ d', lab col s z = some d' ∧ d = join s.cur b d' := by
          intro z d hz
          cases z with
          | inl r =>
            simp only [lab, hr', Option.map_eq_some_iff] at hz
            obtain ⟨d', h1, h2⟩ := hz
            exact ⟨d', h1, h2.symm⟩
          | inr c =>
            simp only [lab] at hz ⊢
            split at hz
            · rename_i hcc
              injection hz with hz
              exact ⟨s.cur, by rw [if_pos hcc], by rw [hjc, hz]⟩
            · rename_i hcc
              rw [if_neg hcc]
              simp only [hc', Option.map_eq_some_iff] at hz
              obtain ⟨d', h1, h2⟩ := hz
              exact ⟨d', h1, h2.symm⟩
        have hcol : lab col s (.inr col) = some s.cur := by simp [lab]
        have hrw : lab col s (.inl row) = some b := hget
        have hl := touch_linked hsig
        intro x y d hd hx hy
        obtain ⟨d1, hx', e1⟩ := key x d hx
        obtain ⟨d2, hy', e2⟩ := key y d hy
        have n1 : d1 ≠ -1 := hj d1 (by rw [← e1]; exact hd)
        have n2 : d2 ≠ -1 := hj d2 (by rw [← e2]; exact hd)
        by_cases h12 : d1 = d2
        · subst h12
          exact h.link x y d1 n1 hx' hy'
        · -- one of them has the label of the column and the other one that of the row
          rw [e1] at e2
          rw [join, join] at e2
          by_cases h1 : d1 = s.cur
          · have h2 : d2 ≠ s.cur := fun e => h12 (h1.trans e.symm)
            rw [if_pos h1, if_neg h2] at e2
            subst e2
            subst h1
            exact ((h.link x _ _ n1 hx' hcol).trans _ _ _ hl.symm).trans _ _ _ (h.link _ y _ n2 hrw hy')
          · rw [if_neg h1] at e2
            by_cases h2 : d2 = s.cur
            · rw [if_pos h2] at e2
              subst e2
              subst h2
              exact ((h.link x _ _ n1 hx' hrw).trans _ _ _ hl).trans _ _ _ (h.link _ y _ n2 hcol hy')
            · rw [if_neg h2] at e2
              exact absurd e2 h12
      · have e : insert b (labels (replaceInteger s.cols s.cur b))
            = (insert s.cur (labels s.cols)).erase s.cur := by
          ext d
          simp only [Finset.mem_insert, Finset.mem_erase, mem_labels']
          constructor
          · rintro (rfl | ⟨⟨i, hi⟩, hd⟩)
            · exact ⟨hc, .inr ⟨⟨c0, hc0⟩, hb⟩⟩
            · simp only [hc', Option.map_eq_some_iff] at hi
              obtain ⟨d', h1, rfl⟩ := hi
              by_cases hdc : d' = s.cur
              · rw [hdc, hjc]
                exact ⟨hc, .inr ⟨⟨c0, hc0⟩, hb⟩⟩
              · rw [join, if_neg hdc]
                exact ⟨hdc, .inr ⟨⟨i, h1⟩, hj _ hd⟩⟩
          · rintro ⟨h1, h2 | ⟨⟨i, hi⟩, hd⟩⟩
            · exact absurd h2 h1
            · refine .inr ⟨⟨i, ?_⟩, hd⟩
              simp only [hc', hi, Option.map_some]
              rw [join, if_neg h1]
        simp only
        rw [e, Finset.card_erase_of_mem (Finset.mem_insert_self _ _), h.count]
        have : 0 < (insert s.cur (labels s.cols)).card :=
          Finset.card_pos.2 ⟨_, Finset.mem_insert_self _ _⟩
        have : 1 < (insert s.cur (labels s.cols)).card := by
          rw [Finset.one_lt_card]
          exact ⟨s.cur, Finset.mem_insert_self _ _, b,
            Finset.mem_insert_of_mem (mem_labels'.2 ⟨⟨c0, hc0⟩, hb⟩), fun e => hc e.symm⟩
        omega

/-- The significant elements of a matrix of `n` rows. -/
def Sig (sg : List Bool) (n m r c : Nat) : Prop := r < n ∧ c < m ∧ sg[c * n + r]? = some true

theorem rowLoop_mid {sg : List Bool} {n m : Nat} (hl : sg.length = n * m) {col : Nat} (hcol : col < m) :
    ∀ (k row : Nat) (s : S), row + k = n → Mid (Sig sg n m) n col row s →
    ∃ s', rowLoop sg k row (col * n + row) s = .ok s' ∧ Mid (Sig sg n m) n col n s'
  | 0, row, s, hk, h => ⟨s, rfl, by have : row = n := by omega
                                    rw [this] at h; exact h⟩
  | k + 1, row, s, hk, h => by
    have hp : col * n + row < sg.length := by
      rw [hl]
      calc col * n + row < (col + 1) * n := by rw [Nat.succ_mul]; omega
        _ ≤ m * n := Nat.mul_le_mul_right n hcol
        _ = n * m := Nat.mul_comm _ _
    obtain ⟨s1, h1, h2⟩ := h.step (g := sg[col * n + row]) (by omega) (by
      constructor
      · intro hg
        exact ⟨by omega, hcol, by rw [List.getElem?_eq_getElem hp, hg]⟩
      · rintro ⟨_, _, hg⟩
        rw [List.getElem?_eq_getElem hp] at hg
        injection hg)
    obtain ⟨s2, h3, h4⟩ := rowLoop_mid hl hcol k (row + 1) s1 (by omega) h2
    refine ⟨s2, ?_, h4⟩
    rw [rowLoop, List.getElem?_eq_getElem hp, Res.ofOption_some, Res.ok_bind, h1, Res.ok_bind]
    exact h3

theorem colLoop_between {sg : List Bool} {n m : Nat} (hl : sg.length = n * m) :
    ∀ (k col : Nat) (rows cols : List Int) (nb : Int), col + k = m →
    Between (Sig sg n m) n col rows cols nb →
    ∃ rows' cols' nb', colLoop sg n k col (col * n) rows cols nb = .ok (rows', cols', nb') ∧
      Between (Sig sg n m) n m rows' cols' nb'
  | 0, col, rows, cols, nb, hk, h => ⟨rows, cols, nb, rfl, by have : col = m := by omega
                                                              rw [this] at h; exact h⟩
  | k + 1, col, rows, cols, nb, hk, h => by
    obtain ⟨s, h1, h2⟩ := rowLoop_mid hl (by omega) n 0 _ (by omega) (Mid.start h)
    have h3 := h2.finish fun r c hs => hs.1
    rw [Nat.add_zero] at h1
    rw [colLoop, h1, Res.ok_bind, ← Nat.succ_mul]
    split at h3
    · rename_i hs
      rw [if_pos hs]
      exact colLoop_between hl k (col + 1) _ _ _ (by omega) h3
    · rename_i hs
      rw [if_neg hs]
      exact colLoop_between hl k (col + 1) _ _ _ (by omega) h3

theorem between_zero (sig : Nat → Nat → Prop) (n : Nat) :
    Between sig n 0 (List.replicate n (-1)) [] 0 where
  lr := by simp
  lc := rfl
  rowlab := fun r b h1 h2 => by
    rw [List.getElem?_replicate] at h1
    split at h1
    · injection h1 with h1; exact absurd h1.symm h2
    · cases h1
  done := fun r c h => absurd h (by omega)
  colact := fun c b h => by simp at h
  bnd := fun c b h => by simp at h
  link := by
    have key : ∀ z : Nat ⊕ Nat, ∀ b : Int, b ≠ -1 →
        z.elim ((List.replicate n (-1))[·]?) (([] : List Int)[·]?) ≠ some b := by
      intro z b hb hz
      cases z with
      | inl r =>
        simp only [Sum.elim_inl, List.getElem?_replicate] at hz
        split at hz
        · injection hz with hz; exact hb hz.symm
        · cases hz
      | inr c => simp at hz
    intro x y b hb hx
    exact absurd hx (key x b hb)
  count := by simp [labels]

theorem mem_positions {b : Int} {l : List Int} {i : Nat} : i ∈ positions b l ↔ l[i]? = some b := by
  simp only [positions, List.mem_filter, List.mem_range, decide_eq_true_eq]
  constructor
  · exact fun h => h.2
  · intro h
    exact ⟨(List.getElem?_eq_some_iff.1 h).1, h⟩

theorem positions_sorted (b : Int) (l : List Int) : (positions b l).Pairwise (· < ·) :=
  List.Pairwise.filter _ List.pairwise_lt_range

/-- Labels are removed from a list. -/
def strip (ls : List Int) (l : List Int) : List Int := l.map fun x => if x ∈ ls then -1 else x

theorem strip_get (ls l : List Int) (i : Nat) :
    (strip ls l)[i]? = (l[i]?).map fun x => if x ∈ ls then -1 else x := by
  simp [strip]

theorem collect_ok {rows cols : List Int} {nb : Int} (hnb : nb = (labels cols).card)
    (hrow : ∀ b, b ∈ cols → b ≠ -1 → positions b rows ≠ []) :
    ∀ (k col : Nat) (ls : List Int), col + k = cols.length → ls.Nodup → (∀ b ∈ ls, b ∈ labels cols) →
    (∀ c : Nat, c < col → ∀ b, cols[c]? = some b → b = -1 ∨ b ∈ ls) →
    ∃ ls' : List Int, ls'.Nodup ∧ (∀ b, b ∈ ls' ↔ b ∈ labels cols) ∧
      collect rows nb k col (strip ls cols) (ls.map fun b => (positions b rows, positions b cols)) =
        .ok (ls'.map fun b => (positions b rows, positions b cols))
  | 0, col, ls, hk, hd, hs, hdone => by
    have hmem : ∀ b, b ∈ ls ↔ b ∈ labels cols := by
      intro b
      refine ⟨hs b, fun hb => ?_⟩
      obtain ⟨⟨i, hi⟩, hb1⟩ := mem_labels'.1 hb
      exact (hdone i (by have := (List.getElem?_eq_some_iff.1 hi).1; omega) b hi).resolve_left hb1
    refine ⟨ls, hd, hmem, ?_⟩
    have : ls.length = (labels cols).card := by
      rw [← List.toFinset_card_of_nodup hd]
      congr 1
      ext b
      rw [List.mem_toFinset, hmem]
    rw [collect, List.length_map, hnb, this]
    simp
  | k + 1, col, ls, hk, hd, hs, hdone => by
    have hlt : col < cols.length := by omega
    have hget : cols[col]? = some cols[col] := List.getElem?_eq_getElem hlt
    generalize cols[col] = b at hget
    rw [collect, strip_get, hget, Option.map_some, Res.ofOption_some, Res.ok_bind]
    by_cases hb : b = -1 ∨ b ∈ ls
    · rw [if_neg]
      · refine collect_ok hnb hrow k (col + 1) ls (by omega) hd hs ?_
        intro c hc d hcd
        by_cases hcc : c = col
        · rw [hcc, hget] at hcd
          injection hcd with hcd
          rw [← hcd]; exact hb
        · exact hdone c (by omega) d hcd
      · rw [not_not]
        rcases hb with rfl | hb
        · simp
        · rw [if_pos hb]
    · rw [not_or] at hb
      rw [if_neg hb.2, if_pos hb.1]
      have hbm : b ∈ labels cols := mem_labels'.2 ⟨⟨col, hget⟩, hb.1⟩
      have hpos : positions b (strip ls cols) = positions b cols := by
        rw [positions, positions]
        have : (strip ls cols).length = cols.length := by simp [strip]
        rw [this]
        refine List.filter_congr fun i _ => ?_
        rw [decide_eq_decide, strip_get, Option.map_eq_some_iff]
        constructor
        · rintro ⟨x, hx, hxb⟩
          split at hxb
          · exact absurd hxb.symm hb.1
          · rw [hx, hxb]
        · intro hx
          exact ⟨b, hx, if_neg hb.2⟩
      have hne : positions b cols ≠ [] := by
        intro he
        have : col ∈ positions b cols := mem_positions.2 hget
        rw [he] at this
        cases this
      simp only [hpos]
      rw [Res.assert_bind, if_pos hne, Res.assert_bind, if_pos (hrow b (mem_labels.1 hbm).1 hb.1), if_neg]
      · have e : replaceInteger (strip ls cols) b (-1) = strip (ls ++ [b]) cols := by
          apply List.ext_getElem?
          intro i
          rw [replace_get, strip_get, strip_get, Option.map_map]
          congr 1
          funext x
          simp only [Function.comp, List.mem_append, List.mem_singleton]
          by_cases hx : x ∈ ls
          · rw [if_pos hx, if_neg (fun e => hb.1 e.symm), if_pos (Or.inl hx)]
          · by_cases hxb : x = b
            · rw [if_neg hx, if_pos hxb, if_pos (Or.inr hxb)]
            · rw [if_neg hx, if_neg hxb, if_neg (by simp [hx, hxb])]
        rw [e]
        have := collect_ok hnb hrow k (col + 1) (ls ++ [b]) (by omega)
          (by rw [List.nodup_append]; exact ⟨hd, by simp, by rintro x hx y hy rfl; simp at hy; exact hb.2 (hy ▸ hx)⟩)
          (by intro d hd'
              rcases List.mem_append.1 hd' with h | h
              · exact hs d h
              · rw [List.mem_singleton.1 h]; exact hbm)
          (by intro c hc d hcd
              by_cases hcc : c = col
              · rw [hcc, hget] at hcd
                injection hcd with hcd
                rw [← hcd]; right; simp
              · rcases hdone c (by omega) d hcd with h | h
                · exact .inl h
                · exact .inr (List.mem_append_left _ h))
        rw [List.map_append] at this
        exact this
      · rw [List.length_map, hnb]
        have h1 : ls.length < (labels cols).card := by
          rw [← List.toFinset_card_of_nodup hd]
          refine Finset.card_lt_card ?_
          rw [Finset.ssubset_iff_of_subset (fun x hx => hs x (List.mem_toFinset.1 hx))]
          exact ⟨b, hbm, by rw [List.mem_toFinset]; exact hb.2⟩
        omega

theorem isBlocks_of {sig : Nat → Nat → Prop} {n m : Nat} {rows cols : List Int} {nb : Int}
    (hs : ∀ r c, sig r c → c < m)
    (h : Between sig n m rows cols nb) {ls : List Int} (hd : ls.Nodup) (hm : ∀ b, b ∈ ls ↔ b ∈ labels cols) :
    IsBlocks sig (ls.map fun b => (positions b rows, positions b cols)) where
  cover := fun r c hrc => by
    obtain ⟨b, h1, h2, h3⟩ := h.done r c (hs r c hrc) hrc
    exact ⟨_, List.mem_map.2 ⟨b, (hm b).2 (mem_labels'.2 ⟨⟨c, h3⟩, h1⟩), rfl⟩, mem_positions.2 h2,
      mem_positions.2 h3⟩
  apart := by
    rw [List.pairwise_map]
    refine hd.imp ?_
    intro a b hab
    constructor
    · intro r h1 h2
      rw [mem_positions] at h1 h2
      rw [h1] at h2
      injection h2 with h2
      exact hab h2
    · intro r h1 h2
      rw [mem_positions] at h1 h2
      rw [h1] at h2
      injection h2 with h2
      exact hab h2
  touched := by
    intro x hx
    obtain ⟨b, hb, rfl⟩ := List.mem_map.1 hx
    obtain ⟨⟨c, hc⟩, hb1⟩ := mem_labels'.1 ((hm b).1 hb)
    obtain ⟨r, hr⟩ := h.colact c b hc hb1
    obtain ⟨b', h1, h2, h3⟩ := h.done r c (hs r c hr) hr
    rw [hc] at h3
    injection h3 with h3
    subst h3
    exact ⟨r, c, mem_positions.2 h2, mem_positions.2 hc, hr⟩
  whole := by
    intro x hx y z hy hz
    obtain ⟨b, hb, rfl⟩ := List.mem_map.1 hx
    refine h.link y z b (mem_labels.1 ((hm b).1 hb)).2 ?_ ?_
    · cases y with
      | inl r => exact mem_positions.1 hy
      | inr c => exact mem_positions.1 hy
    · cases z with
      | inl r => exact mem_positions.1 hz
      | inr c => exact mem_positions.1 hz
  sorted := by
    intro x hx
    obtain ⟨b, hb, rfl⟩ := List.mem_map.1 hx
    exact ⟨positions_sorted _ _, positions_sorted _ _⟩

/-- The result of `wide`: the blocks, unless there is only one of them. -/
theorem wide_ok {α β : Type} [LT β] [DecidableLT β] (mag : α → β) (n m : Nat) (data : List α) (tol : β)
    (hl : data.length = n * m) :
    ∃ bl, IsBlocks (Sig (data.map fun x => decide (tol < mag x)) n m) bl ∧
      wide mag n m data tol = .ok (if bl.length = 1 then none else some bl) := by
  obtain ⟨rows, cols, nb, h1, h2⟩ := colLoop_between
    (sg := data.map fun x => decide (tol < mag x)) (n := n) (m := m) (by simpa using hl) m 0
    (List.replicate n (-1)) [] 0 (by omega) (between_zero _ n)
  rw [Nat.zero_mul] at h1
  obtain ⟨ls, h3, h4, h5⟩ := collect_ok (rows := rows) (cols := cols) h2.count (by
    intro b hb hb1 he
    obtain ⟨c, hc⟩ := List.mem_iff_getElem?.1 hb
    obtain ⟨r, hr⟩ := h2.colact c b hc hb1
    obtain ⟨b', h6, h7, h8⟩ := h2.done r c hr.2.1 hr
    rw [hc] at h8
    injection h8 with h8
    subst h8
    have : r ∈ positions b rows := mem_positions.2 h7
    rw [he] at this
    cases this) m 0 [] (by rw [h2.lc]; omega) List.nodup_nil (by simp) (by intro c hc; omega)
  have hlen : nb = ls.length := by
    rw [h2.count, ← List.toFinset_card_of_nodup h3]
    congr 2
    ext b
    rw [List.mem_toFinset, h4]
  refine ⟨_, isBlocks_of (fun r c h => h.2.1) h2 h3 h4, ?_⟩
  have hstrip : strip [] cols = cols := by simp [strip]
  rw [hstrip] at h5
  rw [wide, h1, Res.ok_bind, List.length_map]
  by_cases h : ls.length = 1
  · rw [if_pos h, if_pos (by simp only [hlen, h]; rfl)]; rfl
  · rw [if_neg h, if_neg (by simp only [hlen]; omega), Res.assert_bind, if_pos (by simp only [hlen]; omega)]
    simp only [List.map_nil] at h5
    simp only [h5]
    rfl

theorem closed {sig : Nat → Nat → Prop} {bl : List (List Nat × List Nat)} (h : IsBlocks sig bl)
    {b : List Nat × List Nat} (hb : b ∈ bl) {x y : Nat ⊕ Nat} (hl : Linked sig x y) :
    Within b x ↔ Within b y := by
  induction hl with
  | rel x y hxy =>
    obtain ⟨r, c, rfl, rfl, hs⟩ := hxy
    obtain ⟨d, hd, h1, h2⟩ := h.cover r c hs
    by_cases hbd : b = d
    · subst hbd
      exact ⟨fun _ => h2, fun _ => h1⟩
    · have : Std.Symm fun a b : List Nat × List Nat => (∀ r ∈ a.1, r ∉ b.1) ∧ ∀ c ∈ a.2, c ∉ b.2 :=
        ⟨fun _ _ hab => ⟨fun r h1 h2 => hab.1 r h2 h1, fun r h1 h2 => hab.2 r h2 h1⟩⟩
      have hp := h.apart.forall hb hd hbd
      exact ⟨fun h3 => absurd h1 (hp.1 r h3), fun h3 => absurd h2 (hp.2 c h3)⟩
  | refl => exact Iff.rfl
  | symm _ _ _ ih => exact ih.symm
  | trans _ _ _ _ _ ih1 ih2 => exact ih1.trans ih2

theorem sorted_ext {l l' : List Nat} (h : l.Pairwise (· < ·)) (h' : l'.Pairwise (· < ·))
    (hm : ∀ x, x ∈ l ↔ x ∈ l') : l = l' := by
  have n1 : l.Nodup := h.imp fun hab => Nat.ne_of_lt hab
  have n2 : l'.Nodup := h'.imp fun hab => Nat.ne_of_lt hab
  exact List.Perm.eq_of_pairwise (fun a b _ _ h1 h2 => absurd h1 (by omega)) h h'
    ((List.perm_ext_iff_of_nodup n1 n2).2 hm)

theorem mem_of_blocks {sig : Nat → Nat → Prop} {bl bl' : List (List Nat × List Nat)} (h : IsBlocks sig bl)
    (h' : IsBlocks sig bl') {b : List Nat × List Nat} (hb : b ∈ bl) : b ∈ bl' := by
  obtain ⟨r, c, h1, h2, hs⟩ := h.touched b hb
  obtain ⟨d, hd, h3, h4⟩ := h'.cover r c hs
  have hw : ∀ x, Within b x ↔ Within d x := by
    intro x
    constructor
    · intro hx
      exact (closed h' hd (h.whole b hb (.inl r) x h1 hx)).1 h3
    · intro hx
      exact (closed h hb (h'.whole d hd (.inl r) x h3 hx)).1 h1
  have : b = d := Prod.ext
    (sorted_ext (h.sorted b hb).1 (h'.sorted d hd).1 fun x => hw (.inl x))
    (sorted_ext (h.sorted b hb).2 (h'.sorted d hd).2 fun x => hw (.inr x))
  rw [this]
  exact hd

theorem blocks_nodup {sig : Nat → Nat → Prop} {bl : List (List Nat × List Nat)} (h : IsBlocks sig bl) :
    bl.Nodup := by
  refine List.Pairwise.imp_of_mem ?_ h.apart
  rintro a b ha _ hab rfl
  obtain ⟨r, c, h1, _, _⟩ := h.touched a ha
  exact hab.1 r h1 h1

/-- C56, the specification: a matrix has only one list of blocks, up to their order. -/
theorem c56_unique (sig : Nat → Nat → Prop) (bl bl' : List (List Nat × List Nat)) (h : IsBlocks sig bl)
    (h' : IsBlocks sig bl') : bl.Perm bl' :=
  (List.perm_ext_iff_of_nodup (blocks_nodup h) (blocks_nodup h')).2 fun _ =>
    ⟨mem_of_blocks h h', mem_of_blocks h' h⟩

/-- The elements of a tensor with a magnitude above the tolerance. -/
def Above {α β : Type} [LT β] (mag : α → β) (tol : β) (A : Tensor α) (r c : Nat) : Prop :=
  ∃ x, elem A.dims A.data [r, c] = some x ∧ tol < mag x

theorem sig_above {α β : Type} [LT β] [DecidableLT β] (mag : α → β) (A : Tensor α) (tol : β) (n m : Nat)
    (hd : A.dims = [n, m]) (r c : Nat) :
    Sig (A.data.map fun x => decide (tol < mag x)) n m r c ↔ Above mag tol A r c := by
  rw [Sig, Above, hd, elem]
  by_cases hb : InB [r, c] [n, m]
  · have hrc : r < n ∧ c < m := by simpa [InB] using hb
    have hp : colPos [n, m] [r, c] = c * n + r := by simp [colPos]; rw [Nat.mul_comm]; omega
    rw [if_pos hb, hp, List.getElem?_map]
    constructor
    · rintro ⟨_, _, h⟩
      obtain ⟨x, h1, h2⟩ := Option.map_eq_some_iff.1 h
      exact ⟨x, h1, of_decide_eq_true h2⟩
    · rintro ⟨x, h1, h2⟩
      exact ⟨hrc.1, hrc.2, by rw [h1, Option.map_some, decide_eq_true h2]⟩
  · rw [if_neg hb]
    constructor
    · rintro ⟨h1, h2, _⟩
      exact absurd (by simp [InB, h1, h2]) hb
    · rintro ⟨x, h, _⟩
      cases h

theorem IsBlocks.congr {sig sig' : Nat → Nat → Prop} {bl : List (List Nat × List Nat)}
    (h : IsBlocks sig bl) (he : ∀ r c, sig r c ↔ sig' r c) : IsBlocks sig' bl := by
  have : sig = sig' := by funext r c; exact propext (he r c)
  rw [← this]; exact h

/-- Rows and columns are exchanged. -/
def flipV : Nat ⊕ Nat → Nat ⊕ Nat
  | .inl r => .inr r
  | .inr c => .inl c

theorem linked_flip {sig : Nat → Nat → Prop} {x y : Nat ⊕ Nat} (h : Linked (fun r c => sig c r) x y) :
    Linked sig (flipV x) (flipV y) := by
  induction h with
  | rel x y hxy =>
    obtain ⟨r, c, rfl, rfl, hs⟩ := hxy
    exact (Relation.EqvGen.rel _ _ ⟨c, r, rfl, rfl, hs⟩ : Linked sig _ _).symm
  | refl => exact Relation.EqvGen.refl _
  | symm _ _ _ ih => exact ih.symm
  | trans _ _ _ _ _ ih1 ih2 => exact ih1.trans _ _ _ ih2

theorem IsBlocks.flip {sig : Nat → Nat → Prop} {bl : List (List Nat × List Nat)}
    (h : IsBlocks (fun r c => sig c r) bl) : IsBlocks sig (bl.map fun b => (b.2, b.1)) where
  cover := fun r c hrc => by
    obtain ⟨b, hb, h1, h2⟩ := h.cover c r hrc
    exact ⟨_, List.mem_map.2 ⟨b, hb, rfl⟩, h2, h1⟩
  apart := by
    rw [List.pairwise_map]
    exact h.apart.imp fun hab => ⟨hab.2, hab.1⟩
  touched := by
    intro x hx
    obtain ⟨b, hb, rfl⟩ := List.mem_map.1 hx
    obtain ⟨r, c, h1, h2, h3⟩ := h.touched b hb
    exact ⟨c, r, h2, h1, h3⟩
  whole := by
    intro x hx y z hy hz
    obtain ⟨b, hb, rfl⟩ := List.mem_map.1 hx
    have hw : ∀ z, Within (b.2, b.1) z → Within b (flipV z) := by
      intro z hz
      cases z with
      | inl r => exact hz
      | inr c => exact hz
    have := linked_flip (h.whole b hb _ _ (hw y hy) (hw z hz))
    have e : ∀ z, flipV (flipV z) = z := by intro z; cases z <;> rfl
    rwa [e, e] at this
  sorted := by
    intro x hx
    obtain ⟨b, hb, rfl⟩ := List.mem_map.1 hx
    exact ⟨(h.sorted b hb).2, (h.sorted b hb).1⟩

theorem dim0 {α : Type} {t : Tensor α} {n m : Nat} (h : t.dims = [n, m]) : t.dimension 0 = .ok n := by
  have := Tensor.dimension_nat t 0 n (by rw [h]; rfl)
  exact this

theorem dim1 {α : Type} {t : Tensor α} {n m : Nat} (h : t.dims = [n, m]) : t.dimension 1 = .ok m := by
  have := Tensor.dimension_nat t 1 m (by rw [h]; rfl)
  exact this

section
variable {α β : Type} [LT β] [DecidableLT β] [Zero β]

/-- C56 for matrices with no more rows than columns: find_blocks ends without errors, it finds the
blocks of elements above the tolerance, and it tells when there is only one. -/
theorem c56_blocks (mag : α → β) (A : Tensor α) (wf : A.WF) (n m : Nat) (hd : A.dims = [n, m]) (tol : β)
    (hnm : n ≤ m) :
    ∃ bl, IsBlocks (Above mag tol A) bl ∧
      findBlocks mag A tol = .ok (if bl.length = 1 then none else some bl) := by
  have hl : A.data.length = n * m := by
    have := wf.length_eq (by rw [hd]; simp)
    rw [hd] at this
    simpa [prod_cons] using this
  obtain ⟨bl, h1, h2⟩ := wide_ok mag n m A.data tol hl
  refine ⟨bl, IsBlocks.congr h1 (sig_above mag A tol n m hd), ?_⟩
  rw [findBlocks, dim0 hd, Res.ok_bind,
    dim1 hd, Res.ok_bind, if_neg (by omega)]
  exact h2

/-- C56 for matrices with more rows than columns: the blocks are those of the elements above zero. -/
theorem c56_tall (mag : α → β) (A : Tensor α) (wf : A.WF) (n m : Nat) (hd : A.dims = [n, m]) (tol : β)
    (hnm : m < n) :
    ∃ bl, IsBlocks (Above mag 0 A) bl ∧
      findBlocks mag A tol = .ok (if bl.length = 1 then none else some bl) := by
  obtain ⟨t, e, wft, hdt, hel⟩ := (Tensor.c18_transpose A wf).1 n m hd
  have hl : t.data.length = m * n := by
    have := wft.length_eq (by rw [hdt]; simp)
    rw [hdt] at this
    simpa [prod_cons] using this
  obtain ⟨bl, h1, h2⟩ := wide_ok mag m n t.data 0 hl
  have h3 : IsBlocks (fun r c => Above mag 0 A c r) bl := by
    refine IsBlocks.congr h1 fun r c => (sig_above mag t 0 m n hdt r c).trans ?_
    by_cases hb : c < n ∧ r < m
    · rw [Above, Above, hel c r hb.1 hb.2]
    · rw [Above, Above, hd, hdt, elem, elem, if_neg, if_neg]
      · simp only [InB]; omega
      · simp only [InB]; omega
  refine ⟨_, IsBlocks.flip h3, ?_⟩
  rw [findBlocks, dim0 hd, Res.ok_bind,
    dim1 hd, Res.ok_bind, if_pos hnm, e, Res.ok_bind,
    dim0 hdt, Res.ok_bind,
    dim1 hdt, Res.ok_bind, h2, Res.ok_bind, List.length_map]
  split <;> rfl

/-- C56 without a tolerance, for all matrices. -/
theorem c56_blocks_zero (mag : α → β) (A : Tensor α) (wf : A.WF) (n m : Nat) (hd : A.dims = [n, m]) :
    ∃ bl, IsBlocks (Above mag 0 A) bl ∧
      findBlocks mag A 0 = .ok (if bl.length = 1 then none else some bl) := by
  by_cases h : n ≤ m
  · exact c56_blocks mag A wf n m hd 0 h
  · exact c56_tall mag A wf n m hd 0 (by omega)

/-- C56: the result is "only one block" exactly if any list of blocks has one element. -/
theorem c56_single (mag : α → β) (A : Tensor α) (wf : A.WF) (n m : Nat) (hd : A.dims = [n, m]) (tol : β)
    (hnm : n ≤ m ∨ tol = 0) (bl : List (List Nat × List Nat)) (h : IsBlocks (Above mag tol A) bl) :
    findBlocks mag A tol = .ok none ↔ bl.length = 1 := by
  obtain ⟨bl', h1, h2⟩ : ∃ bl, IsBlocks (Above mag tol A) bl ∧
      findBlocks mag A tol = .ok (if bl.length = 1 then none else some bl) := by
    rcases hnm with hnm | rfl
    · exact c56_blocks mag A wf n m hd tol hnm
    · exact c56_blocks_zero mag A wf n m hd
  have := (c56_unique _ _ _ h h1).length_eq
  rw [h2, this]
  split
  · rename_i h3; simp [h3]
  · rename_i h3; simp [h3]

end

/-- The matrix with rows {9, 0}, {1, 1} and {0, 9}. -/
def tallEx : Tensor Int := ⟨[3, 2], [9, 1, 0, 0, 1, 9]⟩

/-- C56 is false of matrices with more rows than columns: with a tolerance of 5, the first and the last
rows make two blocks, but find_blocks joins them through elements which are below the tolerance. -/
theorem c56_tall_tolerance :
    tallEx.WF ∧ findBlocks Int.natAbs tallEx 5 = .ok none ∧
      IsBlocks (Above Int.natAbs 5 tallEx) [([0], [0]), ([2], [1])] := by
  refine ⟨by decide, by decide +kernel, ?_⟩
  have hsig : ∀ r c, Above Int.natAbs 5 tallEx r c ↔ (r = 0 ∧ c = 0) ∨ (r = 2 ∧ c = 1) := by
    intro r c
    have := sig_above Int.natAbs tallEx 5 3 2 rfl r c
    rw [← this]
    constructor
    · rintro ⟨h1, h2, h3⟩
      interval_cases r <;> interval_cases c <;> simp_all [tallEx]
    · rintro (⟨rfl, rfl⟩ | ⟨rfl, rfl⟩)
      · exact ⟨by omega, by omega, by simp [tallEx]⟩
      · exact ⟨by omega, by omega, by simp [tallEx]⟩
  refine IsBlocks.congr (sig := fun r c => (r = 0 ∧ c = 0) ∨ (r = 2 ∧ c = 1)) ?_ (fun r c => (hsig r c).symm)
  have l1 : Linked (fun r c => (r = 0 ∧ c = 0) ∨ (r = 2 ∧ c = 1)) (.inl 0) (.inr 0) :=
    touch_linked (.inl ⟨rfl, rfl⟩)
  have l2 : Linked (fun r c => (r = 0 ∧ c = 0) ∨ (r = 2 ∧ c = 1)) (.inl 2) (.inr 1) :=
    touch_linked (.inr ⟨rfl, rfl⟩)
  have pair : ∀ (a b : Nat) (x : Nat ⊕ Nat), Within ([a], [b]) x → x = .inl a ∨ x = .inr b := by
    intro a b x hx
    cases x with
    | inl r => left; rw [List.mem_singleton.1 hx]
    | inr c => right; rw [List.mem_singleton.1 hx]
  refine ⟨?_, by simp, ?_, ?_, by simp⟩
  · rintro r c (⟨rfl, rfl⟩ | ⟨rfl, rfl⟩) <;> simp
  · intro b hb
    simp only [List.mem_cons, List.not_mem_nil, or_false] at hb
    rcases hb with rfl | rfl
    · exact ⟨0, 0, by simp⟩
    · exact ⟨2, 1, by simp⟩
  · intro b hb x y hx hy
    simp only [List.mem_cons, List.not_mem_nil, or_false] at hb
    rcases hb with rfl | rfl
    · rcases pair _ _ _ hx with rfl | rfl <;> rcases pair _ _ _ hy with rfl | rfl
      · exact Relation.EqvGen.refl _
      · exact l1
      · exact l1.symm
      · exact Relation.EqvGen.refl _
    · rcases pair _ _ _ hx with rfl | rfl <;> rcases pair _ _ _ hy with rfl | rfl
      · exact Relation.EqvGen.refl _
      · exact l2
      · exact l2.symm
      · exact Relation.EqvGen.refl _

/-- A matrix of the hypotheses, with two blocks. -/
example : (⟨[2, 3], [0, 1, 2, 0, 0, 3]⟩ : Tensor Int).WF ∧
    findBlocks Int.natAbs ⟨[2, 3], [0, 1, 2, 0, 0, 3]⟩ 0 = .ok (some [([1], [0, 2]), ([0], [1])]) := by
  refine ⟨by decide, by decide +kernel⟩

/-- Two blocks are joined by the last column. -/
example : findBlocks Int.natAbs ⟨[2, 3], [0, 1, 2, 0, 7, 3]⟩ 0 = .ok none := by decide +kernel

/-- A tall matrix. -/
example : findBlocks Int.natAbs ⟨[3, 2], [0, 1, 2, 7, 0, 0]⟩ 0 = .ok (some [([0], [1]), ([1, 2], [0])]) := by
  decide +kernel

/-- A matrix of zeros has no blocks. -/
example : findBlocks Int.natAbs ⟨[1, 2], [0, 0]⟩ 0 = .ok (some []) := by decide +kernel

end Verif.Blocks
