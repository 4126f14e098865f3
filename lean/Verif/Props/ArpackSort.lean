import Mathlib.Algebra.Order.Field.Rat
import Mathlib.Analysis.Real.Sqrt
import Mathlib.Data.List.Perm.Subperm
import Mathlib.Tactic.NormNum
import Verif.Lemmas.ArpackSort
/-
The choice of Ritz values in ARPACK: C92 and C93.
-/
namespace Verif.ArpackSort

open Verif

/-! ### What is asked for -/

section
variable {K : Type} [AddCommGroup K] [LinearOrder K]

/-- The value `a` is asked for at least as much as `b`, for real values. -/
def Pref (w : Which) (a b : K) : Prop :=
  match w with
  | .LM => |b| ≤ |a|
  | .SM => |a| ≤ |b|
  | .LA => b ≤ a
  | .SA => a ≤ b
  | _ => False

/-- The value `ar + i ai` is asked for at least as much as `br + i bi`; `absIm` tells whether imaginary parts
are compared by their magnitude. -/
def PrefC (mag : K → K → K) (absIm : Bool) (w : Which) (ar ai br bi : K) : Prop :=
  match w with
  | .LM => mag br bi ≤ mag ar ai
  | .SM => mag ar ai ≤ mag br bi
  | .LR => br ≤ ar
  | .SR => ar ≤ br
  | .LI => if absIm then |bi| ≤ |ai| else bi ≤ ai
  | .SI => if absIm then |ai| ≤ |bi| else ai ≤ bi
  | _ => False

end

/-- The four orders of real problems. -/
def Which.Real : Which → Prop
  | .LM => True
  | .SM => True
  | .LA => True
  | .SA => True
  | _ => False

/-- The six orders of complex problems. -/
def Which.Complex : Which → Prop
  | .LA => False
  | .SA => False
  | _ => True

section
variable {K : Type} [Field K] [LinearOrder K]

theorem gtR_trans (w : Which) (a b c : K) : gtR w a b = false → gtR w b c = false → gtR w a c = false := by
  cases w <;> simp only [gtR, decide_eq_false_iff_not, not_lt, implies_true]
  · exact fun h1 h2 => h1.trans h2
  · exact fun h1 h2 => h2.trans h1
  · exact fun h1 h2 => h1.trans h2
  · exact fun h1 h2 => h2.trans h1

theorem gtR_asymm (w : Which) (a b : K) : gtR w a b = true → gtR w b a = false := by
  cases w <;> simp only [gtR, decide_eq_false_iff_not, decide_eq_true_eq, not_lt, Bool.false_eq_true, false_imp_iff] <;>
    exact le_of_lt

theorem gtR_false {w : Which} (hw : w.Real) (a b : K) : gtR w a b = false ↔ Pref w b a := by
  cases w <;> simp only [Which.Real] at hw <;> simp only [gtR, Pref, decide_eq_false_iff_not, not_lt]

theorem gtR_opposite {w : Which} (hw : w.Real) (a b : K) : gtR (opposite w) a b = false ↔ Pref w a b := by
  cases w <;> simp only [Which.Real] at hw <;> simp only [gtR, Pref, opposite, decide_eq_false_iff_not, not_lt]

theorem Pref.trans {w : Which} {a b c : K} (h1 : Pref w a b) (h2 : Pref w b c) : Pref w a c := by
  cases w <;> simp only [Pref] at *
  · exact h2.trans h1
  · exact h1.trans h2
  · exact h2.trans h1
  · exact h1.trans h2

theorem dsortr_spec (w : Which) (n : Nat) (l : List (Ritz K)) (hn : n ≤ l.length) :
    ∃ l', dsortr w n l = .ok l' ∧ Same n l l' ∧ (l'.take n).Pairwise fun a b => gtR w a.x b.x = false :=
  sort_spec (gt := fun a b : Ritz K => gtR w a.x b.x) (fun _ _ _ => gtR_trans w _ _ _) (fun _ _ => gtR_asymm w _ _) n l hn

theorem dsortrB_spec (w : Which) (n : Nat) (l : List (Ritz K)) (hn : n ≤ l.length) :
    ∃ l', dsortrB w n l = .ok l' ∧ Same n l l' ∧ (l'.take n).Pairwise fun a b => gtR w a.bound b.bound = false :=
  sort_spec (gt := fun a b : Ritz K => gtR w a.bound b.bound) (fun _ _ _ => gtR_trans w _ _ _)
    (fun _ _ => gtR_asymm w _ _) n l hn

/-- What is after a position in a list in order is not before what is before it. -/
theorem split_ordered {E : Type} {r : E → E → Prop} {n k : Nat} {l : List E} (hn : l.length ≤ n)
    (h : (l.take n).Pairwise r) {a b : E} (ha : a ∈ l.take k) (hb : b ∈ l.drop k) : r a b := by
  rw [List.take_of_length_le hn, ← List.take_append_drop k l, List.pairwise_append] at h
  exact h.2.2 a ha b hb

/-- C92, real symmetric problems: of kev + np Ritz values dsgets puts kev to the end which are asked for at
least as much as all others; no value is lost, and each keeps its error estimate. -/
theorem c92_symmetric (w : Which) (hw : w.Real) (kev np : Nat) (l : List (Ritz K)) (hl : l.length = kev + np) :
    ∃ l', dsgets w kev np l = .ok l' ∧ l'.Perm l ∧ (l'.drop np).length = kev ∧
      ∀ a ∈ l'.drop np, ∀ b ∈ l'.take np, Pref w a.x b.x := by
  obtain ⟨l1, e1, s1, o1⟩ := dsortr_spec w (kev + np) l hl.ge
  have main : ∀ a ∈ l1.drop np, ∀ b ∈ l1.take np, Pref w a.x b.x := fun a ha b hb =>
    (gtR_false hw b.x a.x).1 (split_ordered (by rw [s1.1, hl]) o1 hb ha)
  rw [dsgets, e1]
  simp only [Res.ok_bind]
  by_cases h0 : 0 < np
  · rw [if_pos h0]
    obtain ⟨l2, e2, s2, -⟩ := dsortrB_spec .SM np l1 (by rw [s1.1, hl]; omega)
    refine ⟨l2, e2, s2.perm.trans s1.perm, ?_, ?_⟩
    · rw [List.length_drop, s2.1, s1.1, hl]
      omega
    · intro a ha b hb
      rw [s2.2.2] at ha
      exact main a ha b (s2.2.1.mem_iff.1 hb)
  · rw [if_neg h0]
    refine ⟨l1, rfl, s1.perm, ?_, main⟩
    rw [List.length_drop, s1.1, hl]
    omega

example : (Which.LM).Real ∧ Pref .LM (-3 : ℚ) 2 ∧ ¬ Pref .LA (-3 : ℚ) 2 := by
  refine ⟨trivial, ?_, ?_⟩ <;> simp [Pref] <;> norm_num

end

/-! ### The end of the iteration -/

section
variable {E : Type}

/-- `f` for the first n elements. -/
def mapFirst (f : E → E) (n : Nat) (l : List E) : List E := l.mapIdx fun i r => if i < n then f r else r

theorem mapFirst_take (f : E → E) (n : Nat) (l : List E) : (mapFirst f n l).take n = (l.take n).map f := by
  apply List.ext_getElem?
  intro i
  rw [List.getElem?_map]
  by_cases hi : i < n
  · rw [List.getElem?_take_of_lt hi, List.getElem?_take_of_lt hi, mapFirst, List.getElem?_mapIdx]
    cases l[i]? <;> simp [hi]
  · rw [List.getElem?_eq_none (by rw [List.length_take]; omega), List.getElem?_eq_none (by rw [List.length_take]; omega)]
    rfl

theorem mapFirst_length (f : E → E) (n : Nat) (l : List E) : (mapFirst f n l).length = l.length := by
  simp [mapFirst]

theorem filter_front (p : E → Bool) {l : List E} (h : l.Pairwise fun a b => p b = true → p a = true) :
    l.filter p = l.take (l.filter p).length := by
  induction h with
  | nil => rfl
  | @cons a l hx _ ih =>
    by_cases ha : p a = true
    · rw [List.filter_cons_of_pos ha, List.length_cons, List.take_succ_cons, ← ih]
    · have : l.filter p = [] := List.filter_eq_nil_iff.2 fun b hb hp => ha (hx b hb hp)
      rw [List.filter_cons_of_neg ha, this]
      rfl

/-- The sequence of sorts at the end of the iteration. -/
theorem finish_generic {gtO gtB gtW : E → E → Bool}
    (tO : ∀ a b c, gtO a b = false → gtO b c = false → gtO a c = false) (aO : ∀ a b, gtO a b = true → gtO b a = false)
    (tB : ∀ a b c, gtB a b = false → gtB b c = false → gtB a c = false) (aB : ∀ a b, gtB a b = true → gtB b a = false)
    (tW : ∀ a b c, gtW a b = false → gtW b c = false → gtW a c = false) (aW : ∀ a b, gtW a b = true → gtW b a = false)
    {down up : E → E} (hid : ∀ r, up (down r) = r) {p : E → Bool}
    (hp : ∀ a b, gtB (down a) (down b) = false → p b = true → p a = true) {k nev0 nconv : Nat} (hn : nev0 ≤ k)
    (hc : nconv ≤ nev0) {l : List E} (hl : l.length = k) :
    ∃ m l2 l3, sort gtO k l = .ok m ∧ sort gtB nev0 (mapFirst down nev0 m) = .ok l2 ∧
      sort gtW nconv (mapFirst up nev0 l2) = .ok l3 ∧ m.Perm l ∧
      (∀ a ∈ m.take nev0, ∀ b ∈ m.drop nev0, gtO a b = false) ∧ (l3.take nconv).Pairwise (fun a b => gtW a b = false) ∧
      (nconv = ((m.take nev0).filter p).length → (l3.take nconv).Perm ((m.take nev0).filter p)) := by
  obtain ⟨m, e1, s1, o1⟩ := sort_spec tO aO k l hl.ge
  obtain ⟨l2, e2, s2, o2⟩ := sort_spec tB aB nev0 (mapFirst down nev0 m) (by rw [mapFirst_length, s1.1, hl]; exact hn)
  have hlen : (mapFirst up nev0 l2).length = k := by rw [mapFirst_length, s2.1, mapFirst_length, s1.1, hl]
  obtain ⟨l3, e3, s3, o3⟩ := sort_spec tW aW nconv (mapFirst up nev0 l2) (by rw [hlen]; omega)
  refine ⟨m, l2, l3, e1, e2, e3, s1.perm, ?_, o3, ?_⟩
  · intro a ha b hb
    exact split_ordered (by rw [s1.1, hl]) o1 ha hb
  · intro hcount
    have hU : ((mapFirst up nev0 l2).take nev0).Perm (m.take nev0) := by
      rw [mapFirst_take]
      refine (s2.2.1.map _).trans ?_
      rw [mapFirst_take, List.map_map]
      refine List.Perm.of_eq ?_
      conv_rhs => rw [← List.map_id (m.take nev0)]
      exact List.map_congr_left fun r _ => hid r
    have hord : ((mapFirst up nev0 l2).take nev0).Pairwise fun a b => p b = true → p a = true := by
      rw [mapFirst_take, List.pairwise_map]
      have hmem : ∀ s ∈ l2.take nev0, ∃ r, s = down r := by
        intro s hs
        rw [s2.2.1.mem_iff, mapFirst_take, List.mem_map] at hs
        obtain ⟨r, -, rfl⟩ := hs
        exact ⟨r, rfl⟩
      refine o2.imp_of_mem ?_
      intro a b ha hb hab
      obtain ⟨r, rfl⟩ := hmem a ha
      obtain ⟨r', rfl⟩ := hmem b hb
      rw [hid, hid]
      exact hp r r' hab
    have hf := filter_front p hord
    rw [(hU.filter p).length_eq, ← hcount, List.take_take, min_eq_left hc] at hf
    refine s3.2.1.trans ?_
    rw [← hf]
    exact hU.filter p

/-- Two ways to cut a list without ties into a better and a worse part are the same. -/
theorem unique_best (r : E → E → Prop) {l A B A' B' : List E} (h : (A ++ B).Perm l) (h' : (A' ++ B').Perm l)
    (hlen : A.length = A'.length) (hr : ∀ a ∈ A, ∀ b ∈ B, r a b) (hr' : ∀ a ∈ A', ∀ b ∈ B', r a b)
    (hn : l.Nodup) (ht : ∀ a ∈ l, ∀ b ∈ l, r a b → r b a → a = b) : A.Perm A' := by
  have nA : A.Nodup := (List.nodup_append.1 (h.nodup_iff.2 hn)).1
  have nA' : A'.Nodup := (List.nodup_append.1 (h'.nodup_iff.2 hn)).1
  have sub : ∀ a ∈ A', a ∈ A := by
    intro a ha
    by_contra hna
    have hal : a ∈ l := h'.mem_iff.1 (List.mem_append_left _ ha)
    have hB : a ∈ B := (List.mem_append.1 (h.mem_iff.2 hal)).resolve_left hna
    have : ∃ c ∈ A, c ∉ A' := by
      by_contra hcon
      have hsub : ∀ c ∈ a :: A, c ∈ A' := by
        intro c hc
        rcases List.mem_cons.1 hc with rfl | hc
        · exact ha
        · by_contra hc'
          exact hcon ⟨c, hc, hc'⟩
      have := (List.subperm_of_subset (List.nodup_cons.2 ⟨hna, nA⟩) hsub).length_le
      rw [List.length_cons] at this
      omega
    obtain ⟨c, hc, hc'⟩ := this
    have hcl : c ∈ l := h.mem_iff.1 (List.mem_append_left _ hc)
    have hcB : c ∈ B' := (List.mem_append.1 (h'.mem_iff.2 hcl)).resolve_left hc'
    have := ht a hal c hcl (hr' a ha c hcB) (hr c hc a hB)
    rw [this] at ha
    exact hc' ha
  exact ((List.subperm_of_subset nA' sub).perm_of_length_le hlen.le).symm

/-- A symmetric relation of all pairs of places holds of different elements. -/
theorem pairwise_symm {r : E → E → Prop} (hs : ∀ a b, r a b → r b a) {l : List E} (h : l.Pairwise r) :
    ∀ a ∈ l, ∀ b ∈ l, a ≠ b → r a b := by
  induction h with
  | nil => exact nofun
  | @cons x l hx _ ih =>
    intro a ha b hb hab
    rcases List.mem_cons.1 ha with ha | ha <;> rcases List.mem_cons.1 hb with hb | hb
    · exact absurd (ha.trans hb.symm) hab
    · rw [ha]
      exact hx b hb
    · rw [hb]
      exact hs _ _ (hx a ha)
    · exact ih a ha b hb hab

/-- No two elements are asked for equally. -/
def NoTies (r : E → E → Prop) (l : List E) : Prop := l.Pairwise fun a b => ¬ (r a b ∧ r b a)

/-- The `n` elements which are asked for most, and the others. -/
def Best (r : E → E → Prop) (n : Nat) (l best rest : List E) : Prop :=
  (best ++ rest).Perm l ∧ best.length = n ∧ ∀ a ∈ best, ∀ b ∈ rest, r a b

theorem NoTies.best {r : E → E → Prop} (hr : ∀ a, r a a) {l : List E} (h : NoTies r l) {n : Nat} {A B A' B' : List E}
    (h1 : Best r n l A B) (h2 : Best r n l A' B') : A.Perm A' := by
  refine unique_best r h1.1 h2.1 (h1.2.1.trans h2.2.1.symm) h1.2.2 h2.2.2 ?_ ?_
  · refine h.imp ?_
    rintro a _ h' rfl
    exact h' ⟨hr a, hr a⟩
  · intro a ha b hb ab ba
    by_contra hab
    exact pairwise_symm (fun c d h' => fun h'' => h' ⟨h''.2, h''.1⟩) h a ha b hb hab ⟨ab, ba⟩

/-- The sorts at the end, after the choice of the values of the convergence test. -/
theorem stop_generic {r : E → E → Prop} (hr : ∀ a, r a a) {gtO gtB gtW : E → E → Bool}
    (tO : ∀ a b c, gtO a b = false → gtO b c = false → gtO a c = false) (aO : ∀ a b, gtO a b = true → gtO b a = false)
    (tB : ∀ a b c, gtB a b = false → gtB b c = false → gtB a c = false) (aB : ∀ a b, gtB a b = true → gtB b a = false)
    (tW : ∀ a b c, gtW a b = false → gtW b c = false → gtW a c = false) (aW : ∀ a b, gtW a b = true → gtW b a = false)
    (hO : ∀ a b, gtO a b = false → r a b) (hW : ∀ a b, gtW a b = false → r b a)
    {down up : E → E} (hid : ∀ r, up (down r) = r) {p : E → Bool}
    (hp : ∀ a b, gtB (down a) (down b) = false → p b = true → p a = true) {nev0 np0 : Nat}
    {l l1 : List E} (hl : l.length = nev0 + np0) (p1 : l1.Perm l) (k1 : (l1.drop np0).length = nev0)
    (b1 : ∀ a ∈ l1.drop np0, ∀ b ∈ l1.take np0, r a b) (ht : NoTies r l) :
    ∃ m l2 l3, sort gtO (nev0 + np0) l1 = .ok m ∧ sort gtB nev0 (mapFirst down nev0 m) = .ok l2 ∧
      sort gtW ((l1.drop np0).filter p).length (mapFirst up nev0 l2) = .ok l3 ∧
      ∃ best rest, Best r nev0 l best rest ∧ ((l1.drop np0).filter p).length = (best.filter p).length ∧
        (l3.take ((l1.drop np0).filter p).length).Perm (best.filter p) ∧
        (l3.take ((l1.drop np0).filter p).length).Pairwise fun a b => r b a := by
  have hc : ((l1.drop np0).filter p).length ≤ nev0 := k1 ▸ List.length_filter_le _ _
  obtain ⟨m, l2, l3, e1, e2, e3, p2, b2, o3, hlast⟩ := finish_generic tO aO tB aB tW aW hid hp (k := nev0 + np0) (by omega) hc
    (l := l1) (by rw [p1.length_eq, hl])
  have B2 : Best r nev0 l (m.take nev0) (m.drop nev0) := by
    refine ⟨?_, ?_, fun a ha b hb => hO a b (b2 a ha b hb)⟩
    · rw [List.take_append_drop]
      exact p2.trans p1
    · rw [List.length_take, p2.length_eq, p1.length_eq, hl]
      omega
  have B1 : Best r nev0 l (l1.drop np0) (l1.take np0) :=
    ⟨(List.perm_append_comm.trans (List.Perm.of_eq (List.take_append_drop np0 l1))).trans p1, k1, b1⟩
  have hcount : ((l1.drop np0).filter p).length = ((m.take nev0).filter p).length :=
    ((ht.best hr B1 B2).filter p).length_eq
  exact ⟨m, l2, l3, e1, e2, e3, m.take nev0, m.drop nev0, B2, hcount, hlast hcount, o3.imp fun h => hW _ _ h⟩

end

section
variable {K : Type} [Field K] [LinearOrder K]

theorem Pref.refl {w : Which} (hw : w.Real) (a : K) : Pref w a a := by
  cases w <;> simp only [Which.Real] at hw <;> simp [Pref]

theorem scale_down (eps23 : K) (n : Nat) (l : List (Ritz K)) :
    scale eps23 false n l = mapFirst (fun r => { r with bound := r.bound / max eps23 |r.x| }) n l := rfl

theorem scale_up (eps23 : K) (n : Nat) (l : List (Ritz K)) :
    scale eps23 true n l = mapFirst (fun r => { r with bound := r.bound * max eps23 |r.x| }) n l := rfl

variable [IsStrictOrderedRing K]

/-- C93, real problems: when the iteration ends, the values which are returned are those of the nev0 values
asked for most which have converged, in order, beginning with the one which is asked for least; if info is 0,
these are all nev0. This is for Ritz values without ties; with ties it is false, `c93_negation_ties`. -/
theorem c93_symmetric_partial (eps23 tol : K) (he : 0 < eps23) (w : Which) (hw : w.Real) (nev0 np0 : Nat) (last : Bool)
    (l : List (Ritz K)) (hl : l.length = nev0 + np0) (ht : NoTies (fun a b => Pref w a.x b.x) l) :
    ∃ s, saup2 eps23 tol w nev0 np0 last l = .ok s ∧
      ∀ info values, s = .stop info values → ∃ best rest, Best (fun a b => Pref w a.x b.x) nev0 l best rest ∧
        values.Perm (best.filter fun a => decide (a.bound ≤ tol * max eps23 |a.x|)) ∧
        (values.Pairwise fun a b => Pref w b.x a.x) ∧ (info = 0 → values.Perm best) := by
  obtain ⟨l1, e1, p1, k1, b1⟩ := c92_symmetric w hw nev0 np0 l hl
  have hpos : ∀ x : K, 0 < max eps23 |x| := fun x => lt_of_lt_of_le he (le_max_left _ _)
  obtain ⟨m, l2, l3, f1, f2, f3, best, rest, hb, hcount, hperm, hord⟩ :=
    stop_generic (r := fun a b : Ritz K => Pref w a.x b.x) (fun a => Pref.refl hw a.x)
      (gtO := fun a b => gtR (opposite w) a.x b.x) (gtB := fun a b => gtR .LA a.bound b.bound)
      (gtW := fun a b => gtR w a.x b.x)
      (fun _ _ _ => gtR_trans _ _ _ _) (fun _ _ => gtR_asymm _ _ _)
      (fun _ _ _ => gtR_trans _ _ _ _) (fun _ _ => gtR_asymm _ _ _)
      (fun _ _ _ => gtR_trans _ _ _ _) (fun _ _ => gtR_asymm _ _ _)
      (fun a b h => (gtR_opposite hw _ _).1 h) (fun a b h => (gtR_false hw _ _).1 h)
      (down := fun r => { r with bound := r.bound / max eps23 |r.x| })
      (up := fun r => { r with bound := r.bound * max eps23 |r.x| })
      (fun r => by simp only [div_mul_cancel₀ _ (hpos r.x).ne'])
      (p := small eps23 tol)
      (by
        intro a b h
        simp only [gtR, decide_eq_false_iff_not, not_lt] at h
        simp only [small, decide_eq_true_eq]
        intro hb
        rw [← div_le_iff₀ (hpos _)] at hb ⊢
        exact h.trans hb)
      hl p1 k1 b1 ht
  have hfin : finish eps23 w (nev0 + np0) nev0 (dsconv eps23 tol (l1.drop np0)) l1 = .ok l3 := by
    rw [finish, dsortr, f1]
    simp only [Res.ok_bind]
    rw [scale_down, dsortrB, f2]
    simp only [Res.ok_bind]
    rw [scale_up]
    exact f3
  rw [saup2, e1]
  simp only [Res.ok_bind]
  by_cases hstop : nev0 ≤ dsconv eps23 tol (l1.drop np0) ∨ last = true ∨
      np0 - ((l1.take np0).filter fun r => decide (r.bound = 0)).length = 0
  · rw [if_pos hstop, hfin]
    simp only [Res.ok_bind]
    refine ⟨_, rfl, ?_⟩
    intro info values hv
    rw [Step.stop.injEq] at hv
    obtain ⟨hinfo, rfl⟩ := hv
    refine ⟨best, rest, hb, hperm, hord, ?_⟩
    rintro rfl
    have hfull : nev0 ≤ dsconv eps23 tol (l1.drop np0) := by
      by_contra hlt
      rcases hstop with h | h | h
      · exact hlt h
      · rw [if_pos (c := last = true ∧ _) ⟨h, by omega⟩] at hinfo
        split at hinfo <;> simp at hinfo
      · rw [if_pos (c := _ = 0 ∧ _) ⟨h, by omega⟩] at hinfo
        simp at hinfo
    refine hperm.trans ?_
    rw [dsconv, hcount, ← hb.2.1] at hfull
    rw [List.filter_eq_self.2 (List.length_filter_eq_length_iff.1 (le_antisymm (List.length_filter_le _ _) hfull))]
  · rw [if_neg hstop]
    exact ⟨_, rfl, by intro info values hv; cases hv⟩

end

example : NoTies (fun a b => Pref .LM a.x b.x) [(⟨1, 0⟩ : Ritz ℚ), ⟨2, 1⟩, ⟨3, 0⟩] := by
  simp [NoTies, Pref]
  norm_num

/-! ### Complex problems -/

section
variable {K : Type} [LinearOrder K]

theorem gtZ_trans (mag : K → K → K) (w : Which) (ar ai br bi cr ci : K) :
    gtZ mag w ar ai br bi = false → gtZ mag w br bi cr ci = false → gtZ mag w ar ai cr ci = false := by
  cases w <;> simp only [gtZ, decide_eq_false_iff_not, not_lt, implies_true]
  · exact fun h1 h2 => h1.trans h2
  · exact fun h1 h2 => h2.trans h1
  · exact fun h1 h2 => h1.trans h2
  · exact fun h1 h2 => h2.trans h1
  · exact fun h1 h2 => h1.trans h2
  · exact fun h1 h2 => h2.trans h1

theorem gtZ_asymm (mag : K → K → K) (w : Which) (ar ai br bi : K) :
    gtZ mag w ar ai br bi = true → gtZ mag w br bi ar ai = false := by
  cases w <;> simp only [gtZ, decide_eq_false_iff_not, decide_eq_true_eq, not_lt, Bool.false_eq_true, false_imp_iff] <;>
    exact le_of_lt

variable [AddCommGroup K]

theorem gtZ_false (mag : K → K → K) {w : Which} (hw : w.Complex) (ar ai br bi : K) :
    gtZ mag w ar ai br bi = false ↔ PrefC mag false w br bi ar ai := by
  cases w <;> simp only [Which.Complex] at hw <;>
    simp only [gtZ, PrefC, decide_eq_false_iff_not, not_lt, Bool.false_eq_true, if_false]

theorem gtZ_opposite (mag : K → K → K) {w : Which} (hw : w.Complex) (ar ai br bi : K) :
    gtZ mag (opposite w) ar ai br bi = false ↔ PrefC mag false w ar ai br bi := by
  cases w <;> simp only [Which.Complex] at hw <;>
    simp only [gtZ, PrefC, opposite, decide_eq_false_iff_not, not_lt, Bool.false_eq_true, if_false]

theorem PrefC.refl (mag : K → K → K) (s : Bool) {w : Which} (hw : w.Complex) (a b : K) : PrefC mag s w a b a b := by
  cases w <;> simp only [Which.Complex] at hw <;> simp [PrefC]

theorem PrefC.trans {mag : K → K → K} {s : Bool} {w : Which} {ar ai br bi cr ci : K} (h1 : PrefC mag s w ar ai br bi)
    (h2 : PrefC mag s w br bi cr ci) : PrefC mag s w ar ai cr ci := by
  cases w <;> cases s <;> simp only [PrefC, if_true, if_false, Bool.false_eq_true] at *
  all_goals first | exact h2.trans h1 | exact h1.trans h2

/-- C92, complex problems: of kev + np Ritz values zngets puts kev to the end which are asked for at least as
much as all others; no value is lost, and each keeps its error estimate. -/
theorem c92_complex (mag : K → K → K) (w : Which) (hw : w.Complex) (kev np : Nat) (l : List (CRitz K (K × K)))
    (hl : l.length = kev + np) :
    ∃ l', zngets mag w kev np l = .ok l' ∧ l'.Perm l ∧ (l'.drop np).length = kev ∧
      ∀ a ∈ l'.drop np, ∀ b ∈ l'.take np, PrefC mag false w a.re a.im b.re b.im := by
  obtain ⟨l1, e1, s1, o1⟩ := sort_spec (gt := fun a b : CRitz K (K × K) => gtZ mag w a.re a.im b.re b.im)
    (fun _ _ _ => gtZ_trans _ _ _ _ _ _ _ _) (fun _ _ => gtZ_asymm _ _ _ _ _ _) (kev + np) l hl.ge
  obtain ⟨l2, e2, s2, -⟩ := sort_spec
    (gt := fun a b : CRitz K (K × K) => gtZ mag .SM a.bound.1 a.bound.2 b.bound.1 b.bound.2)
    (fun _ _ _ => gtZ_trans _ _ _ _ _ _ _ _) (fun _ _ => gtZ_asymm _ _ _ _ _ _) np l1 (by rw [s1.1, hl]; omega)
  refine ⟨l2, ?_, s2.perm.trans s1.perm, ?_, ?_⟩
  · rw [zngets, zsortc, e1]
    simp only [Res.ok_bind]
    exact e2
  · rw [List.length_drop, s2.1, s1.1, hl]
    omega
  · intro a ha b hb
    rw [s2.2.2] at ha
    exact (gtZ_false mag hw _ _ _ _).1 (split_ordered (by rw [s1.1, hl]) o1 (s2.2.1.mem_iff.1 hb) ha)

example : (Which.SI).Complex ∧ PrefC (fun a b : ℚ => a * a + b * b) false .SI 5 (-3) 0 2 ∧
    ¬ PrefC (fun a b : ℚ => a * a + b * b) true .SI 5 (-3) 0 2 := by
  refine ⟨trivial, ?_, ?_⟩ <;> simp [PrefC] <;> norm_num

end

section
variable {K : Type} [Field K] [LinearOrder K]

theorem scaleZ_down (mag : K → K → K) (eps23 : K) (n : Nat) (l : List (CRitz K (K × K))) :
    scaleZ mag eps23 false n l = mapFirst (fun r =>
      { r with bound := (r.bound.1 / max eps23 (mag r.re r.im), r.bound.2 / max eps23 (mag r.re r.im)) }) n l := rfl

theorem scaleZ_up (mag : K → K → K) (eps23 : K) (n : Nat) (l : List (CRitz K (K × K))) :
    scaleZ mag eps23 true n l = mapFirst (fun r =>
      { r with bound := (r.bound.1 * max eps23 (mag r.re r.im), r.bound.2 * max eps23 (mag r.re r.im)) }) n l := rfl

variable [IsStrictOrderedRing K]

/-- C93, complex problems; as `c93_symmetric_partial`, and info is 0 if and only if all nev0 values are returned. -/
theorem c93_complex_partial (mag : K → K → K) (hmag : ∀ x y t, 0 < t → mag (x * t) (y * t) = mag x y * t) (eps23 tol : K)
    (he : 0 < eps23) (w : Which) (hw : w.Complex) (nev0 np0 : Nat) (last : Bool) (l : List (CRitz K (K × K)))
    (hl : l.length = nev0 + np0) (ht : NoTies (fun a b => PrefC mag false w a.re a.im b.re b.im) l) :
    ∃ s, naup2 mag eps23 tol w nev0 np0 last l = .ok s ∧
      ∀ info values, s = .stop info values →
        ∃ best rest, Best (fun a b => PrefC mag false w a.re a.im b.re b.im) nev0 l best rest ∧
        values.Perm (best.filter fun a => decide (mag a.bound.1 a.bound.2 ≤ tol * max eps23 (mag a.re a.im))) ∧
        (values.Pairwise fun a b => PrefC mag false w b.re b.im a.re a.im) ∧ (info = 0 ↔ values.Perm best) := by
  obtain ⟨l1, e1, p1, k1, b1⟩ := c92_complex mag w hw nev0 np0 l hl
  have hpos : ∀ x y : K, 0 < max eps23 (mag x y) := fun x y => lt_of_lt_of_le he (le_max_left _ _)
  obtain ⟨m, l2, l3, f1, f2, f3, best, rest, hb, hcount, hperm, hord⟩ :=
    stop_generic (r := fun a b : CRitz K (K × K) => PrefC mag false w a.re a.im b.re b.im)
      (fun a => PrefC.refl mag false hw a.re a.im)
      (gtO := fun a b => gtZ mag (opposite w) a.re a.im b.re b.im)
      (gtB := fun a b => gtZ mag .LM a.bound.1 a.bound.2 b.bound.1 b.bound.2)
      (gtW := fun a b => gtZ mag w a.re a.im b.re b.im)
      (fun _ _ _ => gtZ_trans _ _ _ _ _ _ _ _) (fun _ _ => gtZ_asymm _ _ _ _ _ _)
      (fun _ _ _ => gtZ_trans _ _ _ _ _ _ _ _) (fun _ _ => gtZ_asymm _ _ _ _ _ _)
      (fun _ _ _ => gtZ_trans _ _ _ _ _ _ _ _) (fun _ _ => gtZ_asymm _ _ _ _ _ _)
      (fun a b h => (gtZ_opposite mag hw _ _ _ _).1 h) (fun a b h => (gtZ_false mag hw _ _ _ _).1 h)
      (down := fun r =>
        { r with bound := (r.bound.1 / max eps23 (mag r.re r.im), r.bound.2 / max eps23 (mag r.re r.im)) })
      (up := fun r =>
        { r with bound := (r.bound.1 * max eps23 (mag r.re r.im), r.bound.2 * max eps23 (mag r.re r.im)) })
      (fun r => by simp only [div_mul_cancel₀ _ (hpos r.re r.im).ne'])
      (p := smallZ mag eps23 tol)
      (by
        intro a b h
        simp only [gtZ, decide_eq_false_iff_not, not_lt] at h
        simp only [smallZ, decide_eq_true_eq]
        intro hb
        have key : ∀ r : CRitz K (K × K), mag r.bound.1 r.bound.2 ≤ tol * max eps23 (mag r.re r.im) ↔
            mag (r.bound.1 / max eps23 (mag r.re r.im)) (r.bound.2 / max eps23 (mag r.re r.im)) ≤ tol := by
          intro r
          have h0 := hpos r.re r.im
          rw [div_eq_mul_inv, div_eq_mul_inv, hmag _ _ _ (inv_pos.2 h0), ← div_eq_mul_inv, div_le_iff₀ h0]
        rw [key] at hb ⊢
        exact h.trans hb)
      hl p1 k1 b1 ht
  have hfin : finishZ mag eps23 w (nev0 + np0) nev0 ((l1.drop np0).filter (smallZ mag eps23 tol)).length l1 = .ok l3 := by
    rw [finishZ, zsortc, f1]
    simp only [Res.ok_bind]
    rw [scaleZ_down, zsortcB, f2]
    simp only [Res.ok_bind]
    rw [scaleZ_up]
    exact f3
  rw [naup2, e1]
  simp only [Res.ok_bind]
  by_cases hstop : nev0 ≤ ((l1.drop np0).filter (smallZ mag eps23 tol)).length ∨ last = true ∨
      np0 - ((l1.take np0).filter fun r => decide (r.bound = (0, 0))).length = 0
  · rw [if_pos hstop, hfin]
    simp only [Res.ok_bind]
    refine ⟨_, rfl, ?_⟩
    intro info values hv
    rw [Step.stop.injEq] at hv
    obtain ⟨hinfo, rfl⟩ := hv
    refine ⟨best, rest, hb, hperm, hord, ?_, ?_⟩
    · rintro rfl
      have hfull : nev0 ≤ ((l1.drop np0).filter (smallZ mag eps23 tol)).length := by
        by_contra hlt
        rcases hstop with h | h | h
        · exact hlt h
        · rw [if_pos (c := last = true ∧ _) ⟨h, by omega⟩] at hinfo
          split at hinfo <;> simp at hinfo
        · rw [if_pos (c := _ = 0 ∧ _) ⟨h, by omega⟩] at hinfo
          simp at hinfo
      refine hperm.trans ?_
      rw [hcount, ← hb.2.1] at hfull
      rw [List.filter_eq_self.2 (List.length_filter_eq_length_iff.1 (le_antisymm (List.length_filter_le _ _) hfull))]
    · intro hall
      have : ((l1.drop np0).filter (smallZ mag eps23 tol)).length = nev0 := by
        rw [hcount, ← hperm.length_eq, hall.length_eq, hb.2.1]
      rw [this] at hinfo
      simpa using hinfo.symm
  · rw [if_neg hstop]
    exact ⟨_, rfl, by intro info values hv; cases hv⟩

example : ∀ x y t : ℝ, 0 < t →
    Real.sqrt (x * t * (x * t) + y * t * (y * t)) = Real.sqrt (x * x + y * y) * t := by
  intro x y t ht
  rw [show x * t * (x * t) + y * t * (y * t) = (x * x + y * y) * t ^ 2 by ring, Real.sqrt_mul' _ (sq_nonneg t),
    Real.sqrt_sq ht.le]

end

/-! ### Real problems which are not symmetric -/

section
variable {K : Type} [LinearOrder K] [AddCommGroup K]

theorem gtC_trans (mag : K → K → K) (w : Which) (ar ai br bi cr ci : K) :
    gtC mag w ar ai br bi = false → gtC mag w br bi cr ci = false → gtC mag w ar ai cr ci = false := by
  cases w <;> simp only [gtC, decide_eq_false_iff_not, not_lt, implies_true]
  · exact fun h1 h2 => h1.trans h2
  · exact fun h1 h2 => h2.trans h1
  · exact fun h1 h2 => h1.trans h2
  · exact fun h1 h2 => h2.trans h1
  · exact fun h1 h2 => h1.trans h2
  · exact fun h1 h2 => h2.trans h1

theorem gtC_asymm (mag : K → K → K) (w : Which) (ar ai br bi : K) :
    gtC mag w ar ai br bi = true → gtC mag w br bi ar ai = false := by
  cases w <;> simp only [gtC, decide_eq_false_iff_not, decide_eq_true_eq, not_lt, Bool.false_eq_true, false_imp_iff] <;>
    exact le_of_lt

theorem gtC_false (mag : K → K → K) {w : Which} (hw : w.Complex) (ar ai br bi : K) :
    gtC mag w ar ai br bi = false ↔ PrefC mag true w br bi ar ai := by
  cases w <;> simp only [Which.Complex] at hw <;>
    simp only [gtC, PrefC, decide_eq_false_iff_not, not_lt, if_true]

theorem dsortc_spec (mag : K → K → K) (w : Which) (n : Nat) (l : List (CRitz K K)) (hn : n ≤ l.length) :
    ∃ l', dsortc mag w n l = .ok l' ∧ Same n l l' ∧
      (l'.take n).Pairwise fun a b => gtC mag w a.re a.im b.re b.im = false :=
  sort_spec (gt := fun a b : CRitz K K => gtC mag w a.re a.im b.re b.im)
    (fun _ _ _ => gtC_trans _ _ _ _ _ _ _ _) (fun _ _ => gtC_asymm _ _ _ _ _ _) n l hn

theorem dsortcB_spec (mag : K → K → K) (w : Which) (n : Nat) (l : List (CRitz K K)) (hn : n ≤ l.length) :
    ∃ l', dsortcB mag w n l = .ok l' ∧ Same n l l' := by
  obtain ⟨l', e, s, -⟩ := sort_spec (gt := fun a b : CRitz K K => gtC mag w a.bound a.re b.bound b.re)
    (fun _ _ _ => gtC_trans _ _ _ _ _ _ _ _) (fun _ _ => gtC_asymm _ _ _ _ _ _) n l hn
  exact ⟨l', e, s⟩

/-- The two sorts of dngets and what follows. -/
theorem dngets_spec (mag : K → K → K) (w : Which) (kev np : Nat) (hk : 0 < kev) (hp : 0 < np)
    (l : List (CRitz K K)) (hl : l.length = kev + np) :
    ∃ m g a b, m.Perm l ∧ m.Pairwise (fun a b => gtC mag w a.re a.im b.re b.im = false) ∧ m[np]? = some a ∧
      m[np - 1]? = some b ∧ dngets mag w kev np l = .ok g ∧ Same g.np m g.l ∧
      (a.re - b.re = 0 ∧ a.im + b.im = 0 ∧ g.kev = kev + 1 ∧ g.np = np - 1 ∨
        ¬ (a.re - b.re = 0 ∧ a.im + b.im = 0) ∧ g.kev = kev ∧ g.np = np) := by
  have h1 : ∃ l1, presort mag w (kev + np) l = .ok l1 ∧ l1.Perm l := by
    rw [presort]
    cases first w with
    | none => exact ⟨l, rfl, List.Perm.refl _⟩
    | some w' =>
      obtain ⟨l1, e, s, -⟩ := dsortc_spec mag w' (kev + np) l hl.ge
      exact ⟨l1, e, s.perm⟩
  obtain ⟨l1, e1, p1⟩ := h1
  have hl1 : l1.length = kev + np := by rw [p1.length_eq, hl]
  obtain ⟨m, e2, s2, o2⟩ := dsortc_spec mag w (kev + np) l1 hl1.ge
  have hm : m.length = kev + np := by rw [s2.1, hl1]
  rw [List.take_of_length_le hm.le] at o2
  have ha : m[np]? = some (m[np]'(by omega)) := List.getElem?_eq_getElem _
  have hb : m[np - 1]? = some (m[np - 1]'(by omega)) := List.getElem?_eq_getElem _
  generalize m[np]'(by omega) = a at ha
  generalize m[np - 1]'(by omega) = b at hb
  obtain ⟨l3, e3, s3⟩ := dsortcB_spec mag .SR (np - 1) m (by omega)
  obtain ⟨l4, e4, s4⟩ := dsortcB_spec mag .SR np m (by omega)
  have hd : dngets mag w kev np l =
      if a.re - b.re = 0 ∧ a.im + b.im = 0 then .ok ⟨kev + 1, np - 1, l3⟩ else .ok ⟨kev, np, l4⟩ := by
    rw [dngets, e1]
    simp only [Res.ok_bind]
    rw [e2]
    simp only [Res.ok_bind]
    rw [if_neg hp.ne', ha, hb]
    simp only []
    rw [e3, e4]
    rfl
  by_cases hpair : a.re - b.re = 0 ∧ a.im + b.im = 0
  · rw [if_pos hpair] at hd
    exact ⟨m, _, a, b, s2.perm.trans p1, o2, ha, hb, hd, s3, Or.inl ⟨hpair.1, hpair.2, rfl, rfl⟩⟩
  · rw [if_neg hpair] at hd
    exact ⟨m, _, a, b, s2.perm.trans p1, o2, ha, hb, hd, s4, Or.inr ⟨hpair, rfl, rfl⟩⟩

/-- C92, real problems which are not symmetric: dngets keeps kev or kev + 1 values, which are asked for at
least as much as all others; no value is lost. -/
theorem c92_nonsymmetric (mag : K → K → K) (w : Which) (hw : w.Complex) (kev np : Nat) (hk : 0 < kev) (hp : 0 < np)
    (l : List (CRitz K K)) (hl : l.length = kev + np) :
    ∃ g, dngets mag w kev np l = .ok g ∧ (g.kev = kev ∨ g.kev = kev + 1) ∧ g.l.Perm l ∧ (g.l.drop g.np).length = g.kev ∧
      ∀ a ∈ g.l.drop g.np, ∀ b ∈ g.l.take g.np, PrefC mag true w a.re a.im b.re b.im := by
  obtain ⟨m, g, a, b, pm, om, -, -, hg, sg, hkn⟩ := dngets_spec mag w kev np hk hp l hl
  have hlen : g.l.length = kev + np := by rw [sg.1, pm.length_eq, hl]
  refine ⟨g, hg, ?_, sg.perm.trans pm, ?_, ?_⟩
  · rcases hkn with ⟨-, -, h, -⟩ | ⟨-, h, -⟩
    · exact .inr h
    · exact .inl h
  · rw [List.length_drop, hlen]
    rcases hkn with ⟨-, -, h, h'⟩ | ⟨-, h, h'⟩ <;> omega
  · intro a ha b hb
    rw [sg.2.2] at ha
    refine (gtC_false mag hw _ _ _ _).1 ?_
    refine split_ordered (r := fun a b : CRitz K K => gtC mag w a.re a.im b.re b.im = false) (n := m.length) le_rfl ?_ (sg.2.1.mem_iff.1 hb) ha
    rw [List.take_length]
    exact om

/-- C92, real problems which are not symmetric: complex conjugate values are kept together, if different values
are only asked for equally when they are complex conjugate. Without this it is false, `c92_negation_pairs`. -/
theorem c92_pairs_partial [IsOrderedAddMonoid K] (mag : K → K → K) (hmag : ∀ x y, mag x (-y) = mag x y) (w : Which)
    (hw : w.Complex) (kev np : Nat) (hk : 0 < kev) (hp : 0 < np) (l : List (CRitz K K)) (hl : l.length = kev + np)
    (hn : (l.map fun r => (r.re, r.im)).Nodup) (hc : ∀ a ∈ l, ∃ b ∈ l, b.re = a.re ∧ b.im = -a.im)
    (ht : ∀ a ∈ l, ∀ b ∈ l, PrefC mag true w a.re a.im b.re b.im → PrefC mag true w b.re b.im a.re a.im →
      b.re = a.re ∧ (b.im = a.im ∨ b.im = -a.im)) :
    ∃ g, dngets mag w kev np l = .ok g ∧
      ∀ a ∈ g.l.drop g.np, ∃ b ∈ g.l.drop g.np, b.re = a.re ∧ b.im = -a.im := by
  obtain ⟨m, g, d, c, pm, om, hd, hcc, hg, sg, hkn⟩ := dngets_spec mag w kev np hk hp l hl
  refine ⟨g, hg, ?_⟩
  rw [sg.2.2]
  have hml : m.length = kev + np := by rw [pm.length_eq, hl]
  have hconj : ∀ x y : K, PrefC mag true w x (-y) x y := by
    intro x y
    cases w <;> simp only [Which.Complex] at hw <;> simp [PrefC, hmag]
  have hdm : d ∈ m := List.mem_of_getElem? hd
  have hcm : c ∈ m := List.mem_of_getElem? hcc
  have hdrop : m.drop (np - 1) = c :: m.drop np := by
    obtain ⟨h, e⟩ := List.getElem?_eq_some_iff.1 hcc
    rw [List.drop_eq_getElem_cons h, e, Nat.sub_add_cancel hp]
  have htake : m.take np = m.take (np - 1) ++ [c] := by
    conv_lhs => rw [show np = np - 1 + 1 by omega]
    rw [List.take_add_one, hcc]
    rfl
  have hdrop' : m.drop np = d :: m.drop (np + 1) := by
    obtain ⟨h, e⟩ := List.getElem?_eq_some_iff.1 hd
    rw [List.drop_eq_getElem_cons h, e]
  have ord : ∀ k, ∀ x ∈ m.take k, ∀ y ∈ m.drop k, PrefC mag true w y.re y.im x.re x.im := by
    intro k x hx y hy
    refine (gtC_false mag hw _ _ _ _).1 (split_ordered (r := fun a b : CRitz K K => gtC mag w a.re a.im b.re b.im = false) (n := m.length) le_rfl ?_ hx hy)
    rw [List.take_length]
    exact om
  -- if the partner of a value after the cut is before it, then the values at the cut are this value and its partner
  have cut : ∀ a ∈ m.drop np, ∀ b ∈ m.take np, b.re = a.re → b.im = -a.im →
      (c.re = a.re ∧ (c.im = a.im ∨ c.im = -a.im)) ∧ d.re = a.re ∧ (d.im = a.im ∨ d.im = -a.im) := by
    intro a ha b hb h1 h2
    have ham : a ∈ m := List.mem_of_mem_drop ha
    have hba : PrefC mag true w b.re b.im a.re a.im := by
      rw [h1, h2]
      exact hconj _ _
    have hcb : PrefC mag true w c.re c.im b.re b.im := by
      rw [htake] at hb
      rcases List.mem_append.1 hb with hb | hb
      · exact ord (np - 1) b hb c (by rw [hdrop]; exact List.mem_cons_self)
      · rw [List.mem_singleton.1 hb]
        exact PrefC.refl mag true hw _ _
    have hdc : PrefC mag true w d.re d.im c.re c.im :=
      ord np c (by rw [htake]; exact List.mem_append_right _ List.mem_cons_self) d (by rw [hdrop']; exact List.mem_cons_self)
    have had : PrefC mag true w a.re a.im d.re d.im := by
      rw [hdrop'] at ha
      rcases List.mem_cons.1 ha with ha | ha
      · rw [ha]
        exact PrefC.refl mag true hw _ _
      · refine ord (np + 1) d ?_ a ha
        rw [List.take_add_one, hd]
        exact List.mem_append_right _ List.mem_cons_self
    exact ⟨ht a (pm.mem_iff.1 ham) c (pm.mem_iff.1 hcm) (had.trans hdc) (hcb.trans hba),
      ht a (pm.mem_iff.1 ham) d (pm.mem_iff.1 hdm) had (hdc.trans (hcb.trans hba))⟩
  have hne : ¬ (c.re = d.re ∧ c.im = d.im) := by
    rintro ⟨h1, h2⟩
    have hnm : (m.map fun r => (r.re, r.im)).Nodup := (pm.map _).nodup_iff.2 hn
    have e1 : (m.map fun r => (r.re, r.im))[np]? = some (d.re, d.im) := by rw [List.getElem?_map, hd]; rfl
    have e2 : (m.map fun r => (r.re, r.im))[np - 1]? = some (d.re, d.im) := by
      rw [List.getElem?_map, hcc, ← h1, ← h2]; rfl
    obtain ⟨i1, e1⟩ := List.getElem?_eq_some_iff.1 e1
    obtain ⟨i2, e2⟩ := List.getElem?_eq_some_iff.1 e2
    have := (List.Nodup.getElem_inj_iff hnm).1 (e1.trans e2.symm)
    omega
  intro a ha
  rcases hkn with ⟨t1, t2, -, hnp⟩ | ⟨t, -, hnp⟩
  · rw [hnp, hdrop] at ha ⊢
    have hcd : d.re = c.re ∧ d.im = -c.im := ⟨sub_eq_zero.1 t1, eq_neg_of_add_eq_zero_left t2⟩
    rcases List.mem_cons.1 ha with ha | ha
    · rw [ha]
      exact ⟨d, List.mem_cons_of_mem _ (by rw [hdrop']; exact List.mem_cons_self), hcd⟩
    · obtain ⟨b, hb, h1, h2⟩ := hc a (pm.mem_iff.1 (List.mem_of_mem_drop ha))
      have hbm := pm.mem_iff.2 hb
      rw [← List.take_append_drop np m] at hbm
      rcases List.mem_append.1 hbm with hbm | hbm
      · obtain ⟨-, h3, h4 | h4⟩ := cut a ha b hbm h1 h2
        · refine ⟨c, List.mem_cons_self, hcd.1 ▸ h3, ?_⟩
          rw [← h4, hcd.2, neg_neg]
        · exact ⟨d, List.mem_cons_of_mem _ (by rw [hdrop']; exact List.mem_cons_self), h3, h4⟩
      · exact ⟨b, List.mem_cons_of_mem _ hbm, h1, h2⟩
  · rw [hnp] at ha ⊢
    obtain ⟨b, hb, h1, h2⟩ := hc a (pm.mem_iff.1 (List.mem_of_mem_drop ha))
    have hbm := pm.mem_iff.2 hb
    rw [← List.take_append_drop np m] at hbm
    rcases List.mem_append.1 hbm with hbm | hbm
    · exfalso
      obtain ⟨⟨h3, h4⟩, h5, h6⟩ := cut a ha b hbm h1 h2
      have hre : c.re = d.re := h3.trans h5.symm
      refine t ⟨sub_eq_zero.2 hre.symm, ?_⟩
      rcases h4 with h4 | h4 <;> rcases h6 with h6 | h6
      · exact absurd ⟨hre, h4.trans h6.symm⟩ hne
      · rw [h4, h6, neg_add_cancel]
      · rw [h4, h6, add_neg_cancel]
      · exact absurd ⟨hre, h4.trans h6.symm⟩ hne
    · exact ⟨b, hbm, h1, h2⟩

/-- C92, negation: 3 + 4i, 3 - 4i, 3 and -5. Two values of the largest magnitude are asked for; 3 - 4i is kept and
3 + 4i is not. Magnitudes are compared by their squares. -/
theorem c92_negation_pairs :
    ∃ (l : List (CRitz ℤ ℤ)) (g : Gets ℤ), (∀ a ∈ l, ∃ b ∈ l, b.re = a.re ∧ b.im = -a.im) ∧
      (l.map fun r => (r.re, r.im)).Nodup ∧ l.length = 2 + 2 ∧
      dngets (fun a b => a * a + b * b) .LM 2 2 l = .ok g ∧
      ∃ a ∈ g.l.drop g.np, ∀ b ∈ g.l.drop g.np, ¬ (b.re = a.re ∧ b.im = -a.im) := by
  refine ⟨[⟨3, 4, 0⟩, ⟨3, -4, 0⟩, ⟨3, 0, 0⟩, ⟨-5, 0, 0⟩], ⟨2, 2, [⟨3, 0, 0⟩, ⟨3, 4, 0⟩, ⟨-5, 0, 0⟩, ⟨3, -4, 0⟩]⟩, ?_⟩
  decide +kernel

example : ∃ l : List (CRitz ℤ ℤ), l.length = 2 + 1 ∧ (l.map fun r => (r.re, r.im)).Nodup ∧
    (∀ a ∈ l, ∃ b ∈ l, b.re = a.re ∧ b.im = -a.im) ∧
    (∀ a ∈ l, ∀ b ∈ l, PrefC (fun a b => a * a + b * b) true .LM a.re a.im b.re b.im →
      PrefC (fun a b => a * a + b * b) true .LM b.re b.im a.re a.im → b.re = a.re ∧ (b.im = a.im ∨ b.im = -a.im)) := by
  refine ⟨[⟨3, 4, 0⟩, ⟨3, -4, 0⟩, ⟨1, 0, 0⟩], rfl, by decide, by decide, ?_⟩
  simp only [PrefC]
  decide

end

/-- C93, negation: five Ritz values of which -2 and 2 have the same magnitude, and one value of the largest
magnitude is asked for. 2 has converged and ends the iteration, but -2 is returned, whose error estimate is
larger than it may be. -/
theorem c93_negation_ties :
    ∃ l : List (Ritz ℚ), ∃ a, saup2 (1 / 10 ^ 10) (1 / 100) .LM 1 4 false l = .ok (.stop 0 [a]) ∧
      ¬ a.bound ≤ 1 / 100 * max (1 / 10 ^ 10) |a.x| := by
  refine ⟨[⟨-2, 2⟩, ⟨-1, 1 / 1000⟩, ⟨0, 1 / 1000⟩, ⟨1, 1 / 1000⟩, ⟨2, 1 / 1000⟩], ⟨-2, 2⟩, ?_, ?_⟩
  · decide +kernel
  · decide +kernel

/-- C93, negation: the number of iterations is reported as too small (info = 1) although the value which is
asked for has converged, because a value which is not asked for has the error estimate zero. -/
theorem c93_negation_info :
    ∃ l : List (Ritz ℚ), saup2 (1 / 10 ^ 10) (1 / 100) .LM 1 2 true l = .ok (.stop 1 [⟨3, 0⟩]) ∧
      NoTies (fun a b => Pref .LM a.x b.x) l := by
  refine ⟨[⟨1, 0⟩, ⟨2, 1⟩, ⟨3, 0⟩], ?_, ?_⟩
  · decide +kernel
  · simp [NoTies, Pref]
    norm_num

end Verif.ArpackSort
