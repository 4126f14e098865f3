import Verif.Model.Linspace
import Verif.Props.View
import Verif.Lemmas.Arith
import Mathlib.Algebra.CharZero.Defs
import Mathlib.Tactic.Ring
import Mathlib.Algebra.Field.Rat
import Mathlib.Algebra.Order.Ring.Rat
/-
C60: linspace.
-/
namespace Verif.Linspace

open Verif View Spec

variable {α : Type}

/-- The first `i` columns have the values `v p j`, the others have not been written. -/
def Filled (d n : Nat) (v : Nat → Nat → α) (i : Nat) (t : Tensor (Option α)) : Prop :=
  t.dims = [d, n] ∧ t.WF ∧ ∀ p j, p < d → j < n →
    t.data[p + d * j]? = some (if j < i then some (v p j) else none)

theorem assign_column_pos {d n i : Nat} {v : Nat → Nat → α} (hd : 0 < d) (hi : i < n)
    {t : Tensor (Option α)} (h : Filled d n v i t) {b : Tensor α} (hb : b.WF)
    (hbd : b.data.length = d) (hbv : ∀ (p : Nat), p < d → b.data[p]? = some (v p i)) :
    ∃ t', Finishes (fun fuel => assign fuel t [.all, .single (i : Int)] ⟨b.dims, b.data.map some⟩)
      (.ok t') ∧ Filled d n v (i + 1) t' := by
  obtain ⟨h1, h2, h3⟩ := h
  have hl : limits t.dims t.data.length [View.Spec.all, .single (i : Int)] = [d, n] := by
    simp [limits, h1]
  have hs : selAll [View.Spec.all, .single (i : Int)] [d, n] = [(List.range d).map Int.ofNat, [(i : Int)]] := rfl
  have key := (c12_assign_tensor t ⟨b.dims, b.data.map some⟩ h2
    (by simpa [Tensor.WF] using hb) [.all, .single (i : Int)] (by simp)
    (by rw [hl]; simp; omega) (by rw [hl]; simp [ValidAll, Valid]; omega)
    (by
      rw [hl, hs]
      intro l hl
      simp only [List.mem_cons, List.not_mem_nil, or_false] at hl
      rcases hl with rfl | rfl
      · exact List.Nodup.map (fun a b h => by simpa using h) List.nodup_range
      · simp)).1 (by rw [hl, hs]; simp [prod, hbd])
  rw [hl, hs] at key
  obtain ⟨t', hf, hwf, hdims, ha, hb'⟩ := key
  refine ⟨t', hf, hdims.trans h1, hwf, fun p j hp hj => ?_⟩
  have hel : ∀ l : List (Option α), elem [d, n] l [p, j] = l[p + d * j]? := by
    intro l
    simp [elem, InB, hp, hj, colPos]
  by_cases hji : j = i
  · subst hji
    have := (ha [p, 0] [p, j] (by simp [Picks, hp])).1
    rw [hel] at this
    rw [this]
    simp [colPos, hbv p hp]
  · have := hb' [p, j] (by simp [InB, hp, hj]) (by
      rintro ⟨x, hx⟩
      match x, hx with
      | [a, b], hx =>
        simp only [Picks, and_true] at hx
        rcases b with _ | b
        · simp at hx; omega
        · simp at hx)
    rw [hel, hel, h3 p j hp hj] at this
    rw [this]
    congr 1
    by_cases h' : j < i
    · rw [if_pos h', if_pos (by omega)]
    · rw [if_neg h', if_neg (by omega)]

/-- Nothing is written if the columns have no elements. -/
theorem assign_column_empty {n i : Nat} (hi : i < n) {t : Tensor (Option α)} (hd : t.dims = [0, n])
    {s : Tensor (Option α)} (hs : Tensor.totalSize s.dims = 0) :
    Finishes (fun fuel => assign fuel t [.all, .single (i : Int)] s) (.ok t) := by
  refine ⟨3, fun fuel hf => ?_⟩
  obtain ⟨k, rfl⟩ : ∃ k, fuel = k + 3 := ⟨fuel - 3, by omega⟩
  have hv : mkView t [.all, .single (i : Int)] = .ok ([0, 1],
      .product (.full 0 1 0 0) (.leaf (.single n 0 0 i)) none) := by
    simp [mkView, hd, View.Spec.new, setLimits, Leaf.setLimit, Res.assert_bind, hi, sizes, Leaf.size,
      build, mkProduct, Range.setFactor, Leaf.setFactor, Leaf.limit, Leaf.factor]
  beta_reduce
  rw [assign, hv, Run.ok_bind, hs, Res.assert_pos (by simp [Tensor.totalSizeI]), Run.ok_bind]
  simp [Range.reset, Range.pop, Leaf.pop, Leaf.reset, assignLoop, nomore]

theorem assign_column {d n i : Nat} {v : Nat → Nat → α} (hi : i < n)
    {t : Tensor (Option α)} (h : Filled d n v i t) {b : Tensor α} (hb : b.WF)
    (hbd : b.data.length = d) (hbv : ∀ (p : Nat), p < d → b.data[p]? = some (v p i)) :
    ∃ t', Finishes (fun fuel => assign fuel t [.all, .single (i : Int)] ⟨b.dims, b.data.map some⟩)
      (.ok t') ∧ Filled d n v (i + 1) t' := by
  rcases Nat.eq_zero_or_pos d with rfl | hd
  · exact ⟨t, assign_column_empty hi h.1 (by rw [← hbd]; exact hb.symm), h.1, h.2.1,
      fun p j hp _ => absurd hp (by omega)⟩
  · exact assign_column_pos hd hi h hb hbd hbv

theorem fill_filled (d n : Nat) (v : Nat → Nat → α) :
    Filled d n v 0 (Tensor.fill [d, n] none) := by
  refine ⟨rfl, by simp [Tensor.WF, Tensor.fill], fun p j hp hj => ?_⟩
  have : p + d * j < d * n := by
    have : d * (j + 1) ≤ d * n := Nat.mul_le_mul_left _ hj
    rw [Nat.mul_add] at this
    omega
  simp [Tensor.fill, Tensor.totalSize, this]

/-- Dimensions of the result: a vector if the ends are numbers, one more index otherwise. -/
def outShape (mn : Tensor α) (n : Nat) : List Nat :=
  if mn.data.length = 1 then [n] else mn.dims ++ [n]

theorem totalSize_append (l : List Nat) (n : Nat) (h : l ≠ []) :
    Tensor.totalSize (l ++ [n]) = Tensor.totalSize l * n := by
  have : l.length ≠ 0 := by simpa using h
  simp [Tensor.totalSize, this]

section

variable [Zero α] [NatCast α] [One α] [Add α] [Sub α] [Mul α] [Div α]

omit [One α] [Sub α] [Div α] in
theorem loop_finishes {d n : Nat} {delta mn : Tensor α} (hdw : delta.WF)
    (hdl : delta.data.length = d) (hml : mn.data.length = d) (k i : Nat) (hk : i + k = n)
    (t : Tensor (Option α))
    (h : Filled d n (fun p j => delta.data.getD p 0 * (j : α) + mn.data.getD p 0) i t) :
    ∃ t', Finishes (fun fuel => loop fuel delta mn i k t) (.ok t') ∧
      Filled d n (fun p j => delta.data.getD p 0 * (j : α) + mn.data.getD p 0) n t' := by
  induction k generalizing i t with
  | zero =>
    refine ⟨t, ⟨0, fun _ _ => rfl⟩, ?_⟩
    have e : i = n := by omega
    rw [e] at h
    exact h
  | succ k ih =>
    have ha : Tensor.binopTN (· * ·) delta (i : α)
        = .ok ⟨delta.dims, delta.data.map (· * (i : α))⟩ := Tensor.unop_ok _ delta hdw
    have hb : Tensor.binopTT (· + ·) (⟨delta.dims, delta.data.map (· * (i : α))⟩ : Tensor α) mn
        = .ok ⟨delta.dims, List.zipWith (· + ·) (delta.data.map (· * (i : α))) mn.data⟩ :=
      Tensor.binopTT_ok _ _ mn (by simpa [Tensor.WF] using hdw) (by simp [hdl, hml])
    obtain ⟨t1, ⟨N1, f1⟩, h1⟩ := assign_column (b := ⟨delta.dims,
      List.zipWith (· + ·) (delta.data.map (· * (i : α))) mn.data⟩) (show i < n by omega) h
      (by simpa [Tensor.WF, hdl, hml] using hdw)
      (by simp [hdl, hml]) (by
        intro p hp
        have hp1 : p < delta.data.length := by omega
        have hp2 : p < mn.data.length := by omega
        simp [hp1, hp2, List.getD])
    obtain ⟨t2, ⟨N2, f2⟩, h2⟩ := ih (i + 1) (by omega) t1 h1
    refine ⟨t2, ⟨max N1 N2, fun m hm => ?_⟩, h2⟩
    simp only [loop, ha, hb, Run.ok_bind]
    have e1 := f1 m (by omega)
    simp only at e1
    rw [e1, Run.ok_bind]
    exact f2 m (by omega)

/-- The elements of the result of linspace, with any arithmetic. -/
theorem linspace_values {mn mx : Tensor α} (wf : mn.WF) (wfx : mx.WF)
    (hmne : mn.dims ≠ []) (hs : mx.data.length = mn.data.length) {n : Nat} (hn : 2 ≤ n) :
    ∃ (t : Tensor α), Finishes (fun fuel => linspace fuel mn mx n) (.ok ⟨t.dims, t.data.map some⟩) ∧
      t.WF ∧ t.dims = outShape mn n ∧
      ∀ p j a b, j < n → mn.data[p]? = some a → mx.data[p]? = some b →
        t.data[p + mn.data.length * j]? = some ((b - a) / ((n : α) - 1) * (j : α) + a) := by
  have hr : ∀ t : Tensor α, t.data.length = mn.data.length → t.reshape [mn.data.length] = .ok ⟨[mn.data.length], t.data⟩ := by
    intro t ht
    simp [Tensor.reshape, Tensor.totalSize, Tensor.size, ht, Res.assert_bind]
  have hdiff : Tensor.binopTT (· - ·) mx mn = .ok ⟨mx.dims, List.zipWith (· - ·) mx.data mn.data⟩ :=
    Tensor.binopTT_ok _ _ _ wfx hs
  have hq : Tensor.binopTN (· / ·) (⟨mx.dims, List.zipWith (· - ·) mx.data mn.data⟩ : Tensor α) ((n : α) - 1)
      = .ok ⟨mx.dims, (List.zipWith (· - ·) mx.data mn.data).map (· / ((n : α) - 1))⟩ :=
    Tensor.unop_ok _ _ (by simpa [Tensor.WF, hs] using wfx)
  obtain ⟨t, ⟨N, hf⟩, h1, h2, h3⟩ := loop_finishes
    (delta := ⟨[mn.data.length], (List.zipWith (· - ·) mx.data mn.data).map (· / ((n : α) - 1))⟩) (mn := mn)
    (by simp [Tensor.WF, Tensor.totalSize, hs]) (by simp [hs]) rfl n 0 (by omega)
    (Tensor.fill [mn.data.length, n] none) (fill_filled _ _ _)
  have htot : t.data.length = mn.data.length * n := by
    have := h2
    rw [Tensor.WF, h1] at this
    simpa [Tensor.totalSize] using this
  -- the elements
  let w : Nat → α := fun q =>
    (mx.data.getD (q % mn.data.length) 0 - mn.data.getD (q % mn.data.length) 0) / ((n : α) - 1)
      * ((q / mn.data.length : Nat) : α) + mn.data.getD (q % mn.data.length) 0
  have hw : ∀ p j, p < mn.data.length → w (p + mn.data.length * j)
      = (mx.data.getD p 0 - mn.data.getD p 0) / ((n : α) - 1) * (j : α) + mn.data.getD p 0 := by
    intro p j hp
    have e1 : (p + mn.data.length * j) % mn.data.length = p := by
      rw [Nat.add_mul_mod_self_left, Nat.mod_eq_of_lt hp]
    have e2 : (p + mn.data.length * j) / mn.data.length = j := by
      rw [Nat.add_mul_div_left _ _ (by omega), Nat.div_eq_of_lt hp, Nat.zero_add]
    simp only [w, e1, e2]
  have hdata : t.data = ((List.range (mn.data.length * n)).map w).map some := by
    apply List.ext_getElem?
    intro q
    by_cases hq : q < mn.data.length * n
    · have hd : 0 < mn.data.length := Nat.pos_of_ne_zero fun e => by simp [e] at hq
      have hqe : q % mn.data.length + mn.data.length * (q / mn.data.length) = q :=
        Nat.mod_add_div _ _
      have hj : q / mn.data.length < n := (Nat.div_lt_iff_lt_mul hd).2 (by rw [Nat.mul_comm]; exact hq)
      have hp := Nat.mod_lt q hd
      have h4 := h3 _ _ hp hj
      rw [hqe] at h4
      rw [h4, if_pos hj]
      have hp' : q % mn.data.length < mx.data.length := by omega
      simp [hq, w, List.getD, hp, hp']
    · rw [List.getElem?_eq_none (by omega), List.getElem?_eq_none (by simp; omega)]
  have hget : ∀ p j, p < mn.data.length → j < n →
      ((List.range (mn.data.length * n)).map w)[p + mn.data.length * j]?
        = some ((mx.data.getD p 0 - mn.data.getD p 0) / ((n : α) - 1) * (j : α) + mn.data.getD p 0) := by
    intro p j hp hj
    have : p + mn.data.length * j < mn.data.length * n := by
      have : mn.data.length * (j + 1) ≤ mn.data.length * n := Nat.mul_le_mul_left _ hj
      rw [Nat.mul_add] at this
      omega
    rw [List.getElem?_map, List.getElem?_range this, Option.map_some, hw p j hp]
  have hshape : Tensor.totalSize (outShape mn n) = mn.data.length * n := by
    rw [outShape]
    split
    · rename_i h; simp [Tensor.totalSize, h]
    · rw [totalSize_append _ _ hmne, ← wf]
  refine ⟨⟨outShape mn n, (List.range (mn.data.length * n)).map w⟩, ⟨N, fun m hm => ?_⟩, ?_, rfl, ?_⟩
  · have hsz : mn.size = mn.data.length := rfl
    have e := hf m hm
    beta_reduce at e ⊢
    rw [linspace]
    simp only [hsz]
    rw [if_neg (by omega), if_pos (by omega), hr mx hs, Run.ok_bind, hdiff, Run.ok_bind, hq,
      Run.ok_bind, hr _ (by simp [hs]), Run.ok_bind]
    dsimp only
    rw [e, Run.ok_bind]
    have hres : ∀ ds, Tensor.totalSize ds = mn.data.length * n →
        t.reshape ds = .ok ⟨ds, ((List.range (mn.data.length * n)).map w).map some⟩ := by
      intro ds h
      rw [Tensor.reshape, Res.assert_bind, if_pos (by rw [h, Tensor.size, htot]), hdata]
      rfl
    by_cases h : mn.data.length = 1
    · rw [if_pos h]
      have ho : outShape mn n = [n] := by rw [outShape, if_pos h]
      rw [ho] at hshape ⊢
      rw [hres _ hshape]
    · rw [if_neg h]
      have ho : outShape mn n = mn.dims ++ [n] := by rw [outShape, if_neg h]
      rw [ho] at hshape ⊢
      rw [hres _ hshape]
  · rw [Tensor.WF]
    simp only [hshape, List.length_map, List.length_range]
  · intro p j a b hj ha hb
    obtain ⟨hp, ha⟩ := List.getElem?_eq_some_iff.1 ha
    obtain ⟨hpx, hb⟩ := List.getElem?_eq_some_iff.1 hb
    rw [hget p j hp hj]
    simp [List.getD, hp, hpx, ha, hb]

end

/-- C60: the result of linspace has `n` columns, the first of which is the start; the increments are
constant, and (for n ≥ 2) the last column is the end. The elements with index i along the last
dimension are those with the positions from `d*i` on, d being the number of elements of the ends.
Missing: rounding. -/
theorem c60_linspace_partial [Field α] [CharZero α] {mn mx : Tensor α} (wf : mn.WF) (wfx : mx.WF)
    (hmne : mn.dims ≠ []) (hs : mx.data.length = mn.data.length) {n : Nat} (hn : 2 ≤ n) :
    ∃ (t : Tensor α), Finishes (fun fuel => linspace fuel mn mx n) (.ok ⟨t.dims, t.data.map some⟩) ∧
      t.WF ∧ t.dims = outShape mn n ∧
      ∀ p, p < mn.data.length →
        t.data[p]? = mn.data[p]? ∧
        t.data[p + mn.data.length * (n - 1)]? = mx.data[p]? ∧
        ∃ delta : α, ∀ j x y, t.data[p + mn.data.length * j]? = some x → j + 1 < n →
          t.data[p + mn.data.length * (j + 1)]? = some y → y - x = delta := by
  have hn1 : ((n : α) - 1) ≠ 0 := by
    have : ((n : α)) ≠ ((1 : Nat) : α) := by
      rw [Ne, Nat.cast_inj]; omega
    rw [Nat.cast_one] at this
    exact sub_ne_zero.2 this
  obtain ⟨t, h1, h2, h3, h4⟩ := linspace_values wf wfx hmne hs hn
  refine ⟨t, h1, h2, h3, fun p hp => ?_⟩
  have hpx : p < mx.data.length := by omega
  have hget : ∀ j, j < n → t.data[p + mn.data.length * j]? =
      some ((mx.data[p] - mn.data[p]) / ((n : α) - 1) * (j : α) + mn.data[p]) :=
    fun j hj => h4 p j _ _ hj (List.getElem?_eq_getElem hp) (List.getElem?_eq_getElem hpx)
  refine ⟨?_, ?_, (mx.data[p] - mn.data[p]) / ((n : α) - 1), ?_⟩
  · have := hget 0 (by omega)
    rw [Nat.mul_zero, Nat.add_zero] at this
    rw [this]
    simp [hp]
  · rw [hget (n - 1) (by omega)]
    have : ((n - 1 : Nat) : α) = (n : α) - 1 := by rw [Nat.cast_sub (by omega), Nat.cast_one]
    rw [this, div_mul_cancel₀ _ hn1, sub_add_cancel]
    simp [hpx]
  · intro j x y hx hj hy
    rw [hget j (by omega)] at hx
    rw [hget (j + 1) hj] at hy
    cases hx
    cases hy
    push_cast
    ring

/-- The hypotheses can be met, and fix the result. -/
example : ∃ t : Tensor ℚ, t.dims = [2, 3] ∧ t.data[0]? = some 1 ∧ t.data[1]? = some 2 ∧
    t.data[4]? = some 5 ∧ t.data[5]? = some 8 := by
  obtain ⟨t, _, _, h3, h4⟩ := c60_linspace_partial (mn := (⟨[2], [1, 2]⟩ : Tensor ℚ))
    (mx := ⟨[2], [5, 8]⟩) rfl rfl (by simp) rfl (n := 3) (by decide)
  exact ⟨t, h3, (h4 0 (by decide)).1, (h4 1 (by decide)).1, (h4 0 (by decide)).2.1,
    (h4 1 (by decide)).2.1⟩

/-- C60: the linspace of two numbers is a vector which begins at the first, ends at the second and
has constant increments. -/
theorem c60_numbers_partial [Field α] [CharZero α] (a b : α) {n : Nat} (hn : 2 ≤ n) :
    ∃ v : List α, Finishes (fun fuel => linspaceNum fuel a b n) (.ok ⟨[n], v.map some⟩) ∧
      v.length = n ∧ v[0]? = some a ∧ v[n - 1]? = some b ∧
      ∃ delta : α, ∀ j x y, v[j]? = some x → v[j + 1]? = some y → y - x = delta := by
  obtain ⟨t, h1, h2, h3, h4⟩ := c60_linspace_partial (mn := (⟨[1], [a]⟩ : Tensor α))
    (mx := ⟨[1], [b]⟩) rfl rfl (by simp) rfl hn
  obtain ⟨h5, h6, delta, h7⟩ := h4 0 (by simp)
  have h3' : t.dims = [n] := h3
  have hlen : t.data.length = n := by
    rw [Tensor.WF, h3'] at h2
    simpa [Tensor.totalSize] using h2
  simp only [List.length_cons, List.length_nil, Nat.zero_add, Nat.one_mul] at h6 h7
  refine ⟨t.data, ?_, hlen, h5, h6, delta, fun j x y hx hy => ?_⟩
  · rw [h3'] at h1
    exact h1
  · obtain ⟨hl, -⟩ := List.getElem?_eq_some_iff.1 hy
    exact h7 j x y hx (by omega) hy

example : ∃ v : List ℚ, v.length = 4 ∧ v[0]? = some 1 ∧ v[3]? = some 2 := by
  obtain ⟨v, _, h1, h2, h3, _⟩ := c60_numbers_partial (1 : ℚ) 2 (n := 4) (by decide)
  exact ⟨v, h1, h2, h3⟩

section

variable [Zero α] [NatCast α] [One α] [Add α] [Sub α] [Mul α] [Div α]

omit [Zero α] in
/-- C60: one column is the start, no columns are an empty tensor. -/
theorem c60_few_columns {mn mx : Tensor α} (wf : mn.WF) (hmne : mn.dims ≠ []) :
    Finishes (fun fuel => linspace fuel mn mx 1) (.ok ⟨outShape mn 1, mn.data.map some⟩) ∧
    Finishes (fun fuel => linspace fuel mn mx 0) (.ok ⟨outShape mn 0, []⟩) := by
  have hwf : mn.data.length = Tensor.totalSize mn.dims := wf
  have hsz : mn.size = mn.data.length := rfl
  constructor
  · refine ⟨0, fun m _ => ?_⟩
    beta_reduce
    rw [linspace]
    simp only [hsz, if_true, outShape, Run.pure_eq, Run.ok_bind]
    by_cases h : mn.data.length = 1
    · rw [if_pos h, if_pos h]
      simp [Tensor.reshape, Tensor.totalSize, Tensor.size, h, Res.assert_bind]
    · rw [if_neg h, if_neg h, Tensor.reshape, Res.assert_bind, if_pos (by
        rw [totalSize_append _ _ hmne, Tensor.size, List.length_map, ← hwf, Nat.mul_one])]
      rfl
  · refine ⟨0, fun m _ => ?_⟩
    beta_reduce
    rw [linspace]
    simp only [hsz, outShape, Run.pure_eq, ne_eq, not_true_eq_false, if_false, Nat.zero_ne_one,
      Run.ok_bind]
    by_cases h : mn.data.length = 1
    · rw [if_pos h, if_pos h]
      simp [Tensor.reshape, Tensor.totalSize, Tensor.size, Res.assert_bind, Tensor.fill]
    · rw [if_neg h, if_neg h, Tensor.reshape, Res.assert_bind, if_pos (by
        rw [totalSize_append _ _ hmne]; simp [Tensor.size, Tensor.fill, Tensor.totalSize])]
      simp [Tensor.fill, Tensor.totalSize]

example : (⟨[1, 1], [4]⟩ : Tensor ℚ).WF ∧ outShape (⟨[1, 1], [4]⟩ : Tensor ℚ) 1 = [1] ∧
    outShape (⟨[2], [1, 2]⟩ : Tensor ℚ) 0 = [2, 0] := ⟨rfl, rfl, rfl⟩

/-- Ends without elements. -/
example : ∃ t : Tensor ℚ, t.dims = [2, 0, 3] ∧
    Finishes (fun fuel => linspace fuel (⟨[2, 0], []⟩ : Tensor ℚ) ⟨[2, 0], []⟩ 3) (.ok ⟨[2, 0, 3], []⟩) := by
  obtain ⟨t, h1, h2, h3, -⟩ := c60_linspace_partial (mn := (⟨[2, 0], []⟩ : Tensor ℚ))
    (mx := ⟨[2, 0], []⟩) rfl rfl (by simp) rfl (n := 3) (by decide)
  have h3' : t.dims = [2, 0, 3] := h3
  have h4 : t.data = [] := by
    rw [Tensor.WF, h3'] at h2
    exact List.length_eq_zero_iff.1 (by simpa [Tensor.totalSize] using h2)
  rw [h3', h4] at h1
  exact ⟨t, h3', h1⟩

/-- C60: ends without indices stop the program, if there are columns; the result would have had the
dimensions n. -/
theorem c60_no_indices {mn mx : Tensor α} (wf : mn.WF) (wfx : mx.WF) (hd : mn.dims = [])
    (hs : mx.data.length = mn.data.length) {n : Nat} (hn : 1 ≤ n) :
    Finishes (fun fuel => linspace fuel mn mx n) .abort := by
  have hl : mn.data.length = 0 := by
    have h5 : mn.data.length = Tensor.totalSize mn.dims := wf
    rw [hd] at h5
    simpa [Tensor.totalSize] using h5
  have hsz : mn.size = 0 := hl
  have hend : ∀ t : Tensor (Option α), t.data.length = 0 → t.reshape (mn.dims ++ [n]) = .abort := by
    intro t ht
    rw [Tensor.reshape, Res.assert_bind, if_neg (by
      simp [hd, Tensor.totalSize, Tensor.size, ht]; omega)]
  rcases Nat.eq_or_lt_of_le hn with h1 | h2
  · refine ⟨0, fun m _ => ?_⟩
    beta_reduce
    rw [linspace]
    simp only [hsz, if_pos h1.symm, Run.pure_eq, Run.ok_bind]
    rw [if_neg (by omega), hend _ (by simpa using hl)]
  · have hr : ∀ t : Tensor α, t.data.length = 0 → t.reshape [0] = .ok ⟨[0], t.data⟩ := by
      intro t ht
      simp [Tensor.reshape, Tensor.totalSize, Tensor.size, ht, Res.assert_bind]
    have hdiff : Tensor.binopTT (· - ·) mx mn
        = .ok ⟨mx.dims, List.zipWith (· - ·) mx.data mn.data⟩ := Tensor.binopTT_ok _ _ _ wfx hs
    have hq : Tensor.binopTN (· / ·) (⟨mx.dims, List.zipWith (· - ·) mx.data mn.data⟩ : Tensor α)
        ((n : α) - 1)
        = .ok ⟨mx.dims, (List.zipWith (· - ·) mx.data mn.data).map (· / ((n : α) - 1))⟩ :=
      Tensor.unop_ok _ _ (by simpa [Tensor.WF, hs] using wfx)
    obtain ⟨t, ⟨N, hf⟩, h3, h4, -⟩ := loop_finishes (d := 0)
      (delta := ⟨[0], (List.zipWith (· - ·) mx.data mn.data).map (· / ((n : α) - 1))⟩)
      (mn := mn) (by simp [Tensor.WF, Tensor.totalSize, hl]) (by simp [hl]) hl n 0 (by omega)
      (Tensor.fill [0, n] none) (fill_filled _ _ _)
    refine ⟨N, fun m hm => ?_⟩
    have e := hf m hm
    beta_reduce at e ⊢
    rw [linspace]
    simp only [hsz]
    rw [if_neg (by omega), if_pos (by omega), hr mx (hs.trans hl), Run.ok_bind, hdiff, Run.ok_bind, hq,
      Run.ok_bind, hr _ (by simp [hl]), Run.ok_bind]
    dsimp only
    rw [e, Run.ok_bind, if_neg (by omega), hend t (by
      rw [Tensor.WF, h3] at h4
      simpa [Tensor.totalSize] using h4)]

example : (⟨[], []⟩ : Tensor ℚ).WF := rfl

omit [Zero α] in
/-- C60: ends with different numbers of elements stop the program, if there are two or more
columns. -/
theorem c60_mismatch {mn mx : Tensor α} (hs : mx.data.length ≠ mn.data.length) {n : Nat}
    (hn : 2 ≤ n) : Finishes (fun fuel => linspace fuel mn mx n) .abort := by
  refine ⟨0, fun m _ => ?_⟩
  have hsz : mn.size = mn.data.length := rfl
  beta_reduce
  rw [linspace]
  simp only [hsz]
  rw [if_neg (by omega), if_pos (by omega), Tensor.reshape, Res.assert_bind, if_neg (by
    simp [Tensor.totalSize, Tensor.size]; omega)]
  rfl

example : (⟨[2], [1, 2]⟩ : Tensor ℚ).data.length ≠ (⟨[1], [1]⟩ : Tensor ℚ).data.length := by decide

end

end Verif.Linspace
