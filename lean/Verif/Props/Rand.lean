import Verif.Model.Rand
import Verif.Spec.Rand
/-
C55: the generator of random numbers is the Mersenne twister, it does not leave its table, and different
words give different outputs.
-/
namespace Verif.Rand

open Verif Spec

variable {w : Nat}

/-- A table of `n` words. -/
def tab (n : Nat) (f : Nat → BitVec w) : List (BitVec w) := (List.range n).map f

theorem tab_congr {n : Nat} {f f' : Nat → BitVec w} (h : ∀ j, j < n → f j = f' j) :
    tab n f = tab n f' := by
  apply List.map_congr_left
  intro j hj
  exact h j (List.mem_range.1 hj)

theorem eq_tab {n : Nat} {mt : List (BitVec w)} (h : mt.length = n) : ∃ f, mt = tab n f := by
  refine ⟨fun j => mt.getD j 0#w, ?_⟩
  apply List.ext_getElem
  · simp [tab, h]
  · intro j h1 h2
    simp [tab, List.getD_eq_getElem?_getD, h1]

theorem read_tab {n i : Nat} (f : Nat → BitVec w) (h : i < n) : read (tab n f) i = .ok (f i) := by
  simp [read, tab, h]

theorem write_tab {n i : Nat} (f : Nat → BitVec w) (x : BitVec w) (h : i < n) :
    write (tab n f) i x = .ok (tab n (fun j => if j = i then x else f j)) := by
  rw [write, if_pos (by simp [tab, h])]
  congr 1
  apply List.ext_getElem
  · simp [tab]
  · intro j h1 h2
    simp only [Int.toNat_natCast, tab, List.getElem_map, List.getElem_range, List.getElem_set]
    split <;> split <;> first | rfl | omega

theorem twistStep_tab (g : Gen w) {n i j k : Nat} (f : Nat → BitVec w) (hi : i < n) (hj : j < n)
    (hk : k < n) : twistStep g i j k (tab n f) = .ok (tab n (fun l => if l = i then
      f k ^^^ mixWord g.um g.lm g.matrixA (f i) (f j) else f l)) := by
  simp only [twistStep, read_tab f hi, read_tab f hj, read_tab f hk, Res.ok_bind]
  rw [write_tab f _ hi]
  congr 2
  funext l
  congr 1
  rw [mixWord, BitVec.xor_assoc]
  congr 2
  generalize f i &&& g.um ||| f j &&& g.lm = x
  have : x &&& 1#w = 0#w ↔ ¬ x.getLsbD 0 = true := by
    constructor
    · intro h1 h2
      have h3 := congrArg (fun y => y.getLsbD 0) h1
      have hw : 0 < w := BitVec.lt_of_getLsbD h2
      rw [BitVec.getLsbD_and, h2] at h3
      simp [hw] at h3
    · intro h
      apply BitVec.eq_of_getLsbD_eq
      intro i hi
      by_cases h0 : i = 0
      · subst h0; simp [h]
      · simp [h0]
  by_cases h : x.getLsbD 0 = true
  · rw [if_neg (fun hh => this.1 hh h), if_pos h]
  · rw [if_pos (this.2 h), if_neg h]

theorem loop_inv {σ : Type} (f : Nat → σ → Res σ) (I : Nat → σ) (c i : Nat)
    (h : ∀ k, i ≤ k → k < i + c → f k (I k) = .ok (I (k + 1))) : loop f c i (I i) = .ok (I (i + c)) := by
  induction c generalizing i with
  | zero => rfl
  | succ c ih =>
    rw [loop, h i (by omega) (by omega), Res.ok_bind, ih (i + 1) (fun k h1 h2 => h k (by omega) (by omega))]
    congr 2
    omega

/-- What the constants of a generator must satisfy. -/
structure Gen.Ok (g : Gen w) : Prop where
  m_pos : 0 < g.m
  m_lt : g.m < g.n

theorem mt64_ok : mt64.Ok := ⟨by decide, by decide⟩
theorem mt32_ok : mt32.Ok := ⟨by decide, by decide⟩

theorem initGenrand_eq {g : Gen w} (hg : g.Ok) {s : State w} (hs : s.mt.length = g.n) (seed : BitVec w) :
    initGenrand g s seed = .ok ⟨tab g.n (seedWord g.mult g.shift seed), g.n⟩ := by
  have h0 := hg.m_lt
  obtain ⟨f, hf⟩ := eq_tab hs
  have e : (0 : Int) = ((0 : Nat) : Int) := rfl
  have i1 := loop_inv (initStep g)
    (fun i => tab g.n (fun j => if j < i then seedWord g.mult g.shift seed j else f j)) (g.n - 1) 1
    (by
      intro k h1 h2
      obtain ⟨k, rfl⟩ : ∃ l, k = l + 1 := ⟨k - 1, by omega⟩
      rw [initStep, show ((k + 1 : Nat) : Int) - 1 = (k : Nat) by omega, read_tab _ (by omega),
        Res.ok_bind, write_tab _ _ (by omega)]
      congr 1
      apply tab_congr
      intro j hj
      rw [if_pos (Nat.lt_succ_self k)]
      by_cases hjk : j = k + 1
      · subst hjk
        rw [if_pos rfl, if_pos (by omega)]
        rfl
      · rw [if_neg hjk]
        split <;> split <;> first | rfl | omega)
  rw [initGenrand, hf, e, write_tab _ _ (by omega), Res.ok_bind]
  have : tab g.n (fun j => if j = 0 then seed else f j)
      = tab g.n (fun j => if j < 1 then seedWord g.mult g.shift seed j else f j) := by
    apply tab_congr
    intro j hj
    by_cases h : j = 0
    · subst h; rfl
    · rw [if_neg h, if_neg (by omega)]
  rw [this, i1, Res.ok_bind, Res.pure_eq]
  congr 2
  · apply tab_congr
    intro j hj
    rw [if_pos (by omega)]
  · omega

theorem twist_eq {g : Gen w} (hg : g.Ok) {x : Nat → BitVec w}
    (hx : IsTwister g.n g.m g.um g.lm g.matrixA x) (b : Nat) :
    twist g (tab g.n (fun j => x (b + j))) = .ok (tab g.n (fun j => x (b + g.n + j))) := by
  have h1 := hg.m_pos
  have h2 := hg.m_lt
  have cong : ∀ i j, (if j = i then
      x (b + i + g.m) ^^^ mixWord g.um g.lm g.matrixA (x (b + i)) (x (b + i + 1))
        else if j < i then x (b + g.n + j) else x (b + j))
      = if j < i + 1 then x (b + g.n + j) else x (b + j) := by
    intro i j
    by_cases hj : j = i
    · subst hj
      rw [if_pos rfl, if_pos (by omega), ← hx]
      congr 1
      omega
    · rw [if_neg hj]
      split <;> split <;> first | rfl | omega
  have i1 := loop_inv (fun i : Nat => twistStep g i ((i : Int) + 1) ((i : Int) + g.m))
    (fun i => tab g.n (fun j => if j < i then x (b + g.n + j) else x (b + j))) (g.n - g.m) 0
    (by
      intro i _ h
      rw [show (i : Int) + 1 = (i + 1 : Nat) by omega, show (i : Int) + g.m = (i + g.m : Nat) by omega,
        twistStep_tab g _ (by omega) (by omega) (by omega)]
      congr 1
      apply tab_congr
      intro j _
      rw [← cong]
      simp only [Nat.lt_irrefl, if_false, show ¬ i + g.m < i by omega, show ¬ i + 1 < i by omega,
        Nat.add_assoc])
  have i2 := loop_inv (fun i : Nat => twistStep g i ((i : Int) + 1) ((i : Int) + ((g.m : Int) - g.n)))
    (fun i => tab g.n (fun j => if j < i then x (b + g.n + j) else x (b + j)))
    (g.n - 1 - (g.n - g.m)) (g.n - g.m)
    (by
      intro i h3 h
      rw [show (i : Int) + 1 = (i + 1 : Nat) by omega,
        show (i : Int) + ((g.m : Int) - g.n) = (i + g.m - g.n : Nat) by omega,
        twistStep_tab g _ (by omega) (by omega) (by omega)]
      congr 1
      apply tab_congr
      intro j _
      rw [← cong]
      simp only [Nat.lt_irrefl, if_false, show i + g.m - g.n < i by omega, show ¬ i + 1 < i by omega,
        if_true]
      rw [show b + g.n + (i + g.m - g.n) = b + i + g.m by omega, ← Nat.add_assoc])
  rw [twist]
  have e0 : tab g.n (fun j => x (b + j))
      = tab g.n (fun j => if j < 0 then x (b + g.n + j) else x (b + j)) := tab_congr fun j _ => by simp
  rw [e0, i1, Res.ok_bind, Nat.zero_add, i2, Res.ok_bind, show (0 : Int) = ((0 : Nat) : Int) from rfl,
    show (g.n : Int) - 1 = (g.n - 1 : Nat) by omega, show (g.m : Int) - 1 = (g.m - 1 : Nat) by omega,
    show g.n - g.m + (g.n - 1 - (g.n - g.m)) = g.n - 1 by omega,
    twistStep_tab g _ (by omega) (by omega) (by omega)]
  congr 1
  apply tab_congr
  intro j hj
  have := cong (g.n - 1) j
  rw [if_pos (show j < g.n - 1 + 1 by omega)] at this
  refine Eq.trans ?_ this
  simp only [Nat.lt_irrefl, if_false, show g.m - 1 < g.n - 1 by omega, show 0 < g.n - 1 by omega, if_true]
  rw [show b + g.n + (g.m - 1) = b + (g.n - 1) + g.m by omega,
    show b + g.n + 0 = b + (g.n - 1) + 1 by omega]

/-- The generator is about to return the word `p` of the sequence `x`. -/
def At (g : Gen w) (x : Nat → BitVec w) (p : Nat) (s : State w) : Prop :=
  ∃ b, s.mt = tab g.n (fun j => x (b + j)) ∧ s.mti ≤ g.n ∧ p = b + s.mti

theorem genrand_at {g : Gen w} (hg : g.Ok) {x : Nat → BitVec w}
    (hx : IsTwister g.n g.m g.um g.lm g.matrixA x) {p : Nat} {s : State w} (h : At g x p s) :
    ∃ s', genrand g s = .ok (g.temper (x p), s') ∧ At g x (p + 1) s' := by
  have h1 := hg.m_lt
  obtain ⟨b, hb, hm, rfl⟩ := h
  by_cases hn : g.n ≤ s.mti
  · have : s.mti = g.n := by omega
    refine ⟨⟨tab g.n (fun j => x (b + g.n + j)), 1⟩, ?_, b + g.n, rfl, by simp; omega, by simp; omega⟩
    rw [genrand, if_pos hn, if_neg (by omega), Res.pure_eq, Res.ok_bind, hb, twist_eq hg hx, Res.ok_bind]
    simp only [Res.pure_eq, Res.ok_bind]
    rw [read_tab _ (by omega), Res.ok_bind]
    rw [this]
    rfl
  · refine ⟨⟨s.mt, s.mti + 1⟩, ?_, b, hb, by simp; omega, by simp; omega⟩
    rw [genrand, if_neg hn, Res.pure_eq, Res.ok_bind, hb, read_tab _ (by omega)]
    rfl

theorem draws_at {g : Gen w} (hg : g.Ok) {x : Nat → BitVec w}
    (hx : IsTwister g.n g.m g.um g.lm g.matrixA x) (c : Nat) {p : Nat} {s : State w} (h : At g x p s) :
    ∃ s', draws g c s = .ok ((List.range c).map (fun i => g.temper (x (p + i))), s') ∧
      At g x (p + c) s' := by
  induction c generalizing p s with
  | zero => exact ⟨s, rfl, h⟩
  | succ c ih =>
    obtain ⟨s1, e1, h1⟩ := genrand_at hg hx h
    obtain ⟨s2, e2, h2⟩ := ih h1
    refine ⟨s2, ?_, by rw [show p + (c + 1) = p + 1 + c by omega]; exact h2⟩
    rw [draws, e1, Res.ok_bind, e2, Res.ok_bind, Res.pure_eq, List.range_succ_eq_map, List.map_cons,
      List.map_map]
    congr 3
    apply List.map_congr_left
    intro i _
    simp only [Function.comp]
    congr 2
    omega

/-- The sequence with given first words. -/
def seq (g : Gen w) (hg : g.Ok) (f : Nat → BitVec w) (k : Nat) : BitVec w :=
  if _h : k < g.n then f k
  else seq g hg f (k - g.n + g.m) ^^^
    mixWord g.um g.lm g.matrixA (seq g hg f (k - g.n)) (seq g hg f (k - g.n + 1))
termination_by k
decreasing_by
  all_goals
    have := hg.m_pos
    have := hg.m_lt
    omega

theorem seq_twister (g : Gen w) (hg : g.Ok) (f : Nat → BitVec w) :
    IsTwister g.n g.m g.um g.lm g.matrixA (seq g hg f) := by
  intro k
  rw [seq, dif_neg (by omega), Nat.add_sub_cancel]

theorem seq_first (g : Gen w) (hg : g.Ok) (f : Nat → BitVec w) {k : Nat} (hk : k < g.n) :
    seq g hg f k = f k := by
  rw [seq, dif_pos hk]

/-- A Mersenne twister sequence is determined by its first words. -/
theorem c55_unique {n m : Nat} (hm : m < n) (hm0 : 0 < m) {um lm a : BitVec w} {x y : Nat → BitVec w}
    (hx : IsTwister n m um lm a x) (hy : IsTwister n m um lm a y) (h : ∀ k, k < n → x k = y k) (k : Nat) :
    x k = y k := by
  induction k using Nat.strongRecOn with
  | _ k ih =>
    by_cases hk : k < n
    · exact h k hk
    · obtain ⟨j, rfl⟩ : ∃ j, k = j + n := ⟨k - n, by omega⟩
      rw [hx j, hy j, ih j (by omega), ih (j + 1) (by omega), ih (j + m) (by omega)]

/-- C55: from any state of the table and any seed, any number of calls of the generator stay in the
table, and return the outputs of the words of the Mersenne twister sequence of the seed. -/
theorem c55_sequence {g : Gen w} (hg : g.Ok) {s : State w} (hs : s.mt.length = g.n) (seed : BitVec w) :
    ∃ x, IsTwister g.n g.m g.um g.lm g.matrixA x ∧
      (∀ k, k < g.n → x k = seedWord g.mult g.shift seed k) ∧
      ∃ s0, initGenrand g s seed = .ok s0 ∧ ∀ c, ∃ s', s'.mt.length = g.n ∧
        draws g c s0 = .ok ((List.range c).map (fun i => g.temper (x (g.n + i))), s') := by
  refine ⟨seq g hg (seedWord g.mult g.shift seed), seq_twister g hg _, fun k hk => seq_first g hg _ hk,
    _, initGenrand_eq hg hs seed, fun c => ?_⟩
  obtain ⟨s', h1, h2⟩ := draws_at hg (seq_twister g hg (seedWord g.mult g.shift seed)) c (p := g.n)
    (s := ⟨tab g.n (seedWord g.mult g.shift seed), g.n⟩)
    ⟨0, tab_congr fun j hj => by rw [Nat.zero_add, seq_first g hg _ hj], by simp, by simp⟩
  obtain ⟨b, hb, _⟩ := h2
  exact ⟨s', by rw [hb]; simp [tab], h1⟩

/-- C55: the numbers after set_seed depend on the seed only. -/
theorem c55_reproducible {s1 s2 : State 64} (h1 : s1.mt.length = 312) (h2 : s2.mt.length = 312)
    (seed : BitVec 64) : setSeed s1 seed = setSeed s2 seed ∧
      ∃ s, setSeed s1 seed = .ok s ∧ ∀ c, ∃ l s', draws mt64 c s = .ok (l, s') ∧ l.length = c := by
  refine ⟨by rw [setSeed, setSeed, initGenrand_eq mt64_ok h1, initGenrand_eq mt64_ok h2], ?_⟩
  obtain ⟨x, _, _, s0, e, h⟩ := c55_sequence mt64_ok h1 seed
  refine ⟨s0, e, fun c => ?_⟩
  obtain ⟨s', _, e'⟩ := h c
  exact ⟨_, s', e', by simp⟩

/-- C55: a generator without seed behaves as one with seed 5489. -/
theorem c55_default {g : Gen w} (hg : g.Ok) {s : State w} (hs : s.mt.length = g.n) (h : s.mti = g.n + 1)
    (c : Nat) : ∃ s0, initGenrand g s (BitVec.ofNat w 5489) = .ok s0 ∧
      draws g (c + 1) s = draws g (c + 1) s0 := by
  refine ⟨_, initGenrand_eq hg hs _, ?_⟩
  have : genrand g s
      = genrand g ⟨tab g.n (seedWord g.mult g.shift (BitVec.ofNat w 5489)), g.n⟩ := by
    rw [genrand, genrand, if_pos (by omega), if_pos h, initGenrand_eq hg hs, Res.ok_bind,
      if_pos (Nat.le_refl _), if_neg (by simp)]
    rfl
  rw [draws, draws, this]

section temper

theorem shr_fix {x m : BitVec w} {s : Nat} (hs : 0 < s) (h : x = (x >>> s) &&& m) : x = 0#w := by
  have h1 : x.toNat ≤ x.toNat / 2 ^ s := by
    conv => lhs; rw [h]
    rw [BitVec.toNat_and, BitVec.toNat_ushiftRight, Nat.shiftRight_eq_div_pow]
    exact Nat.and_le_left
  have h2 : 2 ≤ 2 ^ s := by
    calc 2 = 2 ^ 1 := rfl
      _ ≤ 2 ^ s := Nat.pow_le_pow_right (by decide) hs
  apply BitVec.eq_of_toNat_eq
  have h3 : x.toNat / 2 ^ s ≤ x.toNat / 2 := Nat.div_le_div_left h2 (by decide)
  simp
  omega

theorem shl_fix {x m : BitVec w} {s : Nat} (hs : 0 < s) (h : x = (x <<< s) &&& m) : x = 0#w := by
  apply BitVec.eq_of_getLsbD_eq
  intro i hi
  induction i using Nat.strongRecOn with
  | _ i ih =>
    rw [h]
    by_cases hsi : i < s
    · simp [hsi]
    · have := ih (i - s) (by omega) (by omega)
      simp at this
      simp [this]

theorem bool_xor {a b c d m : Bool} : (a ^^ (c && m)) = (b ^^ (d && m)) →
    (a ^^ b) = ((c ^^ d) && m) := by
  revert a b c d m; decide

theorem xor_shr_inj {m x y : BitVec w} {s : Nat} (hs : 0 < s)
    (h : x ^^^ ((x >>> s) &&& m) = y ^^^ ((y >>> s) &&& m)) : x = y := by
  have : x ^^^ y = ((x ^^^ y) >>> s) &&& m := by
    apply BitVec.eq_of_getLsbD_eq
    intro i _
    have h1 := congrArg (fun z => z.getLsbD i) h
    simp only [BitVec.getLsbD_xor, BitVec.getLsbD_and, BitVec.getLsbD_ushiftRight] at h1 ⊢
    exact bool_xor h1
  exact BitVec.xor_eq_zero_iff.1 (shr_fix hs this)

theorem xor_shl_inj {m x y : BitVec w} {s : Nat} (hs : 0 < s)
    (h : x ^^^ ((x <<< s) &&& m) = y ^^^ ((y <<< s) &&& m)) : x = y := by
  have : x ^^^ y = ((x ^^^ y) <<< s) &&& m := by
    apply BitVec.eq_of_getLsbD_eq
    intro i _
    have h1 := congrArg (fun z => z.getLsbD i) h
    simp only [BitVec.getLsbD_xor, BitVec.getLsbD_and, BitVec.getLsbD_shiftLeft] at h1 ⊢
    rw [bool_xor h1]
    cases decide (i < w) <;> cases decide (i < s) <;> simp
  exact BitVec.xor_eq_zero_iff.1 (shl_fix hs this)

theorem xor_shr_inj' {x y : BitVec w} {s : Nat} (hs : 0 < s) (h : x ^^^ (x >>> s) = y ^^^ (y >>> s)) :
    x = y := by
  apply xor_shr_inj (m := BitVec.allOnes w) hs
  simpa using h

/-- C55: different words give different outputs of the generator with 64 bits. -/
theorem c55_temper64 {x y : BitVec 64} (h : temper64 x = temper64 y) : x = y :=
  xor_shr_inj (by decide) (xor_shl_inj (by decide) (xor_shl_inj (by decide)
    (xor_shr_inj' (by decide) h)))

/-- C55: the same for 32 bits. -/
theorem c55_temper32 {x y : BitVec 32} (h : temper32 x = temper32 y) : x = y :=
  xor_shr_inj' (by decide) (xor_shl_inj (by decide) (xor_shl_inj (by decide)
    (xor_shr_inj' (by decide) h)))

end temper

section array

theorem loop_ok {σ : Type} (f : Nat → σ → Res σ) (I : σ → Prop)
    (h : ∀ i s, I s → ∃ s', f i s = .ok s' ∧ I s') (c i : Nat) {s : σ} (hs : I s) :
    ∃ s', loop f c i s = .ok s' ∧ I s' := by
  induction c generalizing i s with
  | zero => exact ⟨s, rfl, hs⟩
  | succ c ih =>
    obtain ⟨s1, e1, h1⟩ := h i s hs
    obtain ⟨s2, e2, h2⟩ := ih (i + 1) h1
    exact ⟨s2, by rw [loop, e1, Res.ok_bind, e2], h2⟩

theorem wrap_ok {g : Gen w} (hg : g.Ok) (f : Nat → BitVec w) {i : Nat} (h0 : 0 < i) :
    ∃ f' i', wrap g (tab g.n f) i = .ok (tab g.n f', i') ∧ 0 < i' ∧ i' < g.n := by
  have h1 := hg.m_pos
  have h2 := hg.m_lt
  by_cases h : g.n ≤ i
  · refine ⟨fun j => if j = 0 then f (g.n - 1) else f j, 1, ?_, by decide, by omega⟩
    rw [wrap, if_pos h, show (g.n : Int) - 1 = (g.n - 1 : Nat) by omega, read_tab _ (by omega),
      Res.ok_bind, show (0 : Int) = (0 : Nat) from rfl, write_tab _ _ (by omega)]
    rfl
  · exact ⟨f, i, by rw [wrap, if_neg h]; rfl, h0, by omega⟩

theorem initByArray_ok {g : Gen w} (hg : g.Ok) {s : State w} (hs : s.mt.length = g.n)
    {key : List (BitVec w)} (hk : key ≠ []) :
    ∃ f, initByArray g s key = .ok ⟨tab g.n f, g.n⟩ ∧ f 0 = 1#w <<< (w - 1) := by
  have h1 := hg.m_pos
  have h2 := hg.m_lt
  have hk' := List.length_pos_iff.2 hk
  obtain ⟨q1, e1, f1, m1, i1, i1', j1⟩ := loop_ok (fun _ => keyStep1 g key)
    (fun q => ∃ f, q.mt = tab g.n f ∧ 0 < q.i ∧ q.i < g.n ∧ q.j < key.length)
    (by
      rintro _ ⟨mt, i, j⟩ ⟨f, hf, h3, h4, h5⟩
      simp only at hf h3 h4 h5
      subst hf
      obtain ⟨f', i', e, h6, h7⟩ := wrap_ok hg (fun l => if l = i then
        (f i ^^^ ((f (i - 1) ^^^ (f (i - 1) >>> g.shift)) * g.mult1)) + key[j] + BitVec.ofNat w j
          else f l) (i := i + 1) (by omega)
      refine ⟨⟨tab g.n f', i', if key.length ≤ j + 1 then 0 else j + 1⟩, ?_, f', rfl, h6, h7, ?_⟩
      · have hz : read key (j : Nat) = .ok key[j] := by simp [read, h5]
        simp only [keyStep1]
        rw [read_tab _ h4, show (i : Int) - 1 = (i - 1 : Nat) by omega, Res.ok_bind,
          read_tab _ (by omega), Res.ok_bind, hz, Res.ok_bind, write_tab _ _ h4, Res.ok_bind, e]
        rfl
      · simp only
        split <;> omega)
    (if key.length < g.n then g.n else key.length) 0
    (s := ⟨tab g.n (seedWord g.mult g.shift (BitVec.ofNat w 19650218)), 1, 0⟩)
    ⟨_, rfl, by simp, by simp; omega, by simpa using hk'⟩
  obtain ⟨q2, e2, f2, m2, _, _⟩ := loop_ok (fun _ => keyStep2 g)
    (fun q => ∃ f, q.mt = tab g.n f ∧ 0 < q.i ∧ q.i < g.n)
    (by
      rintro _ ⟨mt, i, j⟩ ⟨f, hf, h3, h4⟩
      simp only at hf h3 h4
      subst hf
      obtain ⟨f', i', e, h6, h7⟩ := wrap_ok hg (fun l => if l = i then
        (f i ^^^ ((f (i - 1) ^^^ (f (i - 1) >>> g.shift)) * g.mult2)) - BitVec.ofNat w i
          else f l) (i := i + 1) (by omega)
      refine ⟨⟨tab g.n f', i', j⟩, ?_, f', rfl, h6, h7⟩
      simp only [keyStep2]
      rw [read_tab _ h4, show (i : Int) - 1 = (i - 1 : Nat) by omega, Res.ok_bind,
        read_tab _ (by omega), Res.ok_bind, write_tab _ _ h4, Res.ok_bind, e]
      rfl)
    (g.n - 1) 0 (s := q1) ⟨f1, m1, i1, i1'⟩
  refine ⟨fun j => if j = 0 then 1#w <<< (w - 1) else f2 j, ?_, rfl⟩
  · rw [initByArray, initGenrand_eq hg hs, Res.ok_bind]
    simp only
    rw [e1, Res.ok_bind, e2, Res.ok_bind, m2, show (0 : Int) = (0 : Nat) from rfl,
      write_tab _ _ (by omega)]
    rfl

/-- C55: a seed which is a list of words, as the one of rand_reseed, stays in the table as well, and the
generator goes on with the sequence which starts with the words of the table. -/
theorem c55_array {g : Gen w} (hg : g.Ok) {s : State w} (hs : s.mt.length = g.n)
    {key : List (BitVec w)} (hk : key ≠ []) :
    ∃ x, IsTwister g.n g.m g.um g.lm g.matrixA x ∧ x 0 = 1#w <<< (w - 1) ∧
      ∃ s0, initByArray g s key = .ok s0 ∧ ∀ c, ∃ s', s'.mt.length = g.n ∧
        draws g c s0 = .ok ((List.range c).map (fun i => g.temper (x (g.n + i))), s') := by
  obtain ⟨f, e, hf⟩ := initByArray_ok hg hs hk
  have h2 := hg.m_lt
  refine ⟨seq g hg f, seq_twister g hg _, by rw [seq_first g hg _ (by omega), hf], _, e, fun c => ?_⟩
  obtain ⟨s', h1, h2⟩ := draws_at hg (seq_twister g hg f) c (p := g.n) (s := ⟨tab g.n f, g.n⟩)
    ⟨0, tab_congr fun j hj => by rw [Nat.zero_add, seq_first g hg _ hj], by simp, by simp⟩
  obtain ⟨b, hb, _⟩ := h2
  exact ⟨s', by rw [hb]; simp [tab], h1⟩

/-- C55: init_by_array without words reads outside of the list. -/
theorem c55_array_empty {g : Gen w} (hg : g.Ok) {s : State w} (hs : s.mt.length = g.n) :
    initByArray g s [] = .ub := by
  have h1 := hg.m_pos
  have h2 := hg.m_lt
  obtain ⟨c, hc⟩ : ∃ c, g.n = c + 1 := ⟨g.n - 1, by omega⟩
  rw [initByArray, initGenrand_eq hg hs, Res.ok_bind]
  simp only
  rw [if_pos (by simp; omega)]
  have : keyStep1 g [] ⟨tab g.n (seedWord g.mult g.shift (BitVec.ofNat w 19650218)), 1, 0⟩ = .ub := by
    simp only [keyStep1]
    rw [read_tab _ (by omega), Res.ok_bind, show ((1 : Nat) : Int) - 1 = (0 : Nat) from rfl,
      read_tab _ (by omega), Res.ok_bind]
    rfl
  conv => lhs; arg 1; rw [show loop (fun _ => keyStep1 g []) g.n 0
    ⟨tab g.n (seedWord g.mult g.shift (BitVec.ofNat w 19650218)), 1, 0⟩ = .ub by
      conv => lhs; arg 2; rw [hc]
      rw [loop, this]; rfl]
  rfl

end array

section alive

/-- The bits on which the words from `k + n` on depend are not all zero. -/
def Alive (n : Nat) (um : BitVec w) (x : Nat → BitVec w) (k : Nat) : Prop :=
  x k &&& um ≠ 0#w ∨ ∃ i, 0 < i ∧ i < n ∧ x (k + i) ≠ 0#w

theorem mixWord_zero {um lm a x y : BitVec w} (ha : a.msb = true) (h : mixWord um lm a x y = 0#w) :
    x &&& um = 0#w ∧ y &&& lm = 0#w := by
  rw [mixWord] at h
  have hw : 0 < w := by
    rw [BitVec.msb_eq_getLsbD_last] at ha
    have := BitVec.lt_of_getLsbD ha
    omega
  generalize hz : (x &&& um) ||| (y &&& lm) = z at h
  have h0 : z = 0#w := by
    have hm := congrArg BitVec.msb h
    by_cases h1 : z.getLsbD 0 = true
    · rw [if_pos h1, BitVec.msb_xor, ha, BitVec.msb_ushiftRight] at hm
      simp at hm
    · rw [if_neg h1, BitVec.xor_zero] at h
      apply BitVec.eq_of_getLsbD_eq
      intro i hi
      match i with
      | 0 => simpa using h1
      | i + 1 =>
        have := congrArg (fun z => z.getLsbD i) h
        simp only [BitVec.getLsbD_ushiftRight, BitVec.getLsbD_zero] at this
        rw [Nat.add_comm] at this
        simpa using this
  subst h0
  exact BitVec.or_eq_zero_iff.1 hz

theorem alive_succ {n m : Nat} {um lm a : BitVec w} {x : Nat → BitVec w} (hm : 1 < m) (hmn : m < n)
    (ha : a.msb = true) (hu : um ||| lm = BitVec.allOnes w)
    (hx : IsTwister n m um lm a x) {k : Nat} (h : Alive n um x k) : Alive n um x (k + 1) := by
  by_contra hc
  simp only [Alive, not_or, not_exists, not_and, Decidable.not_not, ne_eq] at hc
  obtain ⟨c1, c2⟩ := hc
  have z : ∀ j, 1 < j → j ≤ n → x (k + j) = 0#w := by
    intro j h1 h2
    have := c2 (j - 1) (by omega) (by omega)
    rwa [show k + 1 + (j - 1) = k + j by omega] at this
  have e := hx k
  rw [z n (by omega) (by omega), z m (by omega) (by omega), BitVec.zero_xor] at e
  obtain ⟨e1, e2⟩ := mixWord_zero ha e.symm
  have e3 : x (k + 1) = 0#w := by
    rw [← BitVec.and_allOnes (x := x (k + 1)), ← hu, BitVec.and_or_distrib_left, c1, e2]
    simp
  rcases h with h | ⟨i, h1, h2, h3⟩
  · exact h e1
  · by_cases hi : i = 1
    · subst hi; exact h3 e3
    · exact h3 (z i (by omega) (by omega))

theorem alive_all {n m : Nat} {um lm a : BitVec w} {x : Nat → BitVec w} (hm : 1 < m) (hmn : m < n)
    (ha : a.msb = true) (hu : um ||| lm = BitVec.allOnes w)
    (hx : IsTwister n m um lm a x) (h : Alive n um x 0) (k : Nat) : ∃ i, i < n ∧ x (k + i) ≠ 0#w := by
  have : Alive n um x k := by
    induction k with
    | zero => exact h
    | succ k ih => exact alive_succ hm hmn ha hu hx ih
  rcases this with h | ⟨i, _, h2, h3⟩
  · refine ⟨0, by omega, fun hz => h ?_⟩
    rw [Nat.add_zero] at hz
    simp [hz]
  · exact ⟨i, h2, h3⟩

theorem seedWord_alive {n : Nat} (hn : 2 < n) (hw : 1 < w) (um mult seed : BitVec w) (shift : Nat)
    {x : Nat → BitVec w} (hx : ∀ k, k < n → x k = seedWord mult shift seed k) : Alive n um x 0 := by
  by_cases h : x 1 = 0#w
  · refine .inr ⟨2, by decide, by omega, fun h2 => ?_⟩
    rw [Nat.zero_add, hx 2 (by omega), seedWord] at h2
    rw [hx 1 (by omega)] at h
    simp only [h] at h2
    have h3 := congrArg BitVec.toNat h2
    have : 2 < 2 ^ w := by
      calc 2 < 2 ^ 2 := by decide
        _ ≤ 2 ^ w := Nat.pow_le_pow_right (by decide) hw
    simp [Nat.mod_eq_of_lt this] at h3
  · exact .inr ⟨1, by decide, by omega, h⟩

/-- C55: the generator never gets stuck in zeros: from any seed, among 312 numbers in a row there is one
which is not zero. -/
theorem c55_alive {s : State 64} (hs : s.mt.length = 312) (seed : BitVec 64) :
    ∃ s0 out, setSeed s seed = .ok s0 ∧
      (∀ c, ∃ s', draws mt64 c s0 = .ok ((List.range c).map out, s')) ∧
      ∀ k, ∃ i, i < 312 ∧ out (k + i) ≠ 0#64 := by
  obtain ⟨x, hx, hf, s0, e, h⟩ := c55_sequence mt64_ok hs seed
  refine ⟨s0, _, e, fun c => ⟨_, (h c).choose_spec.2⟩, fun k => ?_⟩
  obtain ⟨i, hi, hne⟩ := alive_all (by decide) (by decide) (by decide) (by decide) hx
    (seedWord_alive (by decide) (by decide) _ _ _ _ hf) (mt64.n + k)
  refine ⟨i, hi, fun hz => hne ?_⟩
  rw [← Nat.add_assoc] at hz
  exact c55_temper64 hz

/-- C55: the same for the seeds of rand_reseed. -/
theorem c55_array_alive {s : State 64} (hs : s.mt.length = 312) {key : List (BitVec 64)} (hk : key ≠ []) :
    ∃ s0 out, initByArray mt64 s key = .ok s0 ∧
      (∀ c, ∃ s', draws mt64 c s0 = .ok ((List.range c).map out, s')) ∧
      ∀ k, ∃ i, i < 312 ∧ out (k + i) ≠ 0#64 := by
  obtain ⟨x, hx, hf, s0, e, h⟩ := c55_array mt64_ok hs hk
  refine ⟨s0, _, e, fun c => ⟨_, (h c).choose_spec.2⟩, fun k => ?_⟩
  obtain ⟨i, hi, hne⟩ := alive_all (by decide) (by decide) (by decide) (by decide) hx
    (.inl (by rw [hf]; decide)) (mt64.n + k)
  refine ⟨i, hi, fun hz => hne ?_⟩
  rw [← Nat.add_assoc] at hz
  exact c55_temper64 hz

end alive

/-- The hypotheses of these theorems can be met. -/
example : (⟨List.replicate 312 0#64, 313⟩ : State 64).mt.length = mt64.n ∧ mt64.Ok ∧ mt32.Ok :=
  ⟨List.length_replicate, mt64_ok, mt32_ok⟩

end Verif.Rand
