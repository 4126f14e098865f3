import Verif.Props.Rand
import Verif.Model.Seed
/-
Property C115: the seeds of the generator of random numbers.
-/
namespace Verif.Rand

open Verif Spec

variable {w : Nat}

theorem mixWord_inj {um lm a x y x' y' : BitVec w} (ha : a.msb = true) (hul : um &&& lm = 0#w)
    (h : mixWord um lm a x y = mixWord um lm a x' y') : x &&& um = x' &&& um ∧ y &&& lm = y' &&& lm := by
  rw [mixWord, mixWord] at h
  generalize hz : (x &&& um) ||| (y &&& lm) = z at h
  generalize hz' : (x' &&& um) ||| (y' &&& lm) = z' at h
  have hw : 0 < w := by
    rw [BitVec.msb_eq_getLsbD_last] at ha
    have := BitVec.lt_of_getLsbD ha
    omega
  have hbit : z.getLsbD 0 = z'.getLsbD 0 := by
    have hm := congrArg BitVec.msb h
    by_cases h1 : z.getLsbD 0 = true <;> by_cases h2 : z'.getLsbD 0 = true <;>
      simp [h1, h2, BitVec.msb_xor, ha, BitVec.msb_ushiftRight] at hm ⊢
  have hs : z >>> 1 = z' >>> 1 := by
    rw [hbit] at h
    exact (BitVec.xor_left_inj _).1 h
  have hzz : z = z' := by
    apply BitVec.eq_of_getLsbD_eq
    intro i hi
    match i with
    | 0 => exact hbit
    | i + 1 =>
      have := congrArg (fun z => z.getLsbD i) hs
      simp only [BitVec.getLsbD_ushiftRight] at this
      rw [Nat.add_comm] at this
      exact this
  have hb : ∀ i, i < w → ¬ (um.getLsbD i = true ∧ lm.getLsbD i = true) := by
    intro i hi hh
    have := congrArg (fun z => z.getLsbD i) hul
    simp [hh] at this
  subst hzz
  constructor
  · apply BitVec.eq_of_getLsbD_eq
    intro i hi
    have h1 := congrArg (fun z => z.getLsbD i) (hz.trans hz'.symm)
    have h2 := hb i hi
    simp only [BitVec.getLsbD_and, BitVec.getLsbD_or] at h1 ⊢
    revert h1 h2
    cases um.getLsbD i <;> cases lm.getLsbD i <;> cases x.getLsbD i <;> cases x'.getLsbD i <;> simp
  · apply BitVec.eq_of_getLsbD_eq
    intro i hi
    have h1 := congrArg (fun z => z.getLsbD i) (hz.trans hz'.symm)
    have h2 := hb i hi
    simp only [BitVec.getLsbD_and, BitVec.getLsbD_or] at h1 ⊢
    revert h1 h2
    cases um.getLsbD i <;> cases lm.getLsbD i <;> cases y.getLsbD i <;> cases y'.getLsbD i <;> simp

/-- `n` words in a row determine all the words before, except for some bits of the first one. -/
theorem twister_back {n m : Nat} {um lm a : BitVec w} {x y : Nat → BitVec w} (hm : 1 < m) (hmn : m < n)
    (ha : a.msb = true) (hu : um ||| lm = BitVec.allOnes w) (hul : um &&& lm = 0#w)
    (hx : IsTwister n m um lm a x) (hy : IsTwister n m um lm a y) (p : Nat)
    (h : ∀ i, i < n → x (p + 1 + i) = y (p + 1 + i)) :
    ∀ k, k ≤ p → (∀ j, k < j → j < p + 1 + n → x j = y j) ∧ x k &&& um = y k &&& um := by
  intro k hk
  obtain ⟨d, rfl⟩ : ∃ d, p = k + d := ⟨p - k, by omega⟩
  clear hk
  induction d generalizing k with
  | zero =>
    have hall : ∀ j, k < j → j < k + 0 + 1 + n → x j = y j := by
      intro j h1 h2
      have := h (j - (k + 0 + 1)) (by omega)
      rwa [show k + 0 + 1 + (j - (k + 0 + 1)) = j by omega] at this
    refine ⟨hall, ?_⟩
    have e1 := hx k
    have e2 := hy k
    rw [hall (k + n) (by omega) (by omega), hall (k + m) (by omega) (by omega), e2] at e1
    exact (mixWord_inj ha hul ((BitVec.xor_right_inj _).1 e1.symm)).1
  | succ d ih =>
    obtain ⟨h1, h2⟩ := ih (k + 1) (by
      intro i hi
      have := h i hi
      rwa [show k + (d + 1) + 1 + i = k + 1 + d + 1 + i by omega] at this)
    have e1 := hx k
    have e2 := hy k
    rw [h1 (k + n) (by omega) (by omega), h1 (k + m) (by omega) (by omega), e2] at e1
    obtain ⟨e3, e4⟩ := mixWord_inj ha hul ((BitVec.xor_right_inj _).1 e1.symm)
    refine ⟨?_, e3⟩
    intro j hj hj'
    by_cases hjk : j = k + 1
    · subst hjk
      rw [← BitVec.and_allOnes (x := x (k + 1)), ← BitVec.and_allOnes (x := y (k + 1)), ← hu,
        BitVec.and_or_distrib_left, BitVec.and_or_distrib_left, h2, e4]
    · exact h1 j (by omega) (by omega)

/-- Equal numbers of the generator, 312 in a row, come from tables which differ at most in the first word. -/
theorem words_of_draws {x y : Nat → BitVec 64} (hx : IsTwister mt64.n mt64.m mt64.um mt64.lm mt64.matrixA x)
    (hy : IsTwister mt64.n mt64.m mt64.um mt64.lm mt64.matrixA y) {p : Nat} (hp : 0 < p)
    (h : ∀ i, i < 312 → temper64 (x (p + i)) = temper64 (y (p + i))) (j : Nat) (hj : 0 < j) (hj' : j < p + 312) :
    x j = y j := by
  obtain ⟨q, rfl⟩ : ∃ q, p = q + 1 := ⟨p - 1, by omega⟩
  exact (twister_back (n := mt64.n) (m := mt64.m) (by decide) (by decide) (by decide) (by decide) (by decide) hx hy q
    (fun i hi => c55_temper64 (h i hi)) 0 (by omega)).1 j hj hj'

/-- Seeds with the same second word are equal. -/
theorem seed_inj {a b : BitVec 64} (h : seedWord mt64.mult mt64.shift a 1 = seedWord mt64.mult mt64.shift b 1) : a = b := by
  simp only [seedWord] at h
  have h1 : mt64.mult * (a ^^^ (a >>> mt64.shift)) = mt64.mult * (b ^^^ (b >>> mt64.shift)) := (BitVec.add_left_inj _).1 h
  have inv : 13877824140714322085#64 * mt64.mult = 1#64 := by decide
  have h2 := congrArg (fun z => 13877824140714322085#64 * z) h1
  simp only [← BitVec.mul_assoc, inv, BitVec.one_mul] at h2
  exact xor_shr_inj' (by decide) h2

/-! ### One word of /dev/urandom -/

theorem loop_add {σ : Type} (f : Nat → σ → Res σ) (a b i : Nat) (s : σ) :
    loop f (a + b) i s = loop f a i s >>= loop f b (i + a) := by
  induction a generalizing i s with
  | zero => simp [loop]
  | succ a ih =>
    rw [show a + 1 + b = a + b + 1 by omega, loop, loop]
    cases h : f i s with
    | ok t =>
      simp only [Res.ok_bind]
      rw [ih, show i + 1 + a = i + (a + 1) by omega]
    | abort => rfl
    | ub => rfl

/-- The word which the first loop mixes in. -/
def mix1 (g : Gen w) (y : BitVec w) : BitVec w := (y ^^^ (y >>> g.shift)) * g.mult1

/-- The word which the second loop mixes in. -/
def mix2 (g : Gen w) (y : BitVec w) : BitVec w := (y ^^^ (y >>> g.shift)) * g.mult2

/-- The words which the first loop writes. -/
def word1 (g : Gen w) (c : Nat → BitVec w) (key : BitVec w) : Nat → BitVec w
  | 0 => c 0
  | j + 1 => (c (j + 1) ^^^ mix1 g (word1 g c key j)) + key

/-- The words which the second loop writes, from the third one. -/
def word2 (g : Gen w) (t : Nat → BitVec w) : Nat → BitVec w
  | 0 => t 1
  | j + 1 => (t (j + 2) ^^^ mix2 g (word2 g t j)) - BitVec.ofNat w (j + 2)

theorem wrap_in {g : Gen w} (f : Nat → BitVec w) {i : Nat} (h : i < g.n) :
    wrap g (tab g.n f) i = .ok (tab g.n f, i) := by
  rw [wrap, if_neg (by omega)]; rfl

theorem wrap_end {g : Gen w} (f : Nat → BitVec w) {i : Nat} (h : g.n = i) (h0 : 0 < g.n) :
    wrap g (tab g.n f) i = .ok (tab g.n (fun j => if j = 0 then f (g.n - 1) else f j), 1) := by
  rw [wrap, if_pos (by omega), show (g.n : Int) - 1 = (g.n - 1 : Nat) by omega, read_tab _ (by omega),
    Res.ok_bind, show (0 : Int) = (0 : Nat) from rfl, write_tab _ _ (by omega)]
  rfl

theorem keyStep1_tab {g : Gen w} (f : Nat → BitVec w) (key : BitVec w) {i : Nat} (h0 : 0 < i) (h : i < g.n) :
    keyStep1 g [key] ⟨tab g.n f, i, 0⟩ = (wrap g (tab g.n (fun j => if j = i then (f i ^^^ mix1 g (f (i - 1))) + key
      else f j)) (i + 1) >>= fun p => .ok ⟨p.1, p.2, 0⟩) := by
  have e : read [key] ((0 : Nat) : Int) = .ok key := rfl
  simp only [keyStep1]
  rw [show (i : Int) - 1 = (i - 1 : Nat) by omega, read_tab _ h, Res.ok_bind, read_tab _ (by omega), Res.ok_bind, e,
    Res.ok_bind, write_tab _ _ h, Res.ok_bind, BitVec.add_zero]
  rfl

theorem keyStep2_tab {g : Gen w} (f : Nat → BitVec w) {i : Nat} (h0 : 0 < i) (h : i < g.n) :
    keyStep2 g ⟨tab g.n f, i, 0⟩ = (wrap g (tab g.n (fun j => if j = i then (f i ^^^ mix2 g (f (i - 1))) - BitVec.ofNat w i
      else f j)) (i + 1) >>= fun p => .ok ⟨p.1, p.2, 0⟩) := by
  simp only [keyStep2]
  rw [show (i : Int) - 1 = (i - 1 : Nat) by omega, read_tab _ h, Res.ok_bind, read_tab _ (by omega), Res.ok_bind,
    write_tab _ _ h, Res.ok_bind]
  rfl

/-- The table after the first loop. -/
def table1 (g : Gen w) (c : Nat → BitVec w) (key : BitVec w) (j : Nat) : BitVec w :=
  if j = 0 then word1 g c key (g.n - 1)
  else if j = 1 then (word1 g c key 1 ^^^ mix1 g (word1 g c key (g.n - 1))) + key
  else word1 g c key j

theorem loop1_eq {g : Gen w} (hn : 4 ≤ g.n) (c : Nat → BitVec w) (key : BitVec w) :
    loop (fun _ => keyStep1 g [key]) g.n 0 ⟨tab g.n c, 1, 0⟩ = .ok ⟨tab g.n (table1 g c key), 2, 0⟩ := by
  have i1 := loop_inv (fun _ => keyStep1 g [key])
    (fun k => (⟨tab g.n (fun j => if j ≤ k then word1 g c key j else c j), k + 1, 0⟩ : KeyState w)) (g.n - 2) 0 (by
      intro k _ hk
      rw [keyStep1_tab _ _ (by omega) (by omega), wrap_in _ (by omega), Res.ok_bind]
      congr 2
      apply tab_congr
      intro j hj
      by_cases hjk : j = k + 1
      · subst hjk
        rw [if_pos rfl, if_neg (by omega), Nat.add_sub_cancel, if_pos (Nat.le_refl _), if_pos (Nat.le_refl _)]
        rfl
      · rw [if_neg hjk]
        split <;> split <;> first | rfl | omega)
  have e0 : tab g.n c = tab g.n (fun j => if j ≤ 0 then word1 g c key j else c j) := tab_congr fun j _ => by
    by_cases hj : j = 0
    · subst hj; rfl
    · rw [if_neg (by omega)]
  conv => lhs; rw [show g.n = (g.n - 2) + 2 by omega]
  rw [loop_add, show g.n - 2 + 2 = g.n by omega, e0]
  simp only [Nat.zero_add] at i1 ⊢
  rw [i1, Res.ok_bind, loop, keyStep1_tab _ _ (by omega) (by omega), wrap_end _ (by omega) (by omega), Res.ok_bind,
    Res.ok_bind, loop, keyStep1_tab _ _ (by omega) (by omega), wrap_in _ (by omega), Res.ok_bind, Res.ok_bind, loop]
  congr 2
  have e1 : (c (g.n - 2 + 1) ^^^ mix1 g (word1 g c key (g.n - 2))) + key = word1 g c key (g.n - 1) := by
    rw [show g.n - 1 = g.n - 2 + 1 by omega]; rfl
  apply tab_congr
  intro j hj
  rw [table1]
  by_cases h0 : j = 0
  · subst h0
    simp only [show ¬ (0 = 1) by omega, if_false, if_true, show g.n - 1 = g.n - 2 + 1 by omega,
      show ¬ g.n - 2 + 1 ≤ g.n - 2 by omega, Nat.add_sub_cancel, Nat.le_refl]
    rfl
  · by_cases h1 : j = 1
    · subst h1
      simp only [if_true, if_false, show ¬ (1 = 0) by omega, show 1 - 1 = 0 by omega, show g.n - 2 + 1 = g.n - 1 by omega,
        show ¬ (1 = g.n - 1) by omega, show 1 ≤ g.n - 2 by omega, show ¬ (g.n - 1 ≤ g.n - 2) by omega,
        show g.n - 1 - 1 = g.n - 2 by omega, Nat.le_refl]
      rw [show g.n - 2 + 1 = g.n - 1 by omega] at e1
      rw [e1]
    · simp only [h0, h1, if_false]
      by_cases h2 : j = g.n - 2 + 1
      · subst h2
        simp only [if_true, show ¬ g.n - 2 + 1 ≤ g.n - 2 by omega, if_false, Nat.add_sub_cancel, Nat.le_refl]
        rfl
      · simp only [h2, if_false, show j ≤ g.n - 2 by omega, if_true]

/-- The table after the second loop. -/
def table2 (g : Gen w) (t : Nat → BitVec w) (j : Nat) : BitVec w :=
  if j = 0 then word2 g t (g.n - 2)
  else if j = 1 then (t 1 ^^^ mix2 g (word2 g t (g.n - 2))) - BitVec.ofNat w 1
  else word2 g t (j - 1)

theorem loop2_eq {g : Gen w} (hn : 4 ≤ g.n) (t : Nat → BitVec w) :
    loop (fun _ => keyStep2 g) (g.n - 1) 0 ⟨tab g.n t, 2, 0⟩ = .ok ⟨tab g.n (table2 g t), 2, 0⟩ := by
  have i1 := loop_inv (fun _ => keyStep2 g)
    (fun k => (⟨tab g.n (fun j => if 1 ≤ j ∧ j ≤ k + 1 then word2 g t (j - 1) else t j), k + 2, 0⟩ : KeyState w))
    (g.n - 3) 0 (by
      intro k _ hk
      rw [keyStep2_tab _ (by omega) (by omega), wrap_in _ (by omega), Res.ok_bind]
      congr 2
      apply tab_congr
      intro j hj
      by_cases hjk : j = k + 2
      · subst hjk
        rw [if_pos rfl, if_neg (by omega), show k + 2 - 1 = k + 1 by omega, if_pos (by omega), if_pos (by omega)]
        rfl
      · rw [if_neg hjk]
        split <;> split <;> first | rfl | omega)
  have e0 : tab g.n t = tab g.n (fun j => if 1 ≤ j ∧ j ≤ 0 + 1 then word2 g t (j - 1) else t j) := tab_congr fun j _ => by
    by_cases hj : j = 1
    · subst hj; rfl
    · rw [if_neg (by omega)]
  conv => lhs; rw [show g.n - 1 = (g.n - 3) + 2 by omega]
  rw [loop_add, e0]
  simp only [Nat.zero_add] at i1 ⊢
  rw [i1, Res.ok_bind, loop, keyStep2_tab _ (by omega) (by omega), wrap_end _ (by omega) (by omega), Res.ok_bind,
    Res.ok_bind, loop, keyStep2_tab _ (by omega) (by omega), wrap_in _ (by omega), Res.ok_bind, Res.ok_bind, loop]
  congr 2
  have e1 : (t (g.n - 1) ^^^ mix2 g (word2 g t (g.n - 3))) - BitVec.ofNat w (g.n - 1) = word2 g t (g.n - 2) := by
    obtain ⟨m, hm⟩ : ∃ m, g.n = m + 3 := ⟨g.n - 3, by omega⟩
    rw [hm]; rfl
  apply tab_congr
  intro j hj
  have a1 : g.n - 3 + 2 = g.n - 1 := by omega
  have a2 : g.n - 3 + 1 = g.n - 2 := by omega
  have a3 : g.n - 1 - 1 = g.n - 2 := by omega
  have a4 : ¬ (1 ≤ g.n - 1 ∧ g.n - 1 ≤ g.n - 2) := by omega
  have a5 : (1 ≤ g.n - 2 ∧ g.n - 2 ≤ g.n - 2) := by omega
  have a6 : g.n - 2 - 1 = g.n - 3 := by omega
  simp only [a1, a2, a3, if_neg a4, if_pos a5, a6, if_true]
  rw [table2]
  by_cases h0 : j = 0
  · subst h0
    simp only [show ¬ (0 = 1) by omega, if_false, if_true]
    exact e1
  · by_cases h1 : j = 1
    · subst h1
      simp only [if_true, if_false, show ¬ (1 = 0) by omega, show 1 - 1 = 0 by omega,
        show ¬ (1 = g.n - 1) by omega, show (1 ≤ 1 ∧ 1 ≤ g.n - 2) by omega]
      rw [e1]
      rfl
    · simp only [h0, h1, if_false]
      by_cases h2 : j = g.n - 1
      · subst h2
        simp only [if_true]
        rw [e1]; congr 1
      · simp only [h2, if_false, show 1 ≤ j ∧ j ≤ g.n - 2 by omega, and_self, if_true]

/-- What init_by_array leaves in the table for one word. -/
theorem initByArray_eq {g : Gen w} (hg : g.Ok) (hn : 4 ≤ g.n) {s : State w} (hs : s.mt.length = g.n) (key : BitVec w) :
    initByArray g s [key] = .ok ⟨tab g.n (fun j => if j = 0 then 1#w <<< (w - 1) else
      table2 g (table1 g (seedWord g.mult g.shift (BitVec.ofNat w 19650218)) key) j), g.n⟩ := by
  simp only [initByArray]
  rw [initGenrand_eq hg hs, Res.ok_bind, if_pos (by simp; omega), loop1_eq hn, Res.ok_bind, loop2_eq hn, Res.ok_bind,
    show (0 : Int) = ((0 : Nat) : Int) from rfl, write_tab _ _ (by omega)]
  rfl

/-- Tables which agree, except for the first word, come from the same word. -/
theorem key_inj {g : Gen w} (hn : 4 ≤ g.n) (c : Nat → BitVec w) {a b : BitVec w}
    (h : ∀ j, 0 < j → j < g.n → table2 g (table1 g c a) j = table2 g (table1 g c b) j) : a = b := by
  have h' : ∀ j, 2 ≤ j → j < g.n → word2 g (table1 g c a) (j - 1) = word2 g (table1 g c b) (j - 1) := by
    intro j h1 h2
    have := h j (by omega) h2
    simpa only [table2, show ¬ j = 0 by omega, show ¬ j = 1 by omega, if_false] using this
  have hlast := h' (g.n - 1) (by omega) (by omega)
  rw [show g.n - 1 - 1 = g.n - 2 by omega] at hlast
  have h1 := h 1 (by omega) (by omega)
  simp only [table2, show ¬ (1 = 0) by omega, if_false, if_true, hlast] at h1
  have t1 : table1 g c a 1 = table1 g c b 1 := (BitVec.xor_left_inj _).1 ((BitVec.sub_left_inj _).1 h1)
  have w0 : word2 g (table1 g c a) 0 = word2 g (table1 g c b) 0 := t1
  have h2 := h' 2 (by omega) (by omega)
  have h3 := h' 3 (by omega) (by omega)
  have w1 : word2 g (table1 g c a) 1 = word2 g (table1 g c b) 1 := h2
  have t2 : table1 g c a 2 = table1 g c b 2 := by
    simp only [word2] at w1 w0
    rw [w0] at w1
    exact (BitVec.xor_left_inj _).1 ((BitVec.sub_left_inj _).1 w1)
  have t3 : table1 g c a 3 = table1 g c b 3 := by
    have w2 : word2 g (table1 g c a) (1 + 1) = word2 g (table1 g c b) (1 + 1) := h3
    have e : ∀ k, word2 g (table1 g c k) (1 + 1) = (table1 g c k 3 ^^^ mix2 g (word2 g (table1 g c k) 1)) - BitVec.ofNat w 3 :=
      fun _ => rfl
    rw [e, e, w1] at w2
    exact (BitVec.xor_left_inj _).1 ((BitVec.sub_left_inj _).1 w2)
  simp only [table1, show ¬ (2 = 0) by omega, show ¬ (2 = 1) by omega, show ¬ (3 = 0) by omega,
    show ¬ (3 = 1) by omega, if_false] at t2 t3
  have e : ∀ k, word1 g c k 3 = (c 3 ^^^ mix1 g (word1 g c k 2)) + k := fun _ => rfl
  rw [e, e, t2] at t3
  exact (BitVec.add_right_inj _).1 t3

/-! ### The theorems -/

theorem at_tab {g : Gen w} (hg : g.Ok) (f : Nat → BitVec w) : At g (seq g hg f) g.n ⟨tab g.n f, g.n⟩ :=
  ⟨0, tab_congr fun j hj => by rw [Nat.zero_add, seq_first g hg _ hj], by simp, by simp⟩

theorem draws_add {g : Gen w} (a b : Nat) (s : State w) : draws g (a + b) s = (do
    let p ← draws g a s
    let q ← draws g b p.2
    pure (p.1 ++ q.1, q.2)) := by
  induction a generalizing s with
  | zero =>
    rw [Nat.zero_add]
    simp only [draws, Res.ok_bind, List.nil_append]
    cases draws g b s <;> rfl
  | succ a ih =>
    rw [show a + 1 + b = a + b + 1 by omega, draws, draws]
    cases h : genrand g s with
    | ok p =>
      simp only [Res.ok_bind, ih]
      cases h1 : draws g a p.2 with
      | ok q =>
        simp only [Res.ok_bind, Res.pure_eq]
        cases h2 : draws g b q.2 <;> rfl
      | abort => rfl
      | ub => rfl
    | abort => rfl
    | ub => rfl

/-- Equal numbers in a row come from sequences with the same words. -/
theorem words_eq {f f' : Nat → BitVec 64} {q : Nat} (hq : 312 ≤ q) {s1 s2 : State 64}
    (a1 : At mt64 (seq mt64 mt64_ok f) q s1) (a2 : At mt64 (seq mt64 mt64_ok f') q s2) (p : Nat)
    {l1 l2 : List (BitVec 64)} {t1 t2 : State 64} (d1 : draws mt64 (p + 312) s1 = .ok (l1, t1))
    (d2 : draws mt64 (p + 312) s2 = .ok (l2, t2)) (h : l1.drop p = l2.drop p) (j : Nat) (h0 : 0 < j) (hj : j < 312) :
    f j = f' j := by
  obtain ⟨u1, e1, -⟩ := draws_at mt64_ok (seq_twister mt64 mt64_ok f) (p + 312) a1
  obtain ⟨u2, e2, -⟩ := draws_at mt64_ok (seq_twister mt64 mt64_ok f') (p + 312) a2
  rw [d1] at e1
  rw [d2] at e2
  have k1 := congrArg Prod.fst (Res.ok.inj e1)
  have k2 := congrArg Prod.fst (Res.ok.inj e2)
  simp only at k1 k2
  have hw : ∀ i, i < 312 → temper64 (seq mt64 mt64_ok f (q + p + i)) = temper64 (seq mt64 mt64_ok f' (q + p + i)) := by
    intro i hi
    have hh := congrArg (fun l => l[i]?) h
    simp only [k1, k2, List.getElem?_drop, List.getElem?_map] at hh
    rw [List.getElem?_range (show p + i < p + 312 by omega)] at hh
    simp only [Option.map_some, Option.some.injEq, ← Nat.add_assoc] at hh
    exact hh
  have := words_of_draws (seq_twister mt64 mt64_ok f) (seq_twister mt64 mt64_ok f') (p := q + p) (by omega) hw j h0 (by omega)
  rwa [seq_first mt64 mt64_ok f (show j < mt64.n from hj), seq_first mt64 mt64_ok f' (show j < mt64.n from hj)] at this

/-- C115: the 312 numbers which follow the first `p` numbers determine the seed of set_seed: different seeds give different
numbers, always. -/
theorem c115_set_seed {s s' s1 s2 : State 64} (hs : s.mt.length = 312) (hs' : s'.mt.length = 312) {a b : BitVec 64}
    (e1 : setSeed s a = .ok s1) (e2 : setSeed s' b = .ok s2) (p : Nat) {l1 l2 : List (BitVec 64)} {t1 t2 : State 64}
    (d1 : draws mt64 (p + 312) s1 = .ok (l1, t1)) (d2 : draws mt64 (p + 312) s2 = .ok (l2, t2))
    (h : l1.drop p = l2.drop p) : a = b := by
  rw [setSeed, initGenrand_eq mt64_ok hs] at e1
  rw [setSeed, initGenrand_eq mt64_ok hs'] at e2
  obtain rfl := Res.ok.inj e1
  obtain rfl := Res.ok.inj e2
  exact seed_inj (words_eq (q := 312) (Nat.le_refl _) (at_tab mt64_ok _) (at_tab mt64_ok _) p d1 d2 h 1 (by decide) (by decide))

/-- Numbers which are thrown away. -/
def skip (n : Nat) (s : State 64) : Res (State 64) := do
  let p ← draws mt64 n s
  pure p.2

theorem warmUp_eq (s : State 64) : warmUp s = skip 6240 s := by
  have h : warmUp s = skip (624 * 10) s := by rw [warmUp, skip]
  have e : 624 * 10 = 6240 := rfl
  rw [e] at h
  exact h

theorem skip_at {f : Nat → BitVec 64} {q : Nat} {s : State 64} (h : At mt64 (seq mt64 mt64_ok f) q s) (n : Nat) :
    ∃ s', skip n s = .ok s' ∧ At mt64 (seq mt64 mt64_ok f) (q + n) s' ∧
      ∀ c, ∃ l t, draws mt64 (n + c) s = .ok (l, t) ∧ draws mt64 c s' = .ok (l.drop n, t) := by
  obtain ⟨s', e, h'⟩ := draws_at mt64_ok (seq_twister mt64 mt64_ok f) n h
  refine ⟨s', by rw [skip, e]; rfl, h', fun c => ?_⟩
  obtain ⟨s2, e2, -⟩ := draws_at mt64_ok (seq_twister mt64 mt64_ok f) c h'
  refine ⟨_ ++ _, s2, by rw [draws_add, e, Res.ok_bind, e2, Res.ok_bind]; rfl, ?_⟩
  rw [e2, List.drop_left' (by simp)]

theorem warmUp_at {f : Nat → BitVec 64} {q : Nat} {s : State 64} (h : At mt64 (seq mt64 mt64_ok f) q s) :
    ∃ s', warmUp s = .ok s' ∧ At mt64 (seq mt64 mt64_ok f) (q + 6240) s' ∧
      ∀ c, ∃ l t, draws mt64 (6240 + c) s = .ok (l, t) ∧ draws mt64 c s' = .ok (l.drop 6240, t) := by
  rw [warmUp_eq]
  exact skip_at h 6240

/-- The table for a word of /dev/urandom. -/
def urandomTable (a : BitVec 64) (j : Nat) : BitVec 64 :=
  if j = 0 then 1#64 <<< (64 - 1) else
    table2 mt64 (table1 mt64 (seedWord mt64.mult mt64.shift (BitVec.ofNat 64 19650218)) a) j

theorem initByArray_urandom {s : State 64} (hs : s.mt.length = 312) (a : BitVec 64) :
    initByArray mt64 s [a] = .ok ⟨tab mt64.n (urandomTable a), mt64.n⟩ := initByArray_eq mt64_ok (by decide) hs a

theorem reseed_urandom {env : Env} (hr : env.randseed = none) {a : BitVec 64} (hu : env.urandom = some (some a))
    {s : State 64} (hs : s.mt.length = 312) : ∃ s1, reseed env s = .ok s1 ∧
      At mt64 (seq mt64 mt64_ok (urandomTable a)) (312 + 6240) s1 := by
  obtain ⟨s1, e, h, -⟩ := warmUp_at (at_tab mt64_ok (urandomTable a))
  refine ⟨s1, ?_, h⟩
  rw [reseed, hr]
  simp only [hu, Res.ofOption, Res.ok_bind]
  rw [initByArray_eq mt64_ok (by decide) hs, Res.ok_bind]
  exact e

theorem reseed_time {env : Env} (hr : env.randseed = none) (hu : env.urandom = none)
    {s : State 64} (hs : s.mt.length = 312) : ∃ s1, reseed env s = .ok s1 ∧
      At mt64 (seq mt64 mt64_ok (seedWord mt64.mult mt64.shift ((BitVec.ofInt 32 env.time).signExtend 64))) (312 + 6240) s1 := by
  obtain ⟨s1, e, h, -⟩ := warmUp_at (at_tab mt64_ok (seedWord mt64.mult mt64.shift ((BitVec.ofInt 32 env.time).signExtend 64)))
  refine ⟨s1, ?_, h⟩
  rw [reseed, hr]
  simp only [hu]
  rw [initGenrand_eq mt64_ok hs, Res.ok_bind]
  exact e

/-- C115: without RANDSEED, different words of /dev/urandom give different numbers, always: the numbers which are thrown
away do not mix them up. -/
theorem c115_urandom {env env' : Env} (hr : env.randseed = none) (hr' : env'.randseed = none) {a b : BitVec 64}
    (hu : env.urandom = some (some a)) (hu' : env'.urandom = some (some b)) {s s' s1 s2 : State 64}
    (hs : s.mt.length = 312) (hs' : s'.mt.length = 312) (e1 : reseed env s = .ok s1) (e2 : reseed env' s' = .ok s2)
    (p : Nat) {l1 l2 : List (BitVec 64)} {t1 t2 : State 64} (d1 : draws mt64 (p + 312) s1 = .ok (l1, t1))
    (d2 : draws mt64 (p + 312) s2 = .ok (l2, t2)) (h : l1.drop p = l2.drop p) : a = b := by
  obtain ⟨u1, k1, a1⟩ := reseed_urandom hr hu hs
  obtain ⟨u2, k2, a2⟩ := reseed_urandom hr' hu' hs'
  obtain rfl := Res.ok.inj (e1.symm.trans k1)
  obtain rfl := Res.ok.inj (e2.symm.trans k2)
  apply key_inj (g := mt64) (by decide) (seedWord mt64.mult mt64.shift (BitVec.ofNat 64 19650218))
  intro j h0 hj
  have := words_eq (q := 312 + 6240) (by omega) a1 a2 p d1 d2 h j h0 hj
  simpa only [urandomTable, show ¬ j = 0 by omega, if_false] using this

theorem signExtend_inj {a b : BitVec 32} (h : a.signExtend 64 = b.signExtend 64) : a = b := by
  have := congrArg BitVec.toInt h
  rw [BitVec.toInt_signExtend_of_le (by decide), BitVec.toInt_signExtend_of_le (by decide)] at this
  exact BitVec.eq_of_toInt_eq this

/-- C115: without RANDSEED and /dev/urandom, the same numbers mean the same clock, up to 2^32 seconds. -/
theorem c115_time {env env' : Env} (hr : env.randseed = none) (hr' : env'.randseed = none)
    (hu : env.urandom = none) (hu' : env'.urandom = none) {s s' s1 s2 : State 64}
    (hs : s.mt.length = 312) (hs' : s'.mt.length = 312) (e1 : reseed env s = .ok s1) (e2 : reseed env' s' = .ok s2)
    (p : Nat) {l1 l2 : List (BitVec 64)} {t1 t2 : State 64} (d1 : draws mt64 (p + 312) s1 = .ok (l1, t1))
    (d2 : draws mt64 (p + 312) s2 = .ok (l2, t2)) (h : l1.drop p = l2.drop p) :
    (2 ^ 32 : Int) ∣ env.time - env'.time := by
  obtain ⟨u1, k1, a1⟩ := reseed_time hr hu hs
  obtain ⟨u2, k2, a2⟩ := reseed_time hr' hu' hs'
  obtain rfl := Res.ok.inj (e1.symm.trans k1)
  obtain rfl := Res.ok.inj (e2.symm.trans k2)
  have hb := signExtend_inj (seed_inj (words_eq (q := 312 + 6240) (by omega) a1 a2 p d1 d2 h 1 (by decide) (by decide)))
  have := congrArg BitVec.toNat hb
  simp only [BitVec.toNat_ofInt] at this
  omega

/-- C115: what the generator did before does not matter. -/
theorem c115_history (env : Env) {s s' : State 64} (hs : s.mt.length = 312) (hs' : s'.mt.length = 312) :
    reseed env s = reseed env s' := by
  rw [reseed, reseed]
  cases env.randseed with
  | some text =>
    simp only
    cases atoi text with
    | ok n => simp only [Res.ok_bind]; rw [initGenrand_eq mt64_ok hs, initGenrand_eq mt64_ok hs']
    | abort => rfl
    | ub => rfl
  | none =>
    cases env.urandom with
    | none => simp only; rw [initGenrand_eq mt64_ok hs, initGenrand_eq mt64_ok hs']
    | some b =>
      cases b with
      | none => rfl
      | some a =>
        simp only [Res.ofOption, Res.ok_bind]
        rw [initByArray_eq mt64_ok (by decide) hs, initByArray_eq mt64_ok (by decide) hs']

/-- C115: rand_reseed, at any time, does what the start of the program does. -/
theorem c115_start (env : Env) {s : State 64} (hs : s.mt.length = 312) : reseed env s = start env :=
  c115_history env hs List.length_replicate

/-- The text of an integer, as a user writes it. -/
def decimal (n : Int) : List Char := if n < 0 then '-' :: Nat.toDigits 10 n.natAbs else Nat.toDigits 10 n.natAbs

theorem digits_decimal (n : Nat) {rest : List Char} (hr : ∀ c ∈ rest.head?, c.isDigit = false) :
    digits (Nat.toDigits 10 n ++ rest) = n := by
  have hd : ∀ c ∈ Nat.toDigits 10 n, c.isDigit = true := fun c hc => Nat.isDigit_of_mem_toDigits (by decide) (by decide) hc
  have ht : rest.takeWhile Char.isDigit = [] := by
    cases rest with
    | nil => rfl
    | cons c t => rw [List.takeWhile_cons, hr c (by simp)]; rfl
  rw [digits, List.takeWhile_append_of_pos hd, ht, List.append_nil]
  have := Nat.ofDigitChars_ten_toDigits (n := n)
  rw [Nat.ofDigitChars_eq_foldl] at this
  exact this

/-- The first character of the digits of a number. -/
theorem toDigits_cons (n : Nat) : ∃ c t, Nat.toDigits 10 n = c :: t ∧ c.isDigit = true := by
  cases h : Nat.toDigits 10 n with
  | nil => exact absurd h Nat.toDigits_ne_nil
  | cons c t =>
    exact ⟨c, t, rfl, Nat.isDigit_of_mem_toDigits (b := 10) (n := n) (by decide) (by decide) (by rw [h]; simp)⟩

theorem signOf_digit {c : Char} (h : c.isDigit = true) (t : List Char) : signOf (c :: t) = (false, c :: t) := by
  rw [signOf.eq_def]
  split
  · rename_i e; cases e; exact absurd h (by decide)
  · rename_i e; cases e; exact absurd h (by decide)
  · rfl

theorem isSpace_digit {c : Char} (h : c.isDigit = true) : isSpace c = false := by
  by_contra hc
  rw [Bool.not_eq_false, isSpace] at hc
  simp only [Bool.or_eq_true, decide_eq_true_eq] at hc
  rcases hc with ((((rfl | rfl) | rfl) | rfl) | rfl) | rfl <;> exact absurd h (by decide)

theorem isSpace_iff (c : Char) : isSpace c = true ↔ c.toNat = 32 ∨ (9 ≤ c.toNat ∧ c.toNat ≤ 13) := by
  have e : ∀ d : Char, c = d ↔ c.toNat = d.toNat := fun d => ⟨fun h => h ▸ rfl, fun h => Char.toNat_inj.1 h⟩
  simp only [isSpace, Bool.or_eq_true, decide_eq_true_eq, e]
  simp only [Char.reduceToNat]
  omega

theorem atoi_decimal (n : Int) {sp rest : List Char} (hsp : ∀ c ∈ sp, isSpace c = true)
    (hr : ∀ c ∈ rest.head?, c.isDigit = false) :
    atoi (sp ++ (decimal n ++ rest)) = if -2 ^ 31 ≤ n ∧ n < 2 ^ 31 then .ok n else .ub := by
  obtain ⟨c, t, hc, hcd⟩ := toDigits_cons n.natAbs
  have hd := digits_decimal n.natAbs hr
  rw [atoi, List.dropWhile_append_of_pos hsp, decimal]
  by_cases hn : n < 0
  · rw [if_pos hn, List.cons_append, List.dropWhile_cons]
    rw [show isSpace '-' = false from by decide]
    simp only [signOf, hd, if_true, Bool.false_eq_true, if_false]
    rw [show -(n.natAbs : Int) = n by omega]
  · rw [if_neg hn]
    rw [hc] at hd ⊢
    rw [List.cons_append] at hd ⊢
    rw [List.dropWhile_cons, isSpace_digit hcd]
    simp only [Bool.false_eq_true, if_false, signOf_digit hcd, hd]
    rw [show (n.natAbs : Int) = n by omega]

/-- C115: atoi reads an int which a user writes in RANDSEED, with spaces before (a space, and the characters 9 to 13) and anything
but a digit after. -/
theorem c115_text {n : Int} (h1 : -2 ^ 31 ≤ n) (h2 : n < 2 ^ 31) {sp rest : List Char}
    (hsp : ∀ c ∈ sp, c.toNat = 32 ∨ (9 ≤ c.toNat ∧ c.toNat ≤ 13))
    (hr : ∀ c ∈ rest.head?, c.isDigit = false) : atoi (sp ++ (decimal n ++ rest)) = .ok n := by
  refine (atoi_decimal n (fun c hc => ?_) hr).trans (if_pos ⟨h1, h2⟩)
  have h := hsp c hc
  rw [isSpace_iff]
  exact h

/-- C115: a program which runs with RANDSEED=n behaves as one which calls set_seed(n): no numbers are thrown away, and
/dev/urandom and the clock do not matter. -/
theorem c115_randseed {n : Int} (h1 : -2 ^ 31 ≤ n) (h2 : n < 2 ^ 31) (u : Option (Option (BitVec 64))) (t : Int)
    (s : State 64) : reseed ⟨some (decimal n), u, t⟩ s = setSeed s (BitVec.ofInt 64 n) := by
  have := c115_text h1 h2 (sp := []) (rest := []) (by simp) (by simp)
  rw [List.nil_append, List.append_nil] at this
  simp only [reseed, this, Res.ok_bind]
  rfl

/-- C115: without RANDSEED the numbers are those of init_by_array for the word, without the first 6240. -/
theorem c115_thrown_away {env : Env} (hr : env.randseed = none) {a : BitVec 64} (hu : env.urandom = some (some a))
    {s : State 64} (hs : s.mt.length = 312) : ∃ s0 s1, initByArray mt64 s [a] = .ok s0 ∧ reseed env s = .ok s1 ∧
      ∀ c, ∃ l t, draws mt64 (6240 + c) s0 = .ok (l, t) ∧ draws mt64 c s1 = .ok (l.drop 6240, t) := by
  obtain ⟨s1, e, -, h⟩ := warmUp_at (at_tab mt64_ok (urandomTable a))
  refine ⟨⟨tab mt64.n (urandomTable a), mt64.n⟩, s1, initByArray_urandom hs a, ?_, h⟩
  rw [reseed, hr]
  simp only [hu, Res.ofOption, Res.ok_bind]
  rw [initByArray_urandom hs, Res.ok_bind]
  exact e

/-- C115 is false when /dev/urandom gives no bytes: the seed is not initialised. -/
theorem c115_negation_short (t : Int) (s : State 64) : reseed ⟨none, some none, t⟩ s = .ub := rfl

/-- C115 is false for the seeds which are not an int, such as RANDSEED=2147483648: the program is undefined, although
set_seed is right. -/
theorem c115_negation_text {n : Int} (hn : 2 ^ 31 ≤ n) (u : Option (Option (BitVec 64))) (t : Int) (s : State 64) :
    reseed ⟨some (decimal n), u, t⟩ s = .ub := by
  have := atoi_decimal n (sp := []) (rest := []) (by simp) (by simp)
  rw [List.nil_append, List.append_nil, if_neg (by omega)] at this
  simp only [reseed, this]
  rfl

theorem skip_default {s : State 64} (hs : s.mt.length = mt64.n) (hm : s.mti = 313) (n : Nat) :
    skip (n + 1) s = skip (n + 1) ⟨tab mt64.n (seedWord mt64.mult mt64.shift (BitVec.ofNat 64 5489)), mt64.n⟩ := by
  obtain ⟨s0, e0, h0⟩ := c55_default mt64_ok hs hm n
  obtain rfl := Res.ok.inj (e0.symm.trans (initGenrand_eq mt64_ok hs (BitVec.ofNat 64 5489)))
  rw [skip, skip, h0]

theorem reseedWindows_some (a : BitVec 64) (clock t : Int) (s : State 64) :
    reseedWindows (some a) clock t s = skip 6240 s := by
  rw [← warmUp_eq, reseedWindows]
  simp only [Res.pure_eq, Res.ok_bind]

/-- C115 is false on Windows: the word of the system is not used. All the programs begin with the same numbers, those of
set_seed(5489) without the first 6240. -/
theorem c115_negation_windows (a : BitVec 64) (clock t : Int) {s : State 64} (hs : s.mt.length = 312) (hm : s.mti = 313) :
    ∃ s0 s1, setSeed s 5489#64 = .ok s0 ∧ reseedWindows (some a) clock t s = .ok s1 ∧
      ∀ c, ∃ l u, draws mt64 (6240 + c) s0 = .ok (l, u) ∧ draws mt64 c s1 = .ok (l.drop 6240, u) := by
  obtain ⟨s1, e1, -, h1⟩ := skip_at (at_tab mt64_ok (seedWord mt64.mult mt64.shift 5489#64)) 6240
  refine ⟨⟨tab mt64.n (seedWord mt64.mult mt64.shift 5489#64), mt64.n⟩, s1, ?_, ?_, h1⟩
  · rw [setSeed]
    exact initGenrand_eq mt64_ok hs _
  · rw [reseedWindows_some]
    obtain ⟨n, hn⟩ : ∃ n, 6240 = n + 1 := ⟨6239, rfl⟩
    rw [hn] at e1 ⊢
    rw [skip_default hs hm n]
    exact e1

/-- C115 is false on Windows: rand_reseed after set_seed leaves the generator where set_seed put it, 6240 numbers later. -/
theorem c115_negation_windows_seed (a : BitVec 64) (clock t : Int) {s : State 64} (hs : s.mt.length = 312) (seed : BitVec 64) :
    ∃ s0 s1, setSeed s seed = .ok s0 ∧ reseedWindows (some a) clock t s0 = .ok s1 ∧
      ∀ c, ∃ l u, draws mt64 (6240 + c) s0 = .ok (l, u) ∧ draws mt64 c s1 = .ok (l.drop 6240, u) := by
  obtain ⟨s1, e1, -, h1⟩ := skip_at (at_tab mt64_ok (seedWord mt64.mult mt64.shift seed)) 6240
  refine ⟨⟨tab mt64.n (seedWord mt64.mult mt64.shift seed), mt64.n⟩, s1, ?_, ?_, h1⟩
  · rw [setSeed]
    exact initGenrand_eq mt64_ok hs _
  · rw [reseedWindows_some]
    exact e1

/-- The hypotheses of these theorems can be met: the state before the program starts. -/
example : (⟨List.replicate 312 0#64, 313⟩ : State 64).mt.length = 312 ∧ (⟨List.replicate 312 0#64, 313⟩ : State 64).mti = 313 :=
  ⟨List.length_replicate, rfl⟩

/-- The same, for seeds and words of /dev/urandom. -/
example : ∃ s1 s2, setSeed ⟨List.replicate 312 0#64, 313⟩ 1#64 = .ok s1 ∧
    reseed ⟨none, some (some 7#64), 0⟩ ⟨List.replicate 312 0#64, 313⟩ = .ok s2 ∧
    ∀ p, ∃ l1 t1 l2 t2, draws mt64 (p + 312) s1 = .ok (l1, t1) ∧ draws mt64 (p + 312) s2 = .ok (l2, t2) := by
  have hs : (⟨List.replicate 312 0#64, 313⟩ : State 64).mt.length = mt64.n := List.length_replicate
  obtain ⟨s2, e2, h2⟩ := reseed_urandom (env := ⟨none, some (some 7#64), 0⟩) rfl rfl hs
  refine ⟨_, s2, initGenrand_eq mt64_ok hs _, e2, fun p => ?_⟩
  obtain ⟨t1, d1, -⟩ := draws_at mt64_ok (seq_twister mt64 mt64_ok _) (p + 312)
    (at_tab mt64_ok (seedWord mt64.mult mt64.shift 1#64))
  obtain ⟨t2, d2, -⟩ := draws_at mt64_ok (seq_twister mt64 mt64_ok _) (p + 312) h2
  exact ⟨_, _, _, _, d1, d2⟩

end Verif.Rand
