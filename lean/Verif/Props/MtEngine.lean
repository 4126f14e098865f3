import Verif.Props.Rand
import Verif.Spec.MtEngine
/-
C131: the random numbers are those of the engines of the standard library of C++.
-/
namespace Verif.MtEngine

open Verif Verif.Spec Rand MtEngine.Spec

variable {w : Nat}

theorem mask_concat {um lm x y : BitVec w} {r : Nat} (hu : ∀ i < w, um.getLsbD i = decide (r ≤ i))
    (hl : ∀ i < w, lm.getLsbD i = decide (i < r)) :
    ((x &&& um) ||| (y &&& lm)).toNat = x.toNat / 2 ^ r * 2 ^ r + y.toNat % 2 ^ r := by
  apply Nat.eq_of_testBit_eq
  intro i
  rw [Nat.mul_comm, Nat.testBit_two_pow_mul_add _ (Nat.mod_lt _ (Nat.two_pow_pos r)), BitVec.testBit_toNat,
    BitVec.getLsbD_or, BitVec.getLsbD_and, BitVec.getLsbD_and]
  by_cases hi : i < w
  · rw [hu i hi, hl i hi]
    by_cases hr : i < r
    · simp [hr, Nat.not_le.2 hr, Nat.testBit_mod_two_pow, BitVec.testBit_toNat]
    · simp [hr, Nat.le_of_not_lt hr, Nat.testBit_div_two_pow, BitVec.testBit_toNat, Nat.sub_add_cancel (Nat.le_of_not_lt hr)]
  · have hi := Nat.le_of_not_lt hi
    have hx := x.getLsbD_of_ge i hi
    have hy := y.getLsbD_of_ge i hi
    by_cases hr : i < r
    · simp [hr, hx, hy, Nat.testBit_mod_two_pow, BitVec.testBit_toNat]
    · simp [hr, hx, hy, Nat.testBit_div_two_pow, BitVec.testBit_toNat, Nat.sub_add_cancel (Nat.le_of_not_lt hr)]

theorem mix_toNat {um lm a x y : BitVec w} {r : Nat} (hu : ∀ i < w, um.getLsbD i = decide (r ≤ i))
    (hl : ∀ i < w, lm.getLsbD i = decide (i < r)) {z : Nat} (hz : z = x.toNat / 2 ^ r * 2 ^ r + y.toNat % 2 ^ r) :
    (mixWord um lm a x y).toNat = (z / 2) ^^^ (a.toNat * (z % 2)) := by
  rw [← mask_concat hu hl] at hz
  rw [mixWord]
  simp only [BitVec.toNat_xor, BitVec.toNat_ushiftRight, Nat.shiftRight_eq_div_pow, pow_one]
  rw [← hz]
  congr 1
  have h0 : ((x &&& um) ||| (y &&& lm)).getLsbD 0 = decide (z % 2 = 1) := by
    rw [← BitVec.testBit_toNat, ← hz, Nat.testBit_zero]
  rw [h0]
  rcases Nat.mod_two_eq_zero_or_one z with e | e
  · simp [e]
  · simp [e]

/-- The constants of a generator are those of an engine. -/
structure Same (g : Gen w) (p : Params) : Prop where
  width : p.w = w
  n : p.n = g.n
  m : p.m = g.m
  a : p.a = g.matrixA.toNat
  f : p.f = g.mult.toNat
  shift : p.w - 2 = g.shift
  um : ∀ i < w, g.um.getLsbD i = decide (p.r ≤ i)
  lm : ∀ i < w, g.lm.getLsbD i = decide (i < p.r)
  out : ∀ x, (g.temper x).toNat = output p x.toNat

theorem isEngine {g : Gen w} {p : Params} (h : Same g p) {seed : BitVec w} {x : Nat → BitVec w} (hn : 0 < g.n)
    (h1 : IsTwister g.n g.m g.um g.lm g.matrixA x) (h2 : ∀ k, k < g.n → x k = seedWord g.mult g.shift seed k) :
    IsEngine p seed.toNat fun k => (x k).toNat := by
  refine ⟨?_, fun k hk => ?_, fun k y hy => ?_⟩
  · show (x 0).toNat = _
    rw [h2 0 hn, seedWord, h.width, Nat.mod_eq_of_lt seed.isLt]
  · rw [h.n] at hk
    show (x (k + 1)).toNat = (_ * ((x k).toNat ^^^ (x k).toNat / _) + _) % _
    rw [h2 (k + 1) hk, seedWord, ← h2 k (by omega), h.shift, h.width, h.n, h.f, Nat.mod_eq_of_lt hk]
    simp [BitVec.toNat_add, BitVec.toNat_mul, BitVec.toNat_xor, BitVec.toNat_ushiftRight, Nat.shiftRight_eq_div_pow,
      Nat.add_mod]
  · show (x (k + p.n)).toNat = (x (k + p.m)).toNat ^^^ _ ^^^ _
    rw [h.n, h.m, h1 k, BitVec.toNat_xor, mix_toNat h.um h.lm hy, h.a, Nat.xor_assoc]

theorem same64 : Same mt64 mt19937_64 where
  width := rfl
  n := rfl
  m := rfl
  a := rfl
  f := rfl
  shift := rfl
  um := by decide
  lm := by decide
  out x := by
    show (temper64 x).toNat = _
    simp [temper64, output, mt19937_64, BitVec.toNat_xor, BitVec.toNat_and, BitVec.toNat_ushiftRight,
      BitVec.toNat_shiftLeft, Nat.shiftRight_eq_div_pow, Nat.shiftLeft_eq]

theorem same32 : Same mt32 mt19937 where
  width := rfl
  n := rfl
  m := rfl
  a := rfl
  f := rfl
  shift := rfl
  um := by decide
  lm := by decide
  out x := by
    have e : (x.toNat / 2 ^ 11) &&& 0xffffffff = x.toNat / 2 ^ 11 := by
      rw [show (0xffffffff : Nat) = 2 ^ 32 - 1 by norm_num, Nat.and_two_pow_sub_one_eq_mod]
      exact Nat.mod_eq_of_lt (lt_of_le_of_lt (Nat.div_le_self _ _) x.isLt)
    show (temper32 x).toNat = _
    rw [output]
    simp only [mt19937]
    rw [e]
    simp [temper32, BitVec.toNat_xor, BitVec.toNat_and, BitVec.toNat_ushiftRight,
      BitVec.toNat_shiftLeft, Nat.shiftRight_eq_div_pow, Nat.shiftLeft_eq]

theorem engine {g : Gen w} {p : Params} (h : Same g p) (hg : g.Ok) {s : State w} (hs : s.mt.length = g.n)
    (seed : BitVec w) : ∃ x, IsEngine p seed.toNat x ∧ ∃ s0, initGenrand g s seed = .ok s0 ∧
      ∀ c, ∃ l s', draws g c s0 = .ok (l, s') ∧ l.map BitVec.toNat = (List.range c).map fun i => output p (x (p.n + i)) := by
  obtain ⟨x, h1, h2, s0, e, h3⟩ := c55_sequence hg hs seed
  refine ⟨_, isEngine h (by have := hg.m_lt; omega) h1 h2, s0, e, fun c => ?_⟩
  obtain ⟨s', -, h4⟩ := h3 c
  refine ⟨_, s', h4, ?_⟩
  rw [List.map_map, h.n]
  exact List.map_congr_left fun i _ => h.out _

/-- C131: the sequence of an engine is determined by its seed. -/
theorem c131_unique {p : Params} (hm : p.m < p.n) (hm0 : 0 < p.m) {v : Nat} {x y : Nat → Nat} (hx : IsEngine p v x)
    (hy : IsEngine p v y) (k : Nat) : x k = y k := by
  induction k using Nat.strongRecOn with
  | _ k ih =>
    by_cases hk : k < p.n
    · cases k with
      | zero => rw [hx.first, hy.first]
      | succ k => rw [hx.seed k hk, hy.seed k hk, ih k (by omega)]
    · obtain ⟨j, rfl⟩ : ∃ j, k = j + p.n := ⟨k - p.n, by omega⟩
      rw [hx.next j _ rfl, hy.next j _ rfl, ih j (by omega), ih (j + 1) (by omega), ih (j + p.m) (by omega)]

/-- C131: after set_seed(seed), rand<unsigned long> gives the numbers of std::mt19937_64(seed), whatever was drawn before. -/
theorem c131_set_seed {s : State 64} (hs : s.mt.length = 312) (seed : BitVec 64) :
    ∃ x, IsEngine mt19937_64 seed.toNat x ∧ ∃ s0, setSeed s seed = .ok s0 ∧
      ∀ c, ∃ l s', draws mt64 c s0 = .ok (l, s') ∧
        l.map BitVec.toNat = (List.range c).map fun i => output mt19937_64 (x (312 + i)) :=
  engine same64 mt64_ok hs seed

/-- C131: the generator of 32 bits gives the numbers of std::mt19937. -/
theorem c131_engine32 {s : State 32} (hs : s.mt.length = 624) (seed : BitVec 32) :
    ∃ x, IsEngine mt19937 seed.toNat x ∧ ∃ s0, initGenrand mt32 s seed = .ok s0 ∧
      ∀ c, ∃ l s', draws mt32 c s0 = .ok (l, s') ∧
        l.map BitVec.toNat = (List.range c).map fun i => output mt19937 (x (624 + i)) :=
  engine same32 mt32_ok hs seed

/-- C131: generators without seed give the numbers of default constructed engines, whose seed is 5489. -/
theorem c131_default64 {s : State 64} (hs : s.mt.length = 312) (h : s.mti = 313) :
    ∃ x, IsEngine mt19937_64 5489 x ∧ ∀ c, ∃ l s', draws mt64 (c + 1) s = .ok (l, s') ∧
      l.map BitVec.toNat = (List.range (c + 1)).map fun i => output mt19937_64 (x (312 + i)) := by
  obtain ⟨x, h1, s0, e, h2⟩ := engine same64 mt64_ok hs (BitVec.ofNat 64 5489)
  refine ⟨x, h1, fun c => ?_⟩
  obtain ⟨s0', e', h3⟩ := c55_default mt64_ok hs h c
  rw [e] at e'
  injection e' with e'
  rw [h3, ← e']
  exact h2 (c + 1)

theorem c131_default32 {s : State 32} (hs : s.mt.length = 624) (h : s.mti = 625) :
    ∃ x, IsEngine mt19937 5489 x ∧ ∀ c, ∃ l s', draws mt32 (c + 1) s = .ok (l, s') ∧
      l.map BitVec.toNat = (List.range (c + 1)).map fun i => output mt19937 (x (624 + i)) := by
  obtain ⟨x, h1, s0, e, h2⟩ := engine same32 mt32_ok hs (BitVec.ofNat 32 5489)
  refine ⟨x, h1, fun c => ?_⟩
  obtain ⟨s0', e', h3⟩ := c55_default mt32_ok hs h c
  rw [e] at e'
  injection e' with e'
  rw [h3, ← e']
  exact h2 (c + 1)

/-- The hypotheses can be met. -/
example : (⟨List.replicate 312 0#64, 313⟩ : State 64).mt.length = 312 := List.length_replicate

example : (⟨List.replicate 624 0#32, 625⟩ : State 32).mt.length = 624 := List.length_replicate

end Verif.MtEngine
