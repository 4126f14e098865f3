import Verif.Core.Double
/-
Bytes, little endian words and the bit patterns of double precision numbers (IEEE 754 binary64). No
library code is modelled here.
-/
namespace Verif

abbrev Byte := BitVec 8
abbrev Word := BitVec 64

/-- The `k` lowest bytes of `n`, the lowest first. -/
def natBytes : Nat → Nat → List Byte
  | 0, _ => []
  | k + 1, n => BitVec.ofNat 8 n :: natBytes k (n / 256)

/-- The number with the given bytes, the lowest first. -/
def bytesNat : List Byte → Nat
  | [] => 0
  | b :: bs => b.toNat + 256 * bytesNat bs

/-- The 8 bytes of a word in memory. -/
def wordBytes (w : Word) : List Byte := natBytes 8 w.toNat

/-- The word with the given bytes. -/
def wordOf (l : List Byte) : Word := BitVec.ofNat 64 (bytesNat l)

theorem natBytes_length (k n : Nat) : (natBytes k n).length = k := by
  induction k generalizing n with
  | zero => rfl
  | succ k ih => simp [natBytes, ih]

theorem bytesNat_natBytes (k n : Nat) : bytesNat (natBytes k n) = n % 256 ^ k := by
  induction k generalizing n with
  | zero => simp [natBytes, bytesNat, Nat.mod_one]
  | succ k ih =>
    rw [natBytes, bytesNat, ih, BitVec.toNat_ofNat, pow_succ' (a := 256), Nat.mod_mul (a := 256)]

theorem wordBytes_length (w : Word) : (wordBytes w).length = 8 := natBytes_length 8 _

theorem wordOf_wordBytes (w : Word) : wordOf (wordBytes w) = w := by
  rw [wordOf, wordBytes, bytesNat_natBytes]
  apply BitVec.eq_of_toNat_eq
  rw [BitVec.toNat_ofNat]
  have := w.isLt
  have h : (256 : Nat) ^ 8 = 2 ^ 64 := by norm_num
  rw [h]
  omega

/-- The bit pattern of the double precision number nearest to an integer `n`, for |n| ≤ 2^64: sign,
exponent (biased by 1023) and the 52 bits of the fraction. -/
def doubleBits (n : Int) : Word :=
  if n = 0 then 0
  else
    let a := natToDouble n.natAbs
    let e := Nat.log2 a
    BitVec.ofNat 64 ((if n < 0 then 2 ^ 63 else 0) + (e + 1023) * 2 ^ 52
      + (a * 2 ^ 52 / 2 ^ e - 2 ^ 52))

/-- The integer part of the number with a given bit pattern; `none` for infinities and NaN. -/
def truncBits (w : Word) : Option Int :=
  let sign := w.toNat / 2 ^ 63
  let e := w.toNat / 2 ^ 52 % 2 ^ 11
  let m := w.toNat % 2 ^ 52
  if e = 2047 then none
  else if e < 1023 then some 0
  else
    let a : Nat := (2 ^ 52 + m) * 2 ^ (e - 1023) / 2 ^ 52
    some (if sign = 1 then -(a : Int) else a)

theorem log2_eq {n e : Nat} (h1 : 2 ^ e ≤ n) (h2 : n < 2 ^ (e + 1)) : Nat.log2 n = e := by
  rw [Nat.log2_eq_log_two]
  exact (Nat.log_eq_iff (Or.inr ⟨by norm_num, by
    have := Nat.two_pow_pos e; omega⟩)).2 ⟨h1, h2⟩

theorem log2_bounds {n : Nat} (h : 0 < n) : 2 ^ Nat.log2 n ≤ n ∧ n < 2 ^ (Nat.log2 n + 1) :=
  ⟨Nat.log2_self_le (by omega), Nat.lt_log2_self⟩

/-- The number nearest to `n` has 53 significant bits. -/
theorem natToDouble_bits {n : Nat} (h : 0 < n) :
    0 < natToDouble n ∧ Nat.log2 (natToDouble n) ≤ Nat.log2 n + 1 ∧
      2 ^ Nat.log2 (natToDouble n) ∣ natToDouble n * 2 ^ 52 := by
  have hn := log2_bounds h
  rw [natToDouble]
  split
  · rename_i h53
    refine ⟨h, by omega, ?_⟩
    have : Nat.log2 n ≤ 52 := by
      by_contra hc
      have := Nat.pow_le_pow_right (show 0 < 2 by norm_num) (show 53 ≤ Nat.log2 n by omega)
      omega
    exact Dvd.dvd.mul_left (pow_dvd_pow 2 this) n
  · rename_i h53
    have hl : 53 ≤ Nat.log2 n := by
      by_contra hc
      have := Nat.pow_le_pow_right (show 0 < 2 by norm_num) (show Nat.log2 n + 1 ≤ 53 by omega)
      omega
    obtain ⟨k, hk⟩ : ∃ k, Nat.log2 n = 52 + k := ⟨Nat.log2 n - 52, by omega⟩
    have hk' : Nat.log2 n - 52 = k := by omega
    rw [hk']
    have hp : 0 < 2 ^ k := Nat.pos_of_ne_zero (by positivity)
    have hq1 : 2 ^ 52 ≤ n / 2 ^ k := by
      rw [Nat.le_div_iff_mul_le hp, ← pow_add, ← hk]; exact hn.1
    have hq2 : n / 2 ^ k < 2 ^ 53 := by
      rw [Nat.div_lt_iff_lt_mul hp, ← pow_add, show 53 + k = Nat.log2 n + 1 by omega]; exact hn.2
    have hr : n / 2 ^ k ≤ roundShift n k ∧ roundShift n k ≤ n / 2 ^ k + 1 := by
      simp only [roundShift]
      split
      · omega
      · split
        · omega
        · split <;> omega
    generalize roundShift n k = r at hr
    rcases Nat.lt_or_ge r (2 ^ 53) with hr3 | hr3
    · have hlog : Nat.log2 (r * 2 ^ k) = 52 + k := by
        apply log2_eq
        · rw [pow_add]; exact Nat.mul_le_mul_right _ (by omega)
        · rw [show 52 + k + 1 = 53 + k by omega, pow_add]; exact Nat.mul_lt_mul_of_pos_right hr3 hp
      rw [hlog]
      refine ⟨Nat.mul_pos (by omega) hp, by omega, ?_⟩
      rw [mul_assoc, ← pow_add, Nat.add_comm 52 k]
      exact Dvd.intro_left _ rfl
    · have : r = 2 ^ 53 := by omega
      subst this
      rw [← pow_add]
      have hlog : Nat.log2 (2 ^ (53 + k)) = 53 + k := by
        apply log2_eq (le_refl _)
        exact Nat.pow_lt_pow_right (by norm_num) (by omega)
      rw [hlog]
      exact ⟨by positivity, by omega, Dvd.intro _ rfl⟩

/-- The bit pattern made for an integer is that of the nearest double precision number. -/
theorem truncBits_doubleBits {n : Int} (h : n.natAbs ≤ 2 ^ 64) :
    truncBits (doubleBits n) = some (toDouble n) := by
  by_cases h0 : n = 0
  · subst h0; decide
  have hpos : 0 < n.natAbs := by omega
  obtain ⟨ha, hlog, hdvd⟩ := natToDouble_bits hpos
  have hln : Nat.log2 n.natAbs ≤ 64 := by
    by_contra hc
    have h1 := (log2_bounds hpos).1
    have := Nat.pow_le_pow_right (show 0 < 2 by norm_num) (show 65 ≤ Nat.log2 n.natAbs by omega)
    omega
  rw [doubleBits, if_neg h0]
  simp only [toDouble]
  generalize natToDouble n.natAbs = a at *
  have hb := log2_bounds ha
  generalize Nat.log2 a = e at *
  have hp : 0 < 2 ^ e := Nat.pos_of_ne_zero (by positivity)
  obtain ⟨q, hq⟩ := hdvd
  have hq' : a * 2 ^ 52 / 2 ^ e = q := by rw [hq]; exact Nat.mul_div_cancel_left _ hp
  rw [hq']
  have hq1 : 2 ^ 52 ≤ q := by
    by_contra hc
    have : 2 ^ e * q < 2 ^ e * 2 ^ 52 := Nat.mul_lt_mul_of_pos_left (by omega) hp
    have h2 : 2 ^ e * 2 ^ 52 ≤ a * 2 ^ 52 := Nat.mul_le_mul_right _ hb.1
    omega
  have hq2 : q < 2 ^ 53 := by
    by_contra hc
    have h1 : 2 ^ e * 2 ^ 53 ≤ 2 ^ e * q := Nat.mul_le_mul_left _ (by omega)
    have h2 : a * 2 ^ 52 < 2 ^ (e + 1) * 2 ^ 52 := Nat.mul_lt_mul_of_pos_right hb.2 (by norm_num)
    have h3 : 2 ^ (e + 1) * 2 ^ 52 = 2 ^ e * 2 ^ 53 := by rw [← pow_add, ← pow_add]
    omega
  have he : e ≤ 65 := by omega
  have hdiv : (2 ^ 52 + (q - 2 ^ 52)) * 2 ^ e / 2 ^ 52 = a := by
    rw [show 2 ^ 52 + (q - 2 ^ 52) = q by omega, Nat.mul_comm, ← hq]
    exact Nat.mul_div_cancel _ (by norm_num)
  by_cases hs : n < 0
  · have hnat : (BitVec.ofNat 64 (2 ^ 63 + (e + 1023) * 2 ^ 52 + (q - 2 ^ 52))).toNat
        = 2 ^ 63 + (e + 1023) * 2 ^ 52 + (q - 2 ^ 52) := by
      rw [BitVec.toNat_ofNat]; omega
    simp only [hs, if_true, truncBits, hnat]
    have e1 : (2 ^ 63 + (e + 1023) * 2 ^ 52 + (q - 2 ^ 52)) / 2 ^ 63 = 1 := by omega
    have e2 : (2 ^ 63 + (e + 1023) * 2 ^ 52 + (q - 2 ^ 52)) / 2 ^ 52 % 2 ^ 11 = e + 1023 := by omega
    have e3 : (2 ^ 63 + (e + 1023) * 2 ^ 52 + (q - 2 ^ 52)) % 2 ^ 52 = q - 2 ^ 52 := by omega
    rw [e1, e2, e3, if_neg (by omega), if_neg (by omega), Nat.add_sub_cancel, hdiv, if_pos rfl]
  · have hnat : (BitVec.ofNat 64 (0 + (e + 1023) * 2 ^ 52 + (q - 2 ^ 52))).toNat
        = (e + 1023) * 2 ^ 52 + (q - 2 ^ 52) := by
      rw [BitVec.toNat_ofNat]; omega
    simp only [hs, if_false, truncBits, hnat]
    have e1 : ((e + 1023) * 2 ^ 52 + (q - 2 ^ 52)) / 2 ^ 63 = 0 := Nat.div_eq_of_lt (by omega)
    have e2 : ((e + 1023) * 2 ^ 52 + (q - 2 ^ 52)) / 2 ^ 52 % 2 ^ 11 = e + 1023 := by omega
    have e3 : ((e + 1023) * 2 ^ 52 + (q - 2 ^ 52)) % 2 ^ 52 = q - 2 ^ 52 := by omega
    rw [e1, e2, e3, if_neg (by omega), if_neg (by omega), Nat.add_sub_cancel, hdiv,
      if_neg (by norm_num)]

example : doubleBits 1 = 0x3FF0000000000000 := by decide
example : doubleBits (-2) = 0xC000000000000000 := by decide
example : truncBits 0x7FF0000000000000 = none := by decide

end Verif
