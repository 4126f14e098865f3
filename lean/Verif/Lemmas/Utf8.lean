import Verif.Spec.Python
/-
The decision of `utf8` is that of RFC 3629.
-/
namespace Verif.Py

open Sdf

theorem byte_ofNat {n : Nat} (h : n < 256) : (BitVec.ofNat 8 n).toNat = n := by
  rw [BitVec.toNat_ofNat]
  omega

theorem byte_eq (b : Byte) (n : Nat) (h : b.toNat = n) : b = BitVec.ofNat 8 n := by
  rw [← h, BitVec.ofNat_toNat, BitVec.setWidth_eq]

theorem byte_eq_iff (b : Byte) {n : Nat} (h : n < 256) : b = BitVec.ofNat 8 n ↔ b.toNat = n :=
  ⟨fun e => by rw [e, byte_ofNat h], byte_eq b n⟩

theorem eq_lit (b : Byte) :
    (b = 224 ↔ b.toNat = 224) ∧ (b = 237 ↔ b.toNat = 237) ∧ (b = 240 ↔ b.toNat = 240) ∧
      (b = 244 ↔ b.toNat = 244) :=
  ⟨byte_eq_iff b (n := 224) (by omega), byte_eq_iff b (n := 237) (by omega), byte_eq_iff b (n := 240) (by omega),
    byte_eq_iff b (n := 244) (by omega)⟩

theorem utf8_lt {a : Byte} (h : a.toNat < 128) (l : List Byte) : utf8 (a :: l) = utf8 l := by
  rw [utf8.eq_def]
  simp only [h, if_true]

theorem utf8_one {a : Byte} (h : ¬ a.toNat < 128) : utf8 [a] = false := by
  rw [utf8.eq_def]
  simp only [h, if_false]

theorem utf8_two {a : Byte} (h : ¬ a.toNat < 128) (h2 : 194 ≤ a.toNat ∧ a.toNat < 224) (b : Byte) (l : List Byte) :
    utf8 (a :: b :: l) = (isCont b && utf8 l) := by
  rw [utf8.eq_def]
  simp only [h, if_false]
  rw [if_pos h2]

theorem utf8_two' {a : Byte} (h : ¬ a.toNat < 128) (h2 : ¬ (194 ≤ a.toNat ∧ a.toNat < 224)) (b : Byte) :
    utf8 [a, b] = false := by
  rw [utf8.eq_def]
  simp only [h, if_false]
  rw [if_neg h2]

theorem utf8_three {a : Byte} (h : ¬ a.toNat < 128) (h2 : ¬ (194 ≤ a.toNat ∧ a.toNat < 224))
    (h3 : 224 ≤ a.toNat ∧ a.toNat < 240) (b c : Byte) (l : List Byte) :
    utf8 (a :: b :: c :: l) = (isCont b && isCont c && decide (¬(a = 224 ∧ b.toNat < 160))
      && decide (¬(a = 237 ∧ 160 ≤ b.toNat)) && utf8 l) := by
  rw [utf8.eq_def]
  simp only [h, if_false]
  rw [if_neg h2, if_pos h3]

theorem utf8_three' {a : Byte} (h : ¬ a.toNat < 128) (h2 : ¬ (194 ≤ a.toNat ∧ a.toNat < 224))
    (h3 : ¬ (224 ≤ a.toNat ∧ a.toNat < 240)) (b c : Byte) : utf8 [a, b, c] = false := by
  rw [utf8.eq_def]
  simp only [h, if_false]
  rw [if_neg h2, if_neg h3]

theorem utf8_four {a : Byte} (h : ¬ a.toNat < 128) (h2 : ¬ (194 ≤ a.toNat ∧ a.toNat < 224))
    (h3 : ¬ (224 ≤ a.toNat ∧ a.toNat < 240)) (b c d : Byte) (l : List Byte) :
    utf8 (a :: b :: c :: d :: l) = (decide (240 ≤ a.toNat ∧ a.toNat < 245) && isCont b && isCont c && isCont d
      && decide (¬(a = 240 ∧ b.toNat < 144)) && decide (¬(a = 244 ∧ 144 ≤ b.toNat)) && utf8 l) := by
  rw [utf8.eq_def]
  simp only [h, if_false]
  rw [if_neg h2, if_neg h3]

theorem isCont_iff (b : Byte) : isCont b = true ↔ 128 ≤ b.toNat ∧ b.toNat < 192 := by
  rw [isCont, decide_eq_true_iff]

theorem utf8_enc {c : Nat} (hc : Scalar c) (l : List Byte) : utf8 (enc c ++ l) = utf8 l := by
  rw [enc]
  have hc' : c < 1114112 := by rcases hc with h | h <;> omega
  split
  · rw [List.singleton_append, utf8_lt (by rw [byte_ofNat (by omega)]; omega)]
  · split
    · simp only [List.cons_append, List.nil_append]
      rw [utf8_two (by rw [byte_ofNat (by omega)]; omega) (by rw [byte_ofNat (by omega)]; omega),
        (isCont_iff _).2 (by rw [byte_ofNat (by omega)]; omega), Bool.true_and]
    · split
      · simp only [List.cons_append, List.nil_append]
        rw [utf8_three (by rw [byte_ofNat (by omega)]; omega) (by rw [byte_ofNat (by omega)]; omega)
            (by rw [byte_ofNat (by omega)]; omega), (isCont_iff _).2 (by rw [byte_ofNat (by omega)]; omega),
          (isCont_iff _).2 (by rw [byte_ofNat (by omega)]; omega), decide_eq_true, decide_eq_true]
        · simp
        · rw [(eq_lit _).2.1, byte_ofNat (by omega), byte_ofNat (by omega)]
          rcases hc with h | h <;> omega
        · rw [(eq_lit _).1, byte_ofNat (by omega), byte_ofNat (by omega)]
          omega
      · simp only [List.cons_append, List.nil_append]
        rw [utf8_four (by rw [byte_ofNat (by omega)]; omega) (by rw [byte_ofNat (by omega)]; omega)
            (by rw [byte_ofNat (by omega)]; omega), decide_eq_true (by rw [byte_ofNat (by omega)]; omega),
          (isCont_iff _).2 (by rw [byte_ofNat (by omega)]; omega),
          (isCont_iff _).2 (by rw [byte_ofNat (by omega)]; omega),
          (isCont_iff _).2 (by rw [byte_ofNat (by omega)]; omega), decide_eq_true, decide_eq_true]
        · simp
        · rw [(eq_lit _).2.2.2, byte_ofNat (by omega), byte_ofNat (by omega)]
          omega
        · rw [(eq_lit _).2.2.1, byte_ofNat (by omega), byte_ofNat (by omega)]
          omega

theorem utf8_take {n : Nat} : ∀ l : List Byte, l.length ≤ n → utf8 l = true → IsUtf8 l := by
  induction n with
  | zero =>
    intro l hl _
    rw [List.length_eq_zero_iff.1 (Nat.le_zero.1 hl)]
    exact ⟨[], by simp, rfl⟩
  | succ n ih =>
    intro l hl h
    have step : ∀ c l', Scalar c → l = enc c ++ l' → utf8 l' = true → l'.length ≤ n → IsUtf8 l := by
      intro c l' hc e h hl
      obtain ⟨cs, h1, h2⟩ := ih l' hl h
      exact ⟨c :: cs, by simpa [hc] using h1, by rw [e, h2]; rfl⟩
    match l, hl, h with
    | [], _, _ => exact ⟨[], by simp, rfl⟩
    | a :: l, hl, h =>
      have ha := a.isLt
      rw [List.length_cons] at hl
      by_cases h1 : a.toNat < 128
      · rw [utf8_lt h1] at h
        refine step a.toNat l (Or.inl (by omega)) ?_ h (by omega)
        rw [enc, if_pos h1, List.singleton_append, ← byte_eq a _ rfl]
      match l, hl, h with
      | [], _, h => simp [utf8_one h1] at h
      | b :: l, hl, h =>
        rw [List.length_cons] at hl
        by_cases h2 : 194 ≤ a.toNat ∧ a.toNat < 224
        · rw [utf8_two h1 h2, Bool.and_eq_true, isCont_iff] at h
          obtain ⟨hb, h⟩ := h
          refine step ((a.toNat - 192) * 64 + (b.toNat - 128)) l (Or.inl (by omega)) ?_ h (by omega)
          rw [enc, if_neg (by omega), if_pos (by omega), ← byte_eq a _ (by omega), ← byte_eq b _ (by omega)]
          rfl
        match l, hl, h with
        | [], _, h => simp [utf8_two' h1 h2] at h
        | c :: l, hl, h =>
          rw [List.length_cons] at hl
          by_cases h3 : 224 ≤ a.toNat ∧ a.toNat < 240
          · rw [utf8_three h1 h2 h3] at h
            simp only [Bool.and_eq_true, isCont_iff, decide_eq_true_iff, (eq_lit a).1, (eq_lit a).2.1] at h
            obtain ⟨⟨⟨⟨hb, hc⟩, h4⟩, h5⟩, h⟩ := h
            refine step ((a.toNat - 224) * 4096 + (b.toNat - 128) * 64 + (c.toNat - 128)) l ?_ ?_ h (by omega)
            · by_cases hh : a.toNat < 237 ∨ (a.toNat = 237 ∧ b.toNat < 160)
              · exact Or.inl (by omega)
              · exact Or.inr (by omega)
            · rw [enc, if_neg (by omega), if_neg (by omega), if_pos (by omega), ← byte_eq a _ (by omega),
                ← byte_eq b _ (by omega), ← byte_eq c _ (by omega)]
              rfl
          match l, hl, h with
          | [], _, h => simp [utf8_three' h1 h2 h3] at h
          | d :: l, hl, h =>
            rw [List.length_cons] at hl
            rw [utf8_four h1 h2 h3] at h
            simp only [Bool.and_eq_true, isCont_iff, decide_eq_true_iff, (eq_lit a).2.2.1,
              (eq_lit a).2.2.2] at h
            obtain ⟨⟨⟨⟨⟨⟨h4, hb⟩, hc⟩, hd⟩, h5⟩, h6⟩, h⟩ := h
            refine step ((a.toNat - 240) * 262144 + (b.toNat - 128) * 4096 + (c.toNat - 128) * 64
              + (d.toNat - 128)) l (Or.inr (by omega)) ?_ h (by omega)
            rw [enc, if_neg (by omega), if_neg (by omega), if_neg (by omega), ← byte_eq a _ (by omega),
              ← byte_eq b _ (by omega), ← byte_eq c _ (by omega), ← byte_eq d _ (by omega)]
            rfl

theorem utf8_iff (l : List Byte) : utf8 l = true ↔ IsUtf8 l := by
  refine ⟨utf8_take l (Nat.le_refl _), ?_⟩
  rintro ⟨cs, h, rfl⟩
  induction cs with
  | nil => rfl
  | cons c cs ih =>
    rw [List.flatMap_cons, utf8_enc (h c (List.mem_cons_self ..))]
    exact ih fun c hc => h c (List.mem_cons_of_mem _ hc)

theorem not_utf8_iff (l : List Byte) : utf8 l = false ↔ ¬ IsUtf8 l := by
  rw [← utf8_iff]
  simp

end Verif.Py
