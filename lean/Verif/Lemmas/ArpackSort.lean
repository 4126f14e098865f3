import Mathlib.Data.List.Basic
import Mathlib.Tactic.Linarith
import Verif.Model.ArpackSort
/-
The sorting routine of ARPACK sorts.
-/
namespace Verif.ArpackSort

open Verif

variable {E : Type}

/-- The first n elements are permuted, the others remain. -/
def Same (n : Nat) (l l' : List E) : Prop :=
  l'.length = l.length ∧ (l'.take n).Perm (l.take n) ∧ l'.drop n = l.drop n

theorem Same.refl (n : Nat) (l : List E) : Same n l l := ⟨rfl, List.Perm.refl _, rfl⟩

theorem Same.trans {n : Nat} {l m k : List E} (h1 : Same n l m) (h2 : Same n m k) : Same n l k :=
  ⟨h2.1.trans h1.1, h2.2.1.trans h1.2.1, h2.2.2.trans h1.2.2⟩

theorem Same.perm {n : Nat} {l m : List E} (h : Same n l m) : m.Perm l := by
  rw [← List.take_append_drop n m, ← List.take_append_drop n l, h.2.2]
  exact h.2.1.append_right _

theorem Same.mono {n k : Nat} {l m : List E} (h : Same n l m) (hk : n ≤ k) : Same k l m := by
  refine ⟨h.1, ?_, ?_⟩
  · obtain ⟨d, rfl⟩ := Nat.exists_eq_add_of_le hk
    rw [List.take_add, List.take_add, h.2.2]
    exact h.2.1.append_right _
  · obtain ⟨d, rfl⟩ := Nat.exists_eq_add_of_le hk
    rw [← List.drop_drop, ← List.drop_drop, h.2.2]

theorem same_swap {n i j : Nat} {l : List E} {a b : E} (hi : i < n) (hj : j < n) (ha : l[i]? = some a)
    (hb : l[j]? = some b) : Same n l ((l.set i b).set j a) := by
  refine ⟨by simp, ?_, ?_⟩
  · rw [List.take_set, List.take_set]
    have ha' : (l.take n)[i]? = some a := by rw [List.getElem?_take_of_lt hi, ha]
    have hb' : (l.take n)[j]? = some b := by rw [List.getElem?_take_of_lt hj, hb]
    obtain ⟨h1, rfl⟩ := List.getElem?_eq_some_iff.1 ha'
    obtain ⟨h2, rfl⟩ := List.getElem?_eq_some_iff.1 hb'
    exact List.set_set_perm h1 h2
  · rw [List.drop_set_of_lt hj, List.drop_set_of_lt hi]

variable (gt : E → E → Bool)

theorem inner_same (gap n : Nat) (hg : 0 < gap) (f m : Nat) (l : List E) (hm : m < n) (hn : n ≤ l.length) (hf : m < f) :
    ∃ l', inner gt gap f l m = .ok l' ∧ Same n l l' := by
  induction f generalizing m l with
  | zero => omega
  | succ f ih =>
    rw [inner]
    split
    · rename_i h
      have h1 : m - gap < l.length := by omega
      have h2 : m < l.length := by omega
      rw [List.getElem?_eq_getElem h1, List.getElem?_eq_getElem h2]
      dsimp only
      split
      · have hs := same_swap (n := n) (i := m - gap) (j := m) (l := l) (by omega) hm
          (List.getElem?_eq_getElem h1) (List.getElem?_eq_getElem h2)
        obtain ⟨l', e, h'⟩ := ih (m - gap) ((l.set (m - gap) l[m]).set m l[m - gap]) (by omega) (by simpa using hn) (by omega)
        exact ⟨l', e, hs.trans h'⟩
      · exact ⟨l, rfl, Same.refl _ _⟩
    · exact ⟨l, rfl, Same.refl _ _⟩

theorem pass_same (gap n : Nat) (hg : 0 < gap) (k i : Nat) (l : List E) (hk : k + i ≤ n) (hn : n ≤ l.length) :
    ∃ l', pass gt gap k i l = .ok l' ∧ Same n l l' := by
  induction k generalizing i l with
  | zero => exact ⟨l, rfl, Same.refl _ _⟩
  | succ k ih =>
    obtain ⟨l1, e1, s1⟩ := inner_same gt gap n hg (i + 1) i l (by omega) hn (by omega)
    obtain ⟨l2, e2, s2⟩ := ih (i + 1) l1 (by omega) (by rw [s1.1]; exact hn)
    exact ⟨l2, by rw [pass, e1]; exact e2, s1.trans s2⟩

/-- The first `i` elements are in order, if that at `m` is left out on the right. -/
def Almost (i m : Nat) (l : List E) : Prop :=
  ∀ p q : Nat, p < q → q < i → q ≠ m → ∀ a b, l[p]? = some a → l[q]? = some b → gt a b = false

/-- The first `i` elements are in order. -/
def Ordered (i : Nat) (l : List E) : Prop :=
  ∀ p q : Nat, p < q → q < i → ∀ a b, l[p]? = some a → l[q]? = some b → gt a b = false

variable {gt}

theorem inner_ordered (ht : ∀ a b c, gt a b = false → gt b c = false → gt a c = false)
    (ha : ∀ a b, gt a b = true → gt b a = false) (i f m : Nat) (l l' : List E) (hm : m < i) (hi : i ≤ l.length)
    (h : Almost gt i m l) (e : inner gt 1 f l m = .ok l') : Ordered gt i l' := by
  induction f generalizing m l with
  | zero => simp [inner] at e
  | succ f ih =>
    rw [inner] at e
    split at e
    · rename_i h1
      have k1 : m - 1 < l.length := by omega
      have k2 : m < l.length := by omega
      rw [List.getElem?_eq_getElem k1, List.getElem?_eq_getElem k2] at e
      dsimp only at e
      split at e
      · rename_i hgt
        refine ih (m - 1) _ (by omega) (by simpa using hi) ?_ e
        have get : ∀ q : Nat, ((l.set (m - 1) l[m]).set m l[m - 1])[q]? =
            if q = m then some l[m - 1] else if q = m - 1 then some l[m] else l[q]? := by
          intro q
          rw [List.getElem?_set]
          by_cases hq : q = m
          · subst hq
            simp [k2]
          · rw [if_neg (Ne.symm hq), if_neg hq, List.getElem?_set]
            by_cases hq' : q = m - 1
            · subst hq'
              simp [k1]
            · rw [if_neg (Ne.symm hq'), if_neg hq']
        intro p q hpq hqi hq a b hpa hqb
        rw [get] at hpa hqb
        by_cases q1 : q = m
        · rw [if_pos q1] at hqb
          rw [if_neg (by omega)] at hpa
          by_cases p1 : p = m - 1
          · rw [if_pos p1] at hpa
            cases hpa
            cases hqb
            exact ha _ _ hgt
          · rw [if_neg p1] at hpa
            exact h p (m - 1) (by omega) (by omega) (by omega) a b hpa (by rw [List.getElem?_eq_getElem k1]; exact hqb)
        · rw [if_neg q1, if_neg hq] at hqb
          by_cases p1 : p = m
          · rw [if_pos p1] at hpa
            exact h (m - 1) q (by omega) hqi q1 a b (by rw [List.getElem?_eq_getElem k1]; exact hpa) hqb
          · rw [if_neg p1] at hpa
            by_cases p2 : p = m - 1
            · rw [if_pos p2] at hpa
              exact h m q (by omega) hqi q1 a b (by rw [List.getElem?_eq_getElem k2]; exact hpa) hqb
            · rw [if_neg p2] at hpa
              exact h p q hpq hqi q1 a b hpa hqb
      · rename_i hgt
        cases e
        intro p q hpq hqi a b hpa hqb
        by_cases q1 : q = m
        · subst q1
          rw [List.getElem?_eq_getElem k2] at hqb
          cases hqb
          have h2 : gt l'[q - 1] l'[q] = false := by simpa using hgt
          by_cases p1 : p = q - 1
          · subst p1
            rw [List.getElem?_eq_getElem k1] at hpa
            cases hpa
            exact h2
          · exact ht _ _ _ (h p (q - 1) (by omega) (by omega) (by omega) a _ hpa (List.getElem?_eq_getElem k1)) h2
        · exact h p q hpq hqi q1 a b hpa hqb
    · cases e
      intro p q hpq hqi a b hpa hqb
      exact h p q hpq hqi (by omega) a b hpa hqb

theorem pass_ordered (ht : ∀ a b c, gt a b = false → gt b c = false → gt a c = false)
    (ha : ∀ a b, gt a b = true → gt b a = false) (k i : Nat) (l l' : List E) (hi : k + i ≤ l.length)
    (h : Ordered gt i l) (e : pass gt 1 k i l = .ok l') : Ordered gt (k + i) l' := by
  induction k generalizing i l with
  | zero =>
    cases e
    simpa using h
  | succ k ih =>
    obtain ⟨l1, e1, s1⟩ := inner_same gt 1 (i + 1) (by omega) (i + 1) i l (by omega) (by omega) (by omega)
    rw [pass, e1] at e
    have h1 : Ordered gt (i + 1) l1 := by
      refine inner_ordered ht ha (i + 1) (i + 1) i l l1 (by omega) (by omega) ?_ e1
      intro p q hpq hqi hq
      exact h p q hpq (by omega)
    have := ih (i + 1) l1 (by rw [s1.1]; omega) h1 e
    rwa [show k + 1 + i = k + (i + 1) by omega]

theorem shell_spec (ht : ∀ a b c, gt a b = false → gt b c = false → gt a c = false)
    (ha : ∀ a b, gt a b = true → gt b a = false) (n f gap : Nat) (l : List E) (hn : n ≤ l.length) (hf : gap < f)
    (hg : gap ≤ n) : ∃ l', shell gt n f gap l = .ok l' ∧ Same n l l' ∧ (0 < gap → Ordered gt n l') := by
  induction f generalizing gap l with
  | zero => omega
  | succ f ih =>
    rw [shell]
    by_cases h0 : gap = 0
    · rw [if_pos h0]
      exact ⟨l, rfl, Same.refl _ _, by omega⟩
    · rw [if_neg h0]
      obtain ⟨l1, e1, s1⟩ := pass_same gt gap n (by omega) (n - gap) gap l (by omega) hn
      obtain ⟨l2, e2, s2, o2⟩ := ih (gap / 2) l1 (by rw [s1.1]; exact hn) (by omega) (by omega)
      refine ⟨l2, by rw [e1]; exact e2, s1.trans s2, fun _ => ?_⟩
      by_cases h1 : gap = 1
      · subst h1
        cases f with
        | zero => omega
        | succ f =>
          rw [shell, if_pos (by omega)] at e2
          cases e2
          have := pass_ordered ht ha (n - 1) 1 l l1 (by omega) (by intro p q hp hq; omega) e1
          rwa [show n - 1 + 1 = n by omega] at this
      · exact o2 (by omega)

/-- The routine sorts the first n elements. -/
theorem sort_spec (ht : ∀ a b c, gt a b = false → gt b c = false → gt a c = false)
    (ha : ∀ a b, gt a b = true → gt b a = false) (n : Nat) (l : List E) (hn : n ≤ l.length) :
    ∃ l', sort gt n l = .ok l' ∧ Same n l l' ∧ (l'.take n).Pairwise fun a b => gt a b = false := by
  obtain ⟨l', e, s, o⟩ := shell_spec ht ha n (n + 1) (n / 2) l hn (by omega) (by omega)
  refine ⟨l', e, s, ?_⟩
  rw [List.pairwise_iff_getElem]
  intro p q hp hq hpq
  rw [List.length_take] at hp hq
  have := o (by omega) p q hpq (by omega) (l'.take n)[p] (l'.take n)[q]
  simp only [List.getElem_take] at this ⊢
  exact this (List.getElem?_eq_getElem (by omega)) (List.getElem?_eq_getElem (by omega))

end Verif.ArpackSort
