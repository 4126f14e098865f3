import Verif.Core.Loop
import Verif.Lemmas.Res
import Verif.Lemmas.Index
import Verif.Lemmas.Indices
import Mathlib.Data.List.Perm.Subperm
/-
Lemmas about loop nests.
-/
namespace Verif

open Spec

variable {α β : Type}

theorem loop_eq (n s b : Nat) (f : Nat → List β) :
    loop n s b f = (List.range n).flatMap fun i => f (b + i * s) := by
  induction n generalizing b with
  | zero => rfl
  | succ n ih =>
    rw [loop, ih, List.range_succ_eq_map, List.flatMap_cons, List.flatMap_map]
    congr 1
    · simp
    · apply List.flatMap_congr
      intro i _
      congr 1
      simp only [Nat.succ_eq_add_one]; ring

theorem mem_loop {n s b : Nat} {f : Nat → List β} {x : β} :
    x ∈ loop n s b f ↔ ∃ i < n, x ∈ f (b + i * s) := by
  simp [loop_eq]

theorem length_loop (n s b L : Nat) (f : Nat → List β) (h : ∀ p, (f p).length = L) :
    (loop n s b f).length = L * n := by
  induction n generalizing b with
  | zero => simp [loop]
  | succ n ih => rw [loop, List.length_append, ih, h]; ring

theorem getElem?_loop (n s b L : Nat) (f : Nat → List β) (h : ∀ p, (f p).length = L)
    (i j : Nat) (hi : i < L) (hj : j < n) :
    (loop n s b f)[i + L * j]? = (f (b + j * s))[i]? := by
  induction n generalizing b j with
  | zero => omega
  | succ n ih =>
    rw [loop]
    cases j with
    | zero =>
      rw [List.getElem?_append_left (by rw [h]; simpa using hi)]
      simp
    | succ j =>
      rw [List.getElem?_append_right (by rw [h]; nlinarith), h]
      have e : i + L * (j + 1) - L = i + L * j := by
        rw [Nat.mul_succ]; omega
      rw [e, ih _ _ (by omega)]
      congr 2
      ring

/-- Σ idx_k * stride_k -/
def dot : List Nat → List Nat → Nat
  | i :: is, s :: ss => i * s + dot is ss
  | _, _ => 0

/-- A loop nest given by the counts and strides of the loops, innermost first. -/
def nest : List (Nat × Nat) → Nat → List Nat
  | [], b => [b]
  | (n, s) :: ls, b => (nest ls b).flatMap fun p => loop n s p fun q => [q]

theorem flatMap_getElem? (l : List α) (f : α → List β) (L : Nat) (h : ∀ a, (f a).length = L)
    (i j : Nat) (hi : i < L) :
    (l.flatMap f)[i + L * j]? = l[j]?.bind fun a => (f a)[i]? := by
  induction l generalizing j with
  | nil => simp
  | cons a l ih =>
    rw [List.flatMap_cons]
    cases j with
    | zero =>
      rw [List.getElem?_append_left (by rw [h]; simpa using hi)]
      simp
    | succ j =>
      rw [List.getElem?_append_right (by rw [h]; nlinarith), h]
      have e : i + L * (j + 1) - L = i + L * j := by
        rw [Nat.mul_succ]; omega
      rw [e, ih]
      simp

theorem flatMap_length_const (l : List α) (f : α → List β) (L : Nat) (h : ∀ a, (f a).length = L) :
    (l.flatMap f).length = L * l.length := by
  induction l with
  | nil => simp
  | cons a l ih => rw [List.flatMap_cons, List.length_append, ih, h, List.length_cons]; ring

theorem nest_length (ls : List (Nat × Nat)) (b : Nat) :
    (nest ls b).length = prod (ls.map Prod.fst) := by
  induction ls with
  | nil => rfl
  | cons l ls ih =>
    obtain ⟨n, s⟩ := l
    rw [nest, flatMap_length_const _ _ n (fun p => by simp [length_loop n s p 1]), ih]
    simp

theorem nest_get (ls : List (Nat × Nat)) (b : Nat) (idx : List Nat)
    (h : InB idx (ls.map Prod.fst)) :
    (nest ls b)[colPos (ls.map Prod.fst) idx]? = some (b + dot idx (ls.map Prod.snd)) := by
  induction ls generalizing idx with
  | nil =>
    cases idx with
    | nil => rfl
    | cons i is => simp [InB] at h
  | cons l ls ih =>
    obtain ⟨n, s⟩ := l
    cases idx with
    | nil => simp [InB] at h
    | cons i is =>
      simp only [List.map_cons, InB_cons] at h
      simp only [List.map_cons, colPos_cons, nest]
      rw [flatMap_getElem? _ _ n (fun p => by simp [length_loop n s p 1]) _ _ h.1, ih is h.2]
      simp only [Option.bind_some]
      have := getElem?_loop n s (b + dot is (ls.map Prod.snd)) 1 (fun q => [q]) (by simp) 0 i
        (by simp) h.1
      simp only [Nat.zero_add, Nat.one_mul] at this
      rw [this]
      simp [dot]
      ring

theorem copyTo_mem (src : List α) (ps : List Nat) (r : Nat) (w : Nat × Option α) :
    w ∈ copyTo src ps r ↔ ∃ k : Nat, ps[k]? = some w.1 ∧ w.2 = src[r + k]? := by
  induction ps generalizing r with
  | nil => simp [copyTo]
  | cons p ps ih =>
    simp only [copyTo, List.mem_cons, ih]
    constructor
    · rintro (rfl | ⟨k, h1, h2⟩)
      · exact ⟨0, by simp, by simp⟩
      · exact ⟨k + 1, by simpa using h1, by rw [h2]; congr 1; omega⟩
    · rintro ⟨k, h1, h2⟩
      cases k with
      | zero =>
        left
        simp at h1 h2
        exact Prod.ext h1.symm h2
      | succ k =>
        right
        exact ⟨k, by simpa using h1, by rw [h2]; congr 1; omega⟩

/-- Writing the consecutive elements of a list in a sequence of different positions which has the
length of the buffer. -/
theorem scatter (N : Nat) (xs : List α) (hx : xs.length = N) (ps : List Nat) (hp : ps.length = N)
    (hlt : ∀ p ∈ ps, p < N) (hn : ps.Nodup) :
    ∃ l, runWrites N (copyTo xs ps 0) = .ok l ∧ l.length = N ∧
      ∀ (r p : Nat), ps[r]? = some p → l[p]? = xs[r]? := by
  have hperm : ps.Perm (List.range N) := by
    have hsub : ps ⊆ List.range N := fun p h => List.mem_range.2 (hlt p h)
    have := List.subperm_of_subset hn hsub
    exact this.perm_of_length_le (by simp [hp])
  have hsurj : ∀ p < N, ∃ r : Nat, ps[r]? = some p := by
    intro p h
    have : p ∈ ps := hperm.mem_iff.2 (List.mem_range.2 h)
    exact List.mem_iff_getElem?.1 this
  choose g hg using hsurj
  have hg' : ∀ p (h : p < N), g p h < xs.length := by
    intro p h
    have := List.getElem?_eq_some_iff.1 (hg p h)
    obtain ⟨h', -⟩ := this
    omega
  let l : List α := List.ofFn fun p : Fin N => xs[g p p.2]'(hg' p p.2)
  have hl : l.length = N := by simp [l]
  have hget : ∀ (r p : Nat), ps[r]? = some p → l[p]? = xs[r]? := by
    intro r p h
    have hpN : p < N := hlt p (List.mem_of_getElem? h)
    have hr : g p hpN = r := by
      have h1 := hg p hpN
      rw [← h] at h1
      by_contra hne
      have hrl : r < ps.length := (List.getElem?_eq_some_iff.1 h).1
      have hgl : g p hpN < ps.length := by rw [hp, ← hx]; exact hg' p hpN
      rcases Nat.lt_or_gt_of_ne hne with hlt | hlt
      · exact (List.nodup_iff_getElem?_ne_getElem?.1 hn) _ _ hlt hrl h1
      · exact (List.nodup_iff_getElem?_ne_getElem?.1 hn) _ _ hlt hgl h1.symm
    have hr' : r < xs.length := by rw [← hr]; exact hg' p hpN
    simp only [l, List.getElem?_ofFn, hpN, dite_true, hr]
    simp [hr']
  refine ⟨l, ?_, hl, hget⟩
  rw [← hl]
  apply Indices.runWrites_list
  · intro w hw
    obtain ⟨k, h1, h2⟩ := (copyTo_mem _ _ _ _).1 hw
    rw [Nat.zero_add] at h2
    have hk : k < xs.length := by
      have := (List.getElem?_eq_some_iff.1 h1).1
      omega
    rw [h2, hget k _ h1]
    simp [hk]
  · intro p h
    rw [hl] at h
    exact ⟨(p, xs[g p h]?), (copyTo_mem _ _ _ _).2 ⟨g p h, hg p h, by simp⟩, rfl⟩

/-- The same for loop nests which write the element `idx` at the position `σ idx` of other
dimensions. -/
theorem scatter_nest (N : Nat) (xs : List α) (hx : xs.length = N) (ls : List (Nat × Nat))
    (hN : prod (ls.map Prod.fst) = N)
    (hlt : ∀ idx, InB idx (ls.map Prod.fst) → dot idx (ls.map Prod.snd) < N)
    (hinj : ∀ a b, InB a (ls.map Prod.fst) → InB b (ls.map Prod.fst) →
      dot a (ls.map Prod.snd) = dot b (ls.map Prod.snd) → a = b) :
    ∃ l, runWrites N (copyTo xs (nest ls 0) 0) = .ok l ∧ l.length = N ∧
      ∀ idx, InB idx (ls.map Prod.fst) →
        l[dot idx (ls.map Prod.snd)]? = xs[colPos (ls.map Prod.fst) idx]? := by
  have hlen : (nest ls 0).length = N := by rw [nest_length, hN]
  have hsurj : ∀ r < N, ∃ idx, InB idx (ls.map Prod.fst) ∧ colPos (ls.map Prod.fst) idx = r := by
    intro r hr
    exact colPos_surj _ _ (by omega)
  have hA : ∀ p ∈ nest ls 0, p < N := by
    intro p hp
    obtain ⟨r, hr⟩ := List.mem_iff_getElem?.1 hp
    have hrN : r < N := by
      have := (List.getElem?_eq_some_iff.1 hr).1
      omega
    obtain ⟨idx, hi, rfl⟩ := hsurj r hrN
    rw [nest_get ls 0 idx hi, Nat.zero_add] at hr
    simp at hr
    rw [← hr]
    exact hlt idx hi
  have hB : (nest ls 0).Nodup := by
    rw [List.nodup_iff_getElem?_ne_getElem?]
    intro i j hij hj he
    obtain ⟨a, ha, rfl⟩ := hsurj i (by omega)
    obtain ⟨b, hb, rfl⟩ := hsurj j (by omega)
    rw [nest_get ls 0 a ha, nest_get ls 0 b hb] at he
    simp at he
    rw [hinj a b ha hb he] at hij
    omega
  obtain ⟨l, h1, h2, h3⟩ := scatter N xs hx (nest ls 0) hlen hA hB
  refine ⟨l, h1, h2, ?_⟩
  intro idx h
  have := nest_get ls 0 idx h
  rw [Nat.zero_add] at this
  exact h3 _ _ this

end Verif
