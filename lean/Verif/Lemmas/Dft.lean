import Verif.Model.Fftw
import Verif.Spec.Dft
import Verif.Lemmas.Res
import Verif.Lemmas.Index
import Mathlib.Algebra.BigOperators.Ring.Finset
import Mathlib.Tactic.Ring
import Mathlib.Tactic.Abel
import Mathlib.Tactic.Linarith
/-
Lemmas about the model of the Fourier transforms and about their specification.
-/
namespace Verif.Fftw

open Verif Spec Finset

variable {α : Type}

theorem mem_allIdx {d i : List Nat} : i ∈ allIdx d ↔ InB i d := by
  induction d generalizing i with
  | nil => cases i <;> simp [allIdx, InB]
  | cons n ns ih =>
    cases i with
    | nil => simp [allIdx, InB]
    | cons a is =>
      simp only [allIdx, List.mem_flatMap, List.mem_range, List.mem_map, List.cons.injEq, InB_cons]
      constructor
      · rintro ⟨b, hb, c, hc, rfl, rfl⟩
        exact ⟨hb, ih.1 hc⟩
      · rintro ⟨h1, h2⟩
        exact ⟨a, h1, is, ih.2 h2, rfl, rfl⟩

/-- The same sums when all the reads are in the buffer. -/
def tot [CommSemiring α] (W : Nat → Nat → α) (X : Nat → α) : List IoDim → List Nat → Nat → α
  | d :: ds, k :: ks, a => ∑ j ∈ range d.n, W d.n (j * k) * tot W X ds ks (a + j * d.is)
  | _, _, a => X a

theorem sums_tot [CommSemiring α] (W : Nat → Nat → α) (X : Nat → α) (inp : List α)
    (fft : List IoDim) (k : List Nat) (a : Nat) (hk : k.length = fft.length)
    (h : ∀ j, InB j (fft.map (·.n)) → inp[a + inOff fft j]? = some (X (a + inOff fft j))) :
    sums W inp fft k a = some (tot W X fft k a) := by
  induction fft generalizing k a with
  | nil => simpa [sums, tot, inOff] using h [] trivial
  | cons d ds ih =>
    cases k with
    | nil => simp at hk
    | cons k0 ks =>
      rw [sums, tot]
      refine sumO_eq _ _ _ fun j hj => ?_
      rw [ih ks (a + j * d.is) (by simpa using hk)]
      · rfl
      · intro js hjs
        have := h (j :: js) ⟨hj, hjs⟩
        simpa [inOff, Nat.add_assoc] using this

/-- The last index of the sums can be the first. -/
theorem tot_snoc [CommSemiring α] (W : Nat → Nat → α) (X : Nat → α) (ds : List IoDim) (d : IoDim)
    (ks : List Nat) (k a : Nat) (h : ks.length = ds.length) :
    tot W X (ds ++ [d]) (ks ++ [k]) a = tot W X (d :: ds) (k :: ks) a := by
  induction ds generalizing ks a with
  | nil =>
    cases ks with
    | nil => rfl
    | cons => simp at h
  | cons e es ih =>
    cases ks with
    | nil => simp at h
    | cons l ls =>
      simp only [List.cons_append]
      rw [tot]
      simp only [ih ls _ (by simpa using h)]
      simp only [tot, Finset.mul_sum]
      rw [Finset.sum_comm]
      refine Finset.sum_congr rfl fun i _ => Finset.sum_congr rfl fun j _ => ?_
      rw [Nat.add_right_comm a]
      ring

theorem tot_reverse [CommSemiring α] (W : Nat → Nat → α) (X : Nat → α) (ds : List IoDim)
    (ks : List Nat) (a : Nat) (h : ks.length = ds.length) :
    tot W X ds.reverse ks.reverse a = tot W X ds ks a := by
  induction ds generalizing ks a with
  | nil =>
    cases ks with
    | nil => rfl
    | cons => simp at h
  | cons e es ih =>
    cases ks with
    | nil => simp at h
    | cons l ls =>
      simp only [List.length_cons, Nat.add_right_cancel_iff] at h
      rw [List.reverse_cons, List.reverse_cons, tot_snoc _ _ _ _ _ _ _ (by simpa using h), tot, tot]
      exact Finset.sum_congr rfl fun j _ => by rw [ih ls _ h]

theorem outOff_snoc (ds : List IoDim) (d : IoDim) (ks : List Nat) (k : Nat)
    (h : ks.length = ds.length) : outOff (ds ++ [d]) (ks ++ [k]) = outOff ds ks + k * d.os := by
  induction ds generalizing ks with
  | nil =>
    cases ks with
    | nil => simp [outOff]
    | cons => simp at h
  | cons e es ih =>
    cases ks with
    | nil => simp at h
    | cons l ls =>
      simp only [List.cons_append, outOff]
      rw [ih ls (by simpa using h)]
      omega

theorem outOff_reverse (ds : List IoDim) (ks : List Nat) (h : ks.length = ds.length) :
    outOff ds.reverse ks.reverse = outOff ds ks := by
  induction ds generalizing ks with
  | nil =>
    cases ks with
    | nil => rfl
    | cons => simp at h
  | cons e es ih =>
    cases ks with
    | nil => simp at h
    | cons l ls =>
      simp only [List.length_cons, Nat.add_right_cancel_iff] at h
      rw [List.reverse_cons, List.reverse_cons, outOff_snoc _ _ _ _ (by simpa using h), ih ls h, outOff]
      omega

theorem inOff_snoc (ds : List IoDim) (d : IoDim) (ks : List Nat) (k : Nat)
    (h : ks.length = ds.length) : inOff (ds ++ [d]) (ks ++ [k]) = inOff ds ks + k * d.is := by
  induction ds generalizing ks with
  | nil =>
    cases ks with
    | nil => simp [inOff]
    | cons => simp at h
  | cons e es ih =>
    cases ks with
    | nil => simp at h
    | cons l ls =>
      simp only [List.cons_append, inOff]
      rw [ih ls (by simpa using h)]
      omega

theorem inOff_reverse (ds : List IoDim) (ks : List Nat) (h : ks.length = ds.length) :
    inOff ds.reverse ks.reverse = inOff ds ks := by
  induction ds generalizing ks with
  | nil =>
    cases ks with
    | nil => rfl
    | cons => simp at h
  | cons e es ih =>
    cases ks with
    | nil => simp at h
    | cons l ls =>
      simp only [List.length_cons, Nat.add_right_cancel_iff] at h
      rw [List.reverse_cons, List.reverse_cons, inOff_snoc _ _ _ _ (by simpa using h), ih ls h, inOff]
      omega

/-- The marked and the other entries of an index. -/
def marked : List Bool → List Nat → List Nat
  | c :: cs, i :: is => if c = false then marked cs is else i :: marked cs is
  | _, _ => []

def unmarked : List Bool → List Nat → List Nat
  | c :: cs, i :: is => if c = false then i :: unmarked cs is else unmarked cs is
  | _, _ => []

theorem InB_split (cs : List Bool) (ds idx : List Nat) (s : Nat) (hc : cs.length = ds.length)
    (h : InB idx ds) : InB (marked cs idx) ((split cs ds s).1.map (·.n)) ∧
      InB (unmarked cs idx) ((split cs ds s).2.map (·.n)) := by
  induction cs generalizing ds idx s with
  | nil =>
    cases ds with
    | nil =>
      cases idx with
      | nil => exact ⟨trivial, trivial⟩
      | cons => simp [InB] at h
    | cons => simp at hc
  | cons c cs ih =>
    cases ds with
    | nil => simp at hc
    | cons d ds =>
      cases idx with
      | nil => simp [InB] at h
      | cons i is =>
        obtain ⟨h1, h2⟩ := ih ds is (s * d) (by simpa using hc) h.2
        cases c <;> simp [marked, unmarked, split, h1, h2, h.1]

/-- Indices for the marked and the other dimensions are those of an index. -/
theorem InB_merge (cs : List Bool) (ds a b : List Nat) (s : Nat) (hc : cs.length = ds.length)
    (ha : InB a ((split cs ds s).1.map (·.n))) (hb : InB b ((split cs ds s).2.map (·.n))) :
    ∃ idx, InB idx ds ∧ marked cs idx = a ∧ unmarked cs idx = b := by
  induction cs generalizing ds a b s with
  | nil =>
    cases ds with
    | nil =>
      cases a <;> cases b <;> simp [split, InB] at ha hb
      exact ⟨[], trivial, rfl, rfl⟩
    | cons => simp at hc
  | cons c cs ih =>
    cases ds with
    | nil => simp at hc
    | cons d ds =>
      cases c
      · cases b with
        | nil => simp [split, InB] at hb
        | cons b0 b =>
          simp only [split, if_true, List.map_cons, InB_cons] at ha hb
          obtain ⟨idx, h1, h2, h3⟩ := ih ds a b (s * d) (by simpa using hc) ha hb.2
          exact ⟨b0 :: idx, ⟨hb.1, h1⟩, by simp [marked, h2], by simp [unmarked, h3]⟩
      · cases a with
        | nil => simp [split, InB] at ha
        | cons a0 a =>
          simp only [split, Bool.true_eq_false, if_false, List.map_cons, InB_cons] at ha hb
          obtain ⟨idx, h1, h2, h3⟩ := ih ds a b (s * d) (by simpa using hc) ha.2 hb
          exact ⟨a0 :: idx, ⟨ha.1, h1⟩, by simp [marked, h2], by simp [unmarked, h3]⟩

theorem outOff_split (cs : List Bool) (ds idx : List Nat) (s : Nat) (hc : cs.length = ds.length)
    (h : InB idx ds) : outOff (split cs ds s).2 (unmarked cs idx)
      + outOff (split cs ds s).1 (marked cs idx) = s * colPos ds idx := by
  induction cs generalizing ds idx s with
  | nil =>
    cases ds with
    | nil =>
      cases idx with
      | nil => rfl
      | cons => simp [InB] at h
    | cons => simp at hc
  | cons c cs ih =>
    cases ds with
    | nil => simp at hc
    | cons d ds =>
      cases idx with
      | nil => simp [InB] at h
      | cons i is =>
        have := ih ds is (s * d) (by simpa using hc) h.2
        have e : s * colPos (d :: ds) (i :: is) = i * s + s * d * colPos ds is := by
          rw [colPos_cons]; ring
        rw [e]
        cases c <;> simp only [marked, unmarked, split, if_true, outOff, Bool.true_eq_false,
          if_false] <;> omega

theorem inOff_split (cs : List Bool) (ds idx : List Nat) (s : Nat) (hc : cs.length = ds.length)
    (h : InB idx ds) : inOff (split cs ds s).2 (unmarked cs idx)
      + inOff (split cs ds s).1 (marked cs idx) = s * colPos ds idx := by
  induction cs generalizing ds idx s with
  | nil =>
    cases ds with
    | nil =>
      cases idx with
      | nil => rfl
      | cons => simp [InB] at h
    | cons => simp at hc
  | cons c cs ih =>
    cases ds with
    | nil => simp at hc
    | cons d ds =>
      cases idx with
      | nil => simp [InB] at h
      | cons i is =>
        have := ih ds is (s * d) (by simpa using hc) h.2
        have e : s * colPos (d :: ds) (i :: is) = i * s + s * d * colPos ds is := by
          rw [colPos_cons]; ring
        rw [e]
        cases c <;> simp only [marked, unmarked, split, if_true, inOff, Bool.true_eq_false,
          if_false] <;> omega

theorem tot_split [CommSemiring α] (W : Nat → Nat → α) (X : Nat → α) (cs : List Bool)
    (ds idx : List Nat) (s a : Nat) (hc : cs.length = ds.length) (h : InB idx ds) :
    tot W X (split cs ds s).1 (marked cs idx) (a + inOff (split cs ds s).2 (unmarked cs idx))
      = dft W cs ds idx fun js => X (a + s * colPos ds js) := by
  induction cs generalizing ds idx s a with
  | nil =>
    cases ds with
    | nil =>
      cases idx with
      | nil => simp [split, marked, tot, dft, unmarked, inOff]
      | cons => simp [InB] at h
    | cons => simp at hc
  | cons c cs ih =>
    cases ds with
    | nil => simp at hc
    | cons d ds =>
      cases idx with
      | nil => simp [InB] at h
      | cons i is =>
        have e : ∀ (j : Nat) js, a + s * colPos (d :: ds) (j :: js)
            = a + j * s + s * d * colPos ds js := by
          intro j js
          rw [colPos_cons]; ring
        cases c
        · simp only [marked, unmarked, split, if_true, inOff, dft, e]
          rw [← Nat.add_assoc, ih ds is (s * d) (a + i * s) (by simpa using hc) h.2]
        · simp only [marked, unmarked, split, Bool.true_eq_false, if_false, dft, tot, e]
          refine Finset.sum_congr rfl fun j _ => ?_
          rw [Nat.add_right_comm, ih ds is (s * d) (a + j * s) (by simpa using hc) h.2]

/-- The transform only depends on the elements of the tensor. -/
theorem dft_congr [CommSemiring α] (W : Nat → Nat → α) (cs : List Bool) (ds idx : List Nat)
    (x y : List Nat → α) (hc : cs.length = ds.length) (h : InB idx ds)
    (hxy : ∀ j, InB j ds → x j = y j) : dft W cs ds idx x = dft W cs ds idx y := by
  induction cs generalizing ds idx x y with
  | nil =>
    cases ds with
    | nil =>
      cases idx with
      | nil => exact hxy [] trivial
      | cons => simp [InB] at h
    | cons => simp at hc
  | cons c cs ih =>
    cases ds with
    | nil => simp at hc
    | cons d ds =>
      cases idx with
      | nil => simp [InB] at h
      | cons i is =>
        cases c
        · exact ih ds is _ _ (by simpa using hc) h.2 fun j hj => hxy _ ⟨h.1, hj⟩
        · refine Finset.sum_congr rfl fun j hj => ?_
          rw [ih ds is _ _ (by simpa using hc) h.2 fun js hjs => hxy (j :: js) ⟨Finset.mem_range.1 hj, hjs⟩]

theorem MarkedPos.split {cs : List Bool} {ds : List Nat} (hc : cs.length = ds.length) (s : Nat) :
    MarkedPos cs ds ↔ ∀ d ∈ (split cs ds s).1, d.n ≠ 0 := by
  induction cs generalizing ds s with
  | nil =>
    cases ds with
    | nil => simp [MarkedPos, Fftw.split]
    | cons => simp at hc
  | cons c cs ih =>
    cases ds with
    | nil => simp at hc
    | cons d ds =>
      have := ih (ds := ds) (by simpa using hc) (s * d)
      cases c <;> simp [MarkedPos, Fftw.split, this]

/-- What is written, when the positions of the writes are those of the elements. -/
theorem target_eq (inPlace : Bool) (inp : List α) (n : Nat) (hn : inp.length = n)
    (ws : List (Nat × Option α)) (g : Nat → α)
    (h1 : ∀ w ∈ ws, w.1 < n ∧ w.2 = some (g w.1)) (h2 : ∀ p < n, ∃ w ∈ ws, w.1 = p) :
    target inPlace inp ws = .ok ((List.range n).map g) := by
  subst hn
  cases inPlace
  · exact runWrites_eq _ g ws h1 h2
  · obtain ⟨l, e, hl, h3, -⟩ := updWrites_eq inp g ws h1
    rw [target, if_pos rfl, e]
    congr 1
    apply List.ext_getElem?
    intro p
    by_cases hp : p < inp.length
    · rw [h3 p hp (h2 p hp)]
      simp [hp]
    · rw [List.getElem?_eq_none (by omega), List.getElem?_eq_none (by simp; omega)]

/-- A transform whose writes are at the positions of the elements of a tensor. -/
theorem guru_ok [CommSemiring α] (W : Int → Nat → Nat → α) (inPlace : Bool) (inp : List α)
    (ds : List Nat) (hl : inp.length = prod ds) (F : List Nat → α) (fft loop : List IoDim)
    (direction : Int) (hd : direction = -1 ∨ direction = 1) (hp : ∀ d ∈ fft, d.n ≠ 0)
    (h1 : ∀ h k, InB h (loop.map (·.n)) → InB k (fft.map (·.n)) → ∃ idx, InB idx ds ∧
      outOff loop h + outOff fft k = colPos ds idx ∧
      sums (W direction) inp fft k (inOff loop h) = some (F idx))
    (h2 : ∀ idx, InB idx ds → ∃ h k, InB h (loop.map (·.n)) ∧ InB k (fft.map (·.n)) ∧
      outOff loop h + outOff fft k = colPos ds idx) :
    ∃ out, guru W inPlace inp fft loop direction = .ok out ∧ out.length = prod ds ∧
      Entries ds out F := by
  classical
  let g : Nat → α := fun p =>
    if h : p < prod ds then F (Classical.choose (colPos_surj ds p h)) else F []
  have hg : ∀ idx, InB idx ds → g (colPos ds idx) = F idx := by
    intro idx h
    have hlt := colPos_lt h
    have hs := Classical.choose_spec (colPos_surj ds _ hlt)
    simp only [g, dif_pos hlt]
    rw [colPos_inj hs.1 h hs.2]
  have hw : ∀ w ∈ writes (W direction) inp fft loop, w.1 < prod ds ∧ w.2 = some (g w.1) := by
    intro w hw
    simp only [writes, List.mem_flatMap, List.mem_map, mem_allIdx] at hw
    obtain ⟨h, hh, k, hk, rfl⟩ := hw
    obtain ⟨idx, h3, h4, h5⟩ := h1 h k hh hk
    simp only [h4, h5, hg idx h3]
    exact ⟨colPos_lt h3, trivial⟩
  have hw2 : ∀ p < prod ds, ∃ w ∈ writes (W direction) inp fft loop, w.1 = p := by
    intro p hp
    obtain ⟨idx, h3, rfl⟩ := colPos_surj ds p hp
    obtain ⟨h, k, hh, hk, e⟩ := h2 idx h3
    refine ⟨(outOff loop h + outOff fft k, sums (W direction) inp fft k (inOff loop h)), ?_, e⟩
    simp only [writes, List.mem_flatMap, List.mem_map, mem_allIdx]
    exact ⟨h, hh, k, hk, rfl⟩
  refine ⟨(List.range (prod ds)).map g, ?_, ?_, ?_⟩
  · rw [guru, if_pos ⟨hd, hp⟩]
    exact target_eq inPlace inp _ hl _ g hw hw2
  · simp
  · intro idx h
    rw [elem, if_pos h]
    simp [colPos_lt h, hg idx h]

/-- The strides of all the indices. -/
theorem rowMajor_snoc (l : List Nat) (d : Nat) :
    rowMajor (l ++ [d]) = (rowMajor l).map (fun e => ⟨e.n, e.is * d, e.os * d⟩) ++ [⟨d, 1, 1⟩] := by
  induction l with
  | nil => rfl
  | cons a l ih => simp [rowMajor, ih]

theorem split_all (ds : List Nat) (s : Nat) :
    (split (List.replicate ds.length true) ds s).1.reverse
      = (rowMajor ds.reverse).map (fun e => ⟨e.n, e.is * s, e.os * s⟩) := by
  induction ds generalizing s with
  | nil => rfl
  | cons d ds ih =>
    simp only [List.length_cons, List.replicate_succ, split, Bool.true_eq_false, if_false,
      List.reverse_cons, ih, rowMajor_snoc, List.map_append, List.map_map]
    congr 1
    · apply List.map_congr_left
      intro e _
      simp only [Function.comp, IoDim.mk.injEq, true_and]
      constructor <;> ring
    · simp

theorem split_all_loop (ds : List Nat) (s : Nat) :
    (split (List.replicate ds.length true) ds s).2 = [] := by
  induction ds generalizing s with
  | nil => rfl
  | cons d ds ih => simp [List.replicate_succ, split, ih]

theorem rowMajor_reverse (ds : List Nat) :
    rowMajor ds.reverse = (split (List.replicate ds.length true) ds 1).1.reverse := by
  rw [split_all]
  conv_lhs => rw [← List.map_id (rowMajor ds.reverse)]
  apply List.map_congr_left
  intro e _
  simp

theorem marked_all (ds idx : List Nat) (h : idx.length = ds.length) :
    marked (List.replicate ds.length true) idx = idx := by
  induction ds generalizing idx with
  | nil =>
    cases idx with
    | nil => rfl
    | cons => simp at h
  | cons d ds ih =>
    cases idx with
    | nil => simp at h
    | cons i is => simp [List.replicate_succ, marked, ih is (by simpa using h)]

theorem dimensions_eq (ds : List Nat) : dimensions ds = .ok ds.reverse := by
  rw [dimensions, runWrites_eq _ (fun p => ds.getD (ds.length - p - 1) 0)]
  · congr 1
    apply List.ext_getElem?
    intro p
    by_cases hp : p < ds.length
    · rw [List.getElem?_map, List.getElem?_range hp, List.getElem?_reverse hp]
      simp only [Option.map_some, List.getD_eq_getElem?_getD]
      rw [Nat.sub_right_comm]
      rw [List.getElem?_eq_getElem (by omega)]
      simp
    · rw [List.getElem?_eq_none (by simp; omega), List.getElem?_eq_none (by simp; omega)]
  · intro w hw
    simp only [List.mem_map, List.mem_range] at hw
    obtain ⟨i, hi, rfl⟩ := hw
    refine ⟨by simp only; omega, ?_⟩
    have e : ds.length - (ds.length - i - 1) - 1 = i := by omega
    simp [e, hi]
  · intro p hp
    refine ⟨(p, ds[ds.length - p - 1]?), ?_, rfl⟩
    simp only [List.mem_map, List.mem_range, Prod.mk.injEq]
    exact ⟨ds.length - p - 1, by omega, by omega, rfl⟩

/-- Marks for only one index. -/
theorem split_one (l m : List Nat) (n s : Nat) :
    split (List.replicate l.length false ++ true :: List.replicate m.length false) (l ++ n :: m) s
      = ([⟨n, (strides l s).2, (strides l s).2⟩],
        (strides l s).1 ++ (strides m ((strides l s).2 * n)).1) := by
  have h0 : ∀ (m : List Nat) s, split (List.replicate m.length false) m s
      = ([], (strides m s).1) := by
    intro m
    induction m with
    | nil => intro s; rfl
    | cons a m ih => intro s; simp [List.replicate_succ, split, ih, strides]
  induction l generalizing s with
  | nil => simp [split, h0, strides]
  | cons a l ih => simp [List.replicate_succ, split, ih, strides]

section spec
variable [CommSemiring α]

theorem dft_linear (W : Nat → Nat → α) (cs : List Bool) (ds ks : List Nat) (n : Nat) (c : Nat → α)
    (F : Nat → List Nat → α) :
    dft W cs ds ks (fun js => ∑ j ∈ range n, c j * F j js)
      = ∑ j ∈ range n, c j * dft W cs ds ks (F j) := by
  induction cs generalizing ds ks F with
  | nil => cases ds <;> cases ks <;> rfl
  | cons m cs ih =>
    cases ds with
    | nil => cases m <;> cases ks <;> rfl
    | cons d ds =>
      cases ks with
      | nil => cases m <;> rfl
      | cons k ks =>
        cases m
        · exact ih ds ks fun j js => F j (k :: js)
        · simp only [dft]
          simp only [ih ds ks fun j js => F j (_ :: js), Finset.mul_sum]
          rw [Finset.sum_comm]
          refine Finset.sum_congr rfl fun i _ => Finset.sum_congr rfl fun j _ => ?_
          ring

/-- No index is marked two times. -/
def Apart : List Bool → List Bool → Prop
  | a :: as, b :: bs => (a && b) = false ∧ Apart as bs
  | _, _ => True

theorem dft_dft (W : Nat → Nat → α) (cs es : List Bool) (ds ks : List Nat)
    (hc : cs.length = ds.length) (he : es.length = ds.length) (h : InB ks ds) (ha : Apart cs es)
    (x : List Nat → α) :
    dft W es ds ks (fun i => dft W cs ds i x) = dft W (List.zipWith (· || ·) cs es) ds ks x := by
  induction ds generalizing cs es ks x with
  | nil =>
    cases cs <;> cases es <;> cases ks <;> first | rfl | simp at hc he
  | cons d ds ih =>
    cases cs with
    | nil => simp at hc
    | cons c cs =>
      cases es with
      | nil => simp at he
      | cons e es =>
        cases ks with
        | nil => simp [InB] at h
        | cons k ks =>
          have ih' := fun x => ih cs es ks (by simpa using hc) (by simpa using he) h.2 ha.2 x
          have h0 := ha.1
          cases c <;> cases e <;> simp at h0
          · simp only [dft, List.zipWith_cons_cons, Bool.or_self, ih']
          · simp only [dft, List.zipWith_cons_cons, Bool.or_true, ih']
          · simp only [dft, List.zipWith_cons_cons, Bool.or_false]
            rw [dft_linear]
            simp only [ih']

/-- The numbers of the second transform undo those of the first one. -/
def Undo (W V : Nat → Nat → α) : Prop :=
  ∀ n j l, j < n → l < n → ∑ m ∈ range n, W n (j * m) * V n (m * l) = if j = l then (n : α) else 0

theorem dft_undo {W V : Nat → Nat → α} (hu : Undo W V) (cs : List Bool) (ds ks : List Nat)
    (hc : cs.length = ds.length) (h : InB ks ds) (x : List Nat → α) :
    dft V cs ds ks (fun i => dft W cs ds i x) = (markedSize cs ds : α) * x ks := by
  induction ds generalizing cs ks x with
  | nil =>
    cases cs with
    | cons => simp at hc
    | nil =>
      cases ks with
      | cons => simp [InB] at h
      | nil => simp [dft, markedSize]
  | cons d ds ih =>
    cases cs with
    | nil => simp at hc
    | cons c cs =>
      cases ks with
      | nil => simp [InB] at h
      | cons k ks =>
        have ih' := fun x => ih cs ks (by simpa using hc) h.2 x
        cases c
        · simp only [dft, markedSize, ih']
        · simp only [dft, markedSize]
          simp only [dft_linear, ih', Finset.mul_sum]
          rw [Finset.sum_comm]
          have : ∀ j ∈ range d, ∑ i ∈ range d,
              V d (i * k) * (W d (j * i) * ((markedSize cs ds : α) * x (j :: ks)))
              = if j = k then (d : α) * ((markedSize cs ds : α) * x (j :: ks)) else 0 := by
            intro j hj
            have := hu d j k (Finset.mem_range.1 hj) h.1
            calc _ = (∑ m ∈ range d, W d (j * m) * V d (m * k))
                  * ((markedSize cs ds : α) * x (j :: ks)) := by
                  rw [Finset.sum_mul]
                  exact Finset.sum_congr rfl fun i _ => by ring
              _ = _ := by rw [this]; split <;> simp
          rw [Finset.sum_congr rfl this, Finset.sum_ite_eq' (range d) k]
          rw [if_pos (Finset.mem_range.2 h.1)]
          push_cast
          ring

/-- The sum over all the elements. -/
def total : List Nat → (List Nat → α) → α
  | [], f => f []
  | n :: ns, f => ∑ i ∈ range n, total ns fun is => f (i :: is)

theorem total_sum (ds : List Nat) (n : Nat) (F : Nat → List Nat → α) :
    total ds (fun js => ∑ j ∈ range n, F j js) = ∑ j ∈ range n, total ds (F j) := by
  induction ds generalizing F with
  | nil => rfl
  | cons d ds ih =>
    simp only [total]
    simp only [ih fun j js => F j (_ :: js)]
    rw [Finset.sum_comm]

theorem total_mul (ds : List Nat) (c : α) (F : List Nat → α) :
    total ds (fun js => c * F js) = c * total ds F := by
  induction ds generalizing F with
  | nil => rfl
  | cons d ds ih => simp only [total, ih, Finset.mul_sum]

theorem total_congr (ds : List Nat) (F G : List Nat → α) (h : ∀ i, InB i ds → F i = G i) :
    total ds F = total ds G := by
  induction ds generalizing F G with
  | nil => exact h [] trivial
  | cons d ds ih =>
    exact Finset.sum_congr rfl fun i hi => ih _ _ fun is his =>
      h (i :: is) ⟨Finset.mem_range.1 hi, his⟩

/-- A sum over the positions, by the first index. -/
theorem sum_mul_range (n m : Nat) (f : Nat → α) :
    ∑ p ∈ range (n * m), f p = ∑ i ∈ range n, ∑ q ∈ range m, f (i + n * q) := by
  induction m with
  | zero => simp
  | succ m ih =>
    rw [Nat.mul_succ, Finset.sum_range_add, ih, ← Finset.sum_add_distrib]
    refine Finset.sum_congr rfl fun i _ => ?_
    rw [Finset.sum_range_succ, Nat.add_comm i]

theorem total_colPos (ds : List Nat) (f : Nat → α) :
    total ds (fun i => f (colPos ds i)) = ∑ p ∈ range (prod ds), f p := by
  induction ds generalizing f with
  | nil => simp [total, prod]
  | cons d ds ih =>
    rw [prod_cons, sum_mul_range]
    exact Finset.sum_congr rfl fun i _ => ih fun q => f (i + d * q)

theorem total_entries (ds : List Nat) (l : List α) (x : List Nat → α) (hl : l.length = prod ds)
    (h : Entries ds l x) : total ds x = l.sum := by
  have e : l.sum = ∑ p ∈ range (prod ds), l.getD p 0 := by
    rw [← hl]
    clear hl h
    induction l using List.reverseRecOn with
    | nil => simp
    | append_singleton l a ih =>
      rw [List.sum_append, ih, List.length_append, List.length_singleton, Finset.sum_range_succ]
      congr 1
      · refine Finset.sum_congr rfl fun p hp => ?_
        have := Finset.mem_range.1 hp
        simp [List.getElem?_append_left this]
      · simp
  rw [e, ← total_colPos]
  refine total_congr _ _ _ fun i hi => ?_
  have := h i hi
  rw [elem, if_pos hi] at this
  simp [this]

/-- Products of transforms. -/
theorem dft_parseval {W V : Nat → Nat → α} (hu : Undo W V) (hV : ∀ n j l, V n (j * l) = V n (l * j))
    (cs : List Bool) (ds : List Nat) (hc : cs.length = ds.length) (x y : List Nat → α) :
    total ds (fun k => dft W cs ds k x * dft V cs ds k y)
      = (markedSize cs ds : α) * total ds fun k => x k * y k := by
  induction ds generalizing cs x y with
  | nil =>
    cases cs
    · simp [dft, markedSize, total]
    · simp at hc
  | cons d ds ih =>
    cases cs with
    | nil => simp at hc
    | cons c cs =>
      have ih' := fun x y => ih cs (by simpa using hc) x y
      cases c
      · simp only [dft, markedSize, total, ih', Finset.mul_sum]
      · simp only [dft, markedSize, total, Finset.sum_mul_sum]
        simp only [total_sum]
        have e : ∀ k j l, total ds (fun is => W d (j * k) * dft W cs ds is (fun js => x (j :: js)) *
            (V d (l * k) * dft V cs ds is fun js => y (l :: js)))
            = W d (j * k) * V d (k * l) * ((markedSize cs ds : α) *
              total ds fun is => x (j :: is) * y (l :: is)) := by
          intro k j l
          rw [← ih', ← total_mul, hV d k l]
          refine total_congr _ _ _ fun i _ => ?_
          ring
        simp only [e]
        rw [Finset.sum_comm]
        simp only [Finset.mul_sum (range d)]
        refine Finset.sum_congr rfl fun j hj => ?_
        rw [Finset.sum_comm]
        simp only [← Finset.sum_mul]
        have : ∀ l ∈ range d, (∑ m ∈ range d, W d (j * m) * V d (m * l)) *
            ((markedSize cs ds : α) * total ds fun is => x (j :: is) * y (l :: is))
            = if j = l then (d : α) * ((markedSize cs ds : α) *
              total ds fun is => x (j :: is) * y (l :: is)) else 0 := by
          intro l hl
          rw [hu d j l (Finset.mem_range.1 hj) (Finset.mem_range.1 hl)]
          split <;> simp
        rw [Finset.sum_congr rfl this, Finset.sum_ite_eq (range d) j, if_pos hj]
        push_cast
        ring

end spec

end Verif.Fftw
