import Verif.Props.ExactInt
import Verif.Props.CFloat
/-
C136 for complex tensors: foldc, scprod, sum and trace.
-/
namespace Verif.Exact

open Verif Verif.Spec Fl Rounding Tensor GemmFl GemmFl.Spec Exact.Spec

section
variable [Rounding]

omit [Rounding] in
theorem cmult_conj {u : ℤ} {z : CFl} {k m : ℤ} (h : CIsMult u z k m) : CIsMult u z.conj k (-m) := ⟨h.1, neg_mult h.2⟩

/-- C136: foldc of complex numbers with parts which are integers, or multiples of powers of two. -/
theorem c136_complex_foldc (a b : Tensor CFl) (wfa : a.WF) (wfb : b.WF) (ndx1 ndx2 : Int) (P Q R S : List Nat)
    (L : Nat) (hda : a.dims = P ++ L :: Q) (hdb : b.dims = R ++ L :: S)
    (h1 : Spec.norm a.dims.length ndx1 = some P.length) (h2 : Spec.norm b.dims.length ndx2 = some R.length) (hL : L ≠ 0)
    (res : Res (Tensor CFl)) (hr : CFoldc a ndx1 b ndx2 res) (u v : ℤ) (hu : -1074 ≤ u + v) (hv : u + v ≤ 971) :
    ∃ c : Tensor CFl, res = .ok c ∧ c.WF ∧ c.dims = outDims (P ++ Q ++ (R ++ S)) ∧
      ∀ p q r s, InB p P → InB q Q → InB r R → InB s S → ∀ (f g : Nat → CFl) (F F' G G' : Nat → ℤ),
        (∀ l < L, elem a.dims a.data (p ++ l :: q) = some (f l) ∧ CIsMult u (f l) (F l) (F' l)) →
        (∀ l < L, elem b.dims b.data (r ++ l :: s) = some (g l) ∧ CIsMult v (g l) (G l) (G' l)) →
        ∑ l ∈ Finset.range L, (|F l * G l| + |F' l * G' l|) < 2 ^ 53 →
        ∑ l ∈ Finset.range L, (|F l * G' l| + |F' l * G l|) < 2 ^ 53 →
        ∃ z, elem c.dims c.data (outIdx (p ++ q ++ (r ++ s))) = some z ∧
          CIsMult (u + v) z (∑ l ∈ Finset.range L, (F l * G l + F' l * G' l))
            (∑ l ∈ Finset.range L, (F l * G' l - F' l * G l)) := by
  rw [cfoldc_iff a b wfa wfb] at hr
  obtain ⟨c, hc, wf, hd, hel⟩ := c136_complex_fold ⟨a.dims, a.data.map CFl.conj⟩ b
    (by unfold Tensor.WF at *; simpa using wfa) wfb ndx1 ndx2 P Q R S L hda hdb h1 h2 hL res hr u v hu hv
  refine ⟨c, hc, wf, hd, ?_⟩
  intro p q r s hp hq hr hs f g F F' G G' hf hg hM hM'
  have := hel p q r s hp hq hr hs (fun l => (f l).conj) g F (fun l => -F' l) G G' (by
      intro l hl
      obtain ⟨h, hm⟩ := hf l hl
      refine ⟨?_, cmult_conj hm⟩
      unfold elem at *
      split at h
      · rename_i hi
        show (if InB (p ++ l :: q) a.dims then _ else none) = _
        rw [if_pos hi, List.getElem?_map, h]
        rfl
      · cases h) hg (by simpa only [neg_mul, abs_neg] using hM) (by simpa only [neg_mul, abs_neg] using hM')
  simpa only [neg_mul, sub_neg_eq_add, ← sub_eq_add_neg] using this

/-- C136: the sum of the elements of a complex tensor. -/
theorem c136_complex_sum (t : Tensor CFl) (u : ℤ) (h1 : -1074 ≤ u) (h2 : u ≤ 971) (A B : List ℤ)
    (ha : List.Forall₂ (fun z k => IsMult u z.re k) t.data A) (hb : List.Forall₂ (fun z k => IsMult u z.im k) t.data B)
    (hA : (A.map fun k => |k|).sum < 2 ^ 53) (hB : (B.map fun k => |k|).sum < 2 ^ 53) :
    CIsMult u (sumAll t) A.sum B.sum := by
  rw [CFl.sum_parts]
  exact ⟨c136_sum (CFl.res t) u h1 h2 A (List.forall₂_map_left_iff.2 ha) hA,
    c136_sum (CFl.ims t) u h1 h2 B (List.forall₂_map_left_iff.2 hb) hB⟩

/-- C136: the trace of a complex matrix. -/
theorem c136_complex_trace (m : Tensor CFl) (wf : m.WF) (r c : Nat) (hd : m.dims = [r, c]) (u : ℤ) (h1 : -1074 ≤ u)
    (h2 : u ≤ 971) (A B : Nat → ℤ)
    (h : ∀ i < min r c, ∃ z, elem m.dims m.data [i, i] = some z ∧ CIsMult u z (A i) (B i))
    (hA : ∑ i ∈ Finset.range (min r c), |A i| < 2 ^ 53) (hB : ∑ i ∈ Finset.range (min r c), |B i| < 2 ^ 53) :
    ∃ s, trace m = .ok s ∧
      CIsMult u s (∑ i ∈ Finset.range (min r c), A i) (∑ i ∈ Finset.range (min r c), B i) := by
  obtain ⟨g, hg⟩ := exists_isMat m wf r c hd
  have key : ∀ i ∈ List.range (min r c), CIsMult u (g i i) (A i) (B i) := by
    intro i hi
    have hi := List.mem_range.1 hi
    obtain ⟨z, hz, hm⟩ := h i hi
    have := hg.2.2 i i (by omega) (by omega)
    rw [hz] at this
    cases this
    exact hm
  have e : trace m = .ok (sumAll ⟨[], (List.range (min r c)).map fun i => g i i⟩) := trace_order hg
  refine ⟨_, e, ?_⟩
  have := c136_complex_sum ⟨[], (List.range (min r c)).map fun i => g i i⟩ u h1 h2 ((List.range (min r c)).map A)
    ((List.range (min r c)).map B)
    (by rw [List.forall₂_map_left_iff, List.forall₂_map_right_iff, List.forall₂_same]; exact fun i hi => (key i hi).1)
    (by rw [List.forall₂_map_left_iff, List.forall₂_map_right_iff, List.forall₂_same]; exact fun i hi => (key i hi).2)
    (by rw [List.map_map]; exact (sum_range _ _).trans_lt hA) (by rw [List.map_map]; exact (sum_range _ _).trans_lt hB)
  rwa [sum_range, sum_range] at this

/-- C136: the scalar product of complex tensors, with any compiler. -/
theorem c136_complex_scprod [Recover] (a b : Tensor CFl) (hl : a.data.length = b.data.length) (u v : ℤ)
    (hu : -1074 ≤ u + v) (hv : u + v ≤ 971) (f g : Nat → CFl) (F F' G G' : Nat → ℤ)
    (hf : ∀ l < a.data.length, a.data[l]? = some (f l) ∧ CIsMult u (f l) (F l) (F' l))
    (hg : ∀ l < a.data.length, b.data[l]? = some (g l) ∧ CIsMult v (g l) (G l) (G' l))
    (hM : ∑ l ∈ Finset.range a.data.length, (|F l * G l| + |F' l * G' l|) < 2 ^ 53)
    (hM' : ∑ l ∈ Finset.range a.data.length, (|F l * G' l| + |F' l * G l|) < 2 ^ 53)
    (r : Res CFl) (hr : Fused.CScprod a b r) :
    ∃ s, r = .ok s ∧ CIsMult (u + v) s (∑ l ∈ Finset.range a.data.length, (F l * G l + F' l * G' l))
      (∑ l ∈ Finset.range a.data.length, (F' l * G l - F l * G' l)) := by
  rw [Fused.CScprod, Fused.scprod_cterms a b hl.le] at hr
  cases r with
  | abort => exact hr.elim
  | ub => exact hr.elim
  | ok s =>
    refine ⟨s, rfl, ?_⟩
    have hz : (a.data.zip b.data).map (fun p => (p.1, p.2.conj)) = pairs f (fun l => (g l).conj) a.data.length := by
      apply List.ext_getElem?
      intro i
      rw [pairs, List.getElem?_map, List.getElem?_map]
      by_cases hi : i < a.data.length
      · rw [List.getElem?_range hi, (List.getElem?_zip_eq_some (z := (f i, g i))).2 ⟨(hf i hi).1, (hg i hi).1⟩]
        rfl
      · rw [List.getElem?_eq_none (by simpa [hl] using hi), List.getElem?_eq_none (by simpa using hi)]
        rfl
    have mem : ∀ p ∈ a.data.zip b.data, ∃ l < a.data.length, p = (f l, g l) := by
      intro p hp
      obtain ⟨i, hi⟩ := List.mem_iff_getElem?.1 hp
      obtain ⟨k1, k2⟩ := List.getElem?_zip_eq_some.1 hi
      have hi := (List.getElem?_eq_some_iff.1 k1).1
      refine ⟨i, hi, ?_⟩
      rw [(hf i hi).1] at k1
      rw [(hg i hi).1] at k2
      exact Prod.ext (Option.some.inj k1).symm (Option.some.inj k2).symm
    have key : Sums (rePairs ((a.data.zip b.data).map fun p => (p.1, p.2.conj))) s.re ∧
        Sums (imPairs ((a.data.zip b.data).map fun p => (p.1, p.2.conj))) s.im := by
      refine Fused.cdot_induct (φ := CFl.conj) (fun y v hv => Fused.ceval_conj hv) (fun l s => Sums (rePairs (l.map fun p => (p.1, p.2.conj))) s.re ∧
        Sums (imPairs (l.map fun p => (p.1, p.2.conj))) s.im) (a.data.zip b.data) [] ?_ ?_ hr
      · rintro l' p z r i hp ⟨h1, h2⟩ hr hi
        have hfin : r.Finite := by
          obtain ⟨l, hl', rfl⟩ := mem p hp
          obtain ⟨m1, m2⟩ := (hf l hl').2
          obtain ⟨m3, m4⟩ := cmult_conj (hg l hl').2
          refine (sums_exact hu hv (Fused.reOf_sums hr) ?_ ?_).1
          · intro q hq
            simp only [rePairs, List.flatMap_cons, List.flatMap_nil, List.append_nil, List.mem_cons, List.not_mem_nil, or_false] at hq
            rcases hq with rfl | rfl
            · exact ⟨m1.1, m3.1, _, mult_mul m1 m3⟩
            · exact ⟨(neg_mult m2).1, m4.1, _, mult_mul (neg_mult m2) m4⟩
          · rw [size_rePairs]
            simp only [List.map_cons, List.map_nil, List.sum_cons, List.sum_nil, add_zero, reAbs]
            rw [abs_mult_mul m1 m3, abs_mult_mul m2 m4, ← add_mul]
            refine mul_lt_mul_of_pos_right ?_ (two_zpow_pos _)
            have := Finset.single_le_sum (f := fun l => |F l * G l| + |F' l * G' l|) (fun l _ => by positivity)
              (Finset.mem_range.2 hl')
            have h' : |F l * G l| + |F' l * -G' l| < 2 ^ 53 := by
              rw [mul_neg, abs_neg]; exact lt_of_le_of_lt this hM
            exact_mod_cast h'
        rw [Fused.finish, if_neg (fun hh => hfin.ne_nan hh.1)]
        constructor
        · rw [List.map_append, show ∀ a b : List (CFl × CFl), rePairs (a ++ b) = rePairs a ++ rePairs b by simp [rePairs]]
          exact Sums.add h1 (Fused.reOf_sums hr)
        · rw [List.map_append, show ∀ a b : List (CFl × CFl), imPairs (a ++ b) = imPairs a ++ imPairs b by simp [imPairs]]
          exact Sums.add h2 (Fused.imOf_sums hi)
      · intro z hz
        cases hz
        exact ⟨Sums.zero, Sums.zero⟩
    rw [hz] at key
    have k : CComputes (formal (pairs f (fun l => (g l).conj) a.data.length)) s :=
      ⟨_, rfl, fun _ => ⟨_, key.1, key.2, fun _ => rfl⟩⟩
    have := ccomputes_mult (G := G) (G' := fun l => -G' l) hu hv k (fun l hl => (hf l hl).2)
      (fun l hl => cmult_conj (hg l hl).2) (by simpa only [mul_neg, abs_neg] using hM) (by simpa only [mul_neg, abs_neg] using hM')
    refine ⟨?_, ?_⟩
    · simpa only [mul_neg, sub_neg_eq_add] using this.1
    · have e : ∀ l, F l * -G' l + F' l * G l = F' l * G l - F l * G' l := fun l => by ring
      simpa only [e] using this.2

/-- C136: the same for foldin. -/
theorem c136_complex_foldin (a b : Tensor CFl) (wfa : a.WF) (wfb : b.WF) (ndx1 ndx2 : Int) (P Q R S : List Nat)
    (L : Nat) (hda : a.dims = P ++ L :: Q) (hdb : b.dims = R ++ L :: S)
    (h1 : Spec.norm a.dims.length ndx1 = some P.length) (h2 : Spec.norm b.dims.length ndx2 = some R.length)
    (hne : ¬ (a.dims.length = 1 ∧ b.dims.length = 1))
    (res : Res (Tensor CFl)) (hr : CFoldin a ndx1 b ndx2 res) (u v : ℤ) (hu : -1074 ≤ u + v) (hv : u + v ≤ 971) :
    ∃ c : Tensor CFl, res = .ok c ∧ c.WF ∧ c.dims = R ++ (P ++ (Q ++ S)) ∧
      ∀ p q r s, InB p P → InB q Q → InB r R → InB s S → ∀ (f g : Nat → CFl) (F F' G G' : Nat → ℤ),
        (∀ l < L, elem a.dims a.data (p ++ l :: q) = some (f l) ∧ CIsMult u (f l) (F l) (F' l)) →
        (∀ l < L, elem b.dims b.data (r ++ l :: s) = some (g l) ∧ CIsMult v (g l) (G l) (G' l)) →
        ∑ l ∈ Finset.range L, (|F l * G l| + |F' l * G' l|) < 2 ^ 53 →
        ∑ l ∈ Finset.range L, (|F l * G' l| + |F' l * G l|) < 2 ^ 53 →
        ∃ z, elem c.dims c.data (r ++ (p ++ (q ++ s))) = some z ∧
          CIsMult (u + v) z (∑ l ∈ Finset.range L, (F l * G l - F' l * G' l))
            (∑ l ∈ Finset.range L, (F l * G' l + F' l * G l)) := by
  obtain ⟨t, ht, wft, hdt, hel⟩ :=
    (c21_foldin_partial (vars a) (vars b) (vars_wf wfa) (vars_wf wfb) ndx1 ndx2 P Q R S L L hda hdb h1 h2 hne).1 rfl
  unfold CFoldin at hr
  rw [ht] at hr
  cases res with
  | abort => exact hr.elim
  | ub => exact hr.elim
  | ok c =>
    obtain ⟨hd, hc⟩ := hr
    refine ⟨c, rfl, result_wf hd hc wft, hd.trans hdt, ?_⟩
    intro p q r s hp hq hr hs f g F F' G G' hf hg hM hM'
    obtain ⟨z, hz, hcz⟩ := result_elem hd hc (hel p q r s hp hq hr hs _ _ (fun l hl => vars_elem (hf l hl).1)
      (fun l hl => vars_elem (hg l hl).1))
    rw [formal_pairs] at hcz
    exact ⟨z, hz, ccomputes_mult hu hv hcz (fun l hl => (hf l hl).2) (fun l hl => (hg l hl).2) hM hM'⟩

/-- C136: the product of two complex matrices. -/
theorem c136_complex_mmult (a b : Tensor CFl) (m n p : Nat) (u v : ℤ) (hu : -1074 ≤ u + v) (hv : u + v ≤ 971)
    (A A' B B' : Nat → Nat → ℤ) (ha : CIsMatrix u a m n A A') (hb : CIsMatrix v b n p B B') (hn : n ≠ 0)
    (hM : ∀ i j, i < m → j < p → ∑ l ∈ Finset.range n, (|A i l * B l j| + |A' i l * B' l j|) < 2 ^ 53)
    (hM' : ∀ i j, i < m → j < p → ∑ l ∈ Finset.range n, (|A i l * B' l j| + |A' i l * B l j|) < 2 ^ 53)
    (res : Res (Tensor CFl)) (hr : CMmult a b res) :
    ∃ c : Tensor CFl, res = .ok c ∧ CIsMatrix (u + v) c m p
      (fun i j => ∑ l ∈ Finset.range n, (A i l * B l j - A' i l * B' l j))
      (fun i j => ∑ l ∈ Finset.range n, (A i l * B' l j + A' i l * B l j)) := by
  obtain ⟨wfa, hda, hea⟩ := ha
  obtain ⟨wfb, hdb, heb⟩ := hb
  obtain ⟨c, e, wf, hd, hel⟩ := c136_complex_fold a b wfa wfb (-1) 0 [m] [] [] [p] n hda hdb
    (by rw [hda]; simp [Spec.norm]) (by rw [hdb]; simp [Spec.norm]) hn res hr u v hu hv
  refine ⟨c, e, wf, hd, ?_⟩
  intro i j hi hj
  have fa : ∀ l, ∃ z, l < n → elem a.dims a.data [i, l] = some z ∧ CIsMult u z (A i l) (A' i l) := by
    intro l
    by_cases hl : l < n
    · obtain ⟨z, hz⟩ := hea i l hi hl
      exact ⟨z, fun _ => hz⟩
    · exact ⟨⟨0, 0⟩, fun h => absurd h hl⟩
  have fb : ∀ l, ∃ z, l < n → elem b.dims b.data [l, j] = some z ∧ CIsMult v z (B l j) (B' l j) := by
    intro l
    by_cases hl : l < n
    · obtain ⟨z, hz⟩ := heb l j hl hj
      exact ⟨z, fun _ => hz⟩
    · exact ⟨⟨0, 0⟩, fun h => absurd h hl⟩
  choose f hf using fa
  choose g hg using fb
  have := hel [i] [] [] [j] (by simp [hi]) trivial trivial (by simp [hj]) f g (fun l => A i l) (fun l => A' i l)
    (fun l => B l j) (fun l => B' l j) hf hg (hM i j hi hj) (hM' i j hi hj)
  simpa [outIdx] using this

/-- The square of the matrix of 1 + 2 i. -/
example : ∃ r c, CMmult ⟨[1, 1], [⟨fin (1 : ℤ), fin (2 : ℤ)⟩]⟩ ⟨[1, 1], [⟨fin (1 : ℤ), fin (2 : ℤ)⟩]⟩ r ∧ r = .ok c ∧
    CIsMatrix 0 c 1 1 (fun _ _ => -3) (fun _ _ => 4) := by
  have wf : (⟨[1, 1], [⟨fin (1 : ℤ), fin (2 : ℤ)⟩]⟩ : Tensor CFl).WF := rfl
  have h : CIsMatrix 0 ⟨[1, 1], [⟨fin (1 : ℤ), fin (2 : ℤ)⟩]⟩ 1 1 (fun _ _ => 1) (fun _ _ => 2) := by
    refine ⟨wf, rfl, ?_⟩
    intro i j hi hj
    obtain rfl : i = 0 := by omega
    obtain rfl : j = 0 := by omega
    exact ⟨_, rfl, mult_int (k := 1) (by norm_num), mult_int (k := 2) (by norm_num)⟩
  obtain ⟨r, hr⟩ := c102_exists ⟨[1, 1], [⟨fin (1 : ℤ), fin (2 : ℤ)⟩]⟩ ⟨[1, 1], [⟨fin (1 : ℤ), fin (2 : ℤ)⟩]⟩ wf wf (-1) 0
  obtain ⟨c, e, hc⟩ := c136_complex_mmult _ _ 1 1 1 0 0 (by norm_num) (by norm_num) _ _ _ _ h h one_ne_zero
    (by intro i j _ _; norm_num) (by intro i j _ _; norm_num) r hr
  refine ⟨r, c, hr, e, ?_⟩
  norm_num at hc
  exact hc

/-- foldin of the matrix of 1 + 2 i with itself. -/
example (r : Res (Tensor CFl)) (hr : CFoldin ⟨[1, 1], [⟨fin (1 : ℤ), fin (2 : ℤ)⟩]⟩ 0
      ⟨[1, 1], [⟨fin (1 : ℤ), fin (2 : ℤ)⟩]⟩ 0 r) :
    ∃ c : Tensor CFl, r = .ok c ∧ ∃ z, elem c.dims c.data [0, 0] = some z ∧ CIsMult 0 z (-3) 4 := by
  have wf : (⟨[1, 1], [⟨fin (1 : ℤ), fin (2 : ℤ)⟩]⟩ : Tensor CFl).WF := rfl
  obtain ⟨c, rfl, -, hd, hel⟩ := c136_complex_foldin _ _ wf wf 0 0 [] [1] [] [1] 1 rfl rfl rfl rfl (by simp) r hr 0 0
    (by norm_num) (by norm_num)
  refine ⟨c, rfl, ?_⟩
  have h : ∀ l < 1, elem [1, 1] [(⟨fin (1 : ℤ), fin (2 : ℤ)⟩ : CFl)] ([] ++ l :: [0]) = some ⟨fin (1 : ℤ), fin (2 : ℤ)⟩ ∧
      CIsMult 0 ⟨fin (1 : ℤ), fin (2 : ℤ)⟩ 1 2 := by
    intro l hl
    obtain rfl : l = 0 := by omega
    exact ⟨rfl, mult_int (by norm_num), mult_int (by norm_num)⟩
  have := hel [] [0] [] [0] trivial (by simp) trivial (by simp) (fun _ => ⟨fin (1 : ℤ), fin (2 : ℤ)⟩)
    (fun _ => ⟨fin (1 : ℤ), fin (2 : ℤ)⟩) (fun _ => 1) (fun _ => 2) (fun _ => 1) (fun _ => 2) h h (by norm_num) (by norm_num)
  norm_num at this
  exact this

/-- foldc of 1 + 2 i with itself. -/
example : ∃ r : Res (Tensor CFl), CFoldc ⟨[1], [⟨fin (1 : ℤ), fin (2 : ℤ)⟩]⟩ 0 ⟨[1], [⟨fin (1 : ℤ), fin (2 : ℤ)⟩]⟩ 0 r ∧
    ∃ c, r = .ok c ∧ ∃ z, elem c.dims c.data [0] = some z ∧ CIsMult 0 z 5 0 := by
  have wf : (⟨[1], [⟨fin (1 : ℤ), fin (2 : ℤ)⟩]⟩ : Tensor CFl).WF := rfl
  obtain ⟨r, hr⟩ := c102_exists ⟨[1], ([⟨fin (1 : ℤ), fin (2 : ℤ)⟩] : List CFl).map CFl.conj⟩
    ⟨[1], [⟨fin (1 : ℤ), fin (2 : ℤ)⟩]⟩ rfl wf 0 0
  have hr := (cfoldc_iff ⟨[1], [⟨fin (1 : ℤ), fin (2 : ℤ)⟩]⟩ ⟨[1], [⟨fin (1 : ℤ), fin (2 : ℤ)⟩]⟩ wf wf 0 0 r).2 hr
  refine ⟨r, hr, ?_⟩
  obtain ⟨c, rfl, -, hd, hel⟩ := c136_complex_foldc _ _ wf wf 0 0 [] [] [] [] 1 rfl rfl rfl rfl one_ne_zero r hr 0 0
    (by norm_num) (by norm_num)
  refine ⟨c, rfl, ?_⟩
  have h : ∀ l < 1, elem [1] [(⟨fin (1 : ℤ), fin (2 : ℤ)⟩ : CFl)] ([] ++ l :: []) = some ⟨fin (1 : ℤ), fin (2 : ℤ)⟩ ∧
      CIsMult 0 ⟨fin (1 : ℤ), fin (2 : ℤ)⟩ 1 2 := by
    intro l hl
    obtain rfl : l = 0 := by omega
    exact ⟨rfl, mult_int (by norm_num), mult_int (by norm_num)⟩
  have := hel [] [] [] [] trivial trivial trivial trivial (fun _ => ⟨fin (1 : ℤ), fin (2 : ℤ)⟩)
    (fun _ => ⟨fin (1 : ℤ), fin (2 : ℤ)⟩) (fun _ => 1) (fun _ => 2) (fun _ => 1) (fun _ => 2) h h (by norm_num) (by norm_num)
  norm_num [outIdx] at this
  exact this

/-- The scalar product of 1 + 2 i with itself. -/
example [Recover] (r : Res CFl)
    (hr : Fused.CScprod ⟨[1], [⟨fin (1 : ℤ), fin (2 : ℤ)⟩]⟩ ⟨[1], [⟨fin (1 : ℤ), fin (2 : ℤ)⟩]⟩ r) :
    ∃ s, r = .ok s ∧ CIsMult 0 s 5 0 := by
  have h : ∀ l < 1, ([⟨fin (1 : ℤ), fin (2 : ℤ)⟩] : List CFl)[l]? = some ⟨fin (1 : ℤ), fin (2 : ℤ)⟩ ∧
      CIsMult 0 ⟨fin (1 : ℤ), fin (2 : ℤ)⟩ 1 2 := by
    intro l hl
    obtain rfl : l = 0 := by omega
    exact ⟨rfl, mult_int (by norm_num), mult_int (by norm_num)⟩
  obtain ⟨s, h, h'⟩ := c136_complex_scprod ⟨[1], [⟨fin (1 : ℤ), fin (2 : ℤ)⟩]⟩
    ⟨[1], [⟨fin (1 : ℤ), fin (2 : ℤ)⟩]⟩ rfl 0 0 (by norm_num) (by norm_num) (fun _ => ⟨fin (1 : ℤ), fin (2 : ℤ)⟩)
    (fun _ => ⟨fin (1 : ℤ), fin (2 : ℤ)⟩) (fun _ => 1) (fun _ => 2) (fun _ => 1) (fun _ => 2) h h (by norm_num) (by norm_num) r hr
  refine ⟨s, h, ?_⟩
  norm_num at h'
  exact h'

/-- The sum of 1 + 2 i and 3 - i, and the trace of the matrix of 1 + 2 i. -/
example : CIsMult 0 (sumAll (⟨[2], [⟨fin (1 : ℤ), fin (2 : ℤ)⟩, ⟨fin (3 : ℤ), fin (-1 : ℤ)⟩]⟩ : Tensor CFl)) 4 1 ∧
    ∃ s, trace (⟨[1, 1], [⟨fin (1 : ℤ), fin (2 : ℤ)⟩]⟩ : Tensor CFl) = .ok s ∧ CIsMult 0 s 1 2 := by
  refine ⟨c136_complex_sum ⟨[2], [⟨fin (1 : ℤ), fin (2 : ℤ)⟩, ⟨fin (3 : ℤ), fin (-1 : ℤ)⟩]⟩ 0 (by norm_num) (by norm_num)
    [1, 3] [2, -1]
    (.cons (mult_int (k := 1) (by norm_num)) (.cons (mult_int (k := 3) (by norm_num)) .nil))
    (.cons (mult_int (k := 2) (by norm_num)) (.cons (mult_int (k := -1) (by norm_num)) .nil)) (by norm_num) (by norm_num), ?_⟩
  obtain ⟨s, h, h'⟩ := c136_complex_trace ⟨[1, 1], [⟨fin (1 : ℤ), fin (2 : ℤ)⟩]⟩ rfl 1 1 rfl 0 (by norm_num) (by norm_num)
    (fun _ => 1) (fun _ => 2) (by
      intro i hi
      obtain rfl : i = 0 := by omega
      exact ⟨_, rfl, mult_int (by norm_num), mult_int (by norm_num)⟩) (by norm_num) (by norm_num)
  refine ⟨s, h, ?_⟩
  norm_num at h'
  exact h'

end

end Verif.Exact
