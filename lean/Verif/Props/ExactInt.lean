import Verif.Spec.Exact
import Verif.Props.GemmCFloat
import Verif.Props.Fused
import Verif.Props.SumFloat
/-
C136: sums of products of integers, and of multiples of powers of two, are exact.
-/
namespace Verif.Exact

open Verif Verif.Spec Fl Rounding Tensor GemmFl GemmFl.Spec Exact.Spec

/-- The multiples which are doubles. -/
theorem double_mult {u k : ℤ} (h1 : -1074 ≤ u) (h2 : u ≤ 971) (hk : |k| < 2 ^ 53) : IsDouble (k * (2 : ℝ) ^ u) :=
  ⟨k, u, hk, h1, h2, rfl⟩

theorem double_of {u k : ℤ} {x : ℝ} (h1 : -1074 ≤ u) (h2 : u ≤ 971) (e : x = k * (2 : ℝ) ^ u)
    (h : |x| < 2 ^ 53 * (2 : ℝ) ^ u) : IsDouble x := by
  subst e
  refine double_mult h1 h2 ?_
  rw [abs_mul, abs_of_pos (two_zpow_pos u)] at h
  have := lt_of_mul_lt_mul_right h (two_zpow_pos u).le
  exact_mod_cast this

/-- The exact sum of multiples is a multiple. -/
theorem exact_mult {u : ℤ} {l : List (Fl × Fl)} (h : ∀ p ∈ l, ∃ k : ℤ, p.1.val * p.2.val = k * (2 : ℝ) ^ u) :
    ∃ k : ℤ, exact l = k * (2 : ℝ) ^ u := by
  induction l with
  | nil => exact ⟨0, by simp [exact]⟩
  | cons p l ih =>
    obtain ⟨k, hk⟩ := ih fun q hq => h q (List.mem_cons_of_mem _ hq)
    obtain ⟨m, hm⟩ := h p (by simp)
    refine ⟨m + k, ?_⟩
    have e : exact (p :: l) = p.1.val * p.2.val + exact l := by simp [exact]
    rw [e, hm, hk]
    push_cast
    ring

section
variable [Rounding]

/-- The sum of products which are multiples of a power of two is exact in any order, if it has at most 53 digits. -/
theorem sums_exact {u : ℤ} (hu1 : -1074 ≤ u) (hu2 : u ≤ 971) {l : List (Fl × Fl)} {s : Fl} (h : Sums l s)
    (hp : ∀ p ∈ l, p.1.Finite ∧ p.2.Finite ∧ ∃ k : ℤ, p.1.val * p.2.val = k * (2 : ℝ) ^ u)
    (hM : GemmFl.size l < 2 ^ 53 * (2 : ℝ) ^ u) : s.Finite ∧ s.val = exact l := by
  have hd : ∀ l : List (Fl × Fl), (∀ p ∈ l, p.1.Finite ∧ p.2.Finite ∧ ∃ k : ℤ, p.1.val * p.2.val = k * (2 : ℝ) ^ u) →
      GemmFl.size l < 2 ^ 53 * (2 : ℝ) ^ u → IsDouble (exact l) := by
    intro l hp hM
    obtain ⟨k, hk⟩ := exact_mult fun p h => (hp p h).2.2
    exact double_of hu1 hu2 hk (lt_of_le_of_lt (exact_le l) hM)
  induction h with
  | zero => exact ⟨isDouble_zero, by simp [exact]; rfl⟩
  | prod x y =>
    obtain ⟨hx, hy, -⟩ := hp (x, y) (by simp)
    have d := hd _ hp hM
    have e1 : exact [(x, y)] = x.val * y.val := by simp [exact]
    rw [e1] at d ⊢
    have hr := rnd_exact (.inl d)
    obtain ⟨f, e⟩ := mul_finite hx hy (by rw [hr]; exact d.lt)
    exact ⟨f, e.trans hr⟩
  | @add l l' s s' h1 h2 i1 i2 =>
    have e1 : exact (l ++ l') = exact l + exact l' := by simp [exact]
    have e2 : GemmFl.size (l ++ l') = GemmFl.size l + GemmFl.size l' := by simp [GemmFl.size]
    have d := hd _ hp hM
    have n1 := size_nonneg l
    have n2 := size_nonneg l'
    rw [e2] at hM
    obtain ⟨f1, v1⟩ := i1 (fun p h => hp p (List.mem_append_left _ h)) (by linarith)
    obtain ⟨f2, v2⟩ := i2 (fun p h => hp p (List.mem_append_right _ h)) (by linarith)
    rw [e1] at d ⊢
    have hr := rnd_exact (.inl d)
    obtain ⟨f, e⟩ := add_finite f1 f2 (by rw [v1, v2, hr]; exact d.lt)
    rw [v1, v2] at e
    exact ⟨f, e.trans hr⟩
  | @fma l s x y h1 i1 =>
    have e1 : exact ((x, y) :: l) = x.val * y.val + exact l := by simp [exact]
    have e2 : GemmFl.size ((x, y) :: l) = |x.val * y.val| + GemmFl.size l := by simp [GemmFl.size]
    have d := hd _ hp hM
    have n1 := abs_nonneg (x.val * y.val)
    rw [e2] at hM
    obtain ⟨hx, hy, -⟩ := hp (x, y) (by simp)
    obtain ⟨f1, v1⟩ := i1 (fun p h => hp p (List.mem_cons_of_mem _ h)) (by linarith)
    rw [e1] at d ⊢
    have hr := rnd_exact (.inl d)
    obtain ⟨f, e⟩ := fma_finite hx hy f1 (by rw [v1, hr]; exact d.lt)
    rw [v1] at e
    exact ⟨f, e.trans hr⟩
  | @skip l s x y h0 h1 i1 =>
    have z : x.val * y.val = 0 := by
      rcases h0 with (rfl | rfl) | (rfl | rfl) <;> simp [val]
    have e1 : exact ((x, y) :: l) = exact l := by simp [exact, z]
    have e2 : GemmFl.size ((x, y) :: l) = GemmFl.size l := by
      rw [GemmFl.size, List.map_cons, List.sum_cons, z, abs_zero, zero_add]; rfl
    rw [e2] at hM
    rw [e1]
    exact i1 (fun p h => hp p (List.mem_cons_of_mem _ h)) hM
  | @perm l l' s p h1 i1 =>
    have e1 : exact l = exact l' := (p.map _).sum_eq
    have e2 : GemmFl.size l = GemmFl.size l' := (p.map _).sum_eq
    rw [← e2] at hM
    rw [← e1]
    exact i1 (fun q hq => hp q (p.mem_iff.1 hq)) hM
  | @neg l s h1 i1 =>
    have e1 : exact (l.map fun p => (-p.1, p.2)) = -exact l := by
      clear hp hM h1 i1
      induction l with
      | nil => simp [exact]
      | cons p l ih =>
        simp only [exact, List.map_cons, List.sum_cons, val_neg] at ih ⊢
        rw [ih]
        ring
    have e2 : GemmFl.size (l.map fun p => (-p.1, p.2)) = GemmFl.size l := by
      simp only [GemmFl.size, List.map_map]
      congr 1
      refine List.map_congr_left fun p _ => ?_
      simp [val_neg]
    obtain ⟨f1, v1⟩ := i1 (by
      intro q hq
      obtain ⟨p, h, rfl⟩ := List.mem_map.1 hq
      obtain ⟨g1, g2, k, hk⟩ := hp p h
      refine ⟨(negate_finite g1).1, g2, -k, ?_⟩
      rw [val_neg, neg_mul, hk]
      push_cast
      ring) (by rw [e2]; exact hM)
    refine ⟨(negate_finite f1).1, ?_⟩
    rw [val_neg, v1, e1, neg_neg]
  | @sign l s x y h1 i1 =>
    have e1 : exact ((-x, -y) :: l) = exact ((x, y) :: l) := by simp [exact, val_neg]
    have e2 : GemmFl.size ((-x, -y) :: l) = GemmFl.size ((x, y) :: l) := by simp [GemmFl.size, val_neg]
    rw [e1, e2] at i1
    refine i1 ?_ hM
    intro p h
    rcases List.mem_cons.1 h with rfl | h
    · obtain ⟨g1, g2, k, hk⟩ := hp (x, y) (by simp)
      refine ⟨(negate_finite g1).1, (negate_finite g2).1, k, ?_⟩
      rw [val_neg, val_neg, neg_mul_neg]
      exact hk
    · exact hp p (List.mem_cons_of_mem _ h)
  | @flip l s s' h1 h0 h0' i1 =>
    obtain ⟨f1, v1⟩ := i1 hp hM
    refine ⟨h0'.finite.1, ?_⟩
    rw [h0'.finite.2, ← h0.finite.2]
    exact v1

/-- The same for formal sums. -/
theorem computes_exact {u : ℤ} (hu1 : -1074 ≤ u) (hu2 : u ≤ 971) {l : List (Fl × Fl)} {s : Fl} (h : Computes (formal l) s)
    (hp : ∀ p ∈ l, p.1.Finite ∧ p.2.Finite ∧ ∃ k : ℤ, p.1.val * p.2.val = k * (2 : ℝ) ^ u)
    (hM : GemmFl.size l < 2 ^ 53 * (2 : ℝ) ^ u) : s.Finite ∧ s.val = exact l := by
  obtain ⟨l', e, hs⟩ := h
  have e1 : exact l = exact l' := by
    have := congrArg (MvPolynomial.eval₂ (Nat.castRingHom ℝ) val) e
    rwa [formal_eval, formal_eval] at this
  have e2 : GemmFl.size l = GemmFl.size l' := by
    have := congrArg (MvPolynomial.eval₂ (Nat.castRingHom ℝ) fun x => |val x|) e
    rw [formal_eval, formal_eval] at this
    simpa only [GemmFl.size, abs_mul] using this
  rw [e1]
  rw [e2] at hM
  refine sums_exact hu1 hu2 hs ?_ hM
  rintro ⟨x, y⟩ h
  rcases pair_mem e.symm h with hq | hq
  · exact hp _ hq
  · obtain ⟨a, b, k, hk⟩ := hp _ hq
    exact ⟨b, a, k, by rw [mul_comm]; exact hk⟩

omit [Rounding] in
/-- The product of two multiples. -/
theorem mult_mul {u v : ℤ} {x y : Fl} {k m : ℤ} (hx : IsMult u x k) (hy : IsMult v y m) :
    x.val * y.val = (k * m : ℤ) * (2 : ℝ) ^ (u + v) := by
  rw [hx.2, hy.2, zpow_add₀ (by norm_num)]
  push_cast
  ring

omit [Rounding] in
theorem abs_mult_mul {u v : ℤ} {x y : Fl} {k m : ℤ} (hx : IsMult u x k) (hy : IsMult v y m) :
    |x.val * y.val| = ((|k * m| : ℤ) : ℝ) * (2 : ℝ) ^ (u + v) := by
  rw [mult_mul hx hy, abs_mul, abs_of_pos (two_zpow_pos (u + v))]
  push_cast
  rfl

/-- An element of a contraction. -/
theorem computes_pairs {u v : ℤ} (h1 : -1074 ≤ u + v) (h2 : u + v ≤ 971) {L : Nat} {f g : Nat → Fl} {F G : Nat → ℤ} {s : Fl}
    (h : Computes (formal (pairs f g L)) s) (hf : ∀ l < L, IsMult u (f l) (F l)) (hg : ∀ l < L, IsMult v (g l) (G l))
    (hM : ∑ l ∈ Finset.range L, |F l * G l| < 2 ^ 53) : IsMult (u + v) s (∑ l ∈ Finset.range L, F l * G l) := by
  have := computes_exact h1 h2 h (by
    intro x hx
    obtain ⟨l, hl, rfl⟩ := List.mem_map.1 hx
    have hl := List.mem_range.1 hl
    exact ⟨(hf l hl).1, (hg l hl).1, _, mult_mul (hf l hl) (hg l hl)⟩) (by
    rw [size_pairs, Finset.sum_congr rfl fun l hl =>
      abs_mult_mul (hf l (Finset.mem_range.1 hl)) (hg l (Finset.mem_range.1 hl)), ← Finset.sum_mul]
    refine mul_lt_mul_of_pos_right ?_ (two_zpow_pos _)
    exact_mod_cast hM)
  refine ⟨this.1, ?_⟩
  rw [this.2, exact_pairs, Finset.sum_congr rfl fun l hl =>
      mult_mul (hf l (Finset.mem_range.1 hl)) (hg l (Finset.mem_range.1 hl)), ← Finset.sum_mul]
  push_cast
  rfl

/-- C136: fold of doubles which are integers, or multiples of powers of two, is exact, whatever the order of the sums is, if
the sum of the absolute values of the products has at most 53 digits. -/
theorem c136_fold (a b : Tensor Fl) (wfa : a.WF) (wfb : b.WF) (ndx1 ndx2 : Int) (P Q R S : List Nat)
    (L : Nat) (hda : a.dims = P ++ L :: Q) (hdb : b.dims = R ++ L :: S)
    (h1 : Spec.norm a.dims.length ndx1 = some P.length) (h2 : Spec.norm b.dims.length ndx2 = some R.length) (hL : L ≠ 0)
    (res : Res (Tensor Fl)) (hr : GemmFl.Fold a ndx1 b ndx2 res) (u v : ℤ) (hu : -1074 ≤ u + v) (hv : u + v ≤ 971) :
    ∃ c : Tensor Fl, res = .ok c ∧ c.WF ∧ c.dims = outDims (P ++ Q ++ (R ++ S)) ∧
      ∀ p q r s, InB p P → InB q Q → InB r R → InB s S → ∀ (f g : Nat → Fl) (F G : Nat → ℤ),
        (∀ l < L, elem a.dims a.data (p ++ l :: q) = some (f l) ∧ IsMult u (f l) (F l)) →
        (∀ l < L, elem b.dims b.data (r ++ l :: s) = some (g l) ∧ IsMult v (g l) (G l)) →
        ∑ l ∈ Finset.range L, |F l * G l| < 2 ^ 53 →
        ∃ z, elem c.dims c.data (outIdx (p ++ q ++ (r ++ s))) = some z ∧
          IsMult (u + v) z (∑ l ∈ Finset.range L, F l * G l) := by
  obtain ⟨t, ht, wft, hdt, hel⟩ :=
    (c19_fold (vars a) (vars b) (vars_wf wfa) (vars_wf wfb) ndx1 ndx2 P Q R S L L hda hdb h1 h2).1 rfl hL
  unfold GemmFl.Fold at hr
  rw [ht] at hr
  cases res with
  | abort => exact hr.elim
  | ub => exact hr.elim
  | ok c =>
    obtain ⟨hd, hc⟩ := hr
    refine ⟨c, rfl, result_wf hd hc wft, hd.trans hdt, ?_⟩
    intro p q r s hp hq hr hs f g F G hf hg hM
    obtain ⟨z, hz, hcz⟩ := result_elem hd hc (hel p q r s hp hq hr hs _ _ (fun l hl => vars_elem (hf l hl).1)
      (fun l hl => vars_elem (hg l hl).1))
    rw [formal_pairs] at hcz
    exact ⟨z, hz, computes_pairs hu hv hcz (fun l hl => (hf l hl).2) (fun l hl => (hg l hl).2) hM⟩

/-- C136: the same for foldin. -/
theorem c136_foldin (a b : Tensor Fl) (wfa : a.WF) (wfb : b.WF) (ndx1 ndx2 : Int) (P Q R S : List Nat)
    (L : Nat) (hda : a.dims = P ++ L :: Q) (hdb : b.dims = R ++ L :: S)
    (h1 : Spec.norm a.dims.length ndx1 = some P.length) (h2 : Spec.norm b.dims.length ndx2 = some R.length)
    (hne : ¬ (a.dims.length = 1 ∧ b.dims.length = 1))
    (res : Res (Tensor Fl)) (hr : Foldin a ndx1 b ndx2 res) (u v : ℤ) (hu : -1074 ≤ u + v) (hv : u + v ≤ 971) :
    ∃ c : Tensor Fl, res = .ok c ∧ c.WF ∧ c.dims = R ++ (P ++ (Q ++ S)) ∧
      ∀ p q r s, InB p P → InB q Q → InB r R → InB s S → ∀ (f g : Nat → Fl) (F G : Nat → ℤ),
        (∀ l < L, elem a.dims a.data (p ++ l :: q) = some (f l) ∧ IsMult u (f l) (F l)) →
        (∀ l < L, elem b.dims b.data (r ++ l :: s) = some (g l) ∧ IsMult v (g l) (G l)) →
        ∑ l ∈ Finset.range L, |F l * G l| < 2 ^ 53 →
        ∃ z, elem c.dims c.data (r ++ (p ++ (q ++ s))) = some z ∧ IsMult (u + v) z (∑ l ∈ Finset.range L, F l * G l) := by
  obtain ⟨t, ht, wft, hdt, hel⟩ :=
    (c21_foldin_partial (vars a) (vars b) (vars_wf wfa) (vars_wf wfb) ndx1 ndx2 P Q R S L L hda hdb h1 h2 hne).1 rfl
  unfold Foldin at hr
  rw [ht] at hr
  cases res with
  | abort => exact hr.elim
  | ub => exact hr.elim
  | ok c =>
    obtain ⟨hd, hc⟩ := hr
    refine ⟨c, rfl, result_wf hd hc wft, hd.trans hdt, ?_⟩
    intro p q r s hp hq hr hs f g F G hf hg hM
    obtain ⟨z, hz, hcz⟩ := result_elem hd hc (hel p q r s hp hq hr hs _ _ (fun l hl => vars_elem (hf l hl).1)
      (fun l hl => vars_elem (hg l hl).1))
    rw [formal_pairs] at hcz
    exact ⟨z, hz, computes_pairs hu hv hcz (fun l hl => (hf l hl).2) (fun l hl => (hg l hl).2) hM⟩

/-- C136: the product of two matrices of integers, or of multiples of powers of two. -/
theorem c136_mmult (a b : Tensor Fl) (m n p : Nat) (u v : ℤ) (hu : -1074 ≤ u + v) (hv : u + v ≤ 971)
    (A B : Nat → Nat → ℤ) (ha : IsMatrix u a m n A) (hb : IsMatrix v b n p B) (hn : n ≠ 0)
    (hM : ∀ i j, i < m → j < p → ∑ l ∈ Finset.range n, |A i l * B l j| < 2 ^ 53)
    (res : Res (Tensor Fl)) (hr : Mmult a b res) :
    ∃ c : Tensor Fl, res = .ok c ∧ IsMatrix (u + v) c m p fun i j => ∑ l ∈ Finset.range n, A i l * B l j := by
  obtain ⟨wfa, hda, hea⟩ := ha
  obtain ⟨wfb, hdb, heb⟩ := hb
  obtain ⟨c, e, wf, hd, hel⟩ := c136_fold a b wfa wfb (-1) 0 [m] [] [] [p] n hda hdb
    (by rw [hda]; simp [Spec.norm]) (by rw [hdb]; simp [Spec.norm]) hn res hr u v hu hv
  refine ⟨c, e, wf, hd, ?_⟩
  intro i j hi hj
  have fa : ∀ l, ∃ z, l < n → elem a.dims a.data [i, l] = some z ∧ IsMult u z (A i l) := by
    intro l
    by_cases hl : l < n
    · obtain ⟨z, hz⟩ := hea i l hi hl
      exact ⟨z, fun _ => hz⟩
    · exact ⟨0, fun h => absurd h hl⟩
  have fb : ∀ l, ∃ z, l < n → elem b.dims b.data [l, j] = some z ∧ IsMult v z (B l j) := by
    intro l
    by_cases hl : l < n
    · obtain ⟨z, hz⟩ := heb l j hl hj
      exact ⟨z, fun _ => hz⟩
    · exact ⟨0, fun h => absurd h hl⟩
  choose f hf using fa
  choose g hg using fb
  have := hel [i] [] [] [j] (by simp [hi]) trivial trivial (by simp [hj]) f g (fun l => A i l) (fun l => B l j) hf hg
    (hM i j hi hj)
  simpa [outIdx] using this

/-- C136: products of matrices of integers may be computed in any order: (a b) c and a (b c) are the same numbers. -/
theorem c136_assoc (a b c : Tensor Fl) (m n p q : Nat) (A B C : Nat → Nat → ℤ) (ha : IsMatrix 0 a m n A)
    (hb : IsMatrix 0 b n p B) (hc : IsMatrix 0 c p q C) (hn : n ≠ 0) (hp : p ≠ 0)
    (hM : ∀ i j, i < m → j < q → ∑ l ∈ Finset.range n, ∑ k ∈ Finset.range p, |A i l * B l k * C k j| < 2 ^ 53)
    (hAB : ∀ i j, i < m → j < p → ∑ l ∈ Finset.range n, |A i l * B l j| < 2 ^ 53)
    (hBC : ∀ i j, i < n → j < q → ∑ k ∈ Finset.range p, |B i k * C k j| < 2 ^ 53)
    (ab bc x y : Res (Tensor Fl)) (h1 : Mmult a b ab) (h2 : Mmult b c bc) (hx : ∀ t, ab = .ok t → Mmult t c x)
    (hy : ∀ t, bc = .ok t → Mmult a t y) :
    ∃ s t : Tensor Fl, x = .ok s ∧ y = .ok t ∧ s.dims = t.dims ∧ ∀ i j, i < m → j < q → ∃ z w,
      elem s.dims s.data [i, j] = some z ∧ elem t.dims t.data [i, j] = some w ∧ z.Finite ∧ w.Finite ∧ z.val = w.val := by
  obtain ⟨ab', rfl, hab⟩ := c136_mmult a b m n p 0 0 (by norm_num) (by norm_num) A B ha hb hn hAB ab h1
  obtain ⟨bc', rfl, hbc⟩ := c136_mmult b c n p q 0 0 (by norm_num) (by norm_num) B C hb hc hp hBC bc h2
  obtain ⟨s, rfl, hs⟩ := c136_mmult ab' c m p q (0 + 0) 0 (by norm_num) (by norm_num) _ C hab hc hp (by
    intro i j hi hj
    refine lt_of_le_of_lt ?_ (hM i j hi hj)
    rw [Finset.sum_comm]
    refine Finset.sum_le_sum fun k _ => ?_
    rw [Finset.sum_mul]
    exact Finset.abs_sum_le_sum_abs _ _) x (hx _ rfl)
  obtain ⟨t, rfl, ht⟩ := c136_mmult a bc' m n q 0 (0 + 0) (by norm_num) (by norm_num) A _ ha hbc hn (by
    intro i j hi hj
    refine lt_of_le_of_lt ?_ (hM i j hi hj)
    refine Finset.sum_le_sum fun k _ => ?_
    rw [Finset.mul_sum]
    refine (Finset.abs_sum_le_sum_abs _ _).trans (le_of_eq ?_)
    refine Finset.sum_congr rfl fun l _ => ?_
    rw [mul_assoc]) y (hy _ rfl)
  refine ⟨s, t, rfl, rfl, hs.2.1.trans ht.2.1.symm, ?_⟩
  intro i j hi hj
  obtain ⟨z, hz, fz, vz⟩ := hs.2.2 i j hi hj
  obtain ⟨w, hw, fw, vw⟩ := ht.2.2 i j hi hj
  refine ⟨z, w, hz, hw, fz, fw, ?_⟩
  rw [vz, vw]
  norm_num
  norm_cast
  simp only [Finset.sum_mul, Finset.mul_sum]
  rw [Finset.sum_comm]
  refine Finset.sum_congr rfl fun l _ => Finset.sum_congr rfl fun k _ => ?_
  rw [mul_assoc]

/-- C136: the scalar product, with fused operations or without. -/
theorem c136_scprod (a b : Tensor Fl) (u v : ℤ) (hu : -1074 ≤ u + v) (hv : u + v ≤ 971) (A B : List ℤ)
    (ha : List.Forall₂ (IsMult u) a.data A) (hb : List.Forall₂ (IsMult v) b.data B) (hl : A.length = B.length)
    (hM : (List.zipWith (fun x y => |x * y|) A B).sum < 2 ^ 53) (r : Res Fl) (hr : Fused.Scprod a b r) :
    ∃ s, r = .ok s ∧ IsMult (u + v) s (List.zipWith (· * ·) A B).sum := by
  have la := ha.length_eq
  have lb := hb.length_eq
  rw [Fused.Scprod, Fused.scprod_terms a b (by omega)] at hr
  cases r with
  | abort => exact hr.elim
  | ub => exact hr.elim
  | ok s =>
    refine ⟨s, rfl, ?_⟩
    have hs := Fused.dot_zero_sums hr
    have key : ∀ (x y : List Fl) (X Y : List ℤ), List.Forall₂ (IsMult u) x X → List.Forall₂ (IsMult v) y Y →
        X.length = Y.length → (∀ p ∈ x.zip y, p.1.Finite ∧ p.2.Finite ∧ ∃ k : ℤ, p.1.val * p.2.val = k * (2 : ℝ) ^ (u + v)) ∧
        GemmFl.size (x.zip y) = (((List.zipWith (fun x y => |x * y|) X Y).sum : ℤ) : ℝ) * (2 : ℝ) ^ (u + v) ∧
        exact (x.zip y) = (((List.zipWith (· * ·) X Y).sum : ℤ) : ℝ) * (2 : ℝ) ^ (u + v) := by
      intro x y X Y hx hy hl
      induction hx generalizing y Y with
      | nil =>
        simp [GemmFl.size, exact]
      | @cons x0 X0 x X h0 hx ih =>
        cases hy with
        | nil => simp at hl
        | @cons y0 Y0 y Y h0' hy =>
          obtain ⟨i1, i2, i3⟩ := ih y Y hy (by simpa using hl)
          refine ⟨?_, ?_, ?_⟩
          · intro p hp
            rw [List.zip_cons_cons] at hp
            rcases List.mem_cons.1 hp with rfl | hp
            · exact ⟨h0.1, h0'.1, _, mult_mul h0 h0'⟩
            · exact i1 p hp
          · rw [List.zip_cons_cons, List.zipWith_cons_cons, List.sum_cons]
            have e : GemmFl.size ((x0, y0) :: x.zip y) = |x0.val * y0.val| + GemmFl.size (x.zip y) := by simp [GemmFl.size]
            rw [e, i2, abs_mult_mul h0 h0']
            push_cast
            ring
          · rw [List.zip_cons_cons, List.zipWith_cons_cons, List.sum_cons]
            have e : exact ((x0, y0) :: x.zip y) = x0.val * y0.val + exact (x.zip y) := by simp [exact]
            rw [e, i3, mult_mul h0 h0']
            push_cast
            ring
    obtain ⟨k1, k2, k3⟩ := key _ _ _ _ ha hb hl
    obtain ⟨f, e⟩ := sums_exact hu hv hs k1 (by
      rw [k2]
      refine mul_lt_mul_of_pos_right ?_ (two_zpow_pos _)
      exact_mod_cast hM)
    exact ⟨f, e.trans k3⟩

omit [Rounding] in
/-- The number one. -/
theorem mult_one : IsMult 0 (fin 1) 1 := ⟨⟨1, 0, by norm_num, by norm_num, by norm_num, by norm_num⟩, by simp [val]⟩

/-- Sums, differences and products of two numbers. -/
theorem add_mult {u : ℤ} (h1 : -1074 ≤ u) (h2 : u ≤ 971) {x y : Fl} {k m : ℤ} (hx : IsMult u x k) (hy : IsMult u y m)
    (h : |k + m| < 2 ^ 53) : IsMult u (x + y) (k + m) := by
  have e : x.val + y.val = ((k + m : ℤ) : ℝ) * (2 : ℝ) ^ u := by
    rw [hx.2, hy.2]
    push_cast
    ring
  have d : IsDouble (x.val + y.val) := by rw [e]; exact double_mult h1 h2 h
  have hr := rnd_exact (.inl d)
  obtain ⟨f, v⟩ := add_finite hx.1 hy.1 (by rw [hr]; exact d.lt)
  exact ⟨f, by rw [v, hr, e]⟩

theorem sub_mult {u : ℤ} (h1 : -1074 ≤ u) (h2 : u ≤ 971) {x y : Fl} {k m : ℤ} (hx : IsMult u x k) (hy : IsMult u y m)
    (h : |k - m| < 2 ^ 53) : IsMult u (x - y) (k - m) := by
  have e : x.val - y.val = ((k - m : ℤ) : ℝ) * (2 : ℝ) ^ u := by
    rw [hx.2, hy.2]
    push_cast
    ring
  have d : IsDouble (x.val - y.val) := by rw [e]; exact double_mult h1 h2 h
  have hr := rnd_exact (.inl d)
  obtain ⟨f, v⟩ := sub_finite hx.1 hy.1 (by rw [hr]; exact d.lt)
  exact ⟨f, by rw [v, hr, e]⟩

theorem prod_mult {u v : ℤ} (h1 : -1074 ≤ u + v) (h2 : u + v ≤ 971) {x y : Fl} {k m : ℤ} (hx : IsMult u x k)
    (hy : IsMult v y m) (h : |k * m| < 2 ^ 53) : IsMult (u + v) (x * y) (k * m) := by
  have e := mult_mul hx hy
  have d : IsDouble (x.val * y.val) := by rw [e]; exact double_mult h1 h2 h
  have hr := rnd_exact (.inl d)
  obtain ⟨f, w⟩ := mul_finite hx.1 hy.1 (by rw [hr]; exact d.lt)
  exact ⟨f, by rw [w, hr, e]⟩

omit [Rounding] in
theorem forall₂_zipWith {u v w : ℤ} {f : Fl → Fl → Fl} {F : ℤ → ℤ → ℤ} {x y : List Fl} {X Y : List ℤ}
    (hx : List.Forall₂ (IsMult u) x X) (hy : List.Forall₂ (IsMult v) y Y)
    (h : ∀ a b k m, IsMult u a k → IsMult v b m → |F k m| < 2 ^ 53 → IsMult w (f a b) (F k m))
    (hM : ∀ k ∈ List.zipWith F X Y, |k| < 2 ^ 53) : List.Forall₂ (IsMult w) (List.zipWith f x y) (List.zipWith F X Y) := by
  induction hx generalizing y Y with
  | nil => simp
  | @cons x0 X0 x X h0 hx ih =>
    cases hy with
    | nil => simp
    | @cons y0 Y0 y Y h0' hy =>
      rw [List.zipWith_cons_cons] at hM
      exact .cons (h _ _ _ _ h0 h0' (hM _ (by simp))) (ih hy fun k hk => hM k (by simp [hk]))

/-- C136: a + b, a - b and a * b of tensors of integers, or of multiples of powers of two. -/
theorem c136_arith (a b : Tensor Fl) (wf : a.WF) (u v : ℤ) (A B : List ℤ) (ha : List.Forall₂ (IsMult u) a.data A)
    (hb : List.Forall₂ (IsMult v) b.data B) (hl : A.length = B.length) :
    (-1074 ≤ u → u ≤ 971 → v = u → (∀ k ∈ List.zipWith (· + ·) A B, |k| < 2 ^ 53) →
      ∃ c : Tensor Fl, binopTT (· + ·) a b = .ok c ∧ c.dims = a.dims ∧
        List.Forall₂ (IsMult u) c.data (List.zipWith (· + ·) A B)) ∧
    (-1074 ≤ u → u ≤ 971 → v = u → (∀ k ∈ List.zipWith (· - ·) A B, |k| < 2 ^ 53) →
      ∃ c : Tensor Fl, binopTT (· - ·) a b = .ok c ∧ c.dims = a.dims ∧
        List.Forall₂ (IsMult u) c.data (List.zipWith (· - ·) A B)) ∧
    (-1074 ≤ u + v → u + v ≤ 971 → (∀ k ∈ List.zipWith (· * ·) A B, |k| < 2 ^ 53) →
      ∃ c : Tensor Fl, binopTT (· * ·) a b = .ok c ∧ c.dims = a.dims ∧
        List.Forall₂ (IsMult (u + v)) c.data (List.zipWith (· * ·) A B)) := by
  have hl' : a.data.length = b.data.length := by rw [ha.length_eq, hb.length_eq, hl]
  refine ⟨?_, ?_, ?_⟩
  · rintro h1 h2 rfl hM
    exact ⟨_, binopTT_ok _ a b wf hl', rfl, forall₂_zipWith ha hb (fun _ _ _ _ hx hy h => add_mult h1 h2 hx hy h) hM⟩
  · rintro h1 h2 rfl hM
    exact ⟨_, binopTT_ok _ a b wf hl', rfl, forall₂_zipWith ha hb (fun _ _ _ _ hx hy h => sub_mult h1 h2 hx hy h) hM⟩
  · intro h1 h2 hM
    exact ⟨_, binopTT_ok _ a b wf hl', rfl, forall₂_zipWith ha hb (fun _ _ _ _ hx hy h => prod_mult h1 h2 hx hy h) hM⟩

theorem fold_mult {u : ℤ} (h1 : -1074 ≤ u) (h2 : u ≤ 971) {x : List Fl} {X : List ℤ} (hx : List.Forall₂ (IsMult u) x X)
    {s : Fl} {k : ℤ} (hs : IsMult u s k) (hM : |k| + (X.map fun k => |k|).sum < 2 ^ 53) :
    IsMult u (x.foldl (· + ·) s) (k + X.sum) := by
  induction hx generalizing s k with
  | nil => simpa using hs
  | @cons x0 X0 x X h0 hx ih =>
    rw [List.map_cons, List.sum_cons] at hM
    have hn : 0 ≤ (X.map fun k => |k|).sum := by
      apply List.sum_nonneg
      intro y hy
      obtain ⟨z, -, rfl⟩ := List.mem_map.1 hy
      exact abs_nonneg z
    have ht := abs_add_le k X0
    rw [List.foldl_cons, List.sum_cons, ← add_assoc]
    exact ih (add_mult h1 h2 hs h0 (by omega)) (by omega)

omit [Rounding] in
theorem mult_zero (u : ℤ) : IsMult u (0 : Fl) 0 := ⟨finite_zero, by simp [show (0 : Fl).val = 0 from rfl]⟩

/-- C136: the sum of all elements. -/
theorem c136_sum (t : Tensor Fl) (u : ℤ) (h1 : -1074 ≤ u) (h2 : u ≤ 971) (A : List ℤ) (ha : List.Forall₂ (IsMult u) t.data A)
    (hM : (A.map fun k => |k|).sum < 2 ^ 53) : IsMult u (sumAll t) A.sum := by
  have := fold_mult h1 h2 ha (mult_zero u) (by simpa using hM)
  rwa [zero_add] at this

/-- C136: the trace of a matrix. -/
theorem c136_trace (m : Tensor Fl) (r c : Nat) (u : ℤ) (h1 : -1074 ≤ u) (h2 : u ≤ 971) (A : Nat → Nat → ℤ)
    (h : IsMatrix u m r c A) (hM : ∑ i ∈ Finset.range (min r c), |A i i| < 2 ^ 53) :
    ∃ s, trace m = .ok s ∧ IsMult u s (∑ i ∈ Finset.range (min r c), A i i) := by
  obtain ⟨wf, hd, hel⟩ := h
  obtain ⟨g, hg⟩ := exists_isMat m wf r c hd
  refine ⟨_, trace_order hg, ?_⟩
  have key : ∀ n ≤ min r c, List.Forall₂ (IsMult u) ((List.range n).map fun i => g i i) ((List.range n).map fun i => A i i) := by
    intro n hn
    rw [List.forall₂_map_left_iff, List.forall₂_map_right_iff, List.forall₂_same]
    intro i hi
    have hi := List.mem_range.1 hi
    obtain ⟨z, hz, hm⟩ := hel i i (by omega) (by omega)
    have := hg.2.2 i i (by omega) (by omega)
    rw [hz] at this
    cases this
    exact hm
  have := fold_mult h1 h2 (key _ le_rfl) (mult_zero u) (by
    rw [List.map_map, abs_zero, zero_add]
    refine lt_of_le_of_lt (le_of_eq ?_) hM
    exact sum_range _ _)
  rw [zero_add] at this
  rwa [sum_range (fun i => A i i)] at this

/-- C136: the product of a sparse matrix and a tensor, with fused operations or without. -/
theorem c136_sparse (s : Sparse Fl) (t : Tensor Fl) (wf : t.WF)
    (hs : ValidCsr s.rows s.cols s.rowStart s.column s.data) (ds : List Nat) (hd : t.dims = s.cols :: ds)
    (r : Res (Tensor Fl)) (hr : Fused.SMmult s t r) (u v : ℤ) (hu : -1074 ≤ u + v) (hv : u + v ≤ 971) :
    ∃ w : Tensor Fl, r = .ok w ∧ w.WF ∧ w.dims = s.rows :: ds ∧
      ∀ i is, i < s.rows → InB is ds → ∀ row, Sparse.IsRow s i row → ∀ (g : Nat → Fl) (F G : Nat → ℤ),
        (∀ p ∈ row, elem t.dims t.data (p.1 :: is) = some (g p.1) ∧ IsMult u p.2 (F p.1) ∧ IsMult v (g p.1) (G p.1)) →
        (row.map fun p => |F p.1 * G p.1|).sum < 2 ^ 53 →
        ∃ z, elem w.dims w.data (i :: is) = some z ∧ IsMult (u + v) z (row.map fun p => F p.1 * G p.1).sum := by
  obtain ⟨U, e, wfU, hdU, hel⟩ := Sparse.c104_order (Fused.sterms s) (Fused.terms t) (by
    show (t.data.map Fused.Term.num).length = _
    rw [List.length_map]; exact wf) (Fused.valid_map _ hs) ds hd
  rw [Fused.SMmult, e] at hr
  cases r with
  | ok w =>
    obtain ⟨hdu, hE⟩ := hr
    refine ⟨w, rfl, ?_, by rw [hdu, hdU]; rfl, ?_⟩
    · show w.data.length = _
      rw [← hE.length_eq, hdu]
      exact wfU
    intro i is hi his row hrow g F G hg hM
    obtain ⟨rowT, hrowT, h⟩ := hel i is hi his
    cases (Fused.isRow_map Fused.Term.num hrow).unique hrowT
    have hT := h (fun j => .num (g j)) (by
      intro p hp
      obtain ⟨q, hq, rfl⟩ := List.mem_map.1 hp
      exact Fused.elem_map _ (hg q hq).1)
    obtain ⟨z, hz, hzE⟩ := Fused.forall₂_elem hE hT
    rw [hdu]
    refine ⟨z, hz, ?_⟩
    have e2 : List.foldl (fun x p => x + p.2 * (fun j => Fused.Term.num (g j)) p.1) 0
        (row.map fun p => (p.1, Fused.Term.num p.2)) = Fused.dot (row.map fun p => (p.2, g p.1)) 0 := by
      rw [Fused.dot, List.foldl_map, List.foldl_map]
    rw [e2] at hzE
    have hsum := Fused.dot_zero_sums hzE
    have sums : ∀ l : List (Nat × Fl), (∀ p ∈ l, IsMult u p.2 (F p.1) ∧ IsMult v (g p.1) (G p.1)) →
        GemmFl.size (l.map fun p => (p.2, g p.1)) = (((l.map fun p => |F p.1 * G p.1|).sum : ℤ) : ℝ) * (2 : ℝ) ^ (u + v) ∧
        exact (l.map fun p => (p.2, g p.1)) = (((l.map fun p => F p.1 * G p.1).sum : ℤ) : ℝ) * (2 : ℝ) ^ (u + v) := by
      intro l hl
      induction l with
      | nil => simp [GemmFl.size, exact]
      | cons p l ih =>
        obtain ⟨i1, i2⟩ := ih fun q hq => hl q (List.mem_cons_of_mem _ hq)
        obtain ⟨m1, m2⟩ := hl p (by simp)
        have e3 : ∀ q (l : List (Fl × Fl)), GemmFl.size (q :: l) = |q.1.val * q.2.val| + GemmFl.size l := by
          intro q l; simp [GemmFl.size]
        have e4 : ∀ q (l : List (Fl × Fl)), exact (q :: l) = q.1.val * q.2.val + exact l := by
          intro q l; simp [exact]
        constructor
        · rw [List.map_cons, List.map_cons, List.sum_cons, e3, i1, abs_mult_mul m1 m2]
          push_cast
          ring
        · rw [List.map_cons, List.map_cons, List.sum_cons, e4, i2, mult_mul m1 m2]
          push_cast
          ring
    obtain ⟨k1, k2⟩ := sums row fun p hp => (hg p hp).2
    obtain ⟨f, ev⟩ := sums_exact hu hv hsum (by
      intro p hp
      obtain ⟨q, hq, rfl⟩ := List.mem_map.1 hp
      obtain ⟨-, m1, m2⟩ := hg q hq
      exact ⟨m1.1, m2.1, _, mult_mul m1 m2⟩) (by
      rw [k1]
      refine mul_lt_mul_of_pos_right ?_ (two_zpow_pos _)
      exact_mod_cast hM)
    exact ⟨f, ev.trans k2⟩
  | abort => exact hr.elim
  | ub => exact hr.elim

omit [Rounding] in
theorem neg_mult {u : ℤ} {x : Fl} {k : ℤ} (h : IsMult u x k) : IsMult u (-x) (-k) := by
  refine ⟨(negate_finite h.1).1, ?_⟩
  rw [val_neg, h.2]
  push_cast
  ring

/-- Products of complex numbers whose parts are multiples. -/
def CGrid (u : ℤ) (p : CFl × CFl) : Prop :=
  CFinite p.1 ∧ CFinite p.2 ∧ (∃ k : ℤ, p.1.re.val * p.2.re.val = k * (2 : ℝ) ^ u) ∧
    (∃ k : ℤ, p.1.im.val * p.2.im.val = k * (2 : ℝ) ^ u) ∧ (∃ k : ℤ, p.1.re.val * p.2.im.val = k * (2 : ℝ) ^ u) ∧
    ∃ k : ℤ, p.1.im.val * p.2.re.val = k * (2 : ℝ) ^ u

omit [Rounding] in
theorem CGrid.swap {u : ℤ} {x y : CFl} (h : CGrid u (x, y)) : CGrid u (y, x) := by
  obtain ⟨h1, h2, ⟨a, ha⟩, ⟨b, hb⟩, ⟨c, hc⟩, d, hd⟩ := h
  exact ⟨h2, h1, ⟨a, by rw [mul_comm]; exact ha⟩, ⟨b, by rw [mul_comm]; exact hb⟩, ⟨d, by rw [mul_comm]; exact hd⟩,
    c, by rw [mul_comm]; exact hc⟩

/-- A sum of products of complex numbers. -/
theorem csums_exact {u : ℤ} (h1 : -1074 ≤ u) (h2 : u ≤ 971) {l : List (CFl × CFl)} {s : CFl} (h : CSums l s)
    (hl : ∀ p ∈ l, CGrid u p) (hR : GemmFl.size (rePairs l) < 2 ^ 53 * (2 : ℝ) ^ u)
    (hI : GemmFl.size (imPairs l) < 2 ^ 53 * (2 : ℝ) ^ u) :
    CFinite s ∧ s.re.val = exact (rePairs l) ∧ s.im.val = exact (imPairs l) := by
  obtain ⟨z, z1, z2, z3⟩ := h fun p hp => ⟨(hl p hp).1, (hl p hp).2.1⟩
  obtain ⟨f1, v1⟩ := sums_exact h1 h2 z1 (by
    intro q hq
    obtain ⟨p, hp, hq⟩ := List.mem_flatMap.1 hq
    obtain ⟨c1, c2, ha, ⟨b, hb⟩, -⟩ := hl p hp
    simp only [List.mem_cons, List.not_mem_nil, or_false] at hq
    rcases hq with rfl | rfl
    · exact ⟨c1.1, c2.1, ha⟩
    · refine ⟨(negate_finite c1.2).1, c2.2, -b, ?_⟩
      rw [val_neg, neg_mul, hb]
      push_cast
      ring) hR
  obtain ⟨f2, v2⟩ := sums_exact h1 h2 z2 (by
    intro q hq
    obtain ⟨p, hp, hq⟩ := List.mem_flatMap.1 hq
    obtain ⟨c1, c2, -, -, hc, hd⟩ := hl p hp
    simp only [List.mem_cons, List.not_mem_nil, or_false] at hq
    rcases hq with rfl | rfl
    · exact ⟨c1.1, c2.2, hc⟩
    · exact ⟨c1.2, c2.1, hd⟩) hI
  rw [z3 ⟨f1, f2⟩]
  exact ⟨⟨f1, f2⟩, v1, v2⟩

/-- An element of a contraction of complex numbers. -/
theorem ccomputes_mult {u v : ℤ} (h1 : -1074 ≤ u + v) (h2 : u + v ≤ 971) {L : Nat} {f g : Nat → CFl} {F F' G G' : Nat → ℤ}
    {s : CFl} (h : CComputes (formal (pairs f g L)) s) (hf : ∀ l < L, CIsMult u (f l) (F l) (F' l))
    (hg : ∀ l < L, CIsMult v (g l) (G l) (G' l)) (hR : ∑ l ∈ Finset.range L, (|F l * G l| + |F' l * G' l|) < 2 ^ 53)
    (hI : ∑ l ∈ Finset.range L, (|F l * G' l| + |F' l * G l|) < 2 ^ 53) :
    CIsMult (u + v) s (∑ l ∈ Finset.range L, (F l * G l - F' l * G' l)) (∑ l ∈ Finset.range L, (F l * G' l + F' l * G l)) := by
  have k : ∀ {R : Type} [AddCommMonoid R] (φ : CFl → CFl → R),
      ((pairs f g L).map fun p => φ p.1 p.2).sum = ∑ l ∈ Finset.range L, φ (f l) (g l) := by
    intro R _ φ
    rw [pairs, List.map_map, ← sum_range]
    rfl
  obtain ⟨l', e, hs⟩ := h
  have e1 := sum_formal toC e
  have e2 := sum_reAbs e
  have e3 := sum_imAbs e
  have grid : ∀ p ∈ pairs f g L, CGrid (u + v) p := by
    intro p hp
    obtain ⟨l, hl, rfl⟩ := List.mem_map.1 hp
    have hl := List.mem_range.1 hl
    obtain ⟨m1, m2⟩ := hf l hl
    obtain ⟨m3, m4⟩ := hg l hl
    exact ⟨⟨m1.1, m2.1⟩, ⟨m3.1, m4.1⟩, ⟨_, mult_mul m1 m3⟩, ⟨_, mult_mul m2 m4⟩, ⟨_, mult_mul m1 m4⟩, _, mult_mul m2 m3⟩
  have eR : ∑ l ∈ Finset.range L, reAbs (f l) (g l) =
      ((∑ l ∈ Finset.range L, (|F l * G l| + |F' l * G' l|) : ℤ) : ℝ) * (2 : ℝ) ^ (u + v) := by
    push_cast
    rw [Finset.sum_mul]
    refine Finset.sum_congr rfl fun l hl => ?_
    have hl := Finset.mem_range.1 hl
    rw [reAbs, abs_mult_mul (hf l hl).1 (hg l hl).1, abs_mult_mul (hf l hl).2 (hg l hl).2]
    push_cast
    ring
  have eI : ∑ l ∈ Finset.range L, imAbs (f l) (g l) =
      ((∑ l ∈ Finset.range L, (|F l * G' l| + |F' l * G l|) : ℤ) : ℝ) * (2 : ℝ) ^ (u + v) := by
    push_cast
    rw [Finset.sum_mul]
    refine Finset.sum_congr rfl fun l hl => ?_
    have hl := Finset.mem_range.1 hl
    rw [imAbs, abs_mult_mul (hf l hl).1 (hg l hl).2, abs_mult_mul (hf l hl).2 (hg l hl).1]
    push_cast
    ring
  obtain ⟨c, v1, v2⟩ := csums_exact h1 h2 hs (by
    rintro ⟨x, y⟩ hp
    rcases pair_mem e.symm hp with hq | hq
    · exact grid _ hq
    · exact (grid _ hq).swap) (by
    rw [size_rePairs, ← e2, k reAbs, eR]
    refine mul_lt_mul_of_pos_right ?_ (two_zpow_pos _)
    exact_mod_cast hR) (by
    rw [size_imPairs, ← e3, k imAbs, eI]
    refine mul_lt_mul_of_pos_right ?_ (two_zpow_pos _)
    exact_mod_cast hI)
  rw [exact_rePairs, ← e1, k fun x y => toC x * toC y] at v1
  rw [exact_imPairs, ← e1, k fun x y => toC x * toC y] at v2
  refine ⟨⟨c.1, ?_⟩, c.2, ?_⟩
  · rw [v1, Complex.re_sum]
    push_cast
    rw [Finset.sum_mul]
    refine Finset.sum_congr rfl fun l hl => ?_
    have hl := Finset.mem_range.1 hl
    rw [Complex.mul_re]
    show (f l).re.val * (g l).re.val - (f l).im.val * (g l).im.val = _
    rw [mult_mul (hf l hl).1 (hg l hl).1, mult_mul (hf l hl).2 (hg l hl).2]
    push_cast
    ring
  · rw [v2, Complex.im_sum]
    push_cast
    rw [Finset.sum_mul]
    refine Finset.sum_congr rfl fun l hl => ?_
    have hl := Finset.mem_range.1 hl
    rw [Complex.mul_im]
    show (f l).re.val * (g l).im.val + (f l).im.val * (g l).re.val = _
    rw [mult_mul (hf l hl).1 (hg l hl).2, mult_mul (hf l hl).2 (hg l hl).1]
    push_cast
    ring

/-- C136: fold of complex numbers with parts which are integers, or multiples of powers of two. -/
theorem c136_complex_fold (a b : Tensor CFl) (wfa : a.WF) (wfb : b.WF) (ndx1 ndx2 : Int) (P Q R S : List Nat)
    (L : Nat) (hda : a.dims = P ++ L :: Q) (hdb : b.dims = R ++ L :: S)
    (h1 : Spec.norm a.dims.length ndx1 = some P.length) (h2 : Spec.norm b.dims.length ndx2 = some R.length) (hL : L ≠ 0)
    (res : Res (Tensor CFl)) (hr : CFold a ndx1 b ndx2 res) (u v : ℤ) (hu : -1074 ≤ u + v) (hv : u + v ≤ 971) :
    ∃ c : Tensor CFl, res = .ok c ∧ c.WF ∧ c.dims = outDims (P ++ Q ++ (R ++ S)) ∧
      ∀ p q r s, InB p P → InB q Q → InB r R → InB s S → ∀ (f g : Nat → CFl) (F F' G G' : Nat → ℤ),
        (∀ l < L, elem a.dims a.data (p ++ l :: q) = some (f l) ∧ CIsMult u (f l) (F l) (F' l)) →
        (∀ l < L, elem b.dims b.data (r ++ l :: s) = some (g l) ∧ CIsMult v (g l) (G l) (G' l)) →
        ∑ l ∈ Finset.range L, (|F l * G l| + |F' l * G' l|) < 2 ^ 53 →
        ∑ l ∈ Finset.range L, (|F l * G' l| + |F' l * G l|) < 2 ^ 53 →
        ∃ z, elem c.dims c.data (outIdx (p ++ q ++ (r ++ s))) = some z ∧
          CIsMult (u + v) z (∑ l ∈ Finset.range L, (F l * G l - F' l * G' l))
            (∑ l ∈ Finset.range L, (F l * G' l + F' l * G l)) := by
  obtain ⟨t, ht, wft, hdt, hel⟩ :=
    (c19_fold (vars a) (vars b) (vars_wf wfa) (vars_wf wfb) ndx1 ndx2 P Q R S L L hda hdb h1 h2).1 rfl hL
  unfold CFold at hr
  rw [ht] at hr
  cases res with
  | abort => exact hr.elim
  | ub => exact hr.elim
  | ok c =>
    obtain ⟨hd, hc⟩ := hr
    refine ⟨c, rfl, result_wf hd hc wft, hd.trans hdt, ?_⟩
    intro p q r s hp hq hr hs f g F F' G G' hf hg hM hM'
    obtain ⟨z, hz, hcz⟩ := result_elem hd hc (hel p q r s hp hq hr hs _ _ (fun l hl => vars_elem (hf l hl).1)
      (fun l hl => vars_elem (hg l hl).1))
    rw [formal_pairs] at hcz
    exact ⟨z, hz, ccomputes_mult hu hv hcz (fun l hl => (hf l hl).2) (fun l hl => (hg l hl).2) hM hM'⟩

/-- C136: the bound cannot be much larger: 2^53 + 1 is not a double, and the sum of 2^53 and 1 is another number. -/
theorem c136_negation_bound : IsMult 0 (fin (2 ^ 53)) (2 ^ 53) ∧ IsMult 0 (fin 1) 1 ∧
    ¬ IsMult 0 (sumAll (⟨[2], [fin (2 ^ 53), fin 1]⟩ : Tensor Fl)) (2 ^ 53 + 1) := by
  have d : IsDouble ((2 : ℝ) ^ 53) := ⟨1, 53, by norm_num, by norm_num, by norm_num, by norm_num⟩
  refine ⟨⟨d, by norm_num [val]⟩, mult_one, ?_⟩
  rintro ⟨f, v⟩
  generalize sumAll (⟨[2], [fin (2 ^ 53), fin 1]⟩ : Tensor Fl) = s at f v
  obtain ⟨m, e, hm, -, -, he⟩ := f.val_double
  rw [v, zpow_zero, mul_one] at he
  push_cast at he
  rcases le_or_gt e 0 with h | h
  · have h1 : (2 : ℝ) ^ e ≤ 1 := zpow_le_one_of_nonpos₀ (by norm_num) h
    have h2 : (m : ℝ) < 2 ^ 53 := by exact_mod_cast (abs_lt.1 hm).2
    have h3 : (0 : ℝ) < 2 ^ e := two_zpow_pos e
    nlinarith
  · obtain ⟨n, rfl⟩ : ∃ n : ℕ, e = (n : ℤ) + 1 := ⟨(e - 1).toNat, by omega⟩
    rw [zpow_add₀ (by norm_num), zpow_natCast, zpow_one] at he
    have : (2 : ℤ) ^ 53 + 1 = m * (2 ^ n * 2) := by
      apply Int.cast_injective (α := ℝ)
      push_cast
      exact he
    have : (2 ^ 53 + 1 : ℤ) % 2 = 0 := by
      rw [this, ← mul_assoc, Int.mul_emod_left]
    norm_num at this

/-! ### Examples -/

omit [Rounding] in
theorem mult_int {k : ℤ} (h : |k| < 2 ^ 53) : IsMult 0 (fin k) k := ⟨isDouble_int h, by simp [val]⟩

omit [Rounding] in
/-- A matrix with one element. -/
theorem one_matrix {k : ℤ} (h : |k| < 2 ^ 53) : IsMatrix 0 ⟨[1, 1], [fin k]⟩ 1 1 fun _ _ => k := by
  refine ⟨rfl, rfl, ?_⟩
  intro i j hi hj
  obtain rfl : i = 0 := by omega
  obtain rfl : j = 0 := by omega
  exact ⟨_, rfl, mult_int h⟩

/-- 3 times 5 is 15. -/
example : ∃ c : Tensor Fl, Mmult ⟨[1, 1], [fin (3 : ℤ)]⟩ ⟨[1, 1], [fin (5 : ℤ)]⟩ (.ok c) ∧
    ∃ z, elem c.dims c.data [0, 0] = some z ∧ IsMult 0 z 15 := by
  obtain ⟨r, hr⟩ := c95_exists ⟨[1, 1], [fin (3 : ℤ)]⟩ ⟨[1, 1], [fin (5 : ℤ)]⟩ rfl rfl (-1) 0
  obtain ⟨c, rfl, h⟩ := c136_mmult _ _ 1 1 1 0 0 (by norm_num) (by norm_num) _ _ (one_matrix (k := 3) (by norm_num))
    (one_matrix (k := 5) (by norm_num)) one_ne_zero (by intro i j _ _; norm_num) r hr
  refine ⟨c, hr, ?_⟩
  have := h.2.2 0 0 (by norm_num) (by norm_num)
  norm_num at this
  exact this

/-- The products 3 (5 7) and (3 5) 7. -/
example : (∀ i j, i < 1 → j < 1 → ∑ _l ∈ Finset.range 1, ∑ _k ∈ Finset.range 1, |(3 : ℤ) * 5 * 7| < 2 ^ 53) ∧
    IsMatrix 0 ⟨[1, 1], [fin (7 : ℤ)]⟩ 1 1 fun _ _ => 7 :=
  ⟨by intro i j _ _; norm_num, one_matrix (by norm_num)⟩

/-- A vector of halves. -/
example : IsMult (-1) (sumAll (⟨[2], [fin (1 / 2), fin (3 / 2)]⟩ : Tensor Fl)) 4 := by
  refine c136_sum _ (-1) (by norm_num) (by norm_num) [1, 3] (.cons ⟨?_, ?_⟩ (.cons ⟨?_, ?_⟩ .nil)) (by norm_num)
  · exact ⟨1, -1, by norm_num, by norm_num, by norm_num, by norm_num⟩
  · norm_num [val]
  · exact ⟨3, -1, by norm_num, by norm_num, by norm_num, by norm_num⟩
  · norm_num [val]

/-- A scalar product, and the sum of the two vectors. -/
example (r : Res Fl) (hr : Fused.Scprod ⟨[2], [fin (1 : ℤ), fin (2 : ℤ)]⟩ ⟨[2], [fin (3 : ℤ), fin (4 : ℤ)]⟩ r) :
    (∃ s, r = .ok s ∧ IsMult 0 s 11) ∧ ∃ c : Tensor Fl, binopTT (· + ·) (⟨[2], [fin (1 : ℤ), fin (2 : ℤ)]⟩ : Tensor Fl)
      ⟨[2], [fin (3 : ℤ), fin (4 : ℤ)]⟩ = .ok c ∧ List.Forall₂ (IsMult 0) c.data [4, 6] := by
  have h1 : List.Forall₂ (IsMult 0) [fin (1 : ℤ), fin (2 : ℤ)] [1, 2] :=
    .cons (mult_int (by norm_num)) (.cons (mult_int (by norm_num)) .nil)
  have h2 : List.Forall₂ (IsMult 0) [fin (3 : ℤ), fin (4 : ℤ)] [3, 4] :=
    .cons (mult_int (by norm_num)) (.cons (mult_int (by norm_num)) .nil)
  refine ⟨c136_scprod _ _ 0 0 (by norm_num) (by norm_num) [1, 2] [3, 4] h1 h2 rfl (by norm_num) r hr, ?_⟩
  obtain ⟨c, e, -, h⟩ := (c136_arith ⟨[2], [fin (1 : ℤ), fin (2 : ℤ)]⟩ ⟨[2], [fin (3 : ℤ), fin (4 : ℤ)]⟩ rfl 0 0
    [1, 2] [3, 4] h1 h2 rfl).1 (by norm_num) (by norm_num) rfl (by
    intro k hk
    simp at hk
    rcases hk with rfl | rfl <;> norm_num)
  exact ⟨c, e, h⟩

/-- A trace. -/
example : ∃ s, trace (⟨[1, 1], [fin (7 : ℤ)]⟩ : Tensor Fl) = .ok s ∧ IsMult 0 s 7 := by
  obtain ⟨s, h, h'⟩ := c136_trace _ 1 1 0 (by norm_num) (by norm_num) _ (one_matrix (k := 7) (by norm_num)) (by norm_num)
  refine ⟨s, h, ?_⟩
  norm_num at h'
  exact h'

/-- The square of 1 + 2 i. -/
example : ∃ c : Tensor CFl, CFold ⟨[1], [⟨fin (1 : ℤ), fin (2 : ℤ)⟩]⟩ 0 ⟨[1], [⟨fin (1 : ℤ), fin (2 : ℤ)⟩]⟩ 0 (.ok c) ∧
    ∃ z, elem c.dims c.data [0] = some z ∧ CIsMult 0 z (-3) 4 := by
  have wf : (⟨[1], [⟨fin (1 : ℤ), fin (2 : ℤ)⟩]⟩ : Tensor CFl).WF := rfl
  obtain ⟨r, hr⟩ := c102_exists ⟨[1], [⟨fin (1 : ℤ), fin (2 : ℤ)⟩]⟩ ⟨[1], [⟨fin (1 : ℤ), fin (2 : ℤ)⟩]⟩ wf wf 0 0
  obtain ⟨c, rfl, -, hd, hel⟩ := c136_complex_fold _ _ wf wf 0 0 [] [] [] [] 1 rfl rfl rfl rfl one_ne_zero r hr 0 0
    (by norm_num) (by norm_num)
  refine ⟨c, hr, ?_⟩
  have h : ∀ l < 1, elem [1] [(⟨fin (1 : ℤ), fin (2 : ℤ)⟩ : CFl)] ([] ++ l :: []) = some ⟨fin (1 : ℤ), fin (2 : ℤ)⟩ ∧
      CIsMult 0 ⟨fin (1 : ℤ), fin (2 : ℤ)⟩ 1 2 := by
    intro l hl
    obtain rfl : l = 0 := by omega
    exact ⟨rfl, mult_int (by norm_num), mult_int (by norm_num)⟩
  have := hel [] [] [] [] trivial trivial trivial trivial (fun _ => ⟨fin (1 : ℤ), fin (2 : ℤ)⟩)
    (fun _ => ⟨fin (1 : ℤ), fin (2 : ℤ)⟩) (fun _ => 1) (fun _ => 2) (fun _ => 1) (fun _ => 2) h h (by norm_num) (by norm_num)
  norm_num [outIdx] at this
  exact this

end

end Verif.Exact
