import Verif.Props.SparseFl
/-
C105: sparse matrices of doubles together with sparse matrices of complex doubles, and quotients with complex numbers.
-/
namespace Verif.SparseFl

open Verif Verif.Spec Verif.Sparse Fl

variable {α β γ : Type}

/-- Complex numbers with the same parts, up to the signs of zeros. -/
def Spec.SameP (x y : CFl) : Prop := Spec.Same x.re y.re ∧ Spec.Same x.im y.im

theorem Spec.Same.trans {x y z : Fl} (h1 : Spec.Same x y) (h2 : Spec.Same y z) : Spec.Same x z := by
  rcases h1 with rfl | ⟨h1, h1'⟩
  · exact h2
  · rcases h2 with rfl | ⟨_, h2'⟩
    · exact .inr ⟨h1, h1'⟩
    · exact .inr ⟨h1, h2'⟩

theorem Spec.SameC.sameP {x y : CFl} (h : Spec.SameC x y) : Spec.SameP x y := by
  rcases h with rfl | ⟨h1, h2, h3, h4⟩
  · exact ⟨.inl rfl, .inl rfl⟩
  · exact ⟨.inr ⟨h1, h3⟩, .inr ⟨h2, h4⟩⟩

theorem Spec.SameP.trans {x y z : CFl} (h1 : Spec.SameP x y) (h2 : Spec.SameP y z) : Spec.SameP x z :=
  ⟨h1.1.trans h2.1, h1.2.trans h2.2⟩

/-- Elements of a matrix are stored ones or zero. -/
theorem isCsr_mem [Zero α] {s : Sparse α} {r c : Nat} {f : Nat → Nat → α} {P : α → Prop}
    (h : IsCsr s.rows s.cols s.rowStart s.column s.data r c f) (h0 : P 0) (hd : ∀ v ∈ s.data, P v) {i j : Nat}
    (hi : i < r) (hj : j < c) : P (f i j) := by
  obtain ⟨L, hL, len, ok, hval⟩ := IsCsr_rows h
  have hrow : L[i]? = some (L[i]'(by omega)) := List.getElem?_eq_getElem _
  rw [← hval i j _ hrow hj]
  have hmem : ∀ p ∈ L[i]'(by omega), P p.2 := fun p hp => hd _ (by
    rw [hL.2.2.2]
    exact List.mem_map.2 ⟨p, List.mem_flatten.2 ⟨_, List.getElem_mem _, hp⟩, rfl⟩)
  generalize L[i]'(by omega) = row at hmem
  induction row with
  | nil => exact h0
  | cons p ps ih =>
    rw [look_cons]
    split
    · exact hmem p (List.mem_cons_self ..)
    · exact ih fun q hq => hmem q (List.mem_cons_of_mem _ hq)

theorem binop_mixed [Zero α] [Zero β] [Zero γ] [DecidableEq γ] {isz : γ → Bool} (h0 : isz 0 = true) (R : γ → γ → Prop)
    (φ : α → γ) (ψ : β → γ) (hφ : φ 0 = 0) (hψ : ψ 0 = 0) (op : γ → γ → γ) (hop : isz (op 0 0) = true)
    (mixed : α → β → γ) (P : α → Prop) (Q : β → Prop) (P0 : P 0) (Q0 : Q 0)
    (h : ∀ x y, P x → Q y → R (clean isz (op (φ x) (ψ y))) (mixed x y)) (a : Sparse α) (b : Sparse β)
    (ha : ValidCsr a.rows a.cols a.rowStart a.column a.data)
    (hb : ValidCsr b.rows b.cols b.rowStart b.column b.data) (hr : a.rows = b.rows) (hc : a.cols = b.cols)
    (hP : ∀ v ∈ a.data, P v) (hQ : ∀ v ∈ b.data, Q v) :
    ∃ a' b' s fa fb fs t, mapData φ a = .ok a' ∧ mapData ψ b = .ok b' ∧ binop isz op a' b' = .ok s ∧
      full a = .ok fa ∧ full b = .ok fb ∧ full s = .ok fs ∧ Tensor.binopMixed mixed fa fb = .ok t ∧
      Spec.Rel R a.rows a.cols fs t ∧ ValidCsr s.rows s.cols s.rowStart s.column s.data ∧ ∀ v ∈ s.data, v ≠ 0 := by
  obtain ⟨f, hf⟩ := exists_isCsr a ha
  obtain ⟨g, hg⟩ := exists_isCsr b hb
  obtain ⟨a', ea, hf'⟩ := c37_map φ hφ a _ _ f hf
  obtain ⟨b', eb, hg'⟩ := c37_map ψ hψ b _ _ g hg
  rw [← hr, ← hc] at hg'
  obtain ⟨s, e, hs, hz⟩ := c37_binop (fun x y => clean isz (op x y)) ((clean_zero h0 _).2 hop) a' b' _ _ _ _ hf' hg'
  obtain ⟨fa, e1, m1⟩ := c35_full a _ _ f hf
  obtain ⟨fb, e2, m2⟩ := c35_full b _ _ g hg
  obtain ⟨fs, e3, m3⟩ := c35_full s _ _ _ hs
  have hd : fa.dims = fb.dims := by rw [m1.1, m2.1, hr, hc]
  have m4 : IsMat fa.dims (List.zipWith mixed fa.data fb.data) a.rows a.cols fun i j => mixed (f i j) (g i j) := by
    refine ⟨m1.1, by simp [m1.2.1, m2.2.1, hr, hc], fun i j hi hj => ?_⟩
    refine Tensor.elem_zipWith mixed _ _ _ _ _ _ (m1.2.2 i j hi hj) ?_
    have := m2.2.2 i j (hr ▸ hi) (hc ▸ hj)
    rwa [← hd] at this
  refine ⟨a', b', s, fa, fb, fs, _, ea, eb, by rw [binop_clean h0]; exact e, e1, e2, e3,
    Tensor.binopMixed_ok mixed fa fb (IsMat.wf m1) (IsMat.wf m2) hd, rel_of_isMat m3 m4 fun i j hi hj => ?_, hs.2.2.1, hz⟩
  exact h _ _ (isCsr_mem hf P0 hP hi hj) (isCsr_mem hg Q0 hQ (hr ▸ hi) (hc ▸ hj))

/-! ### Numbers -/

variable [Rounding]

/-- Adding a zero changes at most the sign of a zero. -/
theorem add_isZero {x z : Fl} (hx : x.WF) (hz : Spec.IsZero z) : Spec.Same (x + z) x ∧ Spec.Same (z + x) x := by
  have hr : ∀ y : ℝ, IsDouble y → y ≠ 0 → Fl.round y = fin y := by
    intro y hy h0
    have e : Rounding.rnd y = y := rnd_exact (.inl hy)
    obtain ⟨h1, h2⟩ := abs_lt.1 hy.lt
    rw [Fl.round, e, if_neg (not_le.2 h2), if_neg (not_le.2 h1), if_neg h0]
  have hf : ∀ y : ℝ, IsDouble y → Spec.Same (if y = 0 then fin 0 else Fl.round y) (fin y) := by
    intro y hy
    split
    · rename_i h; rw [h]; exact .inl rfl
    · rename_i h; rw [hr y hy h]; exact .inl rfl
  have hn : Spec.Same (fin 0) nzero := .inr ⟨.inl rfl, .inr rfl⟩
  show Spec.Same (Fl.add x z) x ∧ Spec.Same (Fl.add z x) x
  rcases hz with rfl | rfl <;> cases x with
  | fin y =>
    have := hf y hx
    simpa [Fl.add, val] using this
  | nzero =>
    simp [Fl.add, val, Spec.Same, Spec.IsZero]
  | _ => simp [Fl.add, Spec.Same]

theorem mul_fin_ne_nan {x y : Fl} (hx : x.Finite) (hy : y.Finite) : x * y ≠ nan ∧ (x * y).WF := by
  show Fl.mul x y ≠ nan ∧ (Fl.mul x y).WF
  rw [Fl.mul, if_neg (by simp [hx.ne_nan, hy.ne_nan]), if_neg (by simp [hx.not_inf, hy.not_inf])]
  split
  · rw [zeroS]
    split
    · exact ⟨by rintro ⟨⟩, trivial⟩
    · exact ⟨by rintro ⟨⟩, isDouble_zero⟩
  · exact ⟨round_ne_nan _, round_wf _⟩

theorem mul_zero_fin {x : Fl} (hx : x.Finite) : Spec.IsZero (x * 0) := by
  show Spec.IsZero (Fl.mul x (fin 0))
  rw [Fl.mul, if_neg (by simp [hx.ne_nan]), if_neg (by rw [hx.not_inf]; simp [isInf]), if_pos (by simp [val]), zeroS]
  split
  · exact .inr rfl
  · exact .inl rfl

omit [Rounding] in
theorem wf_negate {x : Fl} (h : x.WF) : (Fl.negate x).WF := by
  cases x with
  | fin y =>
    rw [Fl.negate]
    split
    · trivial
    · exact IsDouble.neg h
  | nzero => exact isDouble_zero
  | _ => trivial

omit [Rounding] in
/-- Both parts are numbers of the format (or infinite or NaN). -/
def Spec.WFC (x : CFl) : Prop := x.re.WF ∧ x.im.WF

omit [Rounding] in
/-- Both parts are finite. -/
def Spec.FinC (x : CFl) : Prop := x.re.Finite ∧ x.im.Finite

omit [Rounding] in
theorem mapData_id (a : Sparse α) (ha : ValidCsr a.rows a.cols a.rowStart a.column a.data) : mapData id a = .ok a := by
  rw [mapData, make, Res.assert_pos (by rw [ha.1]), Res.ok_bind, List.map_id]
  rfl

omit [Rounding] in
theorem isZeroC_zero : isZeroC 0 = true := (isZeroC_iff 0).2 ⟨.inl rfl, .inl rfl⟩

theorem add_comm' (x y : Fl) : x + y = y + x := by
  show Fl.add x y = Fl.add y x
  cases x <;> cases y <;> simp [Fl.add, val, add_comm]
  congr

theorem mul_comm' (x y : Fl) : x * y = y * x := by
  show Fl.mul x y = Fl.mul y x
  simp only [Fl.mul, or_comm, Bool.xor_comm, mul_comm]

/-- The sums and differences of numbers. -/
theorem sums_tr {op : CFl → CFl → CFl} {mixed : CFl → Fl → CFl}
    (h : (op = (· + ·) ∧ mixed = plusTR) ∨ (op = minusC ∧ mixed = minusTR)) (x : CFl) (y : Fl) (hx : Spec.WFC x) :
    Spec.SameP (clean isZeroC (op x (toC y))) (mixed x y) := by
  refine (sameC_clean _).sameP.trans ?_
  rcases h with ⟨rfl, rfl⟩ | ⟨rfl, rfl⟩
  · exact ⟨.inl rfl, (add_isZero hx.2 (.inl rfl)).1⟩
  · exact ⟨.inl rfl, (add_isZero hx.2 (zero_neg (.inl rfl))).1⟩

theorem sums_rt {op : CFl → CFl → CFl} {mixed : Fl → CFl → CFl}
    (h : (op = (· + ·) ∧ mixed = plusRT) ∨ (op = minusC ∧ mixed = minusRT)) (y : Fl) (x : CFl) (hx : Spec.WFC x) :
    Spec.SameP (clean isZeroC (op (toC y) x)) (mixed y x) := by
  refine (sameC_clean _).sameP.trans ?_
  rcases h with ⟨rfl, rfl⟩ | ⟨rfl, rfl⟩
  · exact ⟨.inl (add_comm' _ _), (add_isZero hx.2 (.inl rfl)).2⟩
  · exact ⟨.inl rfl, (add_isZero (wf_negate hx.2) (.inl rfl)).2⟩

/-- **C105** for one complex and one real matrix: sums and differences, in both orders, have the same parts as those of full matrices, up
to the signs of zeros. -/
theorem c105_mixed_sums (a : Sparse CFl) (b : Sparse Fl) (ha : ValidCsr a.rows a.cols a.rowStart a.column a.data)
    (hb : ValidCsr b.rows b.cols b.rowStart b.column b.data) (hr : a.rows = b.rows) (hc : a.cols = b.cols)
    (wa : ∀ v ∈ a.data, Spec.WFC v) :
    ∃ fa fb, full a = .ok fa ∧ full b = .ok fb ∧
      (∀ op mixed, (op = (· + ·) ∧ mixed = plusTR) ∨ (op = minusC ∧ mixed = minusTR) →
        ∃ s fs t, binopTR op a b = .ok s ∧ full s = .ok fs ∧ Tensor.binopMixed mixed fa fb = .ok t ∧
          Spec.Rel Spec.SameP a.rows a.cols fs t ∧ ValidCsr s.rows s.cols s.rowStart s.column s.data ∧ ∀ v ∈ s.data, v ≠ 0) ∧
      (∀ op mixed, (op = (· + ·) ∧ mixed = plusRT) ∨ (op = minusC ∧ mixed = minusRT) →
        ∃ s fs t, binopRT op b a = .ok s ∧ full s = .ok fs ∧ Tensor.binopMixed mixed fb fa = .ok t ∧
          Spec.Rel Spec.SameP a.rows a.cols fs t ∧ ValidCsr s.rows s.cols s.rowStart s.column s.data ∧ ∀ v ∈ s.data, v ≠ 0) := by
  obtain ⟨f, hf⟩ := exists_isCsr a ha
  obtain ⟨g, hg⟩ := exists_isCsr b hb
  obtain ⟨fa, e1, -⟩ := c35_full a _ _ f hf
  obtain ⟨fb, e2, -⟩ := c35_full b _ _ g hg
  have w0 : Spec.WFC 0 := ⟨isDouble_zero, isDouble_zero⟩
  refine ⟨fa, fb, e1, e2, fun op mixed h => ?_, fun op mixed h => ?_⟩
  · have hop : isZeroC (op 0 0) = true := by
      rw [isZeroC_iff]
      rcases h with ⟨rfl, -⟩ | ⟨rfl, -⟩
      · exact ⟨.inl zero_add_zero, .inl zero_add_zero⟩
      · exact ⟨.inl zero_sub_zero, .inl zero_sub_zero⟩
    obtain ⟨a', b', s, fa', fb', fs, t, h1, h2, h3, h4, h5, h6, h7, h8⟩ :=
      binop_mixed isZeroC_zero Spec.SameP id toC rfl rfl op hop mixed Spec.WFC (fun _ => True) w0 trivial
        (fun x y hx _ => sums_tr h x y hx) a b ha hb hr hc wa (fun _ _ => trivial)
    rw [mapData_id a ha] at h1
    cases h1
    rw [e1] at h4
    rw [e2] at h5
    cases h4
    cases h5
    exact ⟨s, fs, t, by rw [binopTR, h2]; exact h3, h6, h7, h8⟩
  · have hop : isZeroC (op 0 0) = true := by
      rw [isZeroC_iff]
      rcases h with ⟨rfl, -⟩ | ⟨rfl, -⟩
      · exact ⟨.inl zero_add_zero, .inl zero_add_zero⟩
      · exact ⟨.inl zero_sub_zero, .inl zero_sub_zero⟩
    obtain ⟨b', a', s, fb', fa', fs, t, h1, h2, h3, h4, h5, h6, h7, h8⟩ :=
      binop_mixed isZeroC_zero Spec.SameP toC id rfl rfl op hop mixed (fun _ => True) Spec.WFC trivial w0
        (fun x y _ hy => sums_rt h x y hy) b a hb ha hr.symm hc.symm (fun _ _ => trivial) wa
    rw [mapData_id a ha] at h2
    cases h2
    rw [e2] at h4
    rw [e1] at h5
    cases h4
    cases h5
    rw [← hr, ← hc] at h8
    exact ⟨s, fs, t, by rw [binopRT, h1]; exact h3, h6, h7, h8⟩

variable [Recover]

/-- The products of finite numbers. -/
theorem products {x : CFl} {y : Fl} (hx : Spec.FinC x) (hy : y.Finite) :
    Spec.SameP (clean isZeroC (x * toC y)) (timesTR x y) ∧ Spec.SameP (clean isZeroC (toC y * x)) (timesRT y x) := by
  have key : ∀ u v : Fl, u.Finite → v.Finite → Spec.Same (u * y - v * 0) (u * y) ∧ Spec.Same (u * 0 + v * y) (v * y) ∧
      Spec.Same (y * u - 0 * v) (u * y) ∧ Spec.Same (y * v + 0 * u) (v * y) := by
    intro u v hu hv
    refine ⟨(add_isZero (mul_fin_ne_nan hu hy).2 (zero_neg (mul_zero_fin hv))).1,
      (add_isZero (mul_fin_ne_nan hv hy).2 (mul_zero_fin hu)).2, ?_, ?_⟩
    · rw [mul_comm' y u, mul_comm' 0 v]
      exact (add_isZero (mul_fin_ne_nan hu hy).2 (zero_neg (mul_zero_fin hv))).1
    · rw [mul_comm' y v, mul_comm' 0 u]
      exact (add_isZero (mul_fin_ne_nan hv hy).2 (mul_zero_fin hu)).1
  have nn : ∀ {u v : Fl}, Spec.Same u v → v ≠ nan → u ≠ nan := by
    rintro u v (rfl | ⟨h1, -⟩) hv
    · exact hv
    · rintro rfl
      rcases h1 with ⟨⟨⟩⟩ | ⟨⟨⟩⟩
  obtain ⟨k1, k2, k3, k4⟩ := key _ _ hx.1 hx.2
  constructor
  · refine (sameC_clean _).sameP.trans ?_
    have e : x * toC y = ⟨CFl.mulRe x (toC y), CFl.mulIm x (toC y)⟩ :=
      if_neg fun h => nn k1 (mul_fin_ne_nan hx.1 hy).1 h.1
    rw [e]
    exact ⟨k1, k2⟩
  · refine (sameC_clean _).sameP.trans ?_
    have e : toC y * x = ⟨CFl.mulRe (toC y) x, CFl.mulIm (toC y) x⟩ :=
      if_neg fun h => nn k3 (mul_fin_ne_nan hx.1 hy).1 h.1
    rw [e]
    exact ⟨k3, k4⟩

omit [Rounding] [Recover] in
theorem finite_zero : (0 : Fl).Finite := isDouble_zero

/-- **C105 (partial)** for one complex and one real matrix: products, in both orders, if the stored numbers are finite. Infinite and NaN ones
differ (c105_negation_mixed). -/
theorem c105_mixed_products_partial (a : Sparse CFl) (b : Sparse Fl) (ha : ValidCsr a.rows a.cols a.rowStart a.column a.data)
    (hb : ValidCsr b.rows b.cols b.rowStart b.column b.data) (hr : a.rows = b.rows) (hc : a.cols = b.cols)
    (wa : ∀ v ∈ a.data, Spec.FinC v) (wb : ∀ v ∈ b.data, v.Finite) :
    ∃ fa fb, full a = .ok fa ∧ full b = .ok fb ∧
      (∃ s fs t, binopTR (· * ·) a b = .ok s ∧ full s = .ok fs ∧ Tensor.binopMixed timesTR fa fb = .ok t ∧
        Spec.Rel Spec.SameP a.rows a.cols fs t ∧ ValidCsr s.rows s.cols s.rowStart s.column s.data ∧ ∀ v ∈ s.data, v ≠ 0) ∧
      (∃ s fs t, binopRT (· * ·) b a = .ok s ∧ full s = .ok fs ∧ Tensor.binopMixed timesRT fb fa = .ok t ∧
        Spec.Rel Spec.SameP a.rows a.cols fs t ∧ ValidCsr s.rows s.cols s.rowStart s.column s.data ∧ ∀ v ∈ s.data, v ≠ 0) := by
  obtain ⟨f, hf⟩ := exists_isCsr a ha
  obtain ⟨g, hg⟩ := exists_isCsr b hb
  obtain ⟨fa, e1, -⟩ := c35_full a _ _ f hf
  obtain ⟨fb, e2, -⟩ := c35_full b _ _ g hg
  have w0 : Spec.FinC 0 := ⟨finite_zero, finite_zero⟩
  have hop : isZeroC ((0 : CFl) * 0) = true := by
    have h1 := (products w0 finite_zero).1
    have hz : Spec.IsZero ((0 : Fl) * 0) := mul_zero_fin finite_zero
    by_contra hn
    rw [show toC 0 = 0 from rfl, clean_of_not hn] at h1
    have ki : ∀ {u v : Fl}, Spec.Same u v → Spec.IsZero v → Spec.IsZero u := by
      rintro u v (rfl | ⟨h, -⟩) hv
      · exact hv
      · exact h
    exact hn ((isZeroC_iff _).2 ⟨ki h1.1 hz, ki h1.2 hz⟩)
  refine ⟨fa, fb, e1, e2, ?_, ?_⟩
  · obtain ⟨a', b', s, fa', fb', fs, t, h1, h2, h3, h4, h5, h6, h7, h8⟩ :=
      binop_mixed isZeroC_zero Spec.SameP id toC rfl rfl (· * ·) hop timesTR Spec.FinC Fl.Finite w0 finite_zero
        (fun x y hx hy => (products hx hy).1) a b ha hb hr hc wa wb
    rw [mapData_id a ha] at h1
    cases h1
    rw [e1] at h4
    rw [e2] at h5
    cases h4
    cases h5
    exact ⟨s, fs, t, by rw [binopTR, h2]; exact h3, h6, h7, h8⟩
  · obtain ⟨b', a', s, fb', fa', fs, t, h1, h2, h3, h4, h5, h6, h7, h8⟩ :=
      binop_mixed isZeroC_zero Spec.SameP toC id rfl rfl (· * ·) hop timesRT Fl.Finite Spec.FinC finite_zero w0
        (fun x y hx hy => (products hy hx).2) b a hb ha hr.symm hc.symm wb wa
    rw [mapData_id a ha] at h2
    cases h2
    rw [e2] at h4
    rw [e1] at h5
    cases h4
    cases h5
    rw [← hr, ← hc] at h8
    exact ⟨s, fs, t, by rw [binopRT, h1]; exact h3, h6, h7, h8⟩

omit [Recover] in
/-- **C105 (partial)**: a real matrix times a complex number and a complex matrix times a real number, for finite numbers
(sparse_times_tz_double.cc, sparse_times_td_cdouble.cc). -/
theorem c105_mixed_scale_partial (a : Sparse CFl) (b : Sparse Fl) (ha : ValidCsr a.rows a.cols a.rowStart a.column a.data)
    (hb : ValidCsr b.rows b.cols b.rowStart b.column b.data) (x : CFl) (y : Fl) (hx : Spec.FinC x) (hy : y.Finite) :
    (∃ s fb fs t, mapData (timesRT · x) b = .ok s ∧ full b = .ok fb ∧ full s = .ok fs ∧ Tensor.binopTN timesRT fb x = .ok t ∧
      Spec.Rel Spec.SameC b.rows b.cols fs t) ∧
    (∃ s fa fs t, mapData (timesTR · y) a = .ok s ∧ full a = .ok fa ∧ full s = .ok fs ∧ Tensor.binopTN timesTR fa y = .ok t ∧
      Spec.Rel Spec.SameC a.rows a.cols fs t) :=
  ⟨map_rel Spec.SameC (timesRT · x) (fun _ => .inl rfl)
      (.inr ⟨.inl rfl, .inl rfl, mul_zero_fin hx.1, mul_zero_fin hx.2⟩) b hb,
    map_rel Spec.SameC (timesTR · y) (fun _ => .inl rfl)
      (.inr ⟨.inl rfl, .inl rfl, by show Spec.IsZero (0 * y); rw [mul_comm']; exact mul_zero_fin hy,
        by show Spec.IsZero (0 * y); rw [mul_comm']; exact mul_zero_fin hy⟩) a ha⟩

omit [Rounding] [Recover] in
/-- **C105 (partial)**: quotients of complex and of real matrices with a complex number (sparse_divide_tn_cdouble.cc,
sparse_divide_tz_double.cc), for any division `div` of complex numbers and every divisor for which zero divided by it is zero. How the
library divides complex numbers is not part of the model. -/
theorem c105_quotients_partial (div : CFl → CFl → CFl) (n : CFl) (hn : Spec.IsZero (div 0 n).re ∧ Spec.IsZero (div 0 n).im)
    (a : Sparse CFl) (ha : ValidCsr a.rows a.cols a.rowStart a.column a.data)
    (b : Sparse Fl) (hb : ValidCsr b.rows b.cols b.rowStart b.column b.data) :
    (∃ s fa fs t, mapData (div · n) a = .ok s ∧ full a = .ok fa ∧ full s = .ok fs ∧ Tensor.binopTN div fa n = .ok t ∧
      Spec.Rel Spec.SameC a.rows a.cols fs t) ∧
    (∃ s fb fs t, mapData (fun x => div (toC x) n) b = .ok s ∧ full b = .ok fb ∧ full s = .ok fs ∧
      Tensor.binopTN (fun x n => div (toC x) n) fb n = .ok t ∧ Spec.Rel Spec.SameC b.rows b.cols fs t) :=
  ⟨map_rel Spec.SameC (div · n) (fun _ => .inl rfl) (.inr ⟨.inl rfl, .inl rfl, hn⟩) a ha,
    map_rel Spec.SameC (fun x => div (toC x) n) (fun _ => .inl rfl) (.inr ⟨.inl rfl, .inl rfl, hn⟩) b hb⟩

omit [Rounding] [Recover] in
theorem valid_one {β : Type} (x : β) : ValidCsr 1 1 [0, 1] [0] [x] := by
  refine ⟨rfl, rfl, by simp, rfl, rfl, ?_, by simp⟩
  intro i a b h1 h2
  match i, h1, h2 with
  | 0, h1, h2 => cases h1; cases h2; simp
  | 1, h1, h2 => simp at h2
  | i + 2, h1, h2 => simp at h2

omit [Rounding] [Recover] in
theorem double_one : IsDouble 1 := ⟨1, 0, by norm_num, by norm_num, by norm_num, by norm_num⟩

omit [Recover] in
theorem one_add_zero : fin 1 + (0 : Fl) = fin 1 := by
  rcases (add_isZero (x := fin 1) double_one (.inl rfl)).1 with h | ⟨-, h | h⟩
  · exact h
  · rw [Fl.fin.injEq] at h
    exact absurd h one_ne_zero
  · cases h

omit [Recover] in
/-- **C105, negation**: the signs of zeros do differ. The imaginary part of the sum with a full real matrix stays -0, that of the sum with a
sparse real matrix is -0 + 0 = 0. -/
theorem c105_negation_signs :
    ∃ (a : Sparse CFl) (b : Sparse Fl), ValidCsr a.rows a.cols a.rowStart a.column a.data ∧
      ValidCsr b.rows b.cols b.rowStart b.column b.data ∧
      (∃ s, binopTR (· + ·) a b = .ok s ∧ full s = .ok ⟨[1, 1], [⟨fin 1, 0⟩]⟩) ∧
      (∃ fa fb, full a = .ok fa ∧ full b = .ok fb ∧ Tensor.binopMixed plusTR fa fb = .ok ⟨[1, 1], [⟨fin 1, nzero⟩]⟩) := by
  have hm : (⟨fin 1, nzero⟩ : CFl) + toC 0 = ⟨fin 1, 0⟩ := by
    have e : nzero + (0 : Fl) = 0 := by
      show Fl.add nzero (fin 0) = fin 0
      simp [Fl.add, val]
    show (⟨fin 1 + 0, nzero + 0⟩ : CFl) = _
    rw [one_add_zero, e]
  have hz : isZeroC ⟨fin 1, 0⟩ = false := by
    rw [← Bool.not_eq_true, isZeroC_iff]
    rintro ⟨h | h, -⟩
    · rw [Fl.fin.injEq] at h
      exact absurd h one_ne_zero
    · cases h
  refine ⟨⟨1, 1, [0, 1], [0], [⟨fin 1, nzero⟩]⟩, ⟨1, 1, [0, 1], [0], [0]⟩, valid_one _, valid_one _,
    ⟨⟨1, 1, [0, 1], [0], [⟨fin 1, 0⟩]⟩, ?_, rfl⟩, ⟨[1, 1], [⟨fin 1, nzero⟩]⟩, ⟨[1, 1], [0]⟩, rfl, rfl, ?_⟩
  · have hp : push isZeroC 2 [] 0 ((⟨fin 1, nzero⟩ : CFl) + toC 0) = .ok [(0, ⟨fin 1, 0⟩)] := by
      rw [hm]
      simp [push, hz]
    have e : mapData toC (⟨1, 1, [0, 1], [0], [0]⟩ : Sparse Fl) = .ok ⟨1, 1, [0, 1], [0], [toC 0]⟩ := rfl
    rw [binopTR, e, Res.ok_bind]
    simp [binop, mergeLoop, mergeRow, hp]
    rfl
  · rw [Tensor.binopMixed_ok _ ⟨[1, 1], [(⟨fin 1, nzero⟩ : CFl)]⟩ ⟨[1, 1], [0]⟩ (by simp [Tensor.WF]) (by simp [Tensor.WF]) rfl]
    simp [plusTR, one_add_zero]

/-- The conditions can be met: a complex and a real number, and division by one. -/
example : ∃ fa fb, full ⟨1, 1, [0, 1], [0], [(⟨fin 1, nzero⟩ : CFl)]⟩ = .ok fa ∧ full ⟨1, 1, [0, 1], [0], [fin 1]⟩ = .ok fb ∧
    ∃ s fs t, binopTR (· * ·) ⟨1, 1, [0, 1], [0], [⟨fin 1, nzero⟩]⟩ ⟨1, 1, [0, 1], [0], [fin 1]⟩ = .ok s ∧ full s = .ok fs ∧
      Tensor.binopMixed timesTR fa fb = .ok t ∧ Spec.Rel Spec.SameP 1 1 fs t := by
  obtain ⟨fa, fb, h1, h2, ⟨s, fs, t, h3, h4, h5, h6, -⟩, -⟩ := c105_mixed_products_partial ⟨1, 1, [0, 1], [0], [⟨fin 1, nzero⟩]⟩
    ⟨1, 1, [0, 1], [0], [fin 1]⟩ (valid_one _) (valid_one _) rfl rfl (by simpa using ⟨double_one, trivial⟩)
    (fun v hv => by rw [List.mem_singleton.1 hv]; exact double_one)
  exact ⟨fa, fb, h1, h2, s, fs, t, h3, h4, h5, h6⟩

omit [Recover] in
example : ∃ fa fb, full ⟨1, 1, [0, 1], [0], [(⟨fin 1, nzero⟩ : CFl)]⟩ = .ok fa ∧ full ⟨1, 1, [0, 1], [0], [pinf]⟩ = .ok fb ∧
    ∃ s fs t, binopRT minusC ⟨1, 1, [0, 1], [0], [pinf]⟩ ⟨1, 1, [0, 1], [0], [⟨fin 1, nzero⟩]⟩ = .ok s ∧ full s = .ok fs ∧
      Tensor.binopMixed minusRT fb fa = .ok t ∧ Spec.Rel Spec.SameP 1 1 fs t := by
  obtain ⟨fa, fb, h1, h2, -, h⟩ := c105_mixed_sums ⟨1, 1, [0, 1], [0], [⟨fin 1, nzero⟩]⟩ ⟨1, 1, [0, 1], [0], [pinf]⟩ (valid_one _)
    (valid_one _) rfl rfl (by simpa using ⟨double_one, trivial⟩)
  obtain ⟨s, fs, t, h3, h4, h5, h6, -⟩ := h minusC minusRT (.inr ⟨rfl, rfl⟩)
  exact ⟨fa, fb, h1, h2, s, fs, t, h3, h4, h5, h6⟩

omit [Recover] in
example : Spec.IsZero (CFl.divD 0 (fin 1)).re ∧ Spec.IsZero (CFl.divD 0 (fin 1)).im :=
  have h : Spec.IsZero ((0 : Fl) / fin 1) := zero_div (by rintro ⟨⟩) (by
    rintro (h | h)
    · rw [Fl.fin.injEq] at h
      exact absurd h one_ne_zero
    · cases h)
  ⟨h, h⟩

end Verif.SparseFl
