import Verif.Spec.Gen
import Verif.Lemmas.Float
import Verif.Props.Indices
import Verif.Props.FloatCompare
/-
C135: lists of numbers of any types written with `<<`.
-/
namespace Verif.Gen

open Verif Indices Rounding

theorem wrap_of {t : IntTy} {n : ℤ} (h1 : t.lo ≤ n) (h2 : n < t.lo + t.count) : wrap t n = n := by
  rw [wrap, Int.emod_eq_of_lt (by omega) (by omega)]; omega

theorem trunc_int (n : ℤ) : trunc (n : ℝ) = n := by
  unfold trunc
  split <;> simp

theorem trunc_spec (x : ℝ) : |x - trunc x| < 1 ∧ |(trunc x : ℝ)| ≤ |x| ∧ 0 ≤ x * trunc x := by
  unfold trunc
  split
  · rename_i h
    have h1 := Int.le_ceil x
    have h2 := Int.ceil_lt_add_one x
    have h3 : (⌈x⌉ : ℝ) ≤ 0 := by exact_mod_cast Int.ceil_le.2 (by simpa using h.le)
    refine ⟨abs_lt.2 ⟨by linarith, by linarith⟩, ?_, mul_nonneg_of_nonpos_of_nonpos h.le h3⟩
    rw [abs_of_nonpos h3, abs_of_neg h]; linarith
  · rename_i h
    have h := not_lt.1 h
    have h1 := Int.floor_le x
    have h2 := Int.lt_floor_add_one x
    have h3 : (0 : ℝ) ≤ ⌊x⌋ := by exact_mod_cast Int.floor_nonneg.2 h
    refine ⟨abs_lt.2 ⟨by linarith, by linarith⟩, ?_, mul_nonneg h h3⟩
    rw [abs_of_nonneg h3, abs_of_nonneg h]; exact h1

section
variable [Rounding]

theorem foldlM_append (t : Ty) (xs ys : List Num) (h : List.Forall₂ (fun x y => conv t x = .ok y) xs ys)
    (g : StaticVector Num) :
    xs.foldlM (append t) g = .ok (ys.foldl (fun g y => StaticVector.more g y) g) := by
  induction h generalizing g with
  | nil => rfl
  | cons hxy _ ih =>
    rw [List.foldlM_cons, append, hxy]
    exact ih _

/-- A list whose numbers are converted has the converted numbers, in order. -/
theorem list_ok (t : Ty) (x y : Num) (xs ys : List Num) (hc : ∀ u ∈ x :: xs, convertible t u = true)
    (h : List.Forall₂ (fun x y => conv t x = .ok y) (x :: xs) (y :: ys)) :
    list t x xs = some (.ok (y :: ys)) := by
  rw [list, if_pos (by simpa using hc)]
  cases h with
  | cons h1 h2 =>
    rw [build, h1, Res.ok_bind, foldlM_append t xs ys h2, Res.ok_bind]
    exact congrArg some (c08_generator y ys)

theorem ofInt_exact {n : ℤ} (h : IsDouble (n : ℝ)) : (Fl.ofInt n).Finite ∧ (Fl.ofInt n).val = n := by
  rw [Fl.ofInt]
  split
  · rename_i h0
    subst h0
    exact ⟨isDouble_zero, by simp [Fl.val]⟩
  · have h2 := rnd_exact (Or.inl h)
    have h3 := h.lt
    rw [← h2] at h3
    have := Fl.round_finite h3
    rwa [h2] at this

theorem double_exact {x : Num} {re : ℝ} (hx : x.Is re 0) (hre : IsDouble re) (hz : x.ty ≠ .complex) :
    (toDouble x).Finite ∧ (toDouble x).val = re := by
  cases x with
  | b x =>
    obtain ⟨h, -⟩ := hx
    rw [h] at hre ⊢
    cases x
    · exact ⟨by simpa [toDouble, Fl.Finite] using hre, by simp [toDouble, Fl.val]⟩
    · exact ⟨by simpa [toDouble, Fl.Finite] using hre, by simp [toDouble, Fl.val]⟩
  | i t n =>
    obtain ⟨h, -⟩ := hx
    rw [h] at hre ⊢
    exact ofInt_exact hre
  | d x => exact ⟨hx.1, hx.2.1.symm⟩
  | z x => exact (hz rfl).elim

omit [Rounding] in
theorem Finite.double {x : Fl} (h : x.Finite) : IsDouble x.val := by
  cases x with
  | nzero => exact isDouble_zero
  | fin v => exact h
  | _ => exact h.elim

/-- A number which the type has is converted to it. -/
theorem conv_same (t : Ty) (x : Num) (hc : convertible t x = true) (h : ∃ y, y.WF ∧ Same t x y) :
    ∃ y, conv t x = .ok y ∧ Same t x y := by
  obtain ⟨y, wf, hty, re, im, hx, hy⟩ := h
  subst hty
  cases y with
  | b v =>
    obtain ⟨rfl, rfl⟩ := hy
    refine ⟨_, rfl, rfl, _, _, hx, ?_, rfl⟩
    cases x with
    | b u => exact hx.1
    | i s n =>
      obtain ⟨h, -⟩ := hx
      cases v
      · simp [toBool] at h ⊢; exact_mod_cast h.symm
      · simp [toBool] at h ⊢
        have : n = 1 := by exact_mod_cast h.symm
        omega
    | d f =>
      obtain ⟨hf, h, -⟩ := hx
      cases v <;> simp only [Bool.false_eq_true, if_false, if_true] at h ⊢ <;>
        simp [toBool, hf.ne_nan, hf.not_inf, ← h]
    | z f => simp [convertible, Num.ty] at hc
  | i s m =>
    obtain ⟨rfl, rfl⟩ := hy
    obtain ⟨w1, w2⟩ := wf
    have key : toInt s x = .ok m := by
      cases x with
      | b u =>
        obtain ⟨h, -⟩ := hx
        cases u <;> simp [toInt] at h ⊢ <;> exact_mod_cast h.symm
      | i r n =>
        obtain ⟨h, -⟩ := hx
        have : m = n := by exact_mod_cast h
        subst this
        rw [toInt, wrap_of w1 w2]
      | d f =>
        obtain ⟨hf, h, -⟩ := hx
        rw [toInt, ← h, trunc_int, if_pos ⟨hf, w1, w2⟩]
      | z f => simp [convertible, Num.ty] at hc
    exact ⟨.i s m, by simp [conv, Num.ty, key], rfl, _, _, hx, rfl, rfl⟩
  | d g =>
    obtain ⟨hg, rfl, rfl⟩ := hy
    have hz : x.ty ≠ .complex := by
      intro e
      rw [convertible, e] at hc
      simp [Num.ty] at hc
    have := double_exact hx (Finite.double hg) hz
    exact ⟨_, rfl, rfl, _, _, hx, this.1, this.2.symm, rfl⟩
  | z g =>
    obtain ⟨h1, h2, rfl, rfl⟩ := hy
    have real : ∀ x : Num, x.Is g.re.val g.im.val → x.ty ≠ .complex → Num.ty (.z g) = .complex →
        ∃ y, Res.ok (Num.z ⟨toDouble x, 0⟩) = Res.ok y ∧ Same .complex x y := by
      intro x hx hz _
      have h0 : g.im.val = 0 := by
        cases x with
        | b => exact hx.2
        | i => exact hx.2
        | d => exact hx.2.2
        | z => exact (hz rfl).elim
      rw [h0] at hx
      have := double_exact hx (Finite.double h1) hz
      exact ⟨_, rfl, rfl, _, _, hx, this.1, isDouble_zero, this.2.symm, rfl⟩
    cases x with
    | z f => exact ⟨_, rfl, rfl, _, _, hx, hx⟩
    | b u => exact real _ hx (by simp [Num.ty]) rfl
    | i r n => exact real _ hx (by simp [Num.ty]) rfl
    | d f => exact real _ hx (by simp [Num.ty]) rfl

/-- C135: a list of numbers which the type of the elements has is the vector of these numbers, in order, whatever types
they were written in. -/
theorem c135_exact (t : Ty) (x : Num) (xs : List Num) (hc : ∀ u ∈ x :: xs, convertible t u = true)
    (h : ∀ u ∈ x :: xs, ∃ y, y.WF ∧ Same t u y) :
    ∃ ys, list t x xs = some (.ok ys) ∧ List.Forall₂ (Same t) (x :: xs) ys := by
  have key : ∀ l : List Num, (∀ u ∈ l, convertible t u = true) → (∀ u ∈ l, ∃ y, y.WF ∧ Same t u y) →
      ∃ ys, List.Forall₂ (fun x y => conv t x = .ok y) l ys ∧ List.Forall₂ (Same t) l ys := by
    intro l
    induction l with
    | nil => intro _ _; exact ⟨[], .nil, .nil⟩
    | cons u us ih =>
      intro hc h
      obtain ⟨y, e, hs⟩ := conv_same t u (hc u (by simp)) (h u (by simp))
      obtain ⟨ys, e1, h1⟩ := ih (fun v hv => hc v (by simp [hv])) (fun v hv => h v (by simp [hv]))
      exact ⟨y :: ys, .cons e e1, .cons hs h1⟩
  obtain ⟨ys, h1, h2⟩ := key (x :: xs) hc h
  cases h1 with
  | cons e es => exact ⟨_, list_ok t x _ xs _ hc (.cons e es), h2⟩

/-- C135: a program compiles unless it writes complex numbers into a list of other numbers. -/
theorem c135_compiles (t : Ty) (x : Num) (xs : List Num) :
    list t x xs = none ↔ t ≠ .complex ∧ ∃ u ∈ x :: xs, u.ty = .complex := by
  rw [list]
  by_cases h : (x :: xs).all (convertible t) = true
  · rw [if_pos h]
    simp only [reduceCtorEq, false_iff, not_and, not_exists]
    intro ht u hu e
    have := List.all_eq_true.1 h u hu
    simp [convertible, e, ht] at this
  · rw [if_neg h]
    simp only [true_iff]
    have : ∃ u ∈ x :: xs, convertible t u = false := by
      by_contra hc
      apply h
      rw [List.all_eq_true]
      intro u hu
      by_contra hu'
      exact hc ⟨u, hu, by simpa using hu'⟩
    obtain ⟨u, hu, e⟩ := this
    simp only [convertible, Bool.or_eq_false_iff, bne_eq_false_iff_eq, beq_eq_false_iff_ne] at e
    exact ⟨e.2, u, hu, e.1⟩

/-- C135: doubles written into a list of integers lose their fraction without notice, if the integer fits. -/
theorem c135_truncates (s : IntTy) (f : Fl) (hf : f.Finite) (n : ℤ) (h1 : |f.val - n| < 1) (h2 : |(n : ℝ)| ≤ |f.val|)
    (h3 : 0 ≤ f.val * n) (hn : s.lo ≤ n ∧ n < s.lo + s.count) :
    list (.int s) (.d f) [] = some (.ok [.i s n]) := by
  have hu : trunc f.val = n := by
    obtain ⟨t1, t2, t3⟩ := trunc_spec f.val
    generalize trunc f.val = m at *
    generalize f.val = v at *
    have hd : |(m : ℝ) - n| < 1 := by
      rcases lt_trichotomy v 0 with hv | hv | hv
      · have m0 : (m : ℝ) ≤ 0 := by nlinarith
        have n0 : (n : ℝ) ≤ 0 := by nlinarith
        rw [abs_of_neg hv, abs_of_nonpos m0] at t2
        rw [abs_of_neg hv, abs_of_nonpos n0] at h2
        rw [abs_lt] at *
        constructor <;> linarith
      · subst hv
        rw [abs_zero] at t2 h2
        have e1 := abs_eq_zero.1 (le_antisymm t2 (abs_nonneg _))
        have e2 := abs_eq_zero.1 (le_antisymm h2 (abs_nonneg _))
        rw [e1, e2]; norm_num
      · have m0 : (0 : ℝ) ≤ m := by nlinarith
        have n0 : (0 : ℝ) ≤ n := by nlinarith
        rw [abs_of_pos hv, abs_of_nonneg m0] at t2
        rw [abs_of_pos hv, abs_of_nonneg n0] at h2
        rw [abs_lt] at *
        constructor <;> linarith
    have : |m - n| < 1 := by exact_mod_cast hd
    rw [Int.abs_lt_one_iff] at this
    omega
  refine list_ok _ _ _ _ _ (by simp [convertible, Num.ty]) (.cons ?_ .nil)
  rw [conv, toInt, hu, if_pos ⟨hf, hn⟩]
  rfl

/-- C135 is false of the code for NaN, infinities and doubles which do not fit into a list of integers: the program has no
meaning. -/
theorem c135_negation_range (s : IntTy) (f : Fl)
    (h : f = .nan ∨ f = .pinf ∨ f = .ninf ∨ (f.Finite ∧ (f.val ≤ s.lo - 1 ∨ ((s.lo + s.count : ℤ) : ℝ) ≤ f.val))) :
    list (.int s) (.d f) [] = some .ub := by
  have : toInt s (.d f) = .ub := by
    rw [toInt, if_neg]
    rintro ⟨hf, h1, h2⟩
    rcases h with rfl | rfl | rfl | ⟨-, h⟩
    · exact hf
    · exact hf
    · exact hf
    · obtain ⟨t1, t2, t3⟩ := trunc_spec f.val
      rw [abs_lt] at t1
      have h1' : (s.lo : ℝ) ≤ trunc f.val := by exact_mod_cast h1
      have h2' : (trunc f.val : ℝ) + 1 ≤ ((s.lo + s.count : ℤ) : ℝ) := by exact_mod_cast h2
      rcases h with h | h
      · linarith
      · linarith
  rw [list, if_pos (by simp [convertible, Num.ty]), build, conv, this]
  rfl

/-- C135: integers written into a list of doubles are rounded without notice: the relative error is at most 2^-53. -/
theorem c135_rounds (s : IntTy) (n : ℤ) (hn : (Num.i s n).WF) :
    ∃ y : Fl, list .double (.i s n) [] = some (.ok [.d y]) ∧ y.Finite ∧ |y.val - n| ≤ |(n : ℝ)| * 2 ^ (-53 : ℤ) := by
  refine ⟨Fl.ofInt n, list_ok _ _ _ _ _ (by simp [convertible, Num.ty]) (.cons rfl .nil), ?_⟩
  by_cases h0 : n = 0
  · subst h0
    simp [Fl.ofInt, Fl.Finite, Fl.val, isDouble_zero]
  · have hb : |n| ≤ 2 ^ 64 := by
      obtain ⟨h1, h2⟩ := hn
      rw [abs_le]
      cases s <;> simp only [IntTy.lo, IntTy.count] at h1 h2 <;> constructor <;> omega
    have hb' : |(n : ℝ)| ≤ 2 ^ 64 := by exact_mod_cast hb
    have h1 : (1 : ℝ) ≤ |(n : ℝ)| := by exact_mod_cast Int.one_le_abs h0
    have d64 : IsDouble ((2 : ℝ) ^ 64) := ⟨1, 64, by norm_num, by norm_num, by norm_num, by norm_num⟩
    have hr : |rnd (n : ℝ)| < 2 ^ 1024 := by
      have hle := abs_le.1 hb'
      have hlt := d64.lt
      rw [abs_of_pos (by positivity)] at hlt
      refine lt_of_le_of_lt (abs_le.2 ⟨?_, ?_⟩) hlt
      · exact le_rnd (.inl d64.neg) hle.1
      · exact rnd_le (.inl d64) hle.2
    rw [Fl.ofInt, if_neg h0]
    obtain ⟨f1, f2⟩ := Fl.round_finite hr
    refine ⟨f1, ?_⟩
    rw [f2, mul_comm]
    have hlt := d64.lt
    rw [abs_of_pos (by positivity)] at hlt
    refine rnd_rel (le_trans ?_ h1) (lt_of_le_of_lt hb' hlt)
    exact zpow_le_one_of_nonpos₀ (by norm_num) (by norm_num)

/-- C135: integers written into a list of integers keep their value if the type has it, and otherwise become without notice
the only number of the type which differs by a multiple of 2^32 or 2^64. -/
theorem c135_wraps (s r : IntTy) (n m : ℤ) :
    list (.int s) (.i r n) [] = some (.ok [.i s m]) ↔ InType s m ∧ (2 ^ bits s : ℤ) ∣ n - m := by
  have e : list (.int s) (.i r n) [] = some (.ok [.i s (wrap s n)]) :=
    list_ok _ _ _ _ _ (by simp [convertible, Num.ty]) (.cons rfl .nil)
  rw [e]
  have hw : (some (Res.ok [Num.i s (wrap s n)]) = some (.ok [.i s m])) ↔ wrap s n = m := by simp
  rw [hw]
  cases s <;> simp only [wrap, IntTy.lo, IntTy.count, InType, bits] <;> omega

/-- C135: a double written into a list of booleans is false if it is one of both zeros, and true otherwise, also if it is
NaN. -/
theorem c135_bool (f : Fl) :
    ∃ v, list .bool (.d f) [] = some (.ok [.b v]) ∧ (v = false ↔ f = .fin 0 ∨ f = .nzero) := by
  refine ⟨toBool (.d f), list_ok _ _ _ _ _ (by simp [convertible, Num.ty]) (.cons rfl .nil), ?_⟩
  cases f <;> simp [toBool, Fl.isInf, Fl.val]

/-- C135: the type of a list which begins with `xgen` is that of its first number, so that
`xgen << n << f` has the integer part of `f`, while `xgen << f << n` has both numbers. -/
theorem c135_negation_xgen (n m : ℤ) (f : Fl) (hf : f.Finite) (hn : (Num.i .int n).WF) (hm : (Num.i .int m).WF)
    (h1 : |f.val - m| < 1) (h2 : |(m : ℝ)| ≤ |f.val|) (h3 : 0 ≤ f.val * m) :
    xlist (.i .int n) [.d f] = some (.ok [.i .int n, .i .int m]) ∧
    ∃ ys, xlist (.d f) [.i .int n] = some (.ok ys) ∧ List.Forall₂ (Same .double) [.d f, .i .int n] ys := by
  constructor
  · have ht : conv (.int .int) (.d f) = .ok (.i .int m) := by
      have := c135_truncates .int f hf m h1 h2 h3 hm
      rw [list, if_pos (by simp [convertible, Num.ty]), build] at this
      cases h : conv (.int .int) (.d f) with
      | ok y =>
        rw [h] at this
        simpa [StaticVector.toVector, StaticVector.n, StaticVector.push, runWrites, writeAll, finish] using this
      | abort => rw [h] at this; simp at this
      | ub => rw [h] at this; simp at this
    refine list_ok _ _ _ _ _ (by simp [convertible, Num.ty]) (.cons ?_ (.cons ht .nil))
    simp [conv, toInt, Num.ty, wrap_of hn.1 hn.2]
  · refine c135_exact .double _ _ (by simp [convertible, Num.ty]) ?_
    have hb : |n| < 2 ^ 53 := by
      obtain ⟨a, b⟩ := hn
      simp only [IntTy.lo, IntTy.count] at a b
      rw [abs_lt]; constructor <;> omega
    have hd := isDouble_int hb
    intro u hu
    simp only [List.mem_cons, List.not_mem_nil, or_false] at hu
    rcases hu with rfl | rfl
    · refine ⟨.d f, ?_, rfl, _, _, ⟨hf, rfl, rfl⟩, hf, rfl, rfl⟩
      cases f <;> first | exact hf | trivial
    · exact ⟨.d (.fin n), hd, rfl, _, _, ⟨rfl, rfl⟩, hd, rfl, rfl⟩

end

/-- C135: == between a list and a vector of doubles compares sizes and numbers: NaN are not equal to themselves, and both
zeros are equal. -/
theorem c135_equal (x : Fl) (xs v : List Fl) :
    ∃ e, equal (StaticVector.chain x xs) v = .ok e ∧
      (e = true ↔ List.Forall₂ (fun a b => FlCmp.Holds .eq a b) (x :: xs) v) := by
  rw [equal, c08_generator, Res.ok_bind]
  by_cases h : (x :: xs).length = v.length
  · rw [if_neg (by simpa using h)]
    exact FlCmp.stdEqual_iff _ _ h
  · rw [if_pos h]
    exact ⟨false, rfl, by simpa using fun hf => h hf.length_eq⟩

/-! Numbers which meet the hypotheses. -/

example : InType .int (-1) ∧ (2 ^ bits .int : ℤ) ∣ 4294967295 - (-1) := by norm_num [InType, bits]

example : ∀ u ∈ [Num.b true, Num.i .long 3, Num.d .nzero], convertible (.int .long) u = true ∧
    ∃ y, y.WF ∧ Same (.int .long) u y := by
  intro u hu
  simp only [List.mem_cons, List.not_mem_nil, or_false] at hu
  rcases hu with rfl | rfl | rfl
  · exact ⟨rfl, .i .long 1, by simp [Num.WF, IntTy.lo, IntTy.count], rfl, 1, 0, by simp [Num.Is], by simp [Num.Is]⟩
  · exact ⟨rfl, .i .long 3, by simp [Num.WF, IntTy.lo, IntTy.count], rfl, 3, 0, by simp [Num.Is], by simp [Num.Is]⟩
  · exact ⟨rfl, .i .long 0, by simp [Num.WF, IntTy.lo, IntTy.count], rfl, 0, 0,
      by simp [Num.Is, Fl.Finite, Fl.val], by simp [Num.Is]⟩

example : (Fl.fin (5 / 2)).Finite ∧ |(Fl.fin (5 / 2)).val - (2 : ℤ)| < 1 ∧ |((2 : ℤ) : ℝ)| ≤ |(Fl.fin (5 / 2)).val| ∧
    0 ≤ (Fl.fin (5 / 2)).val * (2 : ℤ) ∧ (Num.i .int 2).WF := by
  refine ⟨⟨5, -1, by norm_num, by norm_num, by norm_num, by norm_num⟩, ?_, ?_, ?_, ?_⟩
  · norm_num [Fl.val, abs_lt]
  · norm_num [Fl.val]
  · norm_num [Fl.val]
  · norm_num [Num.WF, IntTy.lo, IntTy.count]

end Verif.Gen
