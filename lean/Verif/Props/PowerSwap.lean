import Verif.Props.PowerFl
/-
C132: maps for which the power method does not converge, and runs which are known without rounding errors.
-/
namespace Verif.PowerFl

open Verif Verif.Spec Fl Rounding Tensor FiniteResults PowerFl.Spec Fused GemmFl

section
variable [Rounding]

private theorem roundE {z : ℝ} (h : IsDouble z) (h0 : z ≠ 0) : Fl.round z = fin z := by
  obtain ⟨h1, h2⟩ := abs_lt.1 h.lt
  rw [Fl.round, rnd_exact (.inl h), if_neg (not_le.2 h2), if_neg (not_le.2 h1), if_neg h0]

private theorem mulE {x y z : ℝ} (e : x * y = z) (h : IsDouble z) (h0 : z ≠ 0) : fin x * fin y = fin z :=
  mul_fin h (by rw [e]; exact rnd_exact (.inl h)) h0

private theorem mulZ {x : ℝ} (hx : 0 ≤ x) : fin x * fin 0 = fin 0 := by
  show mul (fin x) (fin 0) = _
  simp [mul, isInf, val, zeroS, Fl.neg, not_lt.2 hx]

private theorem zmul {x : ℝ} (hx : 0 ≤ x) : fin 0 * fin x = fin 0 := by
  show mul (fin 0) (fin x) = _
  simp [mul, isInf, val, zeroS, Fl.neg, not_lt.2 hx]

private theorem divE {x y z : ℝ} (hy : y ≠ 0) (e : x / y = z) (h : IsDouble z) (h0 : z ≠ 0) : fin x / fin y = fin z := by
  subst e
  have hx : x ≠ 0 := by rintro rfl; exact h0 (zero_div _)
  show div _ _ = _
  rw [div, if_neg (by simp), if_neg (by simp [isInf]), if_neg (by simp [isInf]),
    if_neg (show ¬ (fin y).val = 0 from hy), if_neg (show ¬ (fin x).val = 0 from hx)]
  exact roundE h h0

private theorem zdiv {y : ℝ} (hy : 0 < y) : fin 0 / fin y = fin 0 := by
  show div _ _ = _
  rw [div, if_neg (by simp), if_neg (by simp [isInf]), if_neg (by simp [isInf]),
    if_neg (show ¬ (fin y).val = 0 from hy.ne'), if_pos (show (fin 0).val = 0 from rfl)]
  simp [zeroS, Fl.neg, not_lt.2 hy.le]

private theorem add0 {x : ℝ} (h : IsDouble x) : fin x + fin 0 = fin x := by
  by_cases h0 : x = 0
  · subst h0
    have := add_fin_zero (0 : ℝ)
    rw [neg_zero] at this
    exact this
  · show Fl.add (fin x) (fin 0) = _
    rw [Fl.add]
    · simp only [val, add_zero]
      rw [if_neg h0, roundE h h0]
    all_goals simp

private theorem sub0 {x : ℝ} (h : IsDouble x) : fin x - fin 0 = fin x := by
  show Fl.add (fin x) (negate (fin 0)) = _
  by_cases h0 : x = 0
  · subst h0
    simp [negate, Fl.add, val]
  · rw [negate, if_pos rfl, Fl.add]
    · simp only [val, add_zero]
      rw [if_neg h0, roundE h h0]
    all_goals simp

private theorem sqrtE {x y : ℝ} (e : y * y = x) (hy : 0 < y) (h : IsDouble y) : Fl.sqrt (fin x) = fin y := by
  have hx : 0 < x := by rw [← e]; exact mul_pos hy hy
  rw [Fl.sqrt, if_neg (not_lt.2 hx.le), if_neg hx.ne', ← e, Real.sqrt_mul_self hy.le]
  exact roundE h hy.ne'

/-- The map (x, y) ↦ (c y, c x), the eigenvalues of which are c and -c. -/
noncomputable def swap (c : ℝ) (p : Tensor Fl) : Res (Tensor Fl) :=
  .ok ⟨p.dims, p.data.reverse.map fun x => fin c * x⟩

/-- The first or the second vector of the basis. -/
def basis (b : Bool) : Tensor Fl := ⟨[2], if b then [fin 0, fin 1] else [fin 1, fin 0]⟩

omit [Rounding] in
private theorem d1 : IsDouble (1 : ℝ) := ⟨1, 0, by norm_num, by norm_num, by norm_num, by norm_num⟩

private theorem unit_scaled {c : ℝ} (hc : 0 < c) (dc : IsDouble c) (dcc : IsDouble (c * c)) (b : Bool) :
    unit (⟨[2], if b then [fin 0, fin c] else [fin c, fin 0]⟩ : Tensor Fl) = .ok (basis b) := by
  obtain ⟨s, hs, hu⟩ := unit_eq (⟨[2], if b then [fin 0, fin c] else [fin c, fin 0]⟩ : Tensor Fl)
  rw [norm2_eq] at hs
  have cc : fin c * fin c = fin (c * c) := mulE rfl dcc (mul_pos hc hc).ne'
  have zz : fin 0 * fin 0 = fin 0 := mulZ le_rfl
  have hz : (0 : Fl) = fin 0 := rfl
  have z0 : fin 0 + fin 0 = fin 0 := add0 isDouble_zero
  have zc : fin 0 + fin (c * c) = fin (c * c) := zero_add_fin dcc (mul_pos hc hc).ne'
  have hsq : Fl.sqrt (fin (c * c)) = fin c := sqrtE rfl hc dc
  have h1 : fin c / fin c = fin 1 := divE hc.ne' (div_self hc.ne') d1 one_ne_zero
  have h0 : fin 0 / fin c = fin 0 := zdiv hc
  have hs' : s = fin c := by
    rw [← Res.ok.inj hs]
    cases b
    · show Fl.sqrt ((0 : Fl) + fin c * fin c + fin 0 * fin 0) = _
      rw [hz, cc, zz, zc, add0 dcc, hsq]
    · show Fl.sqrt ((0 : Fl) + fin 0 * fin 0 + fin c * fin c) = _
      rw [hz, cc, zz, z0, zc, hsq]
  rw [hu, hs']
  cases b
  · show Res.ok (⟨[2], [fin c / fin c, fin 0 / fin c]⟩ : Tensor Fl) = _
    rw [h1, h0]
    rfl
  · show Res.ok (⟨[2], [fin 0 / fin c, fin c / fin c]⟩ : Tensor Fl) = _
    rw [h1, h0]
    rfl

private theorem tol_zero {tol : Fl} (ht : tol.Finite) (h0 : 0 < tol.val) : tol * Fl.abs (fin 0) = fin 0 := by
  cases tol <;> simp_all [Fl.Finite, val]
  show fin _ * fin |0| = _
  rw [abs_zero]
  exact mulZ h0.le

private theorem step {c : ℝ} (hc : 0 < c) (dc : IsDouble c) (dcc : IsDouble (c * c)) {tol : Fl} (ht : tol.Finite)
    (h0 : 0 < tol.val) (k : Nat) (old : Option (Fl × Tensor Fl)) (hold : ∀ o, old = some o → o.1 = fin 0) (b : Bool)
    (used : Nat) :
    loop (swap c) tol (k + 1) old (basis b) used = loop (swap c) tol k (some (fin 0, basis b)) (basis (!b)) (used + 1) := by
  have p1 : fin c * fin 1 = fin c := mulE (mul_one c) dc hc.ne'
  have p0 : fin c * fin 0 = fin 0 := mulZ hc.le
  have hz : (0 : Fl) = fin 0 := rfl
  have zz : fin 0 * fin 0 = fin 0 := mulZ le_rfl
  have z1 : fin 0 * fin 1 = fin 0 := zmul zero_le_one
  have oz : fin 1 * fin 0 = fin 0 := mulZ zero_le_one
  have zc : fin 0 * fin c = fin 0 := zmul hc.le
  have z0 : fin 0 + fin 0 = fin 0 := add0 isDouble_zero
  have m1 : swap c (basis b) = .ok ⟨[2], if !b then [fin 0, fin c] else [fin c, fin 0]⟩ := by
    cases b
    · show Res.ok (⟨[2], [fin c * fin 0, fin c * fin 1]⟩ : Tensor Fl) = _
      rw [p1, p0]
      rfl
    · show Res.ok (⟨[2], [fin c * fin 1, fin c * fin 0]⟩ : Tensor Fl) = _
      rw [p1, p0]
      rfl
  have m2 : scprod id (basis b) ⟨[2], if !b then [fin 0, fin c] else [fin c, fin 0]⟩ = .ok (fin 0) := by
    rw [scprod_fold id _ _ (by cases b <;> exact le_refl 2)]
    cases b
    · show Res.ok ((0 : Fl) + fin 1 * fin 0 + fin 0 * fin c) = _
      rw [hz, oz, zc, z0, z0]
    · show Res.ok ((0 : Fl) + fin 0 * fin c + fin 1 * fin 0) = _
      rw [hz, oz, zc, z0, z0]
  have m3 : binopNT (fun x y : Fl => x * y) (fin 0) (basis b) = .ok ⟨[2], [fin 0, fin 0]⟩ := by
    rw [show binopNT (fun x y : Fl => x * y) (fin 0) (basis b) = .ok ⟨[2], (basis b).data.map fun y => fin 0 * y⟩ from
      unop_ok _ _ (by cases b <;> rfl)]
    cases b
    · show Res.ok (⟨[2], [fin 0 * fin 1, fin 0 * fin 0]⟩ : Tensor Fl) = _
      rw [z1, zz]
    · show Res.ok (⟨[2], [fin 0 * fin 0, fin 0 * fin 1]⟩ : Tensor Fl) = _
      rw [z1, zz]
  have m4 : binopTT (fun x y : Fl => x - y) (⟨[2], if !b then [fin 0, fin c] else [fin c, fin 0]⟩ : Tensor Fl)
      ⟨[2], [fin 0, fin 0]⟩ = .ok ⟨[2], if !b then [fin 0, fin c] else [fin c, fin 0]⟩ := by
    rw [binopTT_ok (fun x y : Fl => x - y) ⟨[2], if !b then [fin 0, fin c] else [fin c, fin 0]⟩ ⟨[2], [fin 0, fin 0]⟩
      (by cases b <;> rfl) (by cases b <;> rfl)]
    cases b
    · show Res.ok (⟨[2], [fin 0 - fin 0, fin c - fin 0]⟩ : Tensor Fl) = _
      rw [sub0 isDouble_zero, sub0 dc]
      rfl
    · show Res.ok (⟨[2], [fin c - fin 0, fin 0 - fin 0]⟩ : Tensor Fl) = _
      rw [sub0 isDouble_zero, sub0 dc]
      rfl
  have lt0 : ¬ fin 0 < fin 0 := fun h => lt_irrefl (0 : ℝ) h
  have ab0 : Fl.abs (fin 0) = fin 0 := by
    show fin |0| = _
    rw [abs_zero]
  have abc : Fl.abs (fin c) = fin c := by
    show fin |c| = _
    rw [abs_of_pos hc]
  have hlt : fin 0 < fin c := hc
  have hgt : ¬ fin c < fin 0 := fun h => absurd (show c < 0 from h) (not_lt.2 hc.le)
  have m5 : norm0 Fl.abs (⟨[2], if !b then [fin 0, fin c] else [fin c, fin 0]⟩ : Tensor Fl) = fin c := by
    cases b
    · show (if (if (0 : Fl) < Fl.abs (fin 0) then Fl.abs (fin 0) else 0) < Fl.abs (fin c) then Fl.abs (fin c) else _) = _
      rw [hz, ab0, if_neg lt0, abc, if_pos hlt]
    · show (if (if (0 : Fl) < Fl.abs (fin c) then Fl.abs (fin c) else 0) < Fl.abs (fin 0) then Fl.abs (fin 0) else
        (if (0 : Fl) < Fl.abs (fin c) then Fl.abs (fin c) else 0)) = _
      rw [hz, ab0, abc, if_pos hlt, if_neg hgt]
  rw [loop, m1, Res.ok_bind, m2, Res.ok_bind, m3, Res.ok_bind, m4, Res.ok_bind, unit_scaled hc dc dcc (!b), Res.ok_bind]
  simp only [m5]
  rw [tol_zero ht h0, if_neg hgt]
  cases old with
  | none => rfl
  | some o =>
    have ho := hold o rfl
    simp only [ho]
    rw [sub0 isDouble_zero, ab0, if_neg lt0]

private theorem run {c : ℝ} (hc : 0 < c) (dc : IsDouble c) (dcc : IsDouble (c * c)) {tol : Fl} (ht : tol.Finite)
    (h0 : 0 < tol.val) (k : Nat) (o : Fl × Tensor Fl) (ho : o.1 = fin 0) (b : Bool) (used : Nat) :
    ∃ last, loop (swap c) tol k (some o) (basis b) used =
      .ok ⟨fin 0, basis (xor b (decide (k % 2 = 1))), used + k, .limit, last⟩ := by
  induction k generalizing o b used with
  | zero =>
    refine ⟨o.2, ?_⟩
    rw [loop, ho]
    simp
  | succ k ih =>
    rw [step hc dc dcc ht h0 k (some o) (by rintro _ ⟨⟩; exact ho)]
    obtain ⟨last, h⟩ := ih (fin 0, basis b) rfl (!b) (used + 1)
    refine ⟨last, ?_⟩
    rw [h]
    have e : xor (!b) (decide (k % 2 = 1)) = xor b (decide ((k + 1) % 2 = 1)) := by
      rcases Nat.mod_two_eq_zero_or_one k with h2 | h2
      · rw [h2, show (k + 1) % 2 = 1 by omega]
        cases b <;> rfl
      · rw [h2, show (k + 1) % 2 = 0 by omega]
        cases b <;> rfl
    rw [e, show used + 1 + k = used + (k + 1) by omega]

/-- C132: the power method need not converge, and does not say so. With the map (x, y) ↦ (c y, c x), whose eigenvalues are c
and -c, it starts from the first vector of the basis, goes back and forth between the two of them until the iterations are
used up (one more than asked for, and 21 by default), and returns 0, which is not an eigenvalue. -/
theorem c132_negation_swap (deftol tol : Fl) (start : Tensor Fl) (c : ℕ) (c0 : 1 ≤ c) (c1 : c ≤ 2 ^ 26) (iter : Nat)
    (ht : tol.Finite) (h0 : 0 < tol.val) :
    ∃ out, power deftol (swap c) 2 (some ⟨[2], [fin 1, fin 0]⟩) start iter tol = .ok out ∧ out.eig = fin 0 ∧
      out.used = (if iter = 0 then 20 else iter) + 1 ∧ out.why = .limit ∧
      out.v = ⟨[2], if iter % 2 = 0 then [fin 0, fin 1] else [fin 1, fin 0]⟩ := by
  have hc : (0 : ℝ) < c := by exact_mod_cast c0
  have dc : IsDouble (c : ℝ) := by
    refine ⟨c, 0, ?_, by norm_num, by norm_num, by simp⟩
    rw [abs_of_nonneg (by positivity)]
    have : (c : ℤ) ≤ 2 ^ 26 := by exact_mod_cast c1
    exact lt_of_le_of_lt this (by norm_num)
  have dcc : IsDouble ((c : ℝ) * c) := by
    refine ⟨(c * c : ℕ), 0, ?_, by norm_num, by norm_num, by push_cast; simp⟩
    rw [abs_of_nonneg (by positivity)]
    have : c * c ≤ 2 ^ 26 * 2 ^ 26 := Nat.mul_le_mul c1 c1
    have h2 : ((c * c : ℕ) : ℤ) ≤ ((2 ^ 26 * 2 ^ 26 : ℕ) : ℤ) := by exact_mod_cast this
    exact lt_of_le_of_lt h2 (by norm_num)
  have htol : ¬ tol ≤ 0 := by
    rw [le_finite ht finite_zero]
    show ¬ tol.val ≤ (0 : ℝ)
    linarith
  have u1 : unit (⟨[2], [fin 1, fin 0]⟩ : Tensor Fl) = .ok (basis false) :=
    unit_scaled zero_lt_one d1 (by rw [mul_one]; exact d1) false
  have hk : (if iter = 0 then max 20 (⟨[2], [fin 1, fin 0]⟩ : Tensor Fl).size else iter) = if iter = 0 then 20 else iter := by
    rfl
  rw [power]
  simp only [Res.ok_bind, if_neg htol]
  rw [if_neg (by simp [Tensor.size]), u1, Res.ok_bind, hk]
  generalize hn : (if iter = 0 then 20 else iter) = n
  have hpar : n % 2 = iter % 2 := by
    subst hn
    split
    · next h => rw [h]
    · rfl
  rw [step hc dc dcc ht h0 n none (by simp)]
  obtain ⟨last, h⟩ := run hc dc dcc ht h0 n (fin 0, basis false) rfl (!false) (0 + 1)
  refine ⟨_, h, rfl, by show 0 + 1 + n = _; omega, rfl, ?_⟩
  show basis (xor (!false) (decide (n % 2 = 1))) = _
  rcases Nat.mod_two_eq_zero_or_one n with h2 | h2
  · rw [← hpar, h2]
    rfl
  · rw [← hpar, h2]
    rfl

/-- The tolerance 1 meets the hypotheses, with c = 3. -/
example : ∃ out, power (fin 1) (swap (3 : ℕ)) 2 (some ⟨[2], [fin 1, fin 0]⟩) ⟨[2], []⟩ 4 (fin 1) = .ok out ∧
    out.eig = fin 0 :=
  let ⟨out, h, h', _⟩ := c132_negation_swap (fin 1) (fin 1) ⟨[2], []⟩ 3 (by norm_num) (by norm_num) 4 d1 zero_lt_one
  ⟨out, h, h'⟩

end

end Verif.PowerFl
