import Verif.Props.CgsFl
/-
C133: a family of systems which conjugate gradients solve in two steps without rounding errors. It fixes both the length of
the steps and the directions, on which the bounds of the residual do not depend.
-/
namespace Verif.CgsFl

open Verif Verif.Spec Fl Rounding Tensor FiniteResults CgsFl.Spec PowerFl Fused GemmFl

section
variable [Rounding]

private theorem roundE {z : ℝ} (h : IsDouble z) (h0 : z ≠ 0) : Fl.round z = fin z := by
  obtain ⟨h1, h2⟩ := abs_lt.1 h.lt
  rw [Fl.round, rnd_exact (.inl h), if_neg (not_le.2 h2), if_neg (not_le.2 h1), if_neg h0]

private theorem addE {x y z : ℝ} (e : x + y = z) (h : IsDouble z) (h0 : z ≠ 0) : fin x + fin y = fin z := by
  subst e
  show Fl.add (fin x) (fin y) = _
  rw [Fl.add]
  · rw [val, val, if_neg h0, roundE h h0]
  all_goals simp

private theorem subE {x y z : ℝ} (hy : y ≠ 0) (e : x - y = z) (h : IsDouble z) (h0 : z ≠ 0) : fin x - fin y = fin z := by
  show Fl.add (fin x) (negate (fin y)) = _
  rw [negate, if_neg hy]
  exact addE (by rw [← e]; ring) h h0

private theorem subZ {x : ℝ} (hx : x ≠ 0) : fin x - fin x = fin 0 := by
  show Fl.add (fin x) (negate (fin x)) = _
  rw [negate, if_neg hx]
  exact add_fin_zero x

private theorem mulE {x y z : ℝ} (e : x * y = z) (h : IsDouble z) (h0 : z ≠ 0) : fin x * fin y = fin z :=
  mul_fin h (by rw [e]; exact rnd_exact (.inl h)) h0

private theorem divE {x y z : ℝ} (hy : y ≠ 0) (e : x / y = z) (h : IsDouble z) (h0 : z ≠ 0) : fin x / fin y = fin z := by
  subst e
  have hx : x ≠ 0 := by rintro rfl; exact h0 (zero_div _)
  show div _ _ = _
  rw [div, if_neg (by simp), if_neg (by simp [isInf]), if_neg (by simp [isInf]),
    if_neg (show ¬ (fin y).val = 0 from hy), if_neg (show ¬ (fin x).val = 0 from hx)]
  exact roundE h h0

/-- The map with the matrix diag(1, 1, 4). -/
noncomputable def diag114 (p : Tensor Fl) : Res (Tensor Fl) :=
  .ok ⟨p.dims, List.zipWith (fun u v : Fl => u * v) [fin 1, fin 1, fin 4] p.data⟩

/-- C133: for the matrix diag(1, 1, 4) and the right-hand side (c, c, c), where c is any integer but 0 up to 2^20, the program
starts at zero and ends after two steps with the exact solution (c, c, c / 4), for all tolerances up to 1 and all numbers of
iterations which allow for the second step. -/
theorem c133_two_steps (c15 deftol tol : Fl) (start : Tensor Fl) (c : ℤ) (c0 : c ≠ 0) (c1 : |c| ≤ 2 ^ 20) (maxiter : Nat)
    (hc : c15.Finite) (hc0 : 0 ≤ c15.val) (hc1 : c15.val ≤ 1 / 4) (ht : tol.Finite) (ht0 : 0 < tol.val) (ht1 : tol.val ≤ 1) :
    ∃ out, solve c15 deftol diag114 ⟨[3], [fin c, fin c, fin c]⟩ (some ⟨[3], [fin 0, fin 0, fin 0]⟩) start maxiter tol =
        .ok out ∧ out.x = ⟨[3], [fin c, fin c, fin (c / 4)]⟩ ∧ out.conv = true ∧ out.used = 3 := by
  have hcc : |c * c| ≤ 2 ^ 40 := by
    rw [abs_mul]
    nlinarith [abs_nonneg c]
  have cc1 : (1 : ℝ) ≤ (c : ℝ) * c := by
    have : 1 ≤ c * c := by nlinarith [Int.one_le_abs c0, abs_mul_abs_self c]
    exact_mod_cast this
  have D1 : ∀ k : ℤ, |k| ≤ 16 → ∀ z : ℝ, z = k * c / 4 → IsDouble z := by
    rintro k hk z rfl
    refine ⟨k * c, -2, ?_, by norm_num, by norm_num, ?_⟩
    · rw [abs_mul]
      nlinarith [abs_nonneg c, abs_nonneg k]
    · push_cast
      rw [zpow_neg]
      norm_num
      ring
  have D2 : ∀ k : ℤ, |k| ≤ 64 → ∀ z : ℝ, z = k * (c * c) / 4 → IsDouble z := by
    rintro k hk z rfl
    refine ⟨k * (c * c), -2, ?_, by norm_num, by norm_num, ?_⟩
    · rw [abs_mul]
      nlinarith [abs_nonneg (c * c), abs_nonneg k]
    · push_cast
      rw [zpow_neg]
      norm_num
      ring
  have dh : IsDouble (1 / 2 : ℝ) := ⟨1, -1, by norm_num, by norm_num, by norm_num, by norm_num⟩
  have d1 : IsDouble (1 : ℝ) := ⟨1, 0, by norm_num, by norm_num, by norm_num, by norm_num⟩
  have r0 : (c : ℝ) ≠ 0 := by exact_mod_cast c0
  generalize (c : ℝ) = a at *
  have q0 : a * a ≠ 0 := mul_ne_zero r0 r0
  -- the doubles of the run
  have da : IsDouble a := D1 4 (by norm_num) _ (by push_cast; ring)
  have da4 : IsDouble (4 * a) := D1 16 (by norm_num) _ (by push_cast; ring)
  have da2 : IsDouble (2 * a) := D1 8 (by norm_num) _ (by push_cast; ring)
  have dm2 : IsDouble (-(2 * a)) := da2.neg
  have dma : IsDouble (-a) := da.neg
  have dah : IsDouble (a / 2) := D1 2 (by norm_num) _ (by push_cast; ring)
  have dmh : IsDouble (-(a / 2)) := dah.neg
  have daq : IsDouble (a / 4) := D1 1 (by norm_num) _ (by push_cast; ring)
  have dmq : IsDouble (-(a / 4)) := daq.neg
  have s1 : IsDouble (a * a) := D2 4 (by norm_num) _ (by push_cast; ring)
  have s2 : IsDouble (2 * (a * a)) := D2 8 (by norm_num) _ (by push_cast; ring)
  have s3 : IsDouble (3 * (a * a)) := D2 12 (by norm_num) _ (by push_cast; ring)
  have s4 : IsDouble (4 * (a * a)) := D2 16 (by norm_num) _ (by push_cast; ring)
  have s6 : IsDouble (6 * (a * a)) := D2 24 (by norm_num) _ (by push_cast; ring)
  have sq : IsDouble (a * a / 4) := D2 1 (by norm_num) _ (by push_cast; ring)
  have sh : IsDouble (a * a / 2) := D2 2 (by norm_num) _ (by push_cast; ring)
  have st : IsDouble (3 * (a * a) / 2) := D2 6 (by norm_num) _ (by push_cast; ring)
  have n2 : (2 : ℝ) ≠ 0 := by norm_num
  have n3 : (3 : ℝ) ≠ 0 := by norm_num
  have n4 : (4 : ℝ) ≠ 0 := by norm_num
  have n6 : (6 : ℝ) ≠ 0 := by norm_num
  have nh : (1 / 2 : ℝ) ≠ 0 := by norm_num
  have ah0 : a / 2 ≠ 0 := div_ne_zero r0 n2
  have aq0 : a / 4 ≠ 0 := div_ne_zero r0 n4
  have a20 : 2 * a ≠ 0 := mul_ne_zero n2 r0
  have a40 : 4 * a ≠ 0 := mul_ne_zero n4 r0
  have q2 : 2 * (a * a) ≠ 0 := mul_ne_zero n2 q0
  have q3 : 3 * (a * a) ≠ 0 := mul_ne_zero n3 q0
  have q4 : 4 * (a * a) ≠ 0 := mul_ne_zero n4 q0
  have q6 : 6 * (a * a) ≠ 0 := mul_ne_zero n6 q0
  have qq : a * a / 4 ≠ 0 := div_ne_zero q0 n4
  have qh : a * a / 2 ≠ 0 := div_ne_zero q0 n2
  have qt : 3 * (a * a) / 2 ≠ 0 := div_ne_zero q3 n2
  have m10 : fin 1 * fin 0 = fin 0 := by
    show mul (fin 1) (fin 0) = _
    simp [mul, isInf, val, zeroS, Fl.neg, not_lt.2 (zero_le_one' ℝ)]
  have m40 : fin 4 * fin 0 = fin 0 := by
    show mul (fin 4) (fin 0) = _
    simp [mul, isInf, val, zeroS, Fl.neg, not_lt.2 (show (0 : ℝ) ≤ 4 by norm_num)]
  have sub0 : fin a - fin 0 = fin a := by
    show Fl.add (fin a) (negate (fin 0)) = _
    rw [negate, if_pos rfl, Fl.add]
    · simp only [val, add_zero]
      rw [if_neg r0, roundE da r0]
    all_goals simp
  have ha1 : fin 1 * fin a = fin a := mulE (by ring) da r0
  -- the vectors of the run
  let x0 : Tensor Fl := ⟨[3], [fin 0, fin 0, fin 0]⟩
  let b : Tensor Fl := ⟨[3], [fin a, fin a, fin a]⟩
  let Ab : Tensor Fl := ⟨[3], [fin a, fin a, fin (4 * a)]⟩
  let x1 : Tensor Fl := ⟨[3], [fin (a / 2), fin (a / 2), fin (a / 2)]⟩
  let r1 : Tensor Fl := ⟨[3], [fin (a / 2), fin (a / 2), fin (-a)]⟩
  let p1 : Tensor Fl := ⟨[3], [fin a, fin a, fin (-(a / 2))]⟩
  let Ap1 : Tensor Fl := ⟨[3], [fin a, fin a, fin (-(2 * a))]⟩
  let x2 : Tensor Fl := ⟨[3], [fin a, fin a, fin (a / 4)]⟩
  have V : ∀ {u v w : ℝ}, IsDouble u → IsDouble v → IsDouble w → Vec 3 (⟨[3], [fin u, fin v, fin w]⟩ : Tensor Fl) :=
    fun {u v w} hu hv hw => ⟨rfl, rfl, by
      intro y hy
      simp only [List.mem_cons, List.not_mem_nil, or_false] at hy
      rcases hy with rfl | rfl | rfl
      · exact hu
      · exact hv
      · exact hw⟩
  have vx0 : Vec 3 x0 := V isDouble_zero isDouble_zero isDouble_zero
  have vb : Vec 3 b := V da da da
  have vAb : Vec 3 Ab := V da da da4
  have vx1 : Vec 3 x1 := V dah dah dah
  have vr1 : Vec 3 r1 := V dah dah dma
  have vp1 : Vec 3 p1 := V da da dmh
  have vAp1 : Vec 3 Ap1 := V da da dm2
  have A0 : diag114 x0 = .ok x0 := by
    show Res.ok (⟨[3], [fin 1 * fin 0, fin 1 * fin 0, fin 4 * fin 0]⟩ : Tensor Fl) = _
    rw [m10, m40]
  have A1 : diag114 b = .ok Ab := by
    show Res.ok (⟨[3], [fin 1 * fin a, fin 1 * fin a, fin 4 * fin a]⟩ : Tensor Fl) = _
    rw [ha1, mulE rfl da4 a40]
  have A2 : diag114 p1 = .ok Ap1 := by
    show Res.ok (⟨[3], [fin 1 * fin a, fin 1 * fin a, fin 4 * fin (-(a / 2))]⟩ : Tensor Fl) = _
    rw [ha1, mulE (z := -(2 * a)) (by ring) dm2 (neg_ne_zero.2 a20)]
  have er : (⟨[3], List.zipWith (fun u v : Fl => u - v) [fin a, fin a, fin a] [fin 0, fin 0, fin 0]⟩ : Tensor Fl) = b := by
    show (⟨[3], [fin a - fin 0, fin a - fin 0, fin a - fin 0]⟩ : Tensor Fl) = _
    rw [sub0]
  have zq : ∀ {z : ℝ}, IsDouble z → z ≠ 0 → (0 : Fl) + fin z = fin z := fun h h0 => addE (zero_add _) h h0
  have pbb : prod2 b b = fin (3 * (a * a)) := by
    show (((0 : Fl) + fin a * fin a) + fin a * fin a) + fin a * fin a = _
    rw [mulE rfl s1 q0, zq s1 q0, addE (z := 2 * (a * a)) (by ring) s2 q2, addE (z := 3 * (a * a)) (by ring) s3 q3]
  have pbA : prod2 b Ab = fin (6 * (a * a)) := by
    show (((0 : Fl) + fin a * fin a) + fin a * fin a) + fin a * fin (4 * a) = _
    rw [mulE rfl s1 q0, zq s1 q0, addE (z := 2 * (a * a)) (by ring) s2 q2, mulE (z := 4 * (a * a)) (by ring) s4 q4,
      addE (z := 6 * (a * a)) (by ring) s6 q6]
  have al0 : fin (3 * (a * a)) / fin (6 * (a * a)) = fin (1 / 2) := divE q6 (by field_simp; norm_num) dh nh
  have half : ∀ {y z : ℝ}, 1 / 2 * y = z → IsDouble z → z ≠ 0 → fin (1 / 2) * fin y = fin z := fun e h h0 => mulE e h h0
  have ex1 : addTo x0 (fin (1 / 2)) b = x1 := by
    show (⟨[3], [fin 0 + fin (1 / 2) * fin a, fin 0 + fin (1 / 2) * fin a, fin 0 + fin (1 / 2) * fin a]⟩ : Tensor Fl) = _
    rw [half (z := a / 2) (by ring) dah ah0, addE (z := a / 2) (by ring) dah ah0]
  have er1 : subFrom b (fin (1 / 2)) Ab = r1 := by
    show (⟨[3], [fin a - fin (1 / 2) * fin a, fin a - fin (1 / 2) * fin a, fin a - fin (1 / 2) * fin (4 * a)]⟩ : Tensor Fl) = _
    rw [half (z := a / 2) (by ring) dah ah0, half (z := 2 * a) (by ring) da2 a20, subE (z := a / 2) ah0 (by ring) dah ah0,
      subE (z := -a) a20 (by ring) dma (neg_ne_zero.2 r0)]
  have prr : prod2 r1 r1 = fin (3 * (a * a) / 2) := by
    show (((0 : Fl) + fin (a / 2) * fin (a / 2)) + fin (a / 2) * fin (a / 2)) + fin (-a) * fin (-a) = _
    rw [mulE (z := a * a / 4) (by ring) sq qq, zq sq qq, addE (z := a * a / 2) (by ring) sh qh,
      mulE (z := a * a) (by ring) s1 q0, addE (z := 3 * (a * a) / 2) (by ring) st qt]
  have ga : fin (3 * (a * a) / 2) / fin (3 * (a * a)) = fin (1 / 2) := divE q3 (by field_simp) dh nh
  have ep1 : addTo r1 (fin (1 / 2)) b = p1 := by
    show (⟨[3], [fin (a / 2) + fin (1 / 2) * fin a, fin (a / 2) + fin (1 / 2) * fin a, fin (-a) + fin (1 / 2) * fin a]⟩ :
      Tensor Fl) = _
    rw [half (z := a / 2) (by ring) dah ah0, addE (z := a) (by ring) da r0,
      addE (z := -(a / 2)) (by ring) dmh (neg_ne_zero.2 ah0)]
  have ppA : prod2 p1 Ap1 = fin (3 * (a * a)) := by
    show (((0 : Fl) + fin a * fin a) + fin a * fin a) + fin (-(a / 2)) * fin (-(2 * a)) = _
    rw [mulE rfl s1 q0, zq s1 q0, addE (z := 2 * (a * a)) (by ring) s2 q2, mulE (z := a * a) (by ring) s1 q0,
      addE (z := 3 * (a * a)) (by ring) s3 q3]
  have ex2 : addTo x1 (fin (1 / 2)) p1 = x2 := by
    show (⟨[3], [fin (a / 2) + fin (1 / 2) * fin a, fin (a / 2) + fin (1 / 2) * fin a,
      fin (a / 2) + fin (1 / 2) * fin (-(a / 2))]⟩ : Tensor Fl) = _
    rw [half (z := a / 2) (by ring) dah ah0, half (z := -(a / 4)) (by ring) dmq (neg_ne_zero.2 aq0),
      addE (z := a) (by ring) da r0, addE (z := a / 4) (by ring) daq aq0]
  have er2 : subFrom r1 (fin (1 / 2)) Ap1 = x0 := by
    show (⟨[3], [fin (a / 2) - fin (1 / 2) * fin a, fin (a / 2) - fin (1 / 2) * fin a,
      fin (-a) - fin (1 / 2) * fin (-(2 * a))]⟩ : Tensor Fl) = _
    rw [half (z := a / 2) (by ring) dah ah0, half (z := -a) (by ring) dma (neg_ne_zero.2 r0), subZ ah0,
      subZ (neg_ne_zero.2 r0)]
  have pz : prod2 x0 x0 = fin 0 := by
    show (((0 : Fl) + fin 0 * fin 0) + fin 0 * fin 0) + fin 0 * fin 0 = _
    have h1 : fin 0 * fin 0 = fin 0 := by
      show mul (fin 0) (fin 0) = _
      simp [mul, isInf, val, zeroS]
    have h2 : fin 0 + fin 0 = fin 0 := by
      show Fl.add (fin 0) (fin 0) = _
      simp [Fl.add, val]
    have h3 : (0 : Fl) + fin 0 = fin 0 := h2
    rw [h1, h3, h2, h2]
  -- the tests
  have eabs : ∀ {z : ℝ}, 0 ≤ z → Fl.abs (fin z) = fin z := fun {z} h => by
    show fin |z| = _
    rw [abs_of_nonneg h]
  have aa : 0 < a * a := by linarith
  have root : ∀ {w z : ℝ}, IsDouble w → 1 ≤ w → IsDouble z → w * w ≤ z →
      (Fl.sqrt (fin z)).Finite ∧ w ≤ (Fl.sqrt (fin z)).val := by
    intro w z hw hw1 hz h
    have hz1 : 1 ≤ z := by nlinarith
    have h1 : w ≤ Real.sqrt z := Real.le_sqrt_of_sq_le (by rw [pow_two]; exact h)
    have h2 : w ≤ rnd (Real.sqrt z) := le_rnd (.inl hw) h1
    have h3 : Real.sqrt z ≤ z := (Real.sqrt_le_left (by linarith)).2 (by nlinarith)
    have h4 : rnd (Real.sqrt z) ≤ z := rnd_le (.inl hz) h3
    have hz' : (fin z).Finite := hz
    obtain ⟨f, e⟩ := sqrt_finite hz' (show 0 ≤ z by linarith) (by
      show |rnd (Real.sqrt z)| < _
      rw [abs_of_nonneg (by linarith)]
      exact lt_of_le_of_lt (h4.trans (le_abs_self _)) hz.lt)
    exact ⟨f, by rw [e]; exact h2⟩
  have dw : IsDouble (3 / 2 : ℝ) := ⟨3, -1, by norm_num, by norm_num, by norm_num, by norm_num⟩
  have t0 : tol < Fl.sqrt (Fl.abs (fin (3 * (a * a)))) := by
    rw [eabs (by linarith)]
    obtain ⟨f, e⟩ := root dw (by norm_num) s3 (by linarith)
    rw [lt_finite ht f]
    linarith
  have t1 : ¬ Fl.sqrt (Fl.abs (fin (3 * (a * a) / 2))) < tol := by
    rw [eabs (by linarith)]
    obtain ⟨f, e⟩ := root d1 le_rfl st (by linarith)
    rw [lt_finite f ht]
    linarith
  have t2 : Fl.sqrt (Fl.abs (fin 0)) < tol := by
    have : Fl.sqrt (Fl.abs (fin 0)) = 0 := by
      rw [eabs le_rfl]
      show Fl.sqrt (fin 0) = fin 0
      rw [Fl.sqrt, if_neg (lt_irrefl _), if_pos rfl]
    rw [this, lt_finite finite_zero ht]
    exact ht0
  have go : ∀ {u v : ℝ}, IsDouble u → IsDouble v → 0 ≤ u → 0 ≤ v → v ≤ u → ¬ Fl.abs (fin u) < c15 * Fl.abs (fin v) := by
    intro u v hu hv u0 v0 h
    rw [eabs u0, eabs v0]
    have h1 : c15.val * v ≤ u := by nlinarith
    have h2 : rnd (c15.val * v) ≤ u := rnd_le (.inl hu) h1
    have h3 : 0 ≤ rnd (c15.val * v) := rnd_nonneg (by positivity)
    have fu : (fin u).Finite := hu
    have fv : (fin v).Finite := hv
    obtain ⟨f, e⟩ := mul_finite hc fv (by
      show |rnd (c15.val * v)| < _
      rw [abs_of_nonneg h3]
      exact lt_of_le_of_lt (h2.trans (le_abs_self _)) hu.lt)
    rw [lt_finite fu f, e]
    exact not_lt.2 h2
  have htol : ¬ tol ≤ 0 := by
    rw [le_finite ht finite_zero]
    exact not_le.2 ht0
  have hk : ((if (maxiter : Int) = 0 then ((3 : ℕ) : Int) else maxiter) + 1).toNat =
      ((if maxiter = 0 then 3 else maxiter) - 1) + 1 + 1 := by
    split <;> split <;> omega
  obtain ⟨-, hs⟩ := solve_eq c15 deftol (A := diag114) vb rfl start maxiter tol (x := x0) A0 vx0
  rw [er, pbb, if_neg htol, if_pos t0, hk, loop_succ (n := 3) c15 tol _ _ _ _ vx0 vb vb A1 vAb, pbA, al0,
    if_neg (go s6 s3 (by linarith) (by linarith) (by linarith))] at hs
  simp only [ex1, er1, prr, if_neg t1, ga, ep1] at hs
  rw [loop_succ (n := 3) c15 tol _ _ _ _ vx1 vr1 vp1 A2 vAp1, ppA,
    if_neg (go s3 st (by linarith) (by linarith) (by linarith)),
    divE (z := 1 / 2) q3 (by field_simp) dh nh] at hs
  simp only [ex2, er2, pz, if_pos t2] at hs
  exact ⟨_, hs, rfl, rfl, rfl⟩

example (start : Tensor Fl) : ∃ out, solve (fin (1 / 4)) (fin 1) diag114 ⟨[3], [fin (7 : ℤ), fin (7 : ℤ), fin (7 : ℤ)]⟩
    (some ⟨[3], [fin 0, fin 0, fin 0]⟩) start (0 : ℕ) (fin 1) = .ok out ∧ out.x = ⟨[3], [fin (7 : ℤ), fin (7 : ℤ), fin ((7 : ℤ) / 4)]⟩ ∧
      out.conv = true ∧ out.used = 3 :=
  c133_two_steps (fin (1 / 4)) (fin 1) (fin 1) start 7 (by norm_num) (by norm_num) 0
    (show IsDouble (1 / 4) from ⟨1, -2, by norm_num, by norm_num, by norm_num, by norm_num⟩) (show (0 : ℝ) ≤ 1 / 4 by norm_num)
    (show (1 / 4 : ℝ) ≤ 1 / 4 from le_rfl) (show IsDouble 1 from ⟨1, 0, by norm_num, by norm_num, by norm_num, by norm_num⟩)
    (show (0 : ℝ) < 1 by norm_num) (show (1 : ℝ) ≤ 1 from le_rfl)

end

end Verif.CgsFl
