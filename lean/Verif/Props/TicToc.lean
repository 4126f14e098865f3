import Verif.Model.TicToc
import Verif.Lemmas.Float
/-
Properties of tic and toc: C89.
-/
namespace Verif.TicToc

open Verif Fl Rounding

variable [Rounding]

/-- A time: after 1970 and before 2038, microseconds as POSIX has them. -/
def Clock.Ok (c : Clock) : Prop := 0 ≤ c.sec ∧ c.sec < 2 ^ 31 ∧ 0 ≤ c.usec ∧ c.usec < 1000000

/-- The time in seconds. -/
noncomputable def Clock.time (c : Clock) : ℝ := c.sec + c.usec / 1000000

theorem ofInt_exact {n : ℤ} (h : |n| < 2 ^ 53) : (Fl.ofInt n).Finite ∧ (Fl.ofInt n).val = n := by
  rw [Fl.ofInt]
  split
  · rename_i h0
    exact ⟨isDouble_zero, by rw [h0]; simp [val]⟩
  · have hd := isDouble_int h
    have hr : rnd (n : ℝ) = n := rnd_exact (Or.inl hd)
    have := round_finite (x := (n : ℝ)) (by rw [hr]; exact hd.lt)
    rw [hr] at this
    exact this

/-- The numbers of which now consists. -/
theorem now_val {c : Clock} (h : c.Ok) :
    (now c).Finite ∧ (now c).val = rnd (c.sec + rnd (rnd (10 ^ (-6 : Int)) * c.usec)) ∧
    0 ≤ rnd (rnd (10 ^ (-6 : Int)) * c.usec) ∧ rnd (rnd (10 ^ (-6 : Int)) * c.usec) ≤ 1 ∧
    |rnd (rnd (10 ^ (-6 : Int)) * c.usec) - c.usec / 1000000| ≤ 2 ^ (-50 : ℤ) := by
  obtain ⟨h1, h2, h3, h4⟩ := h
  obtain ⟨s1, s2⟩ := ofInt_exact (n := c.sec) (by rw [abs_of_nonneg h1]; omega)
  obtain ⟨u1, u2⟩ := ofInt_exact (n := c.usec) (by rw [abs_of_nonneg h3]; omega)
  have hs1 : (0 : ℝ) ≤ c.sec := by exact_mod_cast h1
  have hs2 : (c.sec : ℝ) ≤ 2 ^ 31 := by exact_mod_cast h2.le
  have hu1 : (0 : ℝ) ≤ c.usec := by exact_mod_cast h3
  have hu2 : (c.usec : ℝ) ≤ 999999 := by exact_mod_cast (by omega : c.usec ≤ 999999)
  have hB : (2 : ℝ) ^ 40 ≤ 2 ^ 1024 := pow_le_pow_right₀ (by norm_num) (by norm_num)
  have hT : (2 : ℝ) ^ (-1075 : ℤ) ≤ 2 ^ (-80 : ℤ) := zpow_le_zpow_right₀ (by norm_num) (by norm_num)
  have hT0 : (0 : ℝ) < 2 ^ (-1075 : ℤ) := two_zpow_pos _
  have err := fun x (h : |x| < (2 : ℝ) ^ 1024) => rnd_err h
  have fin1 := fun x (h : |rnd x| < (2 : ℝ) ^ 1024) => round_finite h
  have fadd := fun (a b : Fl) ha hb (h : |rnd (a.val + b.val)| < (2 : ℝ) ^ 1024) => add_finite ha hb h
  have fmul := fun (a b : Fl) ha hb (h : |rnd (a.val * b.val)| < (2 : ℝ) ^ 1024) => mul_finite ha hb h
  generalize (2 : ℝ) ^ 1024 = B at *
  generalize (2 : ℝ) ^ (-1075 : ℤ) = T at *
  have e0 : ((10 : ℝ) ^ (-6 : ℤ)) = 1 / 1000000 := by norm_num
  have hn : now c = Fl.ofInt c.sec + Fl.round (1 / 1000000) * Fl.ofInt c.usec := by
    rw [now, e0]
  have e53 : (2 : ℝ) ^ (-53 : ℤ) = 1 / 2 ^ 53 := by norm_num
  rw [e53] at err
  rw [e0] at *
  have l1 := err (1 / 1000000) (by rw [abs_of_nonneg (by norm_num)]; linarith)
  rw [abs_of_nonneg (show (0 : ℝ) ≤ 1 / 1000000 by norm_num), abs_le] at l1
  generalize hl : rnd (1 / 1000000) = l at *
  have hT' : T ≤ 1 / 2 ^ 80 := by
    have : (2 : ℝ) ^ (-80 : ℤ) = 1 / 2 ^ 80 := by norm_num
    rwa [this] at hT
  have l2 : 0 ≤ l := by linarith
  have l3 : l ≤ 1 / 999999 := by linarith
  obtain ⟨lf1, lf2⟩ := fin1 (1 / 1000000) (by rw [hl, abs_of_nonneg l2]; linarith)
  rw [hl] at lf2
  have p1 : 0 ≤ l * c.usec := mul_nonneg l2 hu1
  have p2 : l * c.usec ≤ 1 := by
    calc l * c.usec ≤ (1 / 999999) * 999999 := mul_le_mul l3 hu2 hu1 (by norm_num)
      _ = 1 := by norm_num
  have hone : rnd (1 : ℝ) = 1 := rnd_exact (Or.inl (by have := isDouble_int (n := 1) (by norm_num); exact_mod_cast this))
  have q1 : 0 ≤ rnd (l * c.usec) := by have := rnd_mono p1; rwa [rnd_zero] at this
  have q2 : rnd (l * c.usec) ≤ 1 := by have := rnd_mono p2; rwa [hone] at this
  have pe := err (l * c.usec) (by rw [abs_of_nonneg p1]; linarith)
  rw [abs_of_nonneg p1, abs_le] at pe
  obtain ⟨pf1, pf2⟩ := fmul (Fl.round (1 / 1000000)) (Fl.ofInt c.usec) lf1 u1 (by
    rw [lf2, u2, abs_of_nonneg q1]; linarith)
  rw [lf2, u2] at pf2
  have r1 : 0 ≤ rnd (c.sec + rnd (l * c.usec)) := by
    have := rnd_mono (show (0 : ℝ) ≤ c.sec + rnd (l * c.usec) by linarith)
    rwa [rnd_zero] at this
  have re := err (c.sec + rnd (l * c.usec)) (by rw [abs_of_nonneg (by linarith)]; linarith)
  rw [abs_of_nonneg (show (0 : ℝ) ≤ c.sec + rnd (l * c.usec) by linarith), abs_le] at re
  obtain ⟨nf1, nf2⟩ := fadd (Fl.ofInt c.sec) (Fl.round (1 / 1000000) * Fl.ofInt c.usec) s1 pf1 (by
    rw [s2, pf2, abs_of_nonneg r1]; linarith)
  rw [s2, pf2] at nf2
  rw [hn]
  refine ⟨nf1, nf2, q1, q2, ?_⟩
  have e50 : (2 : ℝ) ^ (-50 : ℤ) = 1 / 2 ^ 50 := by norm_num
  rw [e50, abs_le]
  have hlu : |l * c.usec - c.usec / 1000000| ≤ 1 / 2 ^ 52 := by
    have : l * c.usec - c.usec / 1000000 = (l - 1 / 1000000) * c.usec := by ring
    rw [this, abs_mul, abs_of_nonneg hu1]
    have hl' : |l - 1 / 1000000| ≤ 1 / 2 ^ 53 * (1 / 1000000) + 1 / 2 ^ 80 := by rw [abs_le]; constructor <;> linarith
    calc |l - 1 / 1000000| * c.usec ≤ (1 / 2 ^ 53 * (1 / 1000000) + 1 / 2 ^ 80) * 999999 :=
          mul_le_mul hl' hu2 hu1 (by positivity)
      _ ≤ 1 / 2 ^ 52 := by norm_num
  rw [abs_le] at hlu
  constructor <;> linarith

/-- The error of now. -/
theorem now_err {c : Clock} (h : c.Ok) : |(now c).val - c.time| ≤ 2 ^ (-22 : ℤ) + 2 ^ (-49 : ℤ) := by
  obtain ⟨h1, h2, h3, h4, h5⟩ := now_val h
  obtain ⟨g1, g2, g3, g4⟩ := h
  have hs1 : (0 : ℝ) ≤ c.sec := by exact_mod_cast g1
  have hs2 : (c.sec : ℝ) ≤ 2 ^ 31 - 1 := by exact_mod_cast (by omega : c.sec ≤ 2 ^ 31 - 1)
  have hB : (2 : ℝ) ^ 40 ≤ 2 ^ 1024 := pow_le_pow_right₀ (by norm_num) (by norm_num)
  have hT : (2 : ℝ) ^ (-1075 : ℤ) ≤ 2 ^ (-80 : ℤ) := zpow_le_zpow_right₀ (by norm_num) (by norm_num)
  have err := fun x (h : |x| < (2 : ℝ) ^ 1024) => rnd_err h
  generalize (2 : ℝ) ^ 1024 = B at *
  generalize (2 : ℝ) ^ (-1075 : ℤ) = T at *
  have re := err (c.sec + rnd (rnd (10 ^ (-6 : Int)) * c.usec)) (by rw [abs_of_nonneg (by linarith)]; linarith)
  rw [h2, Clock.time]
  generalize rnd (rnd (10 ^ (-6 : Int)) * c.usec) = p at *
  rw [abs_of_nonneg (show (0 : ℝ) ≤ c.sec + p by linarith), abs_le] at re
  rw [abs_le] at h5
  have e53 : (2 : ℝ) ^ (-53 : ℤ) = 1 / 2 ^ 53 := by norm_num
  have e22 : (2 : ℝ) ^ (-22 : ℤ) = 1 / 2 ^ 22 := by norm_num
  have e49 : (2 : ℝ) ^ (-49 : ℤ) = 1 / 2 ^ 49 := by norm_num
  have e50 : (2 : ℝ) ^ (-50 : ℤ) = 1 / 2 ^ 50 := by norm_num
  have e80 : (2 : ℝ) ^ (-80 : ℤ) = 1 / 2 ^ 80 := by norm_num
  rw [e53] at re
  rw [e50] at h5
  rw [e80] at hT
  rw [e22, e49, abs_le]
  constructor <;> linarith

/-- The clock is not before another. -/
def Clock.le (c d : Clock) : Prop := c.sec < d.sec ∨ c.sec = d.sec ∧ c.usec ≤ d.usec

theorem now_mono {c d : Clock} (hc : c.Ok) (hd : d.Ok) (h : c.le d) : (now c).val ≤ (now d).val := by
  obtain ⟨-, h2, h3, h4, -⟩ := now_val hc
  obtain ⟨-, k2, k3, k4, -⟩ := now_val hd
  rw [h2, k2]
  apply rnd_mono
  rcases h with h | ⟨h, h'⟩
  · have : (c.sec : ℝ) + 1 ≤ d.sec := by exact_mod_cast h
    linarith
  · rw [h]
    have hl : (0 : ℝ) ≤ rnd (10 ^ (-6 : Int)) := by
      have := rnd_mono (show (0 : ℝ) ≤ 10 ^ (-6 : Int) by positivity)
      rwa [rnd_zero] at this
    have hu : (c.usec : ℝ) ≤ d.usec := by exact_mod_cast h'
    linarith [rnd_mono (mul_le_mul_of_nonneg_left hu hl)]

/-- The difference of two times. -/
theorem sub_err {c d : Clock} (hc : c.Ok) (hd : d.Ok) :
    (now d - now c).Finite ∧ (now d - now c).val = rnd ((now d).val - (now c).val) ∧
    |(now d - now c).val - (d.time - c.time)| < 10 ^ (-6 : ℤ) := by
  have e1 := now_err hc
  have e2 := now_err hd
  have f1 := (now_val hc).1
  have f2 := (now_val hd).1
  have tb : ∀ {c : Clock}, c.Ok → 0 ≤ c.time ∧ c.time ≤ 2 ^ 31 := by
    rintro c ⟨g1, g2, g3, g4⟩
    have hs1 : (0 : ℝ) ≤ c.sec := by exact_mod_cast g1
    have hs2 : (c.sec : ℝ) ≤ 2 ^ 31 - 1 := by exact_mod_cast (by omega : c.sec ≤ 2 ^ 31 - 1)
    have hu1 : (0 : ℝ) ≤ c.usec := by exact_mod_cast g3
    have hu2 : (c.usec : ℝ) ≤ 999999 := by exact_mod_cast (by omega : c.usec ≤ 999999)
    rw [Clock.time]
    constructor
    · positivity
    · linarith
  obtain ⟨t1, t2⟩ := tb hc
  obtain ⟨t3, t4⟩ := tb hd
  have hB : (2 : ℝ) ^ 40 ≤ 2 ^ 1024 := pow_le_pow_right₀ (by norm_num) (by norm_num)
  have hT : (2 : ℝ) ^ (-1075 : ℤ) ≤ 2 ^ (-80 : ℤ) := zpow_le_zpow_right₀ (by norm_num) (by norm_num)
  have err := fun x (h : |x| < (2 : ℝ) ^ 1024) => rnd_err h
  have fsub := fun (h : |rnd ((now d).val - (now c).val)| < (2 : ℝ) ^ 1024) => sub_finite f2 f1 h
  have e53 : (2 : ℝ) ^ (-53 : ℤ) = 1 / 2 ^ 53 := by norm_num
  have e22 : (2 : ℝ) ^ (-22 : ℤ) = 1 / 2 ^ 22 := by norm_num
  have e49 : (2 : ℝ) ^ (-49 : ℤ) = 1 / 2 ^ 49 := by norm_num
  have e80 : (2 : ℝ) ^ (-80 : ℤ) = 1 / 2 ^ 80 := by norm_num
  have e6 : (10 : ℝ) ^ (-6 : ℤ) = 1 / 1000000 := by norm_num
  rw [e22, e49, abs_le] at e1 e2
  rw [e53] at err
  rw [e80] at hT
  generalize (2 : ℝ) ^ 1024 = B at *
  generalize (2 : ℝ) ^ (-1075 : ℤ) = T at *
  generalize (now c).val = x at *
  generalize (now d).val = y at *
  have hd : |y - x| ≤ 2 ^ 31 + 1 / 2 ^ 20 := by rw [abs_le]; constructor <;> linarith
  have hr := err (y - x) (by linarith)
  have hr2 : |rnd (y - x) - (y - x)| ≤ 1 / 2 ^ 21 := by linarith
  rw [abs_le] at hr2 hd
  obtain ⟨r1, r2⟩ := fsub (by rw [abs_lt]; constructor <;> linarith)
  refine ⟨r1, r2, ?_⟩
  rw [r2, e6, abs_lt]
  constructor <;> linarith

/-- Calls without tic keep the variable. -/
theorem calls_keep (s : Fl) (l : List (Call × Clock)) (h : ∀ x ∈ l, x.1 ≠ .tic) : (calls s l).2 = s := by
  induction l generalizing s with
  | nil => rfl
  | cons x l ih =>
    rw [calls]
    have hx := h x (List.mem_cons_self ..)
    have : (call s x.2 x.1).2 = s := by
      rcases x with ⟨_ | _ | _, c⟩
      · exact absurd rfl hx
      · rfl
      · rfl
    dsimp only
    rw [this]
    exact ih s fun y hy => h y (List.mem_cons_of_mem _ hy)

theorem calls_append (s : Fl) (l m : List (Call × Clock)) :
    calls s (l ++ m) = ((calls s l).1 ++ (calls (calls s l).2 m).1, (calls (calls s l).2 m).2) := by
  induction l generalizing s with
  | nil => rfl
  | cons x l ih =>
    rw [List.cons_append, calls, calls]
    dsimp only
    rw [ih]
    rfl

/-- C89 (without the times before 1970 and after 2038): toc() is the time since the last tic(), whatever was called before and between them, up to a
microsecond, and it is not negative if the clock was not set back. -/
theorem c89_toc_partial (s : Fl) (before between : List (Call × Clock)) (hb : ∀ x ∈ between, x.1 ≠ .tic) {c d : Clock}
    (hc : c.Ok) (hd : d.Ok) :
    ∃ rs r, (calls s (before ++ (.tic, c) :: (between ++ [(.toc, d)]))).1 = rs ++ [r] ∧ r.Finite ∧
      |r.val - (d.time - c.time)| < 10 ^ (-6 : ℤ) ∧ (c.le d → 0 ≤ r.val) := by
  obtain ⟨h1, h2, h3⟩ := sub_err hc hd
  refine ⟨(calls s before).1 ++ now c :: (calls (now c) between).1, now d - now c, ?_, h1, h3, fun h => ?_⟩
  · rw [calls_append]
    dsimp only
    rw [calls]
    dsimp only
    rw [calls_append]
    have : (call (calls s before).2 c .tic).2 = now c := rfl
    rw [this, calls_keep _ _ hb]
    simp only [calls, call, List.append_assoc, List.cons_append]
  · rw [h2]
    have := rnd_mono (sub_nonneg.2 (now_mono hc hd h))
    rwa [rnd_zero] at this

/-- C89: toc(w) is the time since the call of tic() which returned w, whatever was called between them. -/
theorem c89_toc_since (s s' : Fl) {c d : Clock} (hc : c.Ok) (hd : d.Ok) :
    (call s' d (.tocSince (call s c .tic).1)).1.Finite ∧
    |(call s' d (.tocSince (call s c .tic).1)).1.val - (d.time - c.time)| < 10 ^ (-6 : ℤ) ∧
    (c.le d → 0 ≤ (call s' d (.tocSince (call s c .tic).1)).1.val) := by
  obtain ⟨h1, h2, h3⟩ := sub_err hc hd
  refine ⟨h1, h3, fun h => ?_⟩
  show 0 ≤ (now d - now c).val
  rw [h2]
  have := rnd_mono (sub_nonneg.2 (now_mono hc hd h))
  rwa [rnd_zero] at this

example : (⟨1700000000, 5⟩ : Clock).Ok ∧ (⟨1700000001, 0⟩ : Clock).Ok ∧ (⟨1700000000, 5⟩ : Clock).le ⟨1700000001, 0⟩ := by
  simp [Clock.Ok, Clock.le]

/-- C89, negation: toc() before any tic() is the time since 1970. -/
theorem c89_negation_no_tic {d : Clock} (hd : d.Ok) :
    (call start d .toc).1.Finite ∧ (call start d .toc).1.val = (now d).val := by
  have f := (now_val hd).1
  have h0 : (0 : Fl).val = 0 := rfl
  have hr : rnd ((now d).val - (0 : Fl).val) = (now d).val := by
    rw [h0, sub_zero]
    exact rnd_exact (Or.inl f.val_double)
  have := sub_finite f finite_zero (by rw [hr]; exact f.val_double.lt)
  rw [hr] at this
  exact this

/-- C89, negation: if the clock is set back by a second or more between them, then toc() is negative. -/
theorem c89_negation_clock (s : Fl) {c d : Clock} (hc : c.Ok) (hd : d.Ok) (h : d.time + 1 ≤ c.time) :
    (call (call s c .tic).2 d .toc).1.val < 0 := by
  obtain ⟨-, -, h3⟩ := sub_err hc hd
  rw [abs_lt] at h3
  have e6 : (10 : ℝ) ^ (-6 : ℤ) = 1 / 1000000 := by norm_num
  rw [e6] at h3
  show (now d - now c).val < 0
  linarith [h3.2]

end Verif.TicToc
