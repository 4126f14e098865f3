import Verif.Lemmas.PowerFl
import Verif.Spec.PowerFl
/-
C132: the power method in doubles.
-/
namespace Verif.PowerFl

open Verif Verif.Spec Fl Rounding Tensor FiniteResults PowerFl.Spec Fused GemmFl

/-! ### The largest absolute value -/

theorem lt_of_not_lt {a b r : Fl} (h : ¬ a < b) (hb : b ≠ nan) (ha : a < r) : b < r := by
  change ¬ lt a b at h
  change lt a r at ha
  change lt b r
  cases a <;> cases b <;> cases r <;> simp_all [lt, val] <;> linarith

theorem abs_ne_nan {x : Fl} (h : x ≠ nan) : abs x ≠ nan := by cases x <;> simp_all [Fl.abs]

theorem norm0_fold (l : List Fl) (o r : Fl) (h : l.foldl (fun o x => if o < abs x then abs x else o) o < r) :
    o < r ∧ ∀ x ∈ l, x = nan ∨ abs x < r := by
  induction l generalizing o with
  | nil => exact ⟨h, by simp⟩
  | cons y l ih =>
    rw [List.foldl_cons] at h
    obtain ⟨h1, h2⟩ := ih _ h
    by_cases hy : o < abs y
    · rw [if_pos hy] at h1
      refine ⟨?_, ?_⟩
      · have ho : o ≠ nan := fun e => by rw [e] at hy; exact not_nan_lt _ hy
        refine lt_of_not_lt (a := abs y) ?_ ho h1
        intro hc
        change lt (abs y) o at hc
        change lt o (abs y) at hy
        generalize abs y = z at hc hy
        cases o <;> cases z <;> simp_all [lt, val] <;> linarith
      · intro x hx
        rcases List.mem_cons.1 hx with rfl | hx
        · exact Or.inr h1
        · exact h2 x hx
    · rw [if_neg hy] at h1
      refine ⟨h1, fun x hx => ?_⟩
      rcases List.mem_cons.1 hx with rfl | hx
      · by_cases hn : x = nan
        · exact Or.inl hn
        · exact Or.inr (lt_of_not_lt hy (abs_ne_nan hn) h1)
      · exact h2 x hx

section
variable [Rounding]

/-! ### The first test -/

theorem add_ne_nan {a b : Fl} (ha : a.Finite) (hb : b ≠ nan) : a + b ≠ nan := by
  show add a b ≠ nan
  cases a with
  | nzero =>
    cases b with
    | nan => exact (hb rfl).elim
    | fin y =>
      show (if _ then fin 0 else round _) ≠ nan
      split
      · simp
      · exact round_ne_nan _
    | _ => simp [add]
  | fin x =>
    cases b with
    | nan => exact (hb rfl).elim
    | pinf => simp [add]
    | ninf => simp [add]
    | nzero =>
      show (if _ then fin 0 else round _) ≠ nan
      split
      · simp
      · exact round_ne_nan _
    | fin y =>
      show (if _ then fin 0 else round _) ≠ nan
      split
      · simp
      · exact round_ne_nan _
  | _ => exact ha.elim

omit [Rounding] in
theorem negate_ne_nan {a : Fl} (h : a ≠ nan) : -a ≠ nan := by
  show negate a ≠ nan
  cases a with
  | nan => exact (h rfl).elim
  | fin x => rw [negate]; split <;> simp
  | _ => simp [negate]

theorem mul_ne_nan {a b : Fl} (ha : a.Finite) (hb : b.Finite) : a * b ≠ nan := by
  show mul a b ≠ nan
  rw [mul, if_neg (by simp [ha.ne_nan, hb.ne_nan]), if_neg (by simp [ha.not_inf, hb.not_inf])]
  split
  · rw [zeroS]; split <;> simp
  · exact round_ne_nan _

omit [Rounding] in
theorem abs_lt_fin {x r : Fl} (hw : x.WF) (h : abs x < r) : x.Finite := by
  cases x with
  | fin x => exact hw
  | nzero => trivial
  | nan => exact (not_nan_lt _ h).elim
  | pinf =>
    change lt pinf r at h
    cases r <;> exact h.elim
  | ninf =>
    change lt pinf r at h
    cases r <;> exact h.elim

/-- A number below a product. -/
theorem lt_mul_near {c a b : Fl} (ha : a.Finite) (hb : b.Finite) (hc : c.Finite) (h : c < a * b) :
    c.val ≤ (1 + eps) * |a.val * b.val| + tinyErr := by
  have he := eps_pos
  have ht := tinyErr_pos
  by_cases hr : |rnd (a.val * b.val)| < 2 ^ 1024
  · obtain ⟨f, e⟩ := mul_finite ha hb hr
    rw [lt_finite hc f, e] at h
    have h1 : |rnd (a.val * b.val) - a.val * b.val| ≤ eps * |a.val * b.val| + tinyErr := rnd_err (lt_of_rnd hr)
    have := (abs_le.1 h1).2
    linarith [le_abs_self (a.val * b.val)]
  · have h1 : c.val < 2 ^ 1024 := lt_of_le_of_lt (le_abs_self _) hc.val_double.lt
    have h0 : 0 ≤ |a.val * b.val| := abs_nonneg _
    by_cases h2 : |a.val * b.val| < 2 ^ 1024
    · have h3 : |rnd (a.val * b.val) - a.val * b.val| ≤ eps * |a.val * b.val| + tinyErr := rnd_err h2
      have h4 := abs_add_le (rnd (a.val * b.val) - a.val * b.val) (a.val * b.val)
      rw [sub_add_cancel] at h4
      rw [not_lt] at hr
      linarith
    · rw [not_lt] at h2
      have : 0 ≤ eps * |a.val * b.val| := by positivity
      linarith

/-- An element of the residual which passes the test. -/
theorem residual_near {x y e tol : Fl} (hx : x.Finite) (hy : y.Finite) (he : e.Finite) (ht : tol.Finite)
    (h : y - e * x = nan ∨ abs (y - e * x) < tol * abs e) :
    |y.val - e.val * x.val| ≤ (1 + 2 ^ (-51 : ℤ)) * (|tol.val| * |e.val|) + 2 ^ (-53 : ℤ) * |e.val * x.val| + 2 ^ (-1073 : ℤ) := by
  have hep := eps_pos
  have hep' : eps ≤ 1 / 1024 := by
    rw [eps_eq]
    norm_num
  have htp := tinyErr_pos
  have hpn := mul_ne_nan he hx
  have hne : y - e * x ≠ nan := add_ne_nan hy (negate_ne_nan hpn)
  have h := h.resolve_left hne
  have hw : (y - e * x).WF := add_wf hy.wf (neg_wf (mul_wf e x))
  have hfin : (y + -(e * x)).Finite := abs_lt_fin hw h
  obtain ⟨-, fn, h1⟩ := add_near hy.wf (neg_wf (mul_wf e x)) hfin
  have fp := neg_fin_inv (mul_wf e x) fn
  rw [(negate_finite fp).2] at h1
  obtain ⟨-, -, h2⟩ := mul_near he.wf hx.wf fp
  obtain ⟨fa, ea⟩ := abs_finite he
  obtain ⟨ft, et⟩ := abs_finite (a := y - e * x) hfin
  have h3 := lt_mul_near ht fa ft h
  rw [et, ea, abs_mul, abs_abs] at h3
  change |(y - e * x).val - (y.val + -(e * x).val)| ≤ _ at h1
  have h51 : (2 : ℝ) ^ (-51 : ℤ) = 4 * eps := by
    rw [eps, show (4 : ℝ) = 2 ^ (2 : ℤ) by norm_num, ← zpow_add₀ (by norm_num)]
    norm_num
  have h1073 : (2 : ℝ) ^ (-1073 : ℤ) = 4 * tinyErr := by
    rw [tinyErr, show (4 : ℝ) = 2 ^ (2 : ℤ) by norm_num, ← zpow_add₀ (by norm_num)]
    norm_num
  have h53 : (2 : ℝ) ^ (-53 : ℤ) = eps := rfl
  rw [h51, h1073, h53]
  generalize (y - e * x).val = t at h1 h3
  generalize (e * x).val = p at h1 h2
  rw [← sub_eq_add_neg] at h1
  have h4 : |y.val - p| ≤ (1 + 2 * eps) * |t| := by
    have h5 := abs_sub_le (y.val - p) t 0
    rw [sub_zero, sub_zero, abs_sub_comm (y.val - p) t] at h5
    have h6 : (1 - eps) * |y.val - p| ≤ |t| := by linarith
    have h7 : (1 + 2 * eps) * ((1 - eps) * |y.val - p|) ≤ (1 + 2 * eps) * |t| :=
      mul_le_mul_of_nonneg_left h6 (by linarith)
    have h8 : 0 ≤ eps * |y.val - p| := by positivity
    have h9 : eps * (eps * |y.val - p|) ≤ 1 / 1024 * (eps * |y.val - p|) := mul_le_mul_of_nonneg_right hep' h8
    linarith [show (1 + 2 * eps) * ((1 - eps) * |y.val - p|) =
      |y.val - p| + eps * |y.val - p| - 2 * (eps * (eps * |y.val - p|)) by ring]
  have h10 := abs_sub_le y.val p (e.val * x.val)
  have h11 := mul_le_mul_of_nonneg_left h3 (show 0 ≤ 1 + 2 * eps by linarith)
  have hT : 0 ≤ |tol.val| * |e.val| := by positivity
  generalize |tol.val| * |e.val| = T at *
  have h12 : eps * (eps * T) ≤ 1 / 1024 * (eps * T) := mul_le_mul_of_nonneg_right hep' (by positivity)
  have h13 : eps * tinyErr ≤ 1 / 1024 * tinyErr := mul_le_mul_of_nonneg_right hep' htp.le
  have h14 : 0 ≤ eps * T := by positivity
  linarith [show (1 + 2 * eps) * ((1 + eps) * T + tinyErr) =
    T + 3 * (eps * T) + 2 * (eps * (eps * T)) + tinyErr + 2 * (eps * tinyErr) by ring]

/-- Infinite values do not pass the test. -/
theorem eig_finite {l m : List Fl} (hl : ∀ x ∈ l, x.Finite) (hm : ∀ x ∈ m, x.Finite) (hlm : l.length = m.length) {tol e : Fl}
    (he : e = (List.zipWith (fun x y => x * y) l m).foldl (· + ·) 0)
    (h : ∀ (i : Nat) x y, l[i]? = some x → m[i]? = some y → y - e * x = nan ∨ abs (y - e * x) < tol * abs e)
    (h0 : 0 < tol * abs e) : e.Finite := by
  have hen : e ≠ nan := fun hc => by
    rw [hc] at h0
    change (0 : Fl) < tol * nan at h0
    rw [mul_nan] at h0
    exact not_lt_nan _ h0
  have hew : e.WF := by
    rw [he]
    have : ∀ (k : List Fl) (s : Fl), s.WF → (∀ x ∈ k, x.WF) → (k.foldl (· + ·) s).WF := by
      intro k
      induction k with
      | nil => exact fun s hs _ => hs
      | cons z k ih => exact fun s hs hk => ih _ (add_wf hs (hk z (by simp))) fun x hx => hk x (by simp [hx])
    refine this _ _ finite_zero.wf fun x hx => ?_
    obtain ⟨i, hi⟩ := List.mem_iff_getElem?.1 hx
    rw [List.getElem?_zipWith] at hi
    revert hi
    cases l[i]? <;> cases m[i]? <;> intro hi <;> simp at hi
    rw [← hi]
    exact mul_wf _ _
  by_contra hc
  have hinf : e.isInf = true := by
    by_contra hi
    rw [Bool.not_eq_true] at hi
    exact hc (finite_of hew hen hi)
  -- all of the elements of `l` are zero
  have hz : ∀ x ∈ l, x.val = 0 := by
    intro x hx
    obtain ⟨i, hi⟩ := List.mem_iff_getElem?.1 hx
    have hil := (List.getElem?_eq_some_iff.1 hi).1
    have hy := List.getElem?_eq_getElem (show i < m.length by omega)
    have fy := hm _ (List.mem_of_getElem? hy)
    by_contra hx0
    have hxf := hl x hx
    have hp : e * x = infS (e.neg ^^ x.neg) := by
      show mul e x = _
      rw [mul, if_neg (by simp [hen, hxf.ne_nan]), if_pos (Or.inl hinf), if_neg (by simp [hinf, hx0])]
    have h1 := h i x _ hi hy
    rw [hp] at h1
    generalize m[i] = y at h1 fy
    have : ∀ s, ¬ (y - infS s = nan ∨ abs (y - infS s) < tol * abs e) := by
      intro s
      have : y - infS s = infS (!s) := by
        show add y (negate (infS s)) = _
        cases s
        all_goals
          cases y with
          | fin => simp [infS, negate, add]
          | nzero => simp [infS, negate, add]
          | _ => exact fy.elim
      rw [this]
      intro hh
      rcases hh with hh | hh
      · cases s <;> simp [infS] at hh
      · have : abs (infS (!s)) = pinf := by cases s <;> rfl
        rw [this] at hh
        change lt pinf (tol * abs e) at hh
        generalize tol * abs e = z at hh
        cases z <;> exact hh
    exact this _ h1
  have hprod : ∀ z ∈ List.zipWith (fun x y : Fl => x * y) l m, z.Finite ∧ z.val = 0 := by
    intro z hzm
    obtain ⟨i, hi⟩ := List.mem_iff_getElem?.1 hzm
    rw [List.getElem?_zipWith] at hi
    revert hi
    cases h1 : l[i]? <;> cases h2 : m[i]? <;> intro hi <;> simp at hi
    rename_i x y
    have fx := hl x (List.mem_of_getElem? h1)
    have fy := hm y (List.mem_of_getElem? h2)
    have h3 : x.val * y.val = 0 := by rw [hz x (List.mem_of_getElem? h1), zero_mul]
    obtain ⟨f1, f2⟩ := mul_finite fx fy (by rw [h3, rnd_zero, abs_zero]; positivity)
    rw [← hi]
    exact ⟨f1, by rw [f2, h3, rnd_zero]⟩
  have hA : sumA (List.zipWith (fun x y : Fl => x * y) l m) = 0 := by
    rw [sumA]
    refine List.sum_eq_zero fun x hx => ?_
    obtain ⟨z, hzm, rfl⟩ := List.mem_map.1 hx
    rw [(hprod z hzm).2, abs_zero]
  have := (fold_err (List.zipWith (fun x y : Fl => x * y) l m) 0 finite_zero (fun z hzm => (hprod z hzm).1) (by
    rw [hA]
    show _ * (|(0 : ℝ)| + 0) < _
    rw [abs_zero, add_zero, mul_zero]
    positivity)).1
  rw [← he] at this
  exact hc this

/-! ### The loop -/

/-- The last iteration. -/
def Step (A : Tensor Fl → Res (Tensor Fl)) (I : Tensor Fl → Prop) (tol : Fl) (out : Out) : Prop :=
  ∃ w, I out.last ∧ A out.last = .ok w ∧ w.data.length = out.last.data.length ∧
    out.eig = (List.zipWith (fun x y => x * y) out.last.data w.data).foldl (· + ·) 0 ∧ unit w = .ok out.v ∧
    (out.why = .residual → ∀ (i : Nat) x y, out.last.data[i]? = some x → w.data[i]? = some y →
      (y - out.eig * x = nan ∨ abs (y - out.eig * x) < tol * abs out.eig) ) ∧
    (out.why = .residual → 0 < tol * abs out.eig)

theorem loop_spec (A : Tensor Fl → Res (Tensor Fl)) (I : Tensor Fl → Prop) (tol : Fl)
    (hI : ∀ v, I v → v.WF ∧ ∃ w u, A v = .ok w ∧ w.WF ∧ w.data.length = v.data.length ∧ unit w = .ok u ∧ I u) :
    ∀ k old v used, I v → (old = none → k ≠ 0) →
      (∀ o, old = some o → Step A I tol ⟨o.1, v, used, .limit, o.2⟩) →
      ∃ out, loop A tol k old v used = .ok out ∧ I out.v ∧ out.used ≤ used + k ∧ Step A I tol out := by
  intro k
  induction k with
  | zero =>
    intro old v used hv h0 ho
    cases old with
    | none => exact (h0 rfl rfl).elim
    | some o => exact ⟨_, rfl, hv, le_refl _, ho o rfl⟩
  | succ k ih =>
    intro old v used hv h0 ho
    obtain ⟨wfv, w, u, hw, wfw, hlen, hu, hIu⟩ := hI v hv
    have hs := scprod_fold id v w (by omega)
    have e1 : (fun (x : Fl) (y : Fl) => x * id y) = fun x y => x * y := rfl
    rw [e1] at hs
    obtain ⟨e, he⟩ : ∃ e, (List.zipWith (fun x y : Fl => x * y) v.data w.data).foldl (· + ·) 0 = e := ⟨_, rfl⟩
    rw [he] at hs
    have ht1 : binopNT (· * ·) e v = .ok ⟨v.dims, v.data.map fun x => e * x⟩ := unop_ok _ v wfv
    have ht2 := binopTT_ok (fun x y : Fl => x - y) w ⟨v.dims, v.data.map fun x => e * x⟩ wfw (by simp [hlen])
    have hstep : ∀ n why, (why = Stop.residual →
        norm0 abs (⟨w.dims, List.zipWith (fun x y : Fl => x - y) w.data (v.data.map fun x => e * x)⟩ : Tensor Fl) <
          tol * abs e) → Step A I tol ⟨e, u, n, why, v⟩ := by
      intro n why hwhy
      refine ⟨w, hv, hw, hlen, he.symm, hu, fun hr i x y hx hy => ?_, fun hr => ?_⟩
      · refine (norm0_fold _ _ _ (hwhy hr)).2 _ (List.mem_iff_getElem?.2 ⟨i, ?_⟩)
        simp only [List.getElem?_zipWith, List.getElem?_map]
        change w.data[i]? = _ at hy
        change v.data[i]? = _ at hx
        rw [hx, hy]
        rfl
      · exact (norm0_fold _ _ _ (hwhy hr)).1
    rw [loop, hw, Res.ok_bind, hs, Res.ok_bind, ht1, Res.ok_bind, ht2, Res.ok_bind]
    simp only
    rw [hu, Res.ok_bind]
    split
    · rename_i hlt
      exact ⟨_, rfl, hIu, by show used + 1 ≤ _; omega, hstep _ _ fun _ => hlt⟩
    · have next := ih (some (e, v)) u (used + 1) hIu (by simp) (fun o ho' => by
        cases ho'
        exact hstep _ _ (by simp))
      obtain ⟨out, h1, h2, h3, h4⟩ := next
      cases old with
      | none => exact ⟨out, h1, h2, by omega, h4⟩
      | some o =>
        simp only
        split
        · exact ⟨_, rfl, hIu, by show used + 1 ≤ _; omega, hstep _ _ (by simp)⟩
        · exact ⟨out, h1, h2, by omega, h4⟩

theorem power_spec (A : Tensor Fl → Res (Tensor Fl)) (I : Tensor Fl → Prop) (deftol tol : Fl)
    (hI : ∀ v, I v → v.WF ∧ ∃ w u, A v = .ok w ∧ w.WF ∧ w.data.length = v.data.length ∧ unit w = .ok u ∧ I u)
    (n : Nat) (vec start : Tensor Fl) (hs : start.data.length = n) (iter : Nat)
    (hv : ∃ u, unit (if vec.data.length = n then vec else start) = .ok u ∧ I u) :
    ∃ out, power deftol A n (some vec) start iter tol = .ok out ∧ I out.v ∧ out.used ≤ iterations n iter + 1 ∧
      Step A I (if tol ≤ 0 then deftol else tol) out := by
  obtain ⟨u, hu, hIu⟩ := hv
  rw [power]
  simp only [Res.ok_bind]
  have e1 : (if vec.size ≠ n then start else vec) = if vec.data.length = n then vec else start := by
    by_cases h : vec.data.length = n
    · rw [if_neg (by simpa [Tensor.size] using h), if_pos h]
    · rw [if_pos (by simpa [Tensor.size] using h), if_neg h]
  rw [e1, hu, Res.ok_bind]
  have e2 : (if vec.data.length = n then vec else start).size = n := by
    split
    · assumption
    · exact hs
  rw [e2]
  obtain ⟨out, h1, h2, h3, h4⟩ := loop_spec A I (if tol ≤ 0 then deftol else tol) hI (iterations n iter + 1) none u 0 hIu
    (by simp) (by simp)
  exact ⟨out, h1, h2, by omega, h4⟩

/-! ### C132 -/

/-- C132: with a map which gives vectors of the right size, the program ends with a vector of that size, and uses the
map at most one time more than asked for. This is so whatever the numbers, NaN and infinities included. -/
theorem c132_ends (deftol tol : Fl) (A : Tensor Fl → Res (Tensor Fl)) (n : Nat)
    (hA : ∀ v : Tensor Fl, v.WF → v.data.length = n → ∃ w, A v = .ok w ∧ w.WF ∧ w.data.length = n)
    (vec start : Tensor Fl) (hv : vec.WF) (hs : start.WF) (hn : start.data.length = n) (iter : Nat) :
    ∃ out, power deftol A n (some vec) start iter tol = .ok out ∧ out.v.WF ∧ out.v.data.length = n ∧
      out.used ≤ iterations n iter + 1 := by
  have hu : ∀ v : Tensor Fl, v.WF → v.data.length = n → ∃ u, unit v = .ok u ∧ u.WF ∧ u.data.length = n := by
    intro v hv hn
    obtain ⟨s, -, h⟩ := unit_eq v
    exact ⟨_, h, by simpa [Tensor.WF] using hv, by simpa using hn⟩
  obtain ⟨out, h1, ⟨h2, h3⟩, h4, -⟩ := power_spec A (fun v => v.WF ∧ v.data.length = n) deftol tol (by
      rintro v ⟨h1, h2⟩
      obtain ⟨w, h3, h4, h5⟩ := hA v h1 h2
      obtain ⟨u, h6, h7, h8⟩ := hu w h4 h5
      exact ⟨h1, w, u, h3, h4, by omega, h6, h7, h8⟩) n vec start hn iter (by
      by_cases h : vec.data.length = n
      · rw [if_pos h]
        exact hu vec hv h
      · rw [if_neg h]
        exact hu start hs hn)
  exact ⟨out, h1, h2, h3, h4⟩

theorem unit_inRange {n : Nat} (hL : n ≤ 2 ^ 46) {v : Tensor Fl} (hw : v.WF) (h : InRange n v) :
    ∃ u, unit v = .ok u ∧ u.WF ∧ IsUnit n u := by
  obtain ⟨h1, h2, h3, h4⟩ := h
  obtain ⟨u, e, hd, hl, hf, hs⟩ := unit_near v h2 (by rw [h1]; exact hL) h3 h4
  refine ⟨u, e, ?_, by omega, hf, ?_⟩
  · rw [Tensor.WF, hl, hd]
    exact hw
  · rw [h1] at hs
    exact hs

theorem power_unit (deftol tol : Fl) (A : Tensor Fl → Res (Tensor Fl)) {n : Nat} (hL : n ≤ 2 ^ 46)
    (hA : ∀ v : Tensor Fl, v.WF → IsUnit n v → ∃ w, A v = .ok w ∧ w.WF ∧ InRange n w) (vec start : Tensor Fl) (hv : vec.WF)
    (hvr : vec.data.length = n → InRange n vec) (hs : start.WF) (hsr : InRange n start) (iter : Nat) :
    ∃ out, power deftol A n (some vec) start iter tol = .ok out ∧ (out.v.WF ∧ IsUnit n out.v) ∧
      out.used ≤ iterations n iter + 1 ∧
      Step A (fun v => v.WF ∧ IsUnit n v) (if tol ≤ 0 then deftol else tol) out := by
  refine power_spec A (fun v => v.WF ∧ IsUnit n v) deftol tol ?_ n vec start hsr.1 iter ?_
  · rintro v ⟨h1, h2⟩
    obtain ⟨w, h3, h4, h5⟩ := hA v h1 h2
    obtain ⟨u, h6, h7, h8⟩ := unit_inRange hL h4 h5
    exact ⟨h1, w, u, h3, h4, by rw [h5.1, h2.1], h6, h7, h8⟩
  · by_cases h : vec.data.length = n
    · rw [if_pos h]
      exact unit_inRange hL hv (hvr h)
    · rw [if_neg h]
      exact unit_inRange hL hs hsr

/-- C132: if the squares of the elements of the vectors which the map gives neither overflow nor underflow, and those of the
first vector neither, the program ends with a vector of the norm one, up to rounding.

Missing: maps which are large or small, for which this is false (`c132_negation_tiny`). -/
theorem c132_unit_partial (deftol tol : Fl) (A : Tensor Fl → Res (Tensor Fl)) (n : Nat) (hL : n ≤ 2 ^ 46)
    (hA : ∀ v : Tensor Fl, v.WF → IsUnit n v → ∃ w, A v = .ok w ∧ w.WF ∧ InRange n w) (vec start : Tensor Fl) (hv : vec.WF)
    (hvr : vec.data.length = n → InRange n vec) (hs : start.WF) (hsr : InRange n start) (iter : Nat) :
    ∃ out, power deftol A n (some vec) start iter tol = .ok out ∧ IsUnit n out.v ∧ out.used ≤ iterations n iter + 1 := by
  obtain ⟨out, h1, h2, h3, -⟩ := power_unit deftol tol A hL hA vec start hv hvr hs hsr iter
  exact ⟨out, h1, h2.2, h3⟩

theorem step_residual {A : Tensor Fl → Res (Tensor Fl)} {I : Tensor Fl → Prop} {tol : Fl} {out : Out} (h : Step A I tol out)
    (hr : out.why = .residual) (ht : tol.Finite) (hl : ∀ x ∈ out.last.data, x.Finite) {w : Tensor Fl}
    (hw : A out.last = .ok w) (hwf : ∀ x ∈ w.data, x.Finite) :
    out.eig.Finite ∧ ∀ (i : Nat) x y, out.last.data[i]? = some x → w.data[i]? = some y →
      |y.val - out.eig.val * x.val| ≤ (1 + 2 ^ (-51 : ℤ)) * (|tol.val| * |out.eig.val|) +
        2 ^ (-53 : ℤ) * |out.eig.val * x.val| + 2 ^ (-1073 : ℤ) := by
  obtain ⟨w', -, hw', hlen, he, -, h1, h2⟩ := h
  rw [hw] at hw'
  cases hw'
  have fe := eig_finite hl hwf hlen.symm he (h1 hr) (h2 hr)
  exact ⟨fe, fun i x y hx hy => residual_near (hl x (List.mem_of_getElem? hx)) (hwf y (List.mem_of_getElem? hy)) fe ht
    (h1 hr i x y hx hy)⟩

/-- C132: what the first test promises. If the program ends with it, and the vector to which the map was applied last and
the one that it gave are finite, then so is the value, and the latter is the former times this value up to the tolerance and
rounding, in each of the elements. The vector of the result is the latter divided by its norm. -/
theorem c132_residual (deftol tol τ : Fl) (A : Tensor Fl → Res (Tensor Fl)) (n : Nat)
    (hA : ∀ v : Tensor Fl, v.WF → v.data.length = n → ∃ w, A v = .ok w ∧ w.WF ∧ w.data.length = n)
    (vec start : Tensor Fl) (hv : vec.WF) (hs : start.WF) (hn : start.data.length = n) (iter : Nat)
    (hτ : τ = if tol ≤ 0 then deftol else tol) (ht : τ.Finite) {out : Out}
    (ho : power deftol A n (some vec) start iter tol = .ok out) (hr : out.why = .residual) {w : Tensor Fl}
    (hw : A out.last = .ok w) (hl : ∀ x ∈ out.last.data, x.Finite) (hwf : ∀ x ∈ w.data, x.Finite) :
    unit w = .ok out.v ∧ out.eig.Finite ∧ ∀ (i : Nat) x y, out.last.data[i]? = some x → w.data[i]? = some y →
      |y.val - out.eig.val * x.val| ≤ (1 + 2 ^ (-51 : ℤ)) * (|τ.val| * |out.eig.val|) +
        2 ^ (-53 : ℤ) * |out.eig.val * x.val| + 2 ^ (-1073 : ℤ) := by
  have hu : ∀ v : Tensor Fl, v.WF → v.data.length = n → ∃ u, unit v = .ok u ∧ u.WF ∧ u.data.length = n := by
    intro v hv hn
    obtain ⟨s, -, h⟩ := unit_eq v
    exact ⟨_, h, by simpa [Tensor.WF] using hv, by simpa using hn⟩
  obtain ⟨out', h1, -, -, h5⟩ := power_spec A (fun v => v.WF ∧ v.data.length = n) deftol tol (by
      rintro v ⟨h1, h2⟩
      obtain ⟨w, h3, h4, h5⟩ := hA v h1 h2
      obtain ⟨u, h6, h7, h8⟩ := hu w h4 h5
      exact ⟨h1, w, u, h3, h4, by omega, h6, h7, h8⟩) n vec start hn iter (by
      by_cases h : vec.data.length = n
      · rw [if_pos h]
        exact hu vec hv h
      · rw [if_neg h]
        exact hu start hs hn)
  rw [ho] at h1
  cases h1
  rw [← hτ] at h5
  refine ⟨?_, step_residual h5 hr ht hl hw hwf⟩
  obtain ⟨w', -, hw', -, -, hu', -⟩ := h5
  rw [hw] at hw'
  cases hw'
  exact hu'

omit [Rounding] in
theorem getD_get {l : List Fl} {i : Nat} (h : i < l.length) : l.getD i 0 = l[i] := by
  rw [List.getD_eq_getElem?_getD, List.getElem?_eq_getElem h, Option.getD_some]

omit [Rounding] in
theorem sum_elt {n : Nat} (l : List Fl) (h : l.length = n) (f : ℝ → ℝ) :
    (l.map fun x => f x.val).sum = ∑ i : Fin n, f (l.getD i 0).val := by
  subst h
  rw [← List.sum_ofFn]
  congr 1
  refine List.ext_getElem (by simp) fun i h1 h2 => ?_
  simp only [List.getElem_map, List.getElem_ofFn]
  rw [getD_get (show i < l.length by simpa using h1)]

omit [Rounding] in
theorem bound_near {n : ℕ} {S θ μ C u : ℝ} (hS : 14 / 15 ≤ S) (hC : 0 ≤ C) (hu : 0 ≤ u)
    (h : (μ - θ) ^ 2 * S ≤ 2 * (n * C ^ 2) + 2 * (u ^ 2 * θ ^ 2 * S)) :
    |μ - θ| ≤ 2 * Real.sqrt n * C + 2 * u * |θ| := by
  have hp : 0 ≤ Real.sqrt n * C := by positivity
  have hq : 0 ≤ u * |θ| := by positivity
  have hn : (Real.sqrt n * C) ^ 2 = n * C ^ 2 := by rw [mul_pow, Real.sq_sqrt (by positivity)]
  have ht : (u * |θ|) ^ 2 = u ^ 2 * θ ^ 2 := by rw [mul_pow, sq_abs]
  rw [← hn, ← ht] at h
  rw [show 2 * Real.sqrt n * C + 2 * u * |θ| = 2 * (Real.sqrt n * C) + 2 * (u * |θ|) by ring]
  generalize Real.sqrt n * C = p at *
  generalize u * |θ| = q at *
  refine abs_le_of_sq_le_sq ?_ (by positivity)
  have h1 : (μ - θ) ^ 2 * S ≤ (15 / 14 * (2 * p ^ 2) + 2 * q ^ 2) * S := by
    have : 15 / 14 * (2 * p ^ 2) * (14 / 15) ≤ 15 / 14 * (2 * p ^ 2) * S := mul_le_mul_of_nonneg_left hS (by positivity)
    linarith
  have h2 := le_of_mul_le_mul_right h1 (by linarith)
  have h3 : 0 ≤ p * q := by positivity
  have h4 : 0 ≤ p ^ 2 := by positivity
  have h5 : 0 ≤ q ^ 2 := by positivity
  linarith [show (2 * p + 2 * q) ^ 2 = 4 * p ^ 2 + 8 * (p * q) + 4 * q ^ 2 by ring]

/-- C132: the value is near an eigenvalue. If the map is multiplication with a symmetric matrix, up to `δ` for each of the
elements, and the program ends with the first test, then there is an eigenvalue of the matrix, with an eigenvector, whose
distance from the result is at most 2 √n times the tolerance and δ, and rounding.

Missing: results after the second test and when all iterations were used, which need not be near any eigenvalue
(`Power.c65_no_eigenvector`). -/
theorem c132_eigenvalue_partial (deftol tol τ : Fl) (A : Tensor Fl → Res (Tensor Fl)) (n : Nat) (hL : n ≤ 2 ^ 46)
    (hA : ∀ v : Tensor Fl, v.WF → IsUnit n v → ∃ w, A v = .ok w ∧ w.WF ∧ InRange n w) (vec start : Tensor Fl) (hv : vec.WF)
    (hvr : vec.data.length = n → InRange n vec) (hs : start.WF) (hsr : InRange n start) (iter : Nat)
    (hτ : τ = if tol ≤ 0 then deftol else tol) (ht : τ.Finite)
    (M : Matrix (Fin n) (Fin n) ℝ) (hM : M.IsSymm) (δ : ℝ)
    (hδ : ∀ (v w : Tensor Fl), IsUnit n v → A v = .ok w → ∀ i : Fin n, |elt w i - ∑ j : Fin n, M i j * elt v j| ≤ δ) :
    ∃ out, power deftol A n (some vec) start iter tol = .ok out ∧ (out.why = .residual →
      ∃ (μ : ℝ) (y : Fin n → ℝ), (∃ i, y i ≠ 0) ∧ M.mulVec y = μ • y ∧
        |μ - out.eig.val| ≤ 2 * Real.sqrt n * ((1 + 2 ^ (-51 : ℤ)) * (|τ.val| * |out.eig.val|) + 2 ^ (-1073 : ℤ) + δ) +
          2 ^ (-52 : ℤ) * |out.eig.val|) := by
  obtain ⟨out, h1, -, -, h4⟩ := power_unit deftol tol A hL hA vec start hv hvr hs hsr iter
  refine ⟨out, h1, fun hr => ?_⟩
  rw [← hτ] at h4
  obtain ⟨w, hI, hw, hlen, -⟩ := id h4
  obtain ⟨w', hw', hwwf, hwr⟩ := hA _ hI.1 hI.2
  rw [hw] at hw'
  cases hw'
  obtain ⟨fe, hres⟩ := step_residual h4 hr ht hI.2.2.1 hw hwr.2.1
  have hln := hI.2.1
  generalize out.eig.val = θ at *
  generalize hB : (1 + 2 ^ (-51 : ℤ)) * (|τ.val| * |θ|) + (2 : ℝ) ^ (-1073 : ℤ) = B at *
  have hB0 : 0 ≤ B := by rw [← hB]; positivity
  have hS : 14 / 15 ≤ ∑ i : Fin n, elt out.last i ^ 2 := by
    have := hI.2.2.2
    rw [show (out.last.data.map fun x => x.val ^ 2).sum = ∑ i : Fin n, elt out.last i ^ 2 from
      sum_elt _ hln (fun x => x ^ 2)] at this
    have h3 := (abs_le.1 this).1
    have h5 : (n : ℝ) ≤ 2 ^ 46 := by exact_mod_cast hL
    have h6 : ((n : ℝ) + 4) * (2 : ℝ) ^ (-50 : ℤ) ≤ (2 ^ 46 + 4) * (2 : ℝ) ^ (-50 : ℤ) :=
      mul_le_mul_of_nonneg_right (by linarith) (by positivity)
    have h7 : (2 ^ 46 + 4) * (2 : ℝ) ^ (-50 : ℤ) ≤ 1 / 15 := by norm_num
    have h8 := h6.trans h7
    generalize ((n : ℝ) + 4) * (2 : ℝ) ^ (-50 : ℤ) = z at *
    linarith
  have hn0 : 0 < n := by
    rcases Nat.eq_zero_or_pos n with rfl | h
    · simp at hS
      norm_num at hS
    · exact h
  have hδ0 : 0 ≤ δ := (abs_nonneg _).trans (hδ _ _ hI.2 hw ⟨0, hn0⟩)
  have hx : ∃ i : Fin n, elt out.last i ≠ 0 := by
    by_contra hc
    push Not at hc
    simp [hc] at hS
    norm_num at hS
  obtain ⟨μ, y, hy, hMy, hbound⟩ := eigenvalue_near M hM (fun i => elt out.last i) hx θ
  refine ⟨μ, y, hy, hMy, ?_⟩
  have hterm : ∀ i : Fin n, (M.mulVec (fun i => elt out.last i) i - θ * elt out.last i) ^ 2 ≤
      2 * (B + δ) ^ 2 + 2 * ((2 ^ (-53 : ℤ)) ^ 2 * θ ^ 2 * elt out.last i ^ 2) := by
    intro i
    have hi : (i : ℕ) < out.last.data.length := by rw [hln]; exact i.2
    have hi' : (i : ℕ) < w.data.length := by rw [hwr.1]; exact i.2
    have h5 := hres i _ _ (List.getElem?_eq_getElem hi) (List.getElem?_eq_getElem hi')
    have h6 := hδ _ _ hI.2 hw i
    have e1 : out.last.data[(i : ℕ)].val = elt out.last i := by
      rw [elt, getD_get hi]
    have e2 : w.data[(i : ℕ)].val = elt w i := by
      rw [elt, getD_get hi']
    rw [e1, e2] at h5
    have e3 : M.mulVec (fun i => elt out.last i) i = ∑ j : Fin n, M i j * elt out.last j := rfl
    rw [e3]
    generalize ∑ j : Fin n, M i j * elt out.last j = m at *
    generalize elt out.last i = x at *
    generalize elt w i = z at *
    have h7 : |m - θ * x| ≤ (B + δ) + 2 ^ (-53 : ℤ) * |θ * x| := by
      have := abs_sub_le m z (θ * x)
      rw [abs_sub_comm m z] at this
      linarith
    have h8 : (m - θ * x) ^ 2 ≤ ((B + δ) + 2 ^ (-53 : ℤ) * |θ * x|) ^ 2 := by
      rw [← sq_abs (m - θ * x)]
      exact pow_le_pow_left₀ (abs_nonneg _) h7 2
    refine h8.trans ((add_sq_le).trans (le_of_eq ?_))
    rw [mul_pow, sq_abs]
    ring
  have hsum := Finset.sum_le_sum fun i (_ : i ∈ (Finset.univ : Finset (Fin n))) => hterm i
  rw [Finset.sum_add_distrib, ← Finset.mul_sum, ← Finset.mul_sum, ← Finset.mul_sum, Finset.sum_const, Finset.card_univ,
    Fintype.card_fin, nsmul_eq_mul] at hsum
  have := bound_near hS (show 0 ≤ B + δ by linarith) (show (0 : ℝ) ≤ 2 ^ (-53 : ℤ) by positivity) (hbound.trans hsum)
  have e52 : (2 : ℝ) * 2 ^ (-53 : ℤ) = 2 ^ (-52 : ℤ) := by norm_num
  rw [e52] at this
  exact this

/-- Numbers smaller than the tolerance. -/
theorem lt_tol_mul {tol : Fl} (ht : tol.Finite) (h1 : (2 : ℝ) ^ (-400 : ℤ) ≤ tol.val) (h2 : tol.val ≤ 1) :
    (0 : Fl) < tol * fin (2 ^ (-600 : ℤ)) := by
  have hd : IsDouble ((2 : ℝ) ^ (-600 : ℤ)) := ⟨1, -600, by norm_num, by norm_num, by norm_num, by norm_num⟩
  have hd2 : IsTarget ((2 : ℝ) ^ (-1000 : ℤ)) := .inl ⟨1, -1000, by norm_num, by norm_num, by norm_num, by norm_num⟩
  have hp : (0 : ℝ) < 2 ^ (-600 : ℤ) := by positivity
  have hlo : (2 : ℝ) ^ (-1000 : ℤ) ≤ tol.val * 2 ^ (-600 : ℤ) := by
    rw [show (-1000 : ℤ) = -400 + -600 by norm_num, zpow_add₀ (by norm_num)]
    exact mul_le_mul_of_nonneg_right h1 hp.le
  have hhi : tol.val * 2 ^ (-600 : ℤ) ≤ 2 ^ (-600 : ℤ) := mul_le_of_le_one_left hp.le h2
  have h3 := le_rnd hd2 hlo
  have h4 := rnd_le (.inl hd) hhi
  have h5 : (0 : ℝ) < 2 ^ (-1000 : ℤ) := by positivity
  obtain ⟨f, e⟩ := mul_finite (a := tol) (b := fin (2 ^ (-600 : ℤ))) ht hd (by
    show |rnd (tol.val * 2 ^ (-600 : ℤ))| < _
    rw [abs_of_pos (by linarith)]
    exact lt_of_le_of_lt (h4.trans (le_abs_self _)) hd.lt)
  rw [lt_finite finite_zero f, e]
  show (0 : ℝ) < rnd (tol.val * 2 ^ (-600 : ℤ))
  linarith

/-- C132: the vector need not be finite. With the map which multiplies vectors of one element with 2^-600, the program ends
at once, with the right eigenvalue and an infinite vector: the square of 2^-600 is zero in doubles. -/
theorem c132_negation_tiny (deftol tol : Fl) (start : Tensor Fl) (iter : Nat) (ht : tol.Finite)
    (h1 : (2 : ℝ) ^ (-400 : ℤ) ≤ tol.val) (h2 : tol.val ≤ 1) :
    power deftol (binopNT (· * ·) (fin (2 ^ (-600 : ℤ)))) 1 (some ⟨[1], [fin 1]⟩) start iter tol =
      .ok ⟨fin (2 ^ (-600 : ℤ)), ⟨[1], [pinf]⟩, 1, .residual, ⟨[1], [fin 1]⟩⟩ := by
  have hd : IsDouble ((2 : ℝ) ^ (-600 : ℤ)) := ⟨1, -600, by norm_num, by norm_num, by norm_num, by norm_num⟩
  have hp : (0 : ℝ) < 2 ^ (-600 : ℤ) := by positivity
  have hsmall : (2 : ℝ) ^ (-600 : ℤ) < 2 ^ (-538 : ℤ) := zpow_lt_zpow_right₀ (by norm_num) (by norm_num)
  have hlt := lt_tol_mul ht h1 h2
  have htol : ¬ tol ≤ 0 := by
    rw [le_finite ht finite_zero]
    show ¬ tol.val ≤ (0 : ℝ)
    have : (0 : ℝ) < 2 ^ (-400 : ℤ) := by positivity
    linarith
  have d1 : IsDouble (1 : ℝ) := ⟨1, 0, by norm_num, by norm_num, by norm_num, by norm_num⟩
  generalize (2 : ℝ) ^ (-600 : ℤ) = c at *
  have p1 : fin 1 * fin 1 = fin 1 := mul_fin d1 (by rw [mul_one]; exact rnd_exact (.inl d1)) one_ne_zero
  have p2 : fin c * fin 1 = fin c := mul_fin hd (by rw [mul_one]; exact rnd_exact (.inl hd)) hp.ne'
  have p3 : fin 1 * fin c = fin c := mul_fin hd (by rw [one_mul]; exact rnd_exact (.inl hd)) hp.ne'
  have p4 : (0 : Fl) + fin c = fin c := zero_add_fin hd hp.ne'
  have p5 : (0 : Fl) + fin 1 = fin 1 := zero_add_fin d1 one_ne_zero
  have p6 : fin c - fin c = fin 0 := by
    show add (fin c) (negate (fin c)) = _
    rw [negate, if_neg hp.ne']
    exact add_fin_zero c
  have p7 : Fl.sqrt (fin 1) = fin 1 := by
    have hl := abs_lt.1 d1.lt
    rw [Fl.sqrt, if_neg (by norm_num), if_neg one_ne_zero, Real.sqrt_one, Fl.round, rnd_exact (.inl d1),
      if_neg (not_le.2 hl.2), if_neg (not_le.2 hl.1), if_neg one_ne_zero]
  have p8 : fin 1 / fin 1 = fin 1 := by
    have hl := abs_lt.1 d1.lt
    show div _ _ = _
    rw [div, if_neg (by simp), if_neg (by simp [isInf]), if_neg (by simp [isInf]), if_neg (by simp [val]),
      if_neg (by simp [val])]
    show Fl.round (1 / 1) = _
    rw [div_one, Fl.round, rnd_exact (.inl d1), if_neg (not_le.2 hl.2), if_neg (not_le.2 hl.1), if_neg one_ne_zero]
  have p9 : fin c / (0 : Fl) = pinf := by
    show div (fin c) (fin 0) = _
    rw [div, if_neg (by simp), if_neg (by simp [isInf]), if_neg (by simp [isInf]), if_pos (show (fin 0).val = 0 from rfl),
      if_neg (show ¬ (fin c).val = 0 from hp.ne')]
    simp [neg, infS, hp.le]
  have u1 : unit (⟨[1], [fin 1]⟩ : Tensor Fl) = .ok ⟨[1], [fin 1]⟩ := by
    obtain ⟨s, hs, hu⟩ := unit_eq (⟨[1], [fin 1]⟩ : Tensor Fl)
    rw [norm2_eq] at hs
    have : s = fin 1 := by
      have e : Fl.sqrt ((0 : Fl) + fin 1 * fin 1) = s := Res.ok.inj hs
      rw [← e, p1, p5, p7]
    rw [hu, this]
    show Res.ok (⟨[1], [fin 1 / fin 1]⟩ : Tensor Fl) = _
    rw [p8]
  have u2 : unit (⟨[1], [fin c]⟩ : Tensor Fl) = .ok ⟨[1], [pinf]⟩ := by
    obtain ⟨s, hs, hu⟩ := unit_eq (⟨[1], [fin c]⟩ : Tensor Fl)
    rw [c85_negation_underflow _ (by simpa [Fl.Finite] using hd) (by simpa [val, abs_of_pos hp] using hsmall)] at hs
    cases hs
    rw [hu]
    show Res.ok (⟨[1], [fin c / 0]⟩ : Tensor Fl) = _
    rw [p9]
  have m1 : binopNT (· * ·) (fin c) (⟨[1], [fin 1]⟩ : Tensor Fl) = .ok ⟨[1], [fin c]⟩ := by
    rw [show binopNT (fun x y : Fl => x * y) (fin c) (⟨[1], [fin 1]⟩ : Tensor Fl) = .ok ⟨[1], [fin c * fin 1]⟩ from
      unop_ok _ _ rfl, p2]
  rw [power]
  simp only [Res.ok_bind, if_neg htol]
  rw [if_neg (by simp [Tensor.size]), u1, Res.ok_bind, loop, m1, Res.ok_bind, scprod_fold id ⟨[1], [fin 1]⟩ ⟨[1], [fin c]⟩ (le_refl 1), Res.ok_bind]
  have e1 : (List.zipWith (fun x y : Fl => x * id y) [fin 1] [fin c]).foldl (· + ·) 0 = fin c := by
    show (0 : Fl) + fin 1 * fin c = _
    rw [p3, p4]
  simp only [e1]
  rw [m1, Res.ok_bind, binopTT_ok (fun x y : Fl => x - y) ⟨[1], [fin c]⟩ ⟨[1], [fin c]⟩ rfl rfl, Res.ok_bind, u2, Res.ok_bind]
  have e2 : norm0 Fl.abs (⟨[1], List.zipWith (fun x y : Fl => x - y) [fin c] [fin c]⟩ : Tensor Fl) = 0 := by
    show (if (0 : Fl) < Fl.abs (fin c - fin c) then _ else (0 : Fl)) = 0
    rw [p6, if_neg]
    show ¬ (0 : ℝ) < |0|
    simp
  have e3 : Fl.abs (fin c) = fin c := by
    show fin |c| = _
    rw [abs_of_pos hp]
  simp only [e3]
  rw [e2, if_pos hlt]

/-! ### Examples -/

omit [Rounding] in
/-- The vector (1). -/
theorem one_unit : IsUnit 1 (⟨[1], [fin 1]⟩ : Tensor Fl) ∧ InRange 1 (⟨[1], [fin 1]⟩ : Tensor Fl) := by
  have d1 : IsDouble (1 : ℝ) := ⟨1, 0, by norm_num, by norm_num, by norm_num, by norm_num⟩
  have h1 : (2 : ℝ) ^ (-969 : ℤ) ≤ 1 := zpow_le_one_of_nonpos₀ (by norm_num) (by norm_num)
  have h2 : (1 : ℝ) ≤ 2 ^ 1000 := one_le_pow₀ (by norm_num)
  refine ⟨⟨rfl, by simpa [Fl.Finite] using d1, ?_⟩, rfl, by simpa [Fl.Finite] using d1, ?_, ?_⟩
  · simp [val]
    positivity
  · simpa [val] using h1
  · simpa [val] using h2

omit [Rounding] in
theorem isUnit_inRange {v : Tensor Fl} (h : IsUnit 1 v) : InRange 1 v := by
  have h1 : (2 : ℝ) ^ (-969 : ℤ) ≤ 2 ^ (-1 : ℤ) := zpow_le_zpow_right₀ (by norm_num) (by norm_num)
  have h2 : (2 : ℝ) ^ 1 ≤ 2 ^ 1000 := pow_le_pow_right₀ (by norm_num) (by norm_num)
  have h3 := abs_le.1 h.2.2
  have h4 : (((1 : ℕ) : ℝ) + 4) * (2 : ℝ) ^ (-50 : ℤ) ≤ 1 / 4 := by norm_num
  have h5 : (2 : ℝ) ^ (-1 : ℤ) = 1 / 2 := by norm_num
  rw [h5] at h1
  rw [pow_one] at h2
  refine ⟨h.1, h.2.1, ?_, ?_⟩
  all_goals
    obtain ⟨h3, h3'⟩ := h3
    generalize (((1 : ℕ) : ℝ) + 4) * (2 : ℝ) ^ (-50 : ℤ) = z at *
    generalize (2 : ℝ) ^ (-969 : ℤ) = a at *
    generalize (2 : ℝ) ^ 1000 = b at *
    linarith

example (deftol tol : Fl) (iter : Nat) (ht : tol.Finite) (h0 : ¬ tol ≤ 0) :=
  c132_eigenvalue_partial deftol tol tol pure 1 (by norm_num) (fun v hv h => ⟨v, rfl, hv, isUnit_inRange h⟩)
    ⟨[1], [fin 1]⟩ ⟨[1], [fin 1]⟩ rfl (fun _ => one_unit.2) rfl one_unit.2 iter (by rw [if_neg h0]) ht 1
    (Matrix.transpose_one) 0 (fun v w _ h i => by
      cases h
      rw [Finset.univ_unique, Finset.sum_singleton, Subsingleton.elim i default, Matrix.one_apply_eq, one_mul, sub_self,
        abs_zero])

example (deftol tol : Fl) (iter : Nat) :=
  c132_unit_partial deftol tol pure 1 (by norm_num) (fun v hv h => ⟨v, rfl, hv, isUnit_inRange h⟩)
    ⟨[1], [fin 1]⟩ ⟨[1], [fin 1]⟩ rfl (fun _ => one_unit.2) rfl one_unit.2 iter

example (deftol tol : Fl) (iter : Nat) :=
  c132_ends deftol tol pure 1 (fun v hv h => ⟨v, rfl, hv, h⟩) ⟨[1], [nan]⟩ ⟨[1], [fin 1]⟩ rfl rfl rfl iter

example (deftol tol : Fl) (iter : Nat) (ht : tol.Finite) (h1 : (2 : ℝ) ^ (-400 : ℤ) ≤ tol.val) (h2 : tol.val ≤ 1) :=
  c132_residual deftol tol (if tol ≤ 0 then deftol else tol) (binopNT (· * ·) (fin (2 ^ (-600 : ℤ)))) 1
    (fun v hv h => ⟨_, unop_ok _ v hv, by simpa [Tensor.WF] using hv, by simpa using h⟩) ⟨[1], [fin 1]⟩ ⟨[1], [fin 1]⟩ rfl rfl rfl iter
    rfl (by
      rw [if_neg]
      · exact ht
      · rw [le_finite ht finite_zero]
        show ¬ tol.val ≤ (0 : ℝ)
        have : (0 : ℝ) < 2 ^ (-400 : ℤ) := by positivity
        linarith) (c132_negation_tiny deftol tol ⟨[1], [fin 1]⟩ iter ht h1 h2) rfl (unop_ok _ _ rfl)
    one_unit.1.2.1

end

end Verif.PowerFl
