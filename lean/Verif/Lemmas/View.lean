import Verif.Spec.View
import Verif.Lemmas.Indices
import Verif.Lemmas.Access
/-
Lemmas about ranges: which positions a range produces.
-/
namespace Verif.View

open Verif Spec

/-- Cut a list at the first value which means "no more". -/
def tr (l : List Int) : List Int := l.takeWhile fun x => decide (x ≠ nomore)

@[simp] theorem tr_nil : tr [] = [] := rfl

theorem tr_cons_stop (l : List Int) : tr (nomore :: l) = [] := by simp [tr]

theorem tr_cons {v : Int} (h : v ≠ nomore) (l : List Int) : tr (v :: l) = v :: tr l := by
  simp [tr, h]

theorem tr_eq_self {l : List Int} (h : ∀ x ∈ l, x ≠ nomore) : tr l = l := by
  induction l with
  | nil => rfl
  | cons v vs ih => rw [tr_cons (h v (by simp)), ih fun x hx => h x (by simp [hx])]

/-- `s` produces the values `l` and then "no more"; resetting at any time gives `z`. -/
def LRuns (z : Leaf) : List Int → Leaf → Prop
  | [], s => s.pop.1 = nomore ∧ s.pop.2.reset = z
  | v :: vs, s => s.pop.1 = v ∧ v ≠ nomore ∧ LRuns z vs s.pop.2

/-- The same, with values which may be "no more". -/
def WRuns (z : Leaf) : List Int → Leaf → Prop
  | [], s => s.pop.1 = nomore ∧ s.pop.2.reset = z
  | v :: vs, s => s.pop.1 = v ∧ s.pop.2.reset = z ∧ WRuns z vs s.pop.2

theorem WRuns.lruns {z : Leaf} {l : List Int} {s : Leaf} (h : WRuns z l s) : LRuns z (tr l) s := by
  induction l generalizing s with
  | nil => exact h
  | cons v vs ih =>
    obtain ⟨h1, h2, h3⟩ := h
    by_cases hv : v = nomore
    · subst hv
      rw [tr_cons_stop]
      exact ⟨h1, h2⟩
    · rw [tr_cons hv]
      exact ⟨h1, hv, ih h3⟩

/-- The leaf is the range `sp`, with limit `d`, multiplied by `f`. -/
def IsScaled (sp : View.Spec) (d : Nat) (f : Int) (L : Leaf) : Prop :=
  match sp with
  | .all => ∃ c, L = .full d f c (d * f)
  | .single i => ∃ c, L = .single d f (i * f) c
  | .step a b s => ∃ n, L = .step d f n (a * f) (b * f) (s * f)
  | .list l => ∃ c, L = .list d f (l.map (· * f)) c

/-- The step of a range is positive. -/
def StepPos : View.Spec → Prop
  | .step _ _ s => 0 < s
  | _ => True

theorem IsScaled.limit {sp d f L} (h : IsScaled sp d f L) : L.limit = d := by
  cases sp <;> obtain ⟨_, rfl⟩ := h <;> rfl

theorem IsScaled.factor {sp d f L} (h : IsScaled sp d f L) : L.factor = f := by
  cases sp <;> obtain ⟨_, rfl⟩ := h <;> rfl

theorem IsScaled.setFactor {sp d f L} (g : Int) (hf : f ≠ 0) (h : IsScaled sp d f L) :
    ∃ L', L.setFactor g = .ok L' ∧ IsScaled sp d g L' := by
  cases sp with
  | all => obtain ⟨_, rfl⟩ := h; exact ⟨_, rfl, _, rfl⟩
  | single i =>
    obtain ⟨c, rfl⟩ := h
    refine ⟨.single d g (i * g) c, ?_, _, rfl⟩
    simp [Leaf.setFactor, hf]
  | step a b s =>
    obtain ⟨n, rfl⟩ := h
    refine ⟨.step d g (a * g) (a * g) (b * g) (s * g), ?_, _, rfl⟩
    simp [Leaf.setFactor, hf]
  | list l =>
    obtain ⟨c, rfl⟩ := h
    refine ⟨.list d g (l.map (· * g)) 0, ?_, _, rfl⟩
    simp [Leaf.setFactor, hf, Function.comp_def]

theorem full_wruns (d : Nat) (f : Int) (hf : 0 < f) (m k : Nat) (h : k + m = d) :
    WRuns (.full d f 0 (d * f)) ((List.range' k m).map fun i : Nat => (i : Int) * f)
      (.full d f (k * f) (d * f)) := by
  induction m generalizing k with
  | zero =>
    have : k = d := by omega
    subst this
    simp [WRuns, Leaf.pop, Leaf.reset]
  | succ m ih =>
    have hlt : (k : Int) * f < d * f := by
      apply Int.mul_lt_mul_of_pos_right _ hf
      omega
    have ih' := ih (k + 1) (by omega)
    have e : (k : Int) * f + f = ((k + 1 : Nat) : Int) * f := by push_cast; ring
    simp only [List.range'_succ, List.map_cons]
    refine ⟨?_, ?_, ?_⟩
    · simp [Leaf.pop, not_le.2 hlt]
    · simp [Leaf.pop, not_le.2 hlt, Leaf.reset]
    · simp only [Leaf.pop, ge_iff_le, not_le.2 hlt, if_false]
      rw [e]
      exact ih'

theorem step_wruns (l f a b s : Int) (hf : 0 < f) (n : Nat)
    (hn : ∀ j : Nat, j < n ↔ a + j * s ≤ b) (m k : Nat) (h : k + m = n) :
    WRuns (.step l f (a * f) (a * f) (b * f) (s * f))
      ((List.range' k m).map fun i : Nat => (a + i * s) * f)
      (.step l f ((a + k * s) * f) (a * f) (b * f) (s * f)) := by
  induction m generalizing k with
  | zero =>
    have h1 : ¬ (k < n) := by omega
    rw [hn k] at h1
    have : b * f < (a + k * s) * f := Int.mul_lt_mul_of_pos_right (by omega) hf
    simp [WRuns, Leaf.pop, Leaf.reset, this]
  | succ m ih =>
    have h1 : k < n := by omega
    rw [hn k] at h1
    have hle : ¬ (b * f < (a + k * s) * f) := by
      have := Int.mul_le_mul_of_nonneg_right h1 hf.le
      omega
    have ih' := ih (k + 1) (by omega)
    have e : (a + k * s) * f + s * f = (a + ((k + 1 : Nat) : Int) * s) * f := by push_cast; ring
    simp only [List.range'_succ, List.map_cons]
    refine ⟨?_, ?_, ?_⟩
    · simp [Leaf.pop, hle]
    · simp [Leaf.pop, hle, Leaf.reset]
    · simp only [Leaf.pop, gt_iff_lt, hle, if_false]
      rw [e]
      exact ih'

theorem list_wruns (l f : Int) (xs : List Int) (m k : Nat) (h : k + m = xs.length) :
    WRuns (.list l f xs 0) (xs.drop k) (.list l f xs k) := by
  induction m generalizing k with
  | zero =>
    have : xs.drop k = [] := by simp; omega
    rw [this]
    have h2 : xs[k]? = none := by simp; omega
    simp [WRuns, Leaf.pop, Leaf.reset, h2]
  | succ m ih =>
    have hk : k < xs.length := by omega
    have ih' := ih (k + 1) (by omega)
    rw [List.drop_eq_getElem_cons hk]
    have h2 : xs[k]? = some xs[k] := List.getElem?_eq_getElem hk
    refine ⟨?_, ?_, ?_⟩
    · simp [Leaf.pop, h2]
    · simp [Leaf.pop, h2, Leaf.reset]
    · simp only [Leaf.pop, h2]
      exact ih'

theorem step_count (a b s : Int) (hs : 0 < s) (j : Nat) :
    j < (if a ≤ b then ((b - a) / s + 1).toNat else 0) ↔ a + j * s ≤ b := by
  have : (j : Int) ≤ (b - a) / s ↔ j * s ≤ b - a := Int.le_ediv_iff_mul_le hs
  split
  · omega
  · have : 0 ≤ (j : Int) * s := by positivity
    omega

theorem IsScaled.lruns {sp d f L} (hf : 0 < f) (hs : StepPos sp) (h : IsScaled sp d f L) :
    LRuns L.reset (tr ((sel sp d).map (· * f))) L.reset := by
  apply WRuns.lruns
  cases sp with
  | all =>
    obtain ⟨c, rfl⟩ := h
    have := full_wruns d f hf d 0 (by omega)
    simpa [sel, Function.comp_def, List.range_eq_range', Leaf.reset] using this
  | single i =>
    obtain ⟨c, rfl⟩ := h
    simp [sel, WRuns, Leaf.pop, Leaf.reset]
  | step a b s =>
    obtain ⟨n, rfl⟩ := h
    have := step_wruns d f a b s hf _ (step_count a b s hs) _ 0 (Nat.zero_add _)
    simpa [sel, Function.comp_def, List.range_eq_range', Leaf.reset] using this
  | list l =>
    obtain ⟨c, rfl⟩ := h
    have := list_wruns d f (l.map (· * f)) _ 0 (Nat.zero_add _)
    simpa [sel, Leaf.reset] using this

/-- With enough fuel, `r` produces the values and then "no more". -/
def RRuns : List Int → Range → Prop
  | [], r => ∃ N r', ∀ n, N ≤ n → Range.pop n r = .done (.ok (nomore, r'))
  | v :: vs, r => v ≠ nomore ∧ ∃ N r', (∀ n, N ≤ n → Range.pop n r = .done (.ok (v, r'))) ∧
      RRuns vs r'

theorem LRuns.rruns {z l s} (h : LRuns z l s) : RRuns l (.leaf s) := by
  induction l generalizing s with
  | nil =>
    refine ⟨1, .leaf s.pop.2, ?_⟩
    intro n hn
    cases n with
    | zero => omega
    | succ n => simp [Range.pop, h.1]
  | cons v vs ih =>
    refine ⟨h.2.1, 1, .leaf s.pop.2, ?_, ih h.2.2⟩
    intro n hn
    cases n with
    | zero => omega
    | succ n => simp [Range.pop, h.1]

theorem RRuns.of_step {l : List Int} {r r' : Range} (h : RRuns l r') (N : Nat)
    (e : ∀ n, N ≤ n → Range.pop (n + 1) r = Range.pop n r') : RRuns l r := by
  cases l with
  | nil =>
    obtain ⟨M, q, hq⟩ := h
    refine ⟨max N M + 1, q, ?_⟩
    intro n hn
    obtain ⟨m, rfl⟩ : ∃ m, n = m + 1 := ⟨n - 1, by omega⟩
    rw [e m (by omega), hq m (by omega)]
  | cons v vs =>
    obtain ⟨hv, M, q, hq, hr⟩ := h
    refine ⟨hv, max N M + 1, q, ?_, hr⟩
    intro n hn
    obtain ⟨m, rfl⟩ : ∃ m, n = m + 1 := ⟨n - 1, by omega⟩
    rw [e m (by omega), hq m (by omega)]

theorem product_rruns {z : Leaf} {full : List Int} (hz : LRuns z full z) (ws : List Int) :
    ∀ (r2 : Range) (l1 : List Int) (s : Leaf) (out : Int), out ≠ nomore → LRuns z l1 s →
      RRuns ws r2 →
      RRuns (tr (l1.map (· + out) ++ ws.flatMap fun b => full.map (· + b)))
        (.product s r2 (some out)) := by
  induction ws with
  | nil =>
    intro r2 l1
    induction l1 with
    | nil =>
      intro s out ho hs hr
      obtain ⟨M, q, hq⟩ := hr
      refine ⟨M + 2, .product z q (some nomore), ?_⟩
      intro n hn
      obtain ⟨m, rfl⟩ : ∃ m, n = m + 2 := ⟨n - 2, by omega⟩
      simp only [Range.pop, if_neg ho, hs.1, ne_eq, not_true_eq_false, if_false]
      rw [hq (m + 1) (by omega)]
      simp [hs.2]
    | cons v vs ih =>
      intro s out ho hs hr
      obtain ⟨h1, h2, h3⟩ := hs
      have hpop : ∀ n, 1 ≤ n → Range.pop n (.product s r2 (some out)) =
          .done (.ok (v + out, .product s.pop.2 r2 (some out))) := by
        intro n hn
        obtain ⟨m, rfl⟩ : ∃ m, n = m + 1 := ⟨n - 1, by omega⟩
        simp [Range.pop, ho, h1, h2]
      by_cases hv : v + out = nomore
      · simp only [List.map_cons, List.cons_append, hv, tr_cons_stop]
        exact ⟨1, _, by intro n hn; rw [hpop n hn, hv]⟩
      · simp only [List.map_cons, List.cons_append, tr_cons hv]
        exact ⟨hv, 1, _, hpop, ih s.pop.2 out ho h3 hr⟩
  | cons b ws ihw =>
    intro r2 l1
    induction l1 with
    | nil =>
      intro s out ho hs hr
      obtain ⟨hb, M, q, hq, hr'⟩ := hr
      have := ihw q full z b hb hz hr'
      simp only [List.map_nil, List.nil_append, List.flatMap_cons]
      apply RRuns.of_step this M
      intro n hn
      simp only [Range.pop, if_neg ho, hs.1, ne_eq, not_true_eq_false, if_false]
      rw [hq n hn]
      simp only [Run.ok_bind, hs.2]
    | cons v vs ih =>
      intro s out ho hs hr
      obtain ⟨h1, h2, h3⟩ := hs
      have hpop : ∀ n, 1 ≤ n → Range.pop n (.product s r2 (some out)) =
          .done (.ok (v + out, .product s.pop.2 r2 (some out))) := by
        intro n hn
        obtain ⟨m, rfl⟩ : ∃ m, n = m + 1 := ⟨n - 1, by omega⟩
        simp [Range.pop, ho, h1, h2]
      by_cases hv : v + out = nomore
      · simp only [List.map_cons, List.cons_append, hv, tr_cons_stop]
        exact ⟨1, _, by intro n hn; rw [hpop n hn, hv]⟩
      · simp only [List.map_cons, List.cons_append, tr_cons hv]
        exact ⟨hv, 1, _, hpop, ih s.pop.2 out ho h3 hr⟩

/-- A chain of products of the ranges `sps` with limits `ds`, multiplied by `f`. -/
inductive ChainScaled : List View.Spec → List Nat → Int → Range → Prop
  | leaf {sp d f L} : IsScaled sp d f L → ChainScaled [sp] [d] f (.leaf L)
  | product {sp d f L sps ds R b} : IsScaled sp d f L → ChainScaled sps ds (f * d) R →
      ChainScaled (sp :: sps) (d :: ds) f (.product L R b)

theorem ChainScaled.setFactor {sps ds f R} (g : Int) (hf : f ≠ 0) (hd : ∀ d ∈ ds, d ≠ 0)
    (h : ChainScaled sps ds f R) :
    ∃ R', R.setFactor g = .ok R' ∧ ChainScaled sps ds g R' := by
  induction h generalizing g with
  | leaf h =>
    obtain ⟨L', e, h'⟩ := IsScaled.setFactor g hf h
    exact ⟨.leaf L', by simp [Range.setFactor, e], .leaf h'⟩
  | @product sp d f L sps ds R b h1 h2 ih =>
    obtain ⟨L', e, h'⟩ := IsScaled.setFactor g hf h1
    have hd0 : (d : Int) ≠ 0 := by simpa using hd d (by simp)
    obtain ⟨R', e2, h2'⟩ := ih (g * d) (mul_ne_zero hf hd0)
      (fun x hx => hd x (by simp [hx]))
    exact ⟨.product L' R' b, by simp [Range.setFactor, e, h'.limit, e2], .product h' h2'⟩

/-- The values of a chain. -/
def chainVals : List View.Spec → List Nat → Int → List Int
  | [sp], [d], f => tr ((sel sp d).map (· * f))
  | sp :: sps, d :: ds, f =>
    tr ((chainVals sps ds (f * d)).flatMap fun b => (tr ((sel sp d).map (· * f))).map (· + b))
  | _, _, _ => []

theorem ChainScaled.reset {sps ds f R} (hf : 0 < f) (hd : ∀ d ∈ ds, d ≠ 0)
    (hs : ∀ sp ∈ sps, StepPos sp) (h : ChainScaled sps ds f R) :
    ∃ N R', (∀ n, N ≤ n → Range.reset n R = .done (.ok R')) ∧ RRuns (chainVals sps ds f) R' := by
  induction h with
  | @leaf sp d f L h =>
    refine ⟨0, .leaf L.reset, fun n _ => by simp [Range.reset], ?_⟩
    exact (IsScaled.lruns hf (hs sp (by simp)) h).rruns
  | @product sp d f L sps ds R b h1 h2 ih =>
    have hd0 : 0 < (d : Int) := by
      have := hd d (by simp)
      omega
    obtain ⟨N, R', e, hr⟩ := ih (by positivity)
      (fun x hx => hd x (by simp [hx])) (fun x hx => hs x (by simp [hx]))
    have hl := IsScaled.lruns hf (hs sp (by simp)) h1
    have hval : chainVals (sp :: sps) (d :: ds) f =
        tr ((chainVals sps ds (f * d)).flatMap
          fun b => (tr ((sel sp d).map (· * f))).map (· + b)) := by
      cases h2 <;> rfl
    rw [hval]
    generalize chainVals sps ds (f * d) = ws at hr
    cases ws with
    | nil =>
      obtain ⟨M, q, hq⟩ := hr
      refine ⟨max N M, .product L.reset q (some nomore), ?_, ?_⟩
      · intro n hn
        simp [Range.reset, e n (by omega), hq n (by omega)]
      · refine ⟨1, .product L.reset q (some nomore), ?_⟩
        intro n hn
        obtain ⟨m, rfl⟩ : ∃ m, n = m + 1 := ⟨n - 1, by omega⟩
        simp [Range.pop]
    | cons w ws =>
      obtain ⟨hw, M, q, hq, hr'⟩ := hr
      refine ⟨max N M, .product L.reset q (some w), ?_, ?_⟩
      · intro n hn
        simp [Range.reset, e n (by omega), hq n (by omega)]
      · rw [List.flatMap_cons]
        exact product_rruns hl ws q _ L.reset w hw hl hr'

/-- The limit check accepts the range. -/
def Accepted : View.Spec → Nat → Prop
  | .all, _ => True
  | .single i, d => i < d
  | .step _ b _, d => b < d
  | .list l, d => ∀ x ∈ l, x ≤ d

theorem setLimit_new (sp : View.Spec) (d : Nat) :
    (Accepted sp d → ∃ L, sp.new.setLimit d = .ok L ∧ IsScaled sp d 1 L) ∧
    (¬ Accepted sp d → sp.new.setLimit d = .abort) := by
  have h0 : (d : Int) ≥ 0 := by omega
  cases sp with
  | all =>
    constructor
    · intro _
      exact ⟨.full d 1 0 (d * 1), by simp [Spec.new, Leaf.setLimit, Res.assert_bind], _, rfl⟩
    · intro h; exact absurd trivial h
  | single i =>
    constructor
    · intro h
      have h : i < d := h
      exact ⟨.single d 1 i i, by simp [Spec.new, Leaf.setLimit, Res.assert_bind, h], i, by simp⟩
    · intro h
      have h : ¬ i < d := h
      simp [Spec.new, Leaf.setLimit, Res.assert_bind, h]
  | step a b s =>
    constructor
    · intro h
      have h : b < d := h
      exact ⟨.step d 1 0 a b s, by simp [Spec.new, Leaf.setLimit, Res.assert_bind, h], 0, by simp⟩
    · intro h
      have h : ¬ b < d := h
      simp [Spec.new, Leaf.setLimit, Res.assert_bind, h]
  | list l =>
    constructor
    · intro h
      have h : ∀ x ∈ l, x ≤ d := h
      refine ⟨.list d 1 l 0, ?_, 0, by simp⟩
      simp only [Spec.new, Leaf.setLimit, Res.assert_bind]
      rw [if_pos h, if_pos h0]
      rfl
    · intro h
      have h : ¬ ∀ x ∈ l, x ≤ d := h
      simp only [Spec.new, Leaf.setLimit, Res.assert_bind]
      rw [if_neg h]

/-- The size which the library computes for a range. -/
def specSize : View.Spec → Nat → Int
  | .all, d => d
  | .single _, _ => 1
  | .step a b s, _ => (b - a).tdiv s + 1
  | .list l, _ => l.length

theorem IsScaled.size {sp d L} (h : IsScaled sp d 1 L) (hs : StepPos sp) :
    L.size = .ok (specSize sp d) := by
  cases sp with
  | all => obtain ⟨_, rfl⟩ := h; rfl
  | single i => obtain ⟨_, rfl⟩ := h; rfl
  | step a b s =>
    obtain ⟨_, rfl⟩ := h
    have hs : 0 < s := hs
    simp [Leaf.size, specSize, hs.ne']
  | list l => obtain ⟨_, rfl⟩ := h; simp [Leaf.size, specSize]

/-- Each range is accepted for its dimension. -/
def AcceptedAll : List View.Spec → List Nat → Prop
  | [], [] => True
  | sp :: sps, d :: ds => Accepted sp d ∧ AcceptedAll sps ds
  | _, _ => False

/-- Leaves for the ranges, with limits set. -/
inductive ScaledAll : List View.Spec → List Nat → List Leaf → Prop
  | nil : ScaledAll [] [] []
  | cons {sp d L sps ds Ls} : IsScaled sp d 1 L → ScaledAll sps ds Ls →
      ScaledAll (sp :: sps) (d :: ds) (L :: Ls)

theorem setLimits_ok (sps : List View.Spec) (ds : List Nat) (h : AcceptedAll sps ds) :
    ∃ Ls, setLimits (sps.map Spec.new) ds = .ok Ls ∧ ScaledAll sps ds Ls := by
  induction sps generalizing ds with
  | nil => cases ds with
    | nil => exact ⟨[], rfl, .nil⟩
    | cons => exact h.elim
  | cons sp sps ih => cases ds with
    | nil => exact h.elim
    | cons d ds =>
      obtain ⟨L, e, hL⟩ := (setLimit_new sp d).1 h.1
      obtain ⟨Ls, es, hLs⟩ := ih ds h.2
      exact ⟨L :: Ls, by simp [setLimits, e, es], .cons hL hLs⟩

theorem setLimits_abort (sps : List View.Spec) (ds : List Nat) (hl : sps.length = ds.length)
    (h : ¬ AcceptedAll sps ds) : setLimits (sps.map Spec.new) ds = .abort := by
  induction sps generalizing ds with
  | nil => cases ds with
    | nil => exact absurd trivial h
    | cons => simp at hl
  | cons sp sps ih => cases ds with
    | nil => simp at hl
    | cons d ds =>
      by_cases h1 : Accepted sp d
      · obtain ⟨L, e, hL⟩ := (setLimit_new sp d).1 h1
        simp only [List.map_cons, setLimits, e, Res.ok_bind]
        rw [ih ds (by simpa using hl) (fun h2 => h ⟨h1, h2⟩)]
        rfl
      · simp [setLimits, (setLimit_new sp d).2 h1]

/-- Sizes of all ranges as the library computes them. -/
def specSizes : List View.Spec → List Nat → List Int
  | sp :: sps, d :: ds => specSize sp d :: specSizes sps ds
  | _, _ => []

theorem sizes_ok (sps : List View.Spec) (ds : List Nat) (Ls : List Leaf) (h : ScaledAll sps ds Ls)
    (hs : ∀ sp ∈ sps, StepPos sp) : sizes Ls = .ok (specSizes sps ds) := by
  induction h with
  | nil => rfl
  | @cons sp d L sps ds Ls h1 h2 ih =>
    simp only [sizes, IsScaled.size h1 (hs sp (by simp)), Res.ok_bind,
      ih (fun x hx => hs x (by simp [hx]))]
    rfl

theorem build_ok (sp : View.Spec) (d : Nat) (L : Leaf) (sps : List View.Spec) (ds : List Nat)
    (Ls : List Leaf) (h1 : IsScaled sp d 1 L) (h2 : ScaledAll sps ds Ls)
    (hd : ∀ x ∈ d :: ds, x ≠ 0) :
    ∃ R, build L Ls = .ok R ∧ ChainScaled (sp :: sps) (d :: ds) 1 R := by
  induction h2 generalizing sp d L with
  | nil => exact ⟨.leaf L, rfl, .leaf h1⟩
  | @cons sp' d' L' sps ds Ls h1' h2' ih =>
    obtain ⟨R, e, hR⟩ := ih sp' d' L' h1' (fun x hx => hd x (by simp at hx ⊢; tauto))
    obtain ⟨R', e2, hR'⟩ := ChainScaled.setFactor (1 * (d : Int)) one_ne_zero
      (fun x hx => hd x (by simp at hx ⊢; tauto)) hR
    refine ⟨.product L R' none, ?_, .product h1 hR'⟩
    simp only [build, mkProduct, e, Res.ok_bind, h1.factor, h1.limit, e2]
    rfl

theorem AcceptedAll.length {sps ds} (h : AcceptedAll sps ds) : sps.length = ds.length := by
  induction sps generalizing ds with
  | nil => cases ds with
    | nil => rfl
    | cons => exact h.elim
  | cons sp sps ih => cases ds with
    | nil => exact h.elim
    | cons d ds => simp [ih h.2]

variable {α : Type}

theorem mkView_ok (t : Tensor α) (sps : List View.Spec) (hne : sps ≠ [])
    (h : AcceptedAll sps (limits t.dims t.data.length sps))
    (hd : ∀ d ∈ limits t.dims t.data.length sps, d ≠ 0) (hs : ∀ sp ∈ sps, StepPos sp) :
    ∃ R, mkView t sps = .ok (specSizes sps (limits t.dims t.data.length sps), R) ∧
      ChainScaled sps (limits t.dims t.data.length sps) 1 R := by
  match sps, hne with
  | sp :: sps, _ =>
    have hlim : (if sps.map Spec.new = [] then [t.size] else t.dims) =
        limits t.dims t.data.length (sp :: sps) := by
      simp [limits, Tensor.size]
    obtain ⟨Ls, e, hLs⟩ := setLimits_ok _ _ h
    have e' := sizes_ok _ _ _ hLs hs
    have hlen := h.length
    simp only [mkView, List.map_cons, hlim, Res.assert_bind, if_pos hlen.symm]
    simp only [List.map_cons] at e
    rw [e, Res.ok_bind, e', Res.ok_bind]
    generalize limits t.dims t.data.length (sp :: sps) = ds at *
    cases hLs with
    | cons h1 h2 =>
      obtain ⟨R, eR, hR⟩ := build_ok _ _ _ _ _ _ h1 h2 hd
      exact ⟨R, by simp [eR], hR⟩

theorem mkView_abort (t : Tensor α) (sps : List View.Spec)
    (h : ¬ AcceptedAll sps (limits t.dims t.data.length sps)) : mkView t sps = .abort := by
  match sps with
  | [] => rfl
  | sp :: sps =>
    have hlim : (if sps.map Spec.new = [] then [t.size] else t.dims) =
        limits t.dims t.data.length (sp :: sps) := by
      simp [limits, Tensor.size]
    simp only [mkView, List.map_cons, hlim, Res.assert_bind]
    by_cases hl : (limits t.dims t.data.length (sp :: sps)).length = (sp :: sps).length
    · rw [if_pos hl]
      have := setLimits_abort _ _ hl.symm h
      simp only [List.map_cons] at this
      rw [this]
      rfl
    · rw [if_neg hl]

end Verif.View
