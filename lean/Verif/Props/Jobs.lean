import Verif.Props.Split
import Verif.Props.Linspace
import Verif.Lemmas.Index
/-
C48: the jobs visit every combination of values, C49: blocks of jobs, C50: options, C51: job files.
-/
namespace Verif.Jobs

open Verif Spec

variable {α : Type}

section

variable [Field α]

/-! ### Variables -/

/-- The values of a variable are those which linspace returns. -/
theorem linspace_vals [CharZero α] (mn mx : α) (n : Nat) :
    Finishes (fun fuel => Linspace.linspaceNum fuel mn mx n)
      (.ok ⟨[n], (linVals mn mx n).map some⟩) := by
  have wf : (⟨[1], [mn]⟩ : Tensor α).WF := rfl
  by_cases hn : 2 ≤ n
  · obtain ⟨v, h1, h2, h3, h4, delta, h5⟩ := Linspace.c60_numbers_partial mn mx hn
    have hv : ∀ j, j < n → v[j]? = some (mn + (j : α) * delta) := by
      intro j
      induction j with
      | zero => intro _; rw [h3]; simp
      | succ j ih =>
        intro hj
        have hx := ih (by omega)
        have hy : v[j + 1]? = some (v[j + 1]'(by omega)) := List.getElem?_eq_getElem (by omega)
        have := h5 j _ _ hx hy
        rw [hy, Option.some.injEq, sub_eq_iff_eq_add.1 this]
        push_cast
        ring
    have hn1 : ((n : α) - 1) ≠ 0 := by
      have : ((n : α)) ≠ ((1 : Nat) : α) := by
        rw [Ne, Nat.cast_inj]; omega
      rw [Nat.cast_one] at this
      exact sub_ne_zero.2 this
    have hdelta : delta = (mx - mn) / ((n : α) - 1) := by
      have := hv (n - 1) (by omega)
      rw [h4, Option.some.injEq, Nat.cast_sub (by omega), Nat.cast_one] at this
      rw [eq_div_iff hn1, this]
      ring
    have : v = linVals mn mx n := by
      rw [linVals, if_neg (by omega)]
      apply List.ext_getElem?
      intro j
      by_cases hj : j < n
      · rw [hv j hj, List.getElem?_map, List.getElem?_range hj, Option.map_some, hdelta,
          Option.some.injEq]
        ring
      · rw [List.getElem?_eq_none (by omega), List.getElem?_eq_none (by simp; omega)]
    rw [← this]
    exact h1
  · obtain ⟨h1, h0⟩ := Linspace.c60_few_columns (mx := (⟨[1], [mx]⟩ : Tensor α)) wf (by simp)
    have : n = 0 ∨ n = 1 := by omega
    rcases this with rfl | rfl
    · exact h0
    · exact h1

/-- C48: a text with a name and up to three numbers defines a variable: the name, the values between
the first and the second number, or the first number alone; the third number is how many values
there are, 10 if there is none. -/
theorem c48_declaration (c : Lib α) {g nm a b n g1 g2 g3 g4 : Str} :
    (Pieces g [(nm, g1), (a, g2)] →
      parseLine c (joined g [(nm, g1), (a, g2)]) = .ok ⟨nm, [c.atof a], 0⟩) ∧
    (Pieces g [(nm, g1), (a, g2), (b, g3)] →
      parseLine c (joined g [(nm, g1), (a, g2), (b, g3)])
        = .ok ⟨nm, linVals (c.atof a) (c.atof b) 10, 0⟩) ∧
    (Pieces g [(nm, g1), (a, g2), (b, g3), (n, g4)] →
      parseLine c (joined g [(nm, g1), (a, g2), (b, g3), (n, g4)])
        = if 0 ≤ c.atoi n then .ok ⟨nm, linVals (c.atof a) (c.atof b) (c.atoi n).toNat, 0⟩
          else .abort) := by
  refine ⟨fun h => ?_, fun h => ?_, fun h => ?_⟩
  · rw [parseLine, c52_join h]; rfl
  · rw [parseLine, c52_join h]; rfl
  · rw [parseLine, c52_join h]
    simp only [List.map_cons, List.map_nil, mkVar]
    rw [Res.assert_bind]
    rfl

/-- A text which defines a variable. -/
def Declares (c : Lib α) (l : Str) (v : Var α) : Prop := parseLine c l = .ok v ∧ v.name ≠ []

example : Declares (⟨fun _ => 2, fun _ => 3⟩ : Lib ℚ) "x,1".toList ⟨"x".toList, [2], 0⟩ := by
  have h := (c48_declaration (⟨fun _ => 2, fun _ => 3⟩ : Lib ℚ) (g := []) (nm := "x".toList)
    (g1 := ",".toList) (a := "1".toList) (g2 := []) (b := []) (n := []) (g3 := []) (g4 := [])).1
    (by simp [Pieces, isSep])
  exact ⟨h, by simp⟩

/-! ### Arguments -/

/-- The arguments which define variables by texts. -/
def variableArgs (ls : List Str) : List Str := ls.flatMap fun l => ["--variable".toList, l]

/-- The name of a program: none of the options. -/
def NotOption (p : Str) : Prop :=
  p ∉ ["--job".toList, "--print-jobs".toList, "--this-job".toList, "--job-blocks".toList,
    "--first-job".toList, "--last-job".toList, "--variable".toList, "--help".toList]

example : NotOption "./program".toList := by simp [NotOption]

theorem args_name (c : Lib α) (files : Str → Str) (fuel : Nat) (o : Opts α) {p : Str}
    (h : NotOption p) (rest : List Str) :
    args c files fuel o (p :: rest) = args c files fuel o rest := by
  simp only [NotOption, List.mem_cons, List.not_mem_nil, or_false, not_or] at h
  obtain ⟨h1, h2, h3, h4, h5, h6, h7, h8⟩ := h
  cases rest with
  | nil => simp only [args, if_neg h1, if_neg h2, if_neg h3, if_neg h4, if_neg h5, if_neg h6,
      if_neg h7, if_neg h8]
  | cons b rest => simp only [args, if_neg h1, if_neg h2, if_neg h3, if_neg h4, if_neg h5, if_neg h6,
      if_neg h7, if_neg h8]

theorem args_variables (c : Lib α) (files : Str → Str) (fuel : Nat) {ls : List Str}
    {vs : List (Var α)} (h : List.Forall₂ (Declares c) ls vs) (o : Opts α) (rest : List Str) :
    args c files fuel o (variableArgs ls ++ rest)
      = args c files fuel { o with vars := o.vars ++ vs } rest := by
  induction h generalizing o with
  | nil => simp [variableArgs]
  | cons h1 h2 ih =>
    rename_i l v ls vs
    have e : variableArgs (l :: ls) ++ rest = "--variable".toList :: l :: (variableArgs ls ++ rest) := by
      simp [variableArgs]
    rw [e, args]
    rw [if_neg (by decide), if_neg (by decide), if_neg (by decide), if_neg (by decide),
      if_neg (by decide), if_neg (by decide), if_pos rfl, h1.1, Run.ok_bind,
      if_neg (by simpa using h1.2), ih]
    simp

theorem args_job (c : Lib α) (files : Str → Str) {fuel : Nat} (hf : 0 < fuel) (o : Opts α) (f : Str)
    (rest : List Str) :
    args c files fuel o ("--job".toList :: f :: rest) = args c files fuel o rest := by
  obtain ⟨fuel, rfl⟩ : ∃ k, fuel = k + 1 := ⟨fuel - 1, by omega⟩
  rw [args, if_pos rfl]
  have : split [] = [] := by rw [split_eq]; rfl
  simp only [parseFile, fileLoop, parseLine, this]
  rfl

theorem args_this (c : Lib α) (files : Str → Str) (fuel : Nat) (o : Opts α) (f : Str)
    (rest : List Str) :
    args c files fuel o ("--this-job".toList :: f :: rest)
      = args c files fuel { o with cur := some (c.atoi f) } rest := by
  rw [args, if_neg (by decide), if_neg (by decide), if_pos rfl]

theorem args_blocks (c : Lib α) (files : Str → Str) (fuel : Nat) (o : Opts α) (f : Str)
    (rest : List Str) :
    args c files fuel o ("--job-blocks".toList :: f :: rest)
      = args c files fuel { o with blocks := some (c.atoi f) } rest := by
  rw [args, if_neg (by decide), if_neg (by decide), if_neg (by decide), if_pos rfl]

theorem args_first (c : Lib α) (files : Str → Str) (fuel : Nat) (o : Opts α) (f : Str)
    (rest : List Str) :
    args c files fuel o ("--first-job".toList :: f :: rest)
      = if o.cur.isSome then .done .abort
        else args c files fuel { o with first := some (c.atoi f) } rest := by
  rw [args, if_neg (by decide), if_neg (by decide), if_neg (by decide), if_neg (by decide),
    if_pos rfl]

theorem args_last (c : Lib α) (files : Str → Str) (fuel : Nat) (o : Opts α) (f : Str)
    (rest : List Str) :
    args c files fuel o ("--last-job".toList :: f :: rest)
      = if o.first.isNone then .done .abort
        else args c files fuel { o with last := some (c.atoi f) } rest := by
  rw [args, if_neg (by decide), if_neg (by decide), if_neg (by decide), if_neg (by decide),
    if_neg (by decide), if_pos rfl]

end

/-! ### Selecting a job -/

/-- The numbers of values of the variables. -/
def sizes (vs : List (Var α)) : List Nat := vs.map fun v => v.values.length

theorem foldl_mul (vs : List (Var α)) (k : Nat) :
    vs.foldl (fun n v => n * v.values.length) k = k * prod (sizes vs) := by
  induction vs generalizing k with
  | nil => simp [sizes]
  | cons v vs ih =>
    rw [List.foldl_cons, ih]
    simp [sizes, Nat.mul_assoc]

theorem numberOfJobs_eq (vs : List (Var α)) : numberOfJobs vs = prod (sizes vs) := by
  rw [numberOfJobs, foldl_mul, Nat.one_mul]

theorem sizes_pos {vs : List (Var α)} (h : ∀ v ∈ vs, v.values ≠ []) : 0 < prod (sizes vs) := by
  induction vs with
  | nil => simp [sizes]
  | cons v vs ih =>
    have h1 : 0 < v.values.length := List.length_pos_iff.2 (h v (by simp))
    have h2 := ih fun w hw => h w (by simp [hw])
    simp only [sizes, List.map_cons, prod] at h2 ⊢
    exact Nat.mul_pos h1 h2

/-- The variables with the values of the job `i`. -/
def setDigits : List (Var α) → Nat → List (Var α)
  | [], _ => []
  | v :: vs, i => { v with which := i % v.values.length } :: setDigits vs (i / v.values.length)

theorem digits_eq {vs : List (Var α)} (h : ∀ v ∈ vs, v.values ≠ []) (i : Nat) :
    digits vs i = .ok (setDigits vs i) := by
  induction vs generalizing i with
  | nil => rfl
  | cons v vs ih =>
    rw [digits, if_neg (by simpa using h v (by simp)), ih fun w hw => h w (by simp [hw])]
    rfl

theorem digits_ub {vs : List (Var α)} (h : ∃ v ∈ vs, v.values = []) (i : Nat) :
    digits vs i = .ub := by
  induction vs generalizing i with
  | nil => simp at h
  | cons v vs ih =>
    rw [digits]
    by_cases hv : v.values.length = 0
    · rw [if_pos hv]
    · rw [if_neg hv, ih]
      · rfl
      · obtain ⟨w, hw, e⟩ := h
        rcases List.mem_cons.1 hw with rfl | hw
        · simp [e] at hv
        · exact ⟨w, hw, e⟩

theorem setDigits_nonempty {vs : List (Var α)} (h : ∀ v ∈ vs, v.values ≠ []) (i : Nat) :
    ∀ v ∈ setDigits vs i, v.values ≠ [] := by
  induction vs generalizing i with
  | nil => simp [setDigits]
  | cons v vs ih =>
    intro w hw
    rw [setDigits, List.mem_cons] at hw
    rcases hw with rfl | hw
    · exact h v (by simp)
    · exact ih (fun w hw => h w (by simp [hw])) _ w hw

theorem setDigits_setDigits (vs : List (Var α)) (i j : Nat) :
    setDigits (setDigits vs i) j = setDigits vs j := by
  induction vs generalizing i j with
  | nil => rfl
  | cons v vs ih => simp [setDigits, ih]

theorem setDigits_names (vs : List (Var α)) (i : Nat) :
    (setDigits vs i).map Var.name = vs.map Var.name ∧
    (setDigits vs i).map Var.values = vs.map Var.values := by
  induction vs generalizing i with
  | nil => exact ⟨rfl, rfl⟩
  | cons v vs ih => simp [setDigits, ih]

theorem setDigits_which {vs : List (Var α)} (h : ∀ v ∈ vs, v.values ≠ []) {i : Nat}
    (hi : i < prod (sizes vs)) :
    InB ((setDigits vs i).map Var.which) (sizes vs) ∧
    colPos (sizes vs) ((setDigits vs i).map Var.which) = i := by
  induction vs generalizing i with
  | nil =>
    simp only [sizes, List.map_nil, prod] at hi
    simp [setDigits, sizes]
    omega
  | cons v vs ih =>
    have hv : 0 < v.values.length := List.length_pos_iff.2 (h v (by simp))
    have hi' : i / v.values.length < prod (sizes vs) := by
      rw [Nat.div_lt_iff_lt_mul hv, Nat.mul_comm]
      simpa [sizes, prod] using hi
    obtain ⟨h1, h2⟩ := ih (fun w hw => h w (by simp [hw])) hi'
    simp only [setDigits, sizes, List.map_cons, InB, colPos] at h1 h2 ⊢
    refine ⟨⟨Nat.mod_lt _ hv, h1⟩, ?_⟩
    rw [h2, Nat.mod_add_div]

/-- The state of job `k` of the variables `vs`. -/
def st (vs : List (Var α)) (f : Int) (l : Option Int) (k : Nat) : Job α :=
  ⟨setDigits vs k, prod (sizes vs), k, f, l⟩

theorem select_eq {vs : List (Var α)} (h : ∀ v ∈ vs, v.values ≠ []) (t f : Int) (l : Option Int)
    {k : Nat} (hk : k ≤ prod (sizes vs)) :
    select ⟨vs, prod (sizes vs), t, f, l⟩ (k : Int) = .ok (st vs f l k) := by
  rw [select, Res.assert_bind, if_pos (by omega), if_pos (by simpa using hk), Int.toNat_natCast,
    digits_eq h]
  rfl

theorem next_st {vs : List (Var α)} (h : ∀ v ∈ vs, v.values ≠ []) (f : Int) (l : Option Int)
    {k : Nat} (hk : k < prod (sizes vs)) : next (st vs f l k) = .ok (st vs f l (k + 1)) := by
  change select ⟨setDigits vs k, (prod (sizes vs) : Nat), k, f, l⟩ ((k : Int) + 1) = _
  rw [select, Res.assert_bind, if_pos (by omega),
    if_pos (show (k : Int) + 1 ≤ (prod (sizes vs) : Nat) by omega), digits_eq (setDigits_nonempty h k), setDigits_setDigits]
  rfl

theorem toDo_some (vs : List (Var α)) (n t f l : Int) :
    toDo ⟨vs, n, t, f, some l⟩ = .ok (decide (0 ≤ t ∧ t < n ∧ f ≤ t ∧ t ≤ l)) := by
  rw [toDo]
  simp only [Res.ofOption_some, Res.ok_bind, Res.pure_eq]
  split
  · rename_i h
    simp [h]
  · rename_i h
    congr 1
    symm
    rw [decide_eq_false_iff_not]
    exact fun h' => h ⟨h'.1, h'.2.1, h'.2.2.1⟩

/-- The loop executes the jobs from `k` to the last one. -/
theorem runLoop_st {vs : List (Var α)} (h : ∀ v ∈ vs, v.values ≠ []) (f l : Int) (m k : Nat)
    (hf : f ≤ k) (hk : k ≤ prod (sizes vs))
    (hm : (k : Int) + m = max (k : Int) (min (l + 1) (prod (sizes vs) : Nat))) (fuel : Nat) (hfu : m < fuel) :
    runLoop fuel (st vs f (some l) k) = .done (.ok ((List.range' k m).map (st vs f (some l)))) := by
  induction m generalizing k fuel with
  | zero =>
    obtain ⟨fuel, rfl⟩ : ∃ j, fuel = j + 1 := ⟨fuel - 1, by omega⟩
    have : toDo (st vs f (some l) k) = .ok false := by
      rw [st, toDo_some]
      congr 1
      rw [decide_eq_false_iff_not]
      omega
    simp only [runLoop, this]
    rfl
  | succ m ih =>
    obtain ⟨fuel, rfl⟩ : ∃ j, fuel = j + 1 := ⟨fuel - 1, by omega⟩
    have h1 : toDo (st vs f (some l) k) = .ok true := by
      rw [st, toDo_some]
      congr 1
      rw [decide_eq_true_iff]
      omega
    rw [runLoop, h1, Run.ok_bind, if_pos rfl, next_st h f _ (by omega), Run.ok_bind,
      ih (k + 1) (by omega) (by omega) (by omega) fuel (by omega), Run.ok_bind]
    rfl

variable [Field α]

/-- How the program continues once the arguments have been read. -/
theorem program_eq {c : Lib α} {files : Str → Str} {argv : List Str} {fuel : Nat} {o : Opts α}
    (ha : args c files fuel {} argv = .done (.ok (some o))) (hp : o.print = false) {x : Int × Option Int × Int}
    (hc : choose o (prod (sizes o.vars)) = .ok x) {j : Job α}
    (hs : select ⟨o.vars, prod (sizes o.vars), 0, x.1, x.2.1⟩ x.2.2 = .ok j) :
    program c files argv fuel = (do let l ← runLoop fuel j; pure (some l)) := by
  rw [program, start, ha]
  simp only [Run.ok_bind, numberOfJobs_eq, hp, Bool.false_eq_true, if_false, hc, hs]
  rfl

theorem program_interval {c : Lib α} {files : Str → Str} {argv : List Str} {o : Opts α}
    (ha : ∀ fuel, 0 < fuel → args c files fuel {} argv = .done (.ok (some o))) (hp : o.print = false)
    (hv : ∀ v ∈ o.vars, v.values ≠ []) {k : Nat} {l : Int} (hk : k ≤ prod (sizes o.vars))
    (hc : choose o (prod (sizes o.vars)) = .ok (k, some l, k)) (m : Nat)
    (hm : (k : Int) + m = max (k : Int) (min (l + 1) (prod (sizes o.vars) : Nat))) :
    Finishes (program c files argv)
      (.ok (some ((List.range' k m).map (st o.vars k (some l))))) := by
  refine ⟨m + 1, fun fuel hfu => ?_⟩
  rw [program_eq (ha fuel (by omega)) hp hc (select_eq hv 0 k (some l) hk),
    runLoop_st hv k l m k (by omega) hk hm fuel (by omega)]
  rfl

/-! ### C48 -/

/-- The job `j` has the variables `vs`, with the values at `idx`: what its user sees. -/
structure Shows (vs : List (Var α)) (j : Job α) (idx : List Nat) : Prop where
  valid : InB idx (sizes vs)
  /-- The value of a variable, unless another one before it has the same name. -/
  value : ∀ (i : Nat) (v : Var α) (x : Nat), vs[i]? = some v →
    (∀ (i' : Nat) (v' : Var α), i' < i → vs[i']? = some v' → v'.name ≠ v.name) → idx[i]? = some x →
    ∃ a, v.values[x]? = some a ∧ getValue j v.name = .ok a ∧
      ∀ d, getValueWithDefault j v.name d = .ok a
  missing : ∀ nm, (∀ v ∈ vs, v.name ≠ nm) → getValue j nm = .abort ∧
    ∀ d, getValueWithDefault j nm d = .ok d

omit [Field α] in
theorem findVar_setDigits (vs : List (Var α)) (k : Nat) (i : Nat) (v : Var α)
    (hi : vs[i]? = some v)
    (hf : ∀ (i' : Nat) (v' : Var α), i' < i → vs[i']? = some v' → v'.name ≠ v.name) (x : Nat)
    (hx : ((setDigits vs k).map Var.which)[i]? = some x) :
    findVar (setDigits vs k) v.name = some { v with which := x } := by
  induction vs generalizing k i with
  | nil => simp at hi
  | cons w vs ih =>
    cases i with
    | zero =>
      simp only [List.getElem?_cons_zero, Option.some.injEq] at hi
      subst hi
      simp only [setDigits, List.map_cons, List.getElem?_cons_zero, Option.some.injEq] at hx
      subst hx
      simp [findVar, setDigits]
    | succ i =>
      have hw : w.name ≠ v.name := hf 0 w (by omega) rfl
      rw [List.getElem?_cons_succ] at hi
      simp only [setDigits, List.map_cons, List.getElem?_cons_succ] at hx
      have := ih (k / w.values.length) i hi
        (fun i' v' h1 h2 => hf (i' + 1) v' (by omega) (by simpa using h2)) hx
      simp only [findVar, setDigits] at this ⊢
      rw [List.find?_cons_of_neg (by simpa using hw)]
      exact this

omit [Field α] in
theorem st_shows {vs : List (Var α)} (h : ∀ v ∈ vs, v.values ≠ []) (f : Int) (l : Option Int)
    {k : Nat} (hk : k < prod (sizes vs)) {idx : List Nat} (hi : InB idx (sizes vs))
    (hc : colPos (sizes vs) idx = k) : Shows vs (st vs f l k) idx := by
  obtain ⟨h1, h2⟩ := setDigits_which h hk
  have e : (setDigits vs k).map Var.which = idx := colPos_inj h1 hi (h2.trans hc.symm)
  refine ⟨hi, fun i v x hv hfirst hx => ?_, fun nm hn => ?_⟩
  · have hfv := findVar_setDigits vs k i v hv hfirst x (by rw [e]; exact hx)
    have hlt : x < v.values.length := by
      have hlen : ∀ (ds is : List Nat), InB is ds → ∀ (i x d : Nat), is[i]? = some x → ds[i]? = some d → x < d := by
        intro ds
        induction ds with
        | nil => intro is _ i x d _ hd; simp at hd
        | cons d ds ih =>
          intro is hb i x d' h3 h4
          match is, hb with
          | y :: is, hb =>
            cases i with
            | zero =>
              simp only [List.getElem?_cons_zero, Option.some.injEq] at h3 h4
              subst h3; subst h4
              exact hb.1
            | succ i => exact ih is hb.2 i x d' h3 h4
      exact hlen _ _ hi i x _ hx (by simp [sizes, hv])
    have hval : Var.value { v with which := x } = .ok v.values[x] := by
      simp [Var.value, List.getElem?_eq_getElem hlt]
    refine ⟨v.values[x], List.getElem?_eq_getElem hlt, ?_, fun d => ?_⟩
    · simp only [getValue, st, hfv, hval]
    · simp only [getValueWithDefault, st, hfv, hval]
  · have : findVar (setDigits vs k) nm = none := by
      rw [findVar, List.find?_eq_none]
      intro v hv
      have : v.name ∈ (setDigits vs k).map Var.name := List.mem_map_of_mem hv
      rw [(setDigits_names vs k).1] at this
      obtain ⟨w, hw, e⟩ := List.mem_map.1 this
      simpa [← e] using hn w hw
    exact ⟨by simp only [getValue, st, this], fun d => by simp only [getValueWithDefault, st, this]; rfl⟩

theorem program_default {c : Lib α} (files : Str → Str) {p : Str} (hp : NotOption p) {ls : List Str}
    {vs : List (Var α)} (h : List.Forall₂ (Declares c) ls vs) (hv : ∀ v ∈ vs, v.values ≠ []) :
    Finishes (program c files (p :: variableArgs ls))
      (.ok (some ((List.range' 0 (prod (sizes vs))).map
        (st vs (0 : Nat) (some ((prod (sizes vs) : Nat) - 1)))))) := by
  have ha : ∀ fuel, 0 < fuel → args c files fuel {} (p :: variableArgs ls)
      = .done (.ok (some { vars := vs })) := by
    intro fuel _
    rw [args_name c files fuel _ hp]
    have := args_variables c files fuel h {} []
    rw [List.append_nil] at this
    rw [this]
    rfl
  exact program_interval ha rfl hv (k := 0) (l := prod (sizes vs) - 1) (by omega) rfl
    (prod (sizes vs)) (by simp)

/-- C48: a program without options about jobs executes as many jobs as there are combinations, in
order, and job `k` has the combination of values with number `k`, in which the first variable
changes fastest. Missing: variables without values, see `c48_zero_steps`. -/
theorem c48_jobs_partial {c : Lib α} (files : Str → Str) {p : Str} (hp : NotOption p) {ls : List Str}
    {vs : List (Var α)} (h : List.Forall₂ (Declares c) ls vs) (hv : ∀ v ∈ vs, v.values ≠ []) :
    ∃ js, Finishes (program c files (p :: variableArgs ls)) (.ok (some js)) ∧
      js.length = prod (sizes vs) ∧
      ∀ (k : Nat) (j : Job α), js[k]? = some j → j.this = k ∧ j.n = prod (sizes vs) ∧
        ∃ idx, colPos (sizes vs) idx = k ∧ Shows vs j idx := by
  refine ⟨_, program_default files hp h hv, by simp, fun k j hj => ?_⟩
  rw [List.getElem?_map, Option.map_eq_some_iff] at hj
  obtain ⟨k', hk', rfl⟩ := hj
  obtain ⟨hlt, e⟩ := List.getElem?_eq_some_iff.1 hk'
  simp only [List.length_range'] at hlt
  simp only [List.getElem_range', Nat.one_mul, Nat.zero_add] at e
  subst e
  refine ⟨rfl, rfl, (setDigits vs k).map Var.which, (setDigits_which hv hlt).2, ?_⟩
  exact st_shows hv _ _ hlt (setDigits_which hv hlt).1 (setDigits_which hv hlt).2

/-- C48: every combination of values belongs to one job, and only one. -/
theorem c48_once (ds : List Nat) {idx : List Nat} (h : InB idx ds) :
    ∃ k, k < prod ds ∧ colPos ds idx = k ∧ ∀ idx', InB idx' ds → colPos ds idx' = k → idx' = idx :=
  ⟨_, colPos_lt h, rfl, fun _ h' e => colPos_inj h' h e⟩

example : ∃ k, k < prod [2, 3] ∧ colPos [2, 3] [1, 2] = k ∧
    ∀ idx', InB idx' [2, 3] → colPos [2, 3] idx' = k → idx' = [1, 2] := c48_once _ (by decide)

/-- C48: a variable without values (0 steps) makes the constructor divide by zero. -/
theorem c48_zero_steps {c : Lib α} (files : Str → Str) {p : Str} (hp : NotOption p) {ls : List Str}
    {vs : List (Var α)} (h : List.Forall₂ (Declares c) ls vs) (hv : ∃ v ∈ vs, v.values = []) :
    Finishes (start c files (p :: variableArgs ls)) .ub := by
  refine ⟨0, fun fuel _ => ?_⟩
  have := args_variables c files fuel h {} []
  rw [List.append_nil] at this
  rw [start, args_name c files fuel _ hp, this]
  simp only [args, Run.pure_eq, Run.ok_bind, Bool.false_eq_true, if_false, List.nil_append]
  have hc : choose { vars := vs } ((numberOfJobs vs : Nat) : Int)
      = .ok (0, some (((numberOfJobs vs : Nat) : Int) - 1), 0) := rfl
  have hs : select ⟨vs, (numberOfJobs vs : Nat), 0, 0, some (((numberOfJobs vs : Nat) : Int) - 1)⟩ 0
      = (.ub : Res (Job α)) := by
    rw [select, Res.assert_bind, if_pos (by omega), if_pos (by simp), digits_ub hv]
    rfl
  rw [hc, Run.ok_bind, hs]
  rfl

example : ∃ v ∈ [(⟨"x".toList, linVals 1 2 0, 0⟩ : Var ℚ)], v.values = [] := by simp [linVals]

/-- Two variables with two and three values. -/
example : ∃ js : List (Job ℚ), js.length = 6 ∧ ∀ j, js[3]? = some j →
    getValue j "x".toList = .ok 8 ∧ getValue j "y".toList = .ok 5 := by
  let c : Lib ℚ := ⟨fun _ => 0, fun _ => 0⟩
  let vs : List (Var ℚ) := [⟨"x".toList, [7, 8], 0⟩, ⟨"y".toList, [4, 5, 6], 0⟩]
  refine ⟨(List.range' 0 6).map (st vs 0 (some 5)), rfl, fun j hj => ?_⟩
  have e : j = st vs 0 (some 5) 3 := by simpa [List.range'] using hj.symm
  have h := st_shows (vs := vs) (by simp [vs]) 0 (some 5) (k := 3) (by decide) (idx := [1, 1])
    (by decide) (by decide)
  rw [e]
  obtain ⟨a, h1, h2, -⟩ := h.value 0 _ 1 rfl (by simp) rfl
  obtain ⟨b, h3, h4, -⟩ := h.value 1 _ 1 rfl (by
    intro i' v' hi hv
    have : i' = 0 := by omega
    subst this
    simp only [vs, List.getElem?_cons_zero, Option.some.injEq] at hv
    subst hv
    simp) rfl
  simp only [List.getElem?_cons_succ, List.getElem?_cons_zero, Option.some.injEq] at h1 h3
  subst h1; subst h3
  exact ⟨h2, h4⟩

/-! ### C49 -/

/-- The options for one of several blocks of jobs, in any order. -/
def BlockArgs (b t : Str) (opts : List Str) : Prop :=
  opts = ["--job-blocks".toList, b, "--this-job".toList, t] ∨
  opts = ["--this-job".toList, t, "--job-blocks".toList, b]

theorem args_block {c : Lib α} (files : Str → Str) {p : Str} (hp : NotOption p) {ls : List Str}
    {vs : List (Var α)} (h : List.Forall₂ (Declares c) ls vs) {b t : Str} {opts : List Str}
    (ho : BlockArgs b t opts) (fuel : Nat) :
    args c files fuel {} (p :: (variableArgs ls ++ opts))
      = .done (.ok (some { vars := vs, blocks := some (c.atoi b), cur := some (c.atoi t) })) := by
  rw [args_name c files fuel _ hp, args_variables c files fuel h]
  rcases ho with rfl | rfl
  · rw [args_blocks, args_this]; rfl
  · rw [args_this, args_blocks]; rfl

omit [Field α] in
theorem choose_block (vs : List (Var α)) {B t : Int} (hB : 0 < B) (n : Int) :
    choose { vars := vs, blocks := some B, cur := some t } n
      = .ok (min (t * ((n + B - 1) / B)) n,
          some (min (n - 1) (min (t * ((n + B - 1) / B)) n + (n + B - 1) / B - 1)),
          min (t * ((n + B - 1) / B)) n) := by
  rw [choose]
  simp only
  rw [Res.assert_bind, if_pos (by simp), Res.assert_bind, if_pos hB]
  rfl

/-- The size of the blocks of `n` jobs in `B` blocks. -/
def delta (n B : Nat) : Nat := (n + B - 1) / B

theorem delta_cast (n B : Nat) (hB : 0 < B) : ((n : Int) + B - 1) / B = (delta n B : Nat) := by
  rw [delta, Int.natCast_ediv, Nat.cast_sub (by omega)]
  push_cast
  rfl

theorem delta_mul (n B : Nat) (hB : 0 < B) : n ≤ B * delta n B := by
  have := Nat.div_add_mod (n + B - 1) B
  have h2 := Nat.mod_lt (n + B - 1) hB
  rw [delta]
  omega

/-- The jobs of a block. -/
theorem program_block {c : Lib α} (files : Str → Str) {p : Str} (hp : NotOption p) {ls : List Str}
    {vs : List (Var α)} (h : List.Forall₂ (Declares c) ls vs) (hv : ∀ v ∈ vs, v.values ≠ [])
    {b t : Str} {opts : List Str} (ho : BlockArgs b t opts) {B k : Nat} (hB : 0 < B)
    (hb : c.atoi b = B) (ht : c.atoi t = k) :
    ∃ f l, Finishes (program c files (p :: (variableArgs ls ++ opts)))
      (.ok (some ((List.range' (min (k * delta (prod (sizes vs)) B) (prod (sizes vs)))
        (min ((k + 1) * delta (prod (sizes vs)) B) (prod (sizes vs))
          - min (k * delta (prod (sizes vs)) B) (prod (sizes vs)))).map (st vs f l)))) := by
  refine ⟨_, _, program_interval (o := { vars := vs, blocks := some (c.atoi b), cur := some (c.atoi t) })
    (fun fuel _ => args_block files hp h ho fuel) rfl hv (Nat.min_le_right _ _)
    (l := min ((prod (sizes vs) : Nat) - 1) (min ((k : Int) * (delta (prod (sizes vs)) B : Nat))
      (prod (sizes vs) : Nat) + (delta (prod (sizes vs)) B : Nat) - 1)) ?_ _ ?_⟩
  · rw [hb, ht, choose_block vs (by omega), delta_cast _ _ hB]
    simp
  · simp only
    have : (k + 1) * delta (prod (sizes vs)) B
      = k * delta (prod (sizes vs)) B + delta (prod (sizes vs)) B := by ring
    rw [this]
    rw [← Nat.cast_mul]
    generalize k * delta (prod (sizes vs)) B = x
    generalize delta (prod (sizes vs)) B = d
    omega

theorem flatMap_ranges (f : Nat → Nat) (h0 : f 0 = 0) (hm : ∀ k, f k ≤ f (k + 1)) (B : Nat) :
    ((List.range B).flatMap fun k => List.range' (f k) (f (k + 1) - f k)) = List.range (f B) := by
  induction B with
  | zero => simp [h0]
  | succ B ih =>
    rw [List.range_succ, List.flatMap_append, ih]
    simp only [List.flatMap_cons, List.flatMap_nil, List.append_nil]
    have h1 := List.range'_append_1 (s := 0) (m := f B) (n := f (B + 1) - f B)
    have h2 := hm B
    rw [Nat.zero_add, Nat.add_sub_cancel' h2] at h1
    rw [List.range_eq_range', List.range_eq_range', h1]

/-- What the body of the loop of a program sees of a job. -/
def seen (js : List (Job α)) : List (Int × List (Var α)) := js.map fun j => (j.this, j.vars)

/-- C49: the runs of all the blocks execute, together and in order, the jobs which a run without
options executes (`c48_jobs_partial` says which these are). Missing: variables without values. -/
theorem c49_blocks_partial {c : Lib α} (files : Str → Str) {p : Str} (hp : NotOption p)
    {ls : List Str} {vs : List (Var α)} (h : List.Forall₂ (Declares c) ls vs)
    (hv : ∀ v ∈ vs, v.values ≠ []) {b : Str} {B : Nat} (hB : 0 < B) (hb : c.atoi b = B)
    (t : Nat → Str) (ht : ∀ k, c.atoi (t k) = k) (opts : Nat → List Str)
    (ho : ∀ k, BlockArgs b (t k) (opts k)) :
    ∃ (js : Nat → List (Job α)) (all : List (Job α)),
      (∀ k, Finishes (program c files (p :: (variableArgs ls ++ opts k))) (.ok (some (js k)))) ∧
      Finishes (program c files (p :: variableArgs ls)) (.ok (some all)) ∧
      (List.range B).flatMap (fun k => seen (js k)) = seen all ∧
      ∀ k, B ≤ k → js k = [] := by
  have hall := program_default files hp h hv
  have hblock := fun k => program_block files hp h hv (ho k) hB hb (ht k)
  choose f l hfl using hblock
  refine ⟨_, _, hfl, hall, ?_, ?_⟩
  · have e : ∀ (f : Int) (l : Option Int) (r : List Nat),
        seen (r.map (st vs f l)) = r.map fun (k : Nat) => ((k : Int), setDigits vs k) := by
      intro f l r
      simp [seen, st]
    simp only [e]
    rw [← List.map_flatMap, flatMap_ranges (fun k => min (k * delta (prod (sizes vs)) B) (prod (sizes vs)))]
    · have := delta_mul (prod (sizes vs)) B hB
      rw [Nat.min_eq_right this, List.range_eq_range']
    · simp
    · intro k
      have : k * delta (prod (sizes vs)) B ≤ (k + 1) * delta (prod (sizes vs)) B :=
        Nat.mul_le_mul_right _ (by omega)
      omega
  · intro k hk
    have h1 := delta_mul (prod (sizes vs)) B hB
    have h2 : B * delta (prod (sizes vs)) B ≤ k * delta (prod (sizes vs)) B :=
      Nat.mul_le_mul_right _ hk
    have h3 : min ((k + 1) * delta (prod (sizes vs)) B) (prod (sizes vs))
          - min (k * delta (prod (sizes vs)) B) (prod (sizes vs)) = 0 := by omega
    simp only [h3]
    rfl

/-- C49: negative numbers of blocks, zero blocks and negative blocks stop the program. -/
theorem c49_wrong_numbers {c : Lib α} (files : Str → Str) {p : Str} (hp : NotOption p)
    {ls : List Str} {vs : List (Var α)} (h : List.Forall₂ (Declares c) ls vs)
    (hv : ∀ v ∈ vs, v.values ≠ []) {b t : Str} {opts : List Str} (ho : BlockArgs b t opts)
    (hw : c.atoi b ≤ 0 ∨ c.atoi t < 0) :
    Finishes (program c files (p :: (variableArgs ls ++ opts))) .abort := by
  refine ⟨0, fun fuel _ => ?_⟩
  rw [program, start, args_block files hp h ho fuel]
  simp only [Run.ok_bind, Bool.false_eq_true, if_false]
  by_cases hb : c.atoi b ≤ 0
  · have : Jobs.choose { vars := vs, blocks := some (c.atoi b), cur := some (c.atoi t) }
        (numberOfJobs vs : Nat) = .abort := by
      rw [Jobs.choose]
      simp only
      rw [Res.assert_bind, if_pos (by simp), Res.assert_bind, if_neg (by omega)]
    rw [this]
    rfl
  · have ht : c.atoi t < 0 := by omega
    obtain ⟨B, hB⟩ : ∃ B : Nat, c.atoi b = B := ⟨(c.atoi b).toNat, by omega⟩
    have hn := sizes_pos hv
    have hd : 0 < delta (prod (sizes vs)) B := by
      have := delta_mul (prod (sizes vs)) B (by omega)
      rcases Nat.eq_zero_or_pos (delta (prod (sizes vs)) B) with e | e
      · rw [e] at this; omega
      · exact e
    have hneg : c.atoi t * (delta (prod (sizes vs)) B : Nat) < 0 :=
      Int.mul_neg_of_neg_of_pos ht (by omega)
    rw [choose_block vs (by omega), hB, numberOfJobs_eq, delta_cast _ _ (by omega), Run.ok_bind, select]
    simp only
    rw [Res.assert_bind, if_neg (by omega)]
    rfl

/-- A library which reads numbers as the lengths of texts, for examples. -/
def testLib : Lib ℚ := ⟨fun s => s.length, fun s => s.length⟩

theorem testDeclares : List.Forall₂ (Declares testLib) ["x,1,22,333".toList]
    [⟨"x".toList, linVals 1 2 3, 0⟩] := by
  refine .cons ⟨?_, by simp⟩ .nil
  have h := (c48_declaration testLib (g := []) (nm := "x".toList) (g1 := ",".toList)
    (a := "1".toList) (g2 := ",".toList) (b := "22".toList) (g3 := ",".toList) (n := "333".toList)
    (g4 := [])).2.2 (by simp [Pieces, isSep])
  simpa [testLib, joined] using h

theorem testValues : ∀ v ∈ [(⟨"x".toList, linVals 1 2 3, 0⟩ : Var ℚ)], v.values ≠ [] := by
  simp [linVals]

/-- Three jobs in two blocks. -/
example : ∃ (js : Nat → List (Job ℚ)) (all : List (Job ℚ)),
    (∀ k, Finishes (program testLib (fun _ => []) ("prog".toList :: (variableArgs ["x,1,22,333".toList]
      ++ ["--this-job".toList, List.replicate k 'i', "--job-blocks".toList, "ii".toList])))
        (.ok (some (js k)))) ∧
    Finishes (program testLib (fun _ => []) ("prog".toList :: variableArgs ["x,1,22,333".toList]))
      (.ok (some all)) ∧
    seen (js 0) ++ seen (js 1) = seen all := by
  obtain ⟨js, all, h1, h2, h3, _⟩ := c49_blocks_partial (c := testLib) (fun _ => [])
    (p := "prog".toList) (by simp [NotOption]) testDeclares testValues (b := "ii".toList) (B := 2)
    (by decide) rfl (fun k => List.replicate k 'i') (by simp [testLib])
    (fun k => ["--this-job".toList, List.replicate k 'i', "--job-blocks".toList, "ii".toList])
    (fun k => Or.inr rfl)
  refine ⟨js, all, h1, h2, ?_⟩
  rw [← h3]
  simp [List.range_succ]

/-- Seven jobs in three blocks of at most three jobs. -/
example : delta 7 3 = 3 ∧ BlockArgs "3".toList "1".toList
    ["--this-job".toList, "1".toList, "--job-blocks".toList, "3".toList] := ⟨rfl, Or.inr rfl⟩

/-! ### C50 -/

/-- C50: --job-blocks without --this-job, which according to a comment runs the first block, uses a
number which has not been given a value. -/
theorem c50_negation_blocks {c : Lib α} (files : Str → Str) {p : Str} (hp : NotOption p)
    {ls : List Str} {vs : List (Var α)} (h : List.Forall₂ (Declares c) ls vs) {b : Str}
    (hb : 0 < c.atoi b) :
    Finishes (start c files (p :: (variableArgs ls ++ ["--job-blocks".toList, b]))) .ub := by
  refine ⟨0, fun fuel _ => ?_⟩
  rw [start, args_name c files fuel _ hp, args_variables c files fuel h, args_blocks]
  simp only [args, Run.pure_eq, Run.ok_bind, Bool.false_eq_true, if_false, List.nil_append,
    Jobs.choose]
  rw [Res.assert_bind, if_pos (by simp), Res.assert_bind, if_pos hb]
  rfl

/-- C50: --first-job without --last-job leaves the number of the last job without a value, and asking
whether there are jobs to do uses it. -/
theorem c50_negation_first {c : Lib α} (files : Str → Str) {p : Str} (hp : NotOption p)
    {ls : List Str} {vs : List (Var α)} (h : List.Forall₂ (Declares c) ls vs)
    (hv : ∀ v ∈ vs, v.values ≠ []) {f : Str} (h0 : 0 ≤ c.atoi f)
    (hn : c.atoi f < prod (sizes vs)) :
    Finishes (program c files (p :: (variableArgs ls ++ ["--first-job".toList, f]))) .ub := by
  refine ⟨1, fun fuel hf => ?_⟩
  obtain ⟨fuel, rfl⟩ : ∃ k, fuel = k + 1 := ⟨fuel - 1, by omega⟩
  obtain ⟨k, hk⟩ : ∃ k : Nat, c.atoi f = k := ⟨(c.atoi f).toNat, by omega⟩
  have ha : args c files (fuel + 1) {} (p :: (variableArgs ls ++ ["--first-job".toList, f]))
      = .done (.ok (some { vars := vs, first := some (k : Int) })) := by
    rw [args_name c files _ _ hp, args_variables c files _ h, args_first, ← hk]
    rfl
  have hc : Jobs.choose { vars := vs, first := some (k : Int) } ((prod (sizes vs) : Nat) : Int)
      = .ok ((k : Int), none, (k : Int)) := by
    rw [Jobs.choose]
    simp only
    rw [Res.assert_bind, if_pos (by omega)]
    rfl
  rw [program_eq ha rfl hc (select_eq hv 0 k none (by omega)), runLoop]
  have : toDo (st vs (k : Int) none k) = .ub := by
    change toDo ⟨setDigits vs k, (prod (sizes vs) : Nat), (k : Int), (k : Int), none⟩ = .ub
    rw [toDo]
    simp only
    rw [if_pos (by omega)]
    rfl
  rw [this]
  rfl

/-- C50: --first-job with a job which does not exist stops the program. -/
theorem c50_first_out {c : Lib α} (files : Str → Str) {p : Str} (hp : NotOption p)
    {ls : List Str} {vs : List (Var α)} (h : List.Forall₂ (Declares c) ls vs) {f : Str}
    (hn : c.atoi f < 0 ∨ (prod (sizes vs) : Nat) ≤ c.atoi f) :
    Finishes (program c files (p :: (variableArgs ls ++ ["--first-job".toList, f]))) .abort := by
  refine ⟨0, fun fuel _ => ?_⟩
  rw [program, start, args_name c files _ _ hp, args_variables c files _ h, args_first, if_neg (by simp)]
  simp only [args, Run.pure_eq, Run.ok_bind, Bool.false_eq_true, if_false, List.nil_append, Jobs.choose]
  rw [Res.assert_bind, if_neg]
  · rfl
  · rw [numberOfJobs_eq]
    omega

example : Finishes (start testLib (fun _ => []) ("prog".toList ::
      (variableArgs ["x,1,22,333".toList] ++ ["--job-blocks".toList, "ii".toList]))) .ub ∧
    Finishes (program testLib (fun _ => []) ("prog".toList ::
      (variableArgs ["x,1,22,333".toList] ++ ["--first-job".toList, "i".toList]))) .ub :=
  ⟨c50_negation_blocks _ (by simp [NotOption]) testDeclares (by decide),
    c50_negation_first _ (by simp [NotOption]) testDeclares testValues (by decide)
      (by simp [testLib, sizes, linVals, prod])⟩

theorem args_firstLast {c : Lib α} (files : Str → Str) {p : Str} (hp : NotOption p)
    {ls : List Str} {vs : List (Var α)} (h : List.Forall₂ (Declares c) ls vs) (f l : Str)
    (rest : List Str) (fuel : Nat) :
    args c files fuel {} (p :: (variableArgs ls ++
        ("--first-job".toList :: f :: "--last-job".toList :: l :: rest)))
      = args c files fuel { vars := vs, first := some (c.atoi f), last := some (c.atoi l) } rest := by
  rw [args_name c files fuel _ hp, args_variables c files fuel h, args_first,
    if_neg (by simp), args_last, if_neg (by simp)]
  rfl

/-- C50: --first-job and --last-job run the jobs from the first to the last one (or to the last one
which exists), and stop the program if the first one does not exist or is after the last. A later
--this-job is ignored. -/
theorem c50_interval_partial {c : Lib α} (files : Str → Str) {p : Str} (hp : NotOption p)
    {ls : List Str} {vs : List (Var α)} (h : List.Forall₂ (Declares c) ls vs)
    (hv : ∀ v ∈ vs, v.values ≠ []) {f l t : Str} {rest : List Str}
    (hr : rest = [] ∨ rest = ["--this-job".toList, t]) :
    (0 ≤ c.atoi f → c.atoi f < prod (sizes vs) → c.atoi f ≤ c.atoi l →
      ∃ all js, Finishes (program c files (p :: variableArgs ls)) (.ok (some all)) ∧
        Finishes (program c files (p :: (variableArgs ls ++
          ("--first-job".toList :: f :: "--last-job".toList :: l :: rest)))) (.ok (some js)) ∧
        seen js = (seen all).filter fun x => decide (c.atoi f ≤ x.1 ∧ x.1 ≤ c.atoi l)) ∧
    (c.atoi f < 0 ∨ (prod (sizes vs) : Nat) ≤ c.atoi f ∨ c.atoi l < c.atoi f →
      Finishes (program c files (p :: (variableArgs ls ++
          ("--first-job".toList :: f :: "--last-job".toList :: l :: rest)))) .abort) := by
  obtain ⟨cur, ha⟩ : ∃ cur, ∀ fuel, args c files fuel {} (p :: (variableArgs ls ++
      ("--first-job".toList :: f :: "--last-job".toList :: l :: rest))) = .done (.ok (some
        { vars := vs, first := some (c.atoi f), last := some (c.atoi l), cur := cur })) := by
    rcases hr with rfl | rfl
    · exact ⟨none, fun fuel => args_firstLast files hp h f l [] fuel⟩
    · refine ⟨some (c.atoi t), fun fuel => ?_⟩
      rw [args_firstLast files hp h, args_this]
      rfl
  have hn := sizes_pos hv
  constructor
  · intro h0 h1 h2
    obtain ⟨k, hk⟩ : ∃ k : Nat, c.atoi f = k := ⟨(c.atoi f).toNat, by omega⟩
    rw [hk] at h0 h1 h2
    let l' : Int := if ((prod (sizes vs) : Nat) : Int) ≤ c.atoi l then (prod (sizes vs) : Nat) - 1 else c.atoi l
    have hl' : l' = min (c.atoi l) ((prod (sizes vs) : Nat) - 1) := by
      simp only [l']
      split <;> omega
    have hc : Jobs.choose { vars := vs, first := some (c.atoi f), last := some (c.atoi l), cur := cur }
        ((prod (sizes vs) : Nat) : Int) = .ok ((k : Int), some l', (k : Int)) := by
      rw [Jobs.choose]
      simp only [hk]
      rw [Res.assert_bind, if_pos (by omega), Res.assert_bind, if_pos (by split <;> omega)]
      simp only [l', Res.pure_eq]
      congr 3
      split
      · simp; omega
      · rfl
    refine ⟨_, _, program_default files hp h hv,
      program_interval (fun fuel _ => ha fuel) rfl hv (k := k) (l := l') (by simp only; omega) hc
        (l'.toNat + 1 - k) (by simp only; omega), ?_⟩
    have e : ∀ (f : Int) (l : Option Int) (r : List Nat),
        seen (r.map (st vs f l)) = r.map fun (k : Nat) => ((k : Int), setDigits vs k) := by
      intro f l r
      simp [seen, st]
    rw [e, e, List.filter_map]
    congr 1
    -- the numbers between k and l'
    have hr : List.range' 0 (prod (sizes vs)) = List.range' 0 k ++ List.range' k (l'.toNat + 1 - k)
        ++ List.range' (l'.toNat + 1) (prod (sizes vs) - (l'.toNat + 1)) := by
      have h1 := List.range'_append_1 (s := 0) (m := k) (n := l'.toNat + 1 - k)
      have h2 := List.range'_append_1 (s := 0) (m := k + (l'.toNat + 1 - k))
        (n := prod (sizes vs) - (l'.toNat + 1))
      rw [Nat.zero_add, show k + (l'.toNat + 1 - k) = l'.toNat + 1 by omega] at h1 h2
      rw [h1, h2]
      congr 1
      omega
    rw [hr, List.filter_append, List.filter_append]
    rw [List.filter_eq_nil_iff.2, List.filter_eq_self.2, List.filter_eq_nil_iff.2]
    · simp
    · intro a ha
      rw [List.mem_range'_1] at ha
      simp
      omega
    · intro a ha
      rw [List.mem_range'_1] at ha
      simp
      omega
    · intro a ha
      rw [List.mem_range'_1] at ha
      simp
      omega
  · intro hw
    refine ⟨0, fun fuel _ => ?_⟩
    have hc : Jobs.choose { vars := vs, first := some (c.atoi f), last := some (c.atoi l), cur := cur }
        ((prod (sizes vs) : Nat) : Int) = .abort := by
      rw [Jobs.choose]
      simp only
      rw [Res.assert_bind]
      split
      · rw [Res.assert_bind, if_neg (by split <;> omega)]
      · rfl
    rw [program, start, ha fuel]
    simp only [Run.ok_bind, Bool.false_eq_true, if_false, numberOfJobs_eq, hc]
    rfl

example : ∃ all js, Finishes (program testLib (fun _ => []) ("prog".toList ::
      variableArgs ["x,1,22,333".toList])) (.ok (some all)) ∧
    Finishes (program testLib (fun _ => []) ("prog".toList :: (variableArgs ["x,1,22,333".toList] ++
      ["--first-job".toList, "i".toList, "--last-job".toList, "iiiii".toList]))) (.ok (some js)) ∧
    seen js = (seen all).filter fun x => decide (1 ≤ x.1 ∧ x.1 ≤ 5) :=
  (c50_interval_partial _ (by simp [NotOption]) testDeclares testValues (t := []) (Or.inl rfl)).1
    (by decide) (by simp [testLib, sizes, linVals, prod]) (by decide)

/-- C50: --this-job alone runs that job, or none if it does not exist; negative numbers stop the
program. -/
theorem c50_this_partial {c : Lib α} (files : Str → Str) {p : Str} (hp : NotOption p)
    {ls : List Str} {vs : List (Var α)} (h : List.Forall₂ (Declares c) ls vs)
    (hv : ∀ v ∈ vs, v.values ≠ []) {t : Str} :
    (0 ≤ c.atoi t → ∃ all js, Finishes (program c files (p :: variableArgs ls)) (.ok (some all)) ∧
      Finishes (program c files (p :: (variableArgs ls ++ ["--this-job".toList, t])))
        (.ok (some js)) ∧
      seen js = (seen all)[(c.atoi t).toNat]?.toList) ∧
    (c.atoi t < 0 → Finishes (program c files (p :: (variableArgs ls ++ ["--this-job".toList, t])))
      .abort) := by
  have ha : ∀ fuel, args c files fuel {} (p :: (variableArgs ls ++ ["--this-job".toList, t]))
      = .done (.ok (some { vars := vs, cur := some (c.atoi t) })) := by
    intro fuel
    rw [args_name c files _ _ hp, args_variables c files _ h, args_this]
    rfl
  have hc : Jobs.choose { vars := vs, cur := some (c.atoi t) } ((prod (sizes vs) : Nat) : Int)
      = .ok (c.atoi t, some (c.atoi t), c.atoi t) := rfl
  constructor
  · intro h0
    obtain ⟨k, hk⟩ : ∃ k : Nat, c.atoi t = k := ⟨(c.atoi t).toNat, by omega⟩
    rw [hk] at hc
    by_cases hlt : k < prod (sizes vs)
    · refine ⟨_, _, program_default files hp h hv,
        program_interval (fun fuel _ => ha fuel) rfl hv (k := k) (l := k) (by simp only; omega)
          (by rw [hk]; exact hc) 1 (by simp only; omega), ?_⟩
      rw [hk, Int.toNat_natCast]
      simp [seen, st, hlt]
    · refine ⟨_, [], program_default files hp h hv, ⟨1, fun fuel hf => ?_⟩, ?_⟩
      · obtain ⟨fuel, rfl⟩ : ∃ k, fuel = k + 1 := ⟨fuel - 1, by omega⟩
        have hs : ∃ vs', select ⟨vs, (prod (sizes vs) : Nat), 0, (k : Int), some (k : Int)⟩ (k : Int)
            = .ok ⟨vs', (prod (sizes vs) : Nat), (k : Int), (k : Int), some (k : Int)⟩ := by
          by_cases he : k = prod (sizes vs)
          · exact ⟨_, select_eq hv 0 k (some (k : Int)) (by omega)⟩
          · refine ⟨vs, ?_⟩
            rw [select, Res.assert_bind, if_pos (by omega), if_neg (by simp only; omega)]
            rfl
        obtain ⟨vs', hs⟩ := hs
        rw [program_eq (ha (fuel + 1)) rfl (by rw [hk]; exact hc) hs, runLoop, toDo_some,
          decide_eq_false (by omega)]
        rfl
      · rw [hk, Int.toNat_natCast, List.getElem?_eq_none (by simp [seen]; omega)]
        rfl
  · intro hneg
    refine ⟨0, fun fuel _ => ?_⟩
    rw [program, start, ha fuel]
    simp only [Run.ok_bind, Bool.false_eq_true, if_false, numberOfJobs_eq, hc]
    rw [select]
    simp only
    rw [Res.assert_bind, if_neg (by omega)]
    rfl

/-- C50: the order of the options matters: --this-job before --first-job stops the program, but not
after it (`c50_interval_partial`). --last-job before --first-job stops it as well. -/
theorem c50_order {c : Lib α} (files : Str → Str) {p : Str} (hp : NotOption p)
    {ls : List Str} {vs : List (Var α)} (h : List.Forall₂ (Declares c) ls vs) (f l t : Str)
    (rest : List Str) :
    Finishes (program c files (p :: (variableArgs ls ++
      ("--this-job".toList :: t :: "--first-job".toList :: f :: rest)))) .abort ∧
    Finishes (program c files (p :: (variableArgs ls ++
      ("--last-job".toList :: l :: "--first-job".toList :: f :: rest)))) .abort := by
  constructor
  · refine ⟨0, fun fuel _ => ?_⟩
    rw [program, start, args_name c files _ _ hp, args_variables c files _ h, args_this, args_first]
    rfl
  · refine ⟨0, fun fuel _ => ?_⟩
    rw [program, start, args_name c files _ _ hp, args_variables c files _ h, args_last]
    rfl

/-- C50: --job-blocks together with --first-job stops the program. -/
theorem c50_blocks_and_first {c : Lib α} (files : Str → Str) {p : Str} (hp : NotOption p)
    {ls : List Str} {vs : List (Var α)} (h : List.Forall₂ (Declares c) ls vs) (b f : Str) :
    Finishes (program c files (p :: (variableArgs ls ++
      ["--job-blocks".toList, b, "--first-job".toList, f]))) .abort := by
  refine ⟨0, fun fuel _ => ?_⟩
  rw [program, start, args_name c files _ _ hp, args_variables c files _ h, args_blocks, args_first,
    if_neg (by simp)]
  simp only [args, Run.pure_eq, Run.ok_bind, Bool.false_eq_true, if_false, Jobs.choose]
  rw [Res.assert_bind, if_neg (by simp)]
  rfl

/-! ### C51 -/

/-- C51: a file of variables is ignored, whatever it has. -/
theorem c51_negation_ignored (c : Lib α) (files : Str → Str) {p : Str} (hp : NotOption p) (f : Str)
    (rest : List Str) {fuel : Nat} (hf : 0 < fuel) :
    start c files (p :: "--job".toList :: f :: rest) fuel = start c files (p :: rest) fuel := by
  rw [start, start, args_name c files _ _ hp, args_name c files _ _ hp, args_job c files hf]

/-- C51: a program with a file of variables and nothing else has one job, and no variables. -/
theorem c51_negation_no_variables (c : Lib α) (files : Str → Str) {p : Str} (hp : NotOption p)
    (f : Str) :
    ∃ j, Finishes (start c files [p, "--job".toList, f]) (.ok (some j)) ∧ j.n = 1 ∧
      ∀ nm, getValue j nm = .abort := by
  refine ⟨⟨[], 1, 0, 0, some 0⟩, ⟨1, fun fuel hf => ?_⟩, rfl, fun nm => rfl⟩
  rw [c51_negation_ignored c files hp f [] (by omega), start, args_name c files _ _ hp]
  rfl

end Verif.Jobs
