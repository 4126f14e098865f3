import Mathlib.Logic.Function.Iterate
import Mathlib.Tactic.Common
import Verif.Model.Closure

/-!
# C111: functions with parameters

The parameters which are given to `with_args` by value are those of the moment at which the closure is made,
whatever happens to the variables afterwards; pointers are followed at each call. A FunctionMap works as long as
the closure which it was made of lives, and not any longer.
-/

namespace Verif.Closure

variable {F V : Type}

/-! ## Specification -/

/-- The closures which the statements create, temporary or not, as long as these may be referred to later. -/
def made : List (Stmt F V) → Nat
  | [] => 0
  | .make _ _ :: p => made p + 1
  | .dup _ :: p => made p + 1
  | .mapTemp _ _ :: p => made p + 1
  | _ :: p => made p

/-- The maps which the statements create. -/
def maps : List (Stmt F V) → Nat
  | [] => 0
  | .map _ :: p => maps p + 1
  | .mapTemp _ _ :: p => maps p + 1
  | _ :: p => maps p

/-- What the function receives for a parameter: `old` are the variables when the closure was made, `new` those of
the call. -/
def given (old new : Nat → V) : Param → V
  | .val x => old x
  | .ptr x => new x

/-! ## Lemmas -/

variable (sem : F → V → List V → V)

theorem run_append (σ : State F V) (p q : List (Stmt F V)) :
    run sem σ (p ++ q) = run sem σ p >>= fun τ => run sem τ q := by
  induction p generalizing σ with
  | nil => rfl
  | cons s p ih =>
      simp only [List.cons_append, run]
      cases step sem σ s with
      | ok τ => simpa using ih τ
      | abort => rfl
      | ub => rfl

theorem obj_ok {σ : State F V} {c : Nat} {o : Obj F V} :
    σ.obj c = .ok o ↔ σ.objs[c]? = some (some o) := by
  unfold State.obj
  split <;> simp_all

/-- What a statement does to the tables. -/
theorem step_tables {σ τ : State F V} {s : Stmt F V} (h : step sem σ s = .ok τ) :
    τ.objs.length = σ.objs.length + made [s] ∧ τ.maps.length = σ.maps.length + maps [s] ∧
    (∀ c : Nat, c < σ.objs.length → s ≠ .drop c → τ.objs[c]? = σ.objs[c]?) ∧
    (∀ c : Nat, σ.objs[c]? = some none → τ.objs[c]? = some none) ∧
    (∀ m : Nat, m < σ.maps.length → τ.maps[m]? = σ.maps[m]?) := by
  cases s with
  | set x v => cases h; simp [made, maps, State.assign]
  | make f ps =>
      cases h
      refine ⟨by simp [made], by simp [maps], fun c hc _ => ?_, fun c hc => ?_, fun m _ => rfl⟩
      · simp [List.getElem?_append_left hc]
      · have hc' := (List.getElem?_eq_some_iff.1 hc).1
        simpa [List.getElem?_append_left hc'] using hc
  | dup d =>
      simp only [step] at h
      cases e : σ.obj d with
      | ok o =>
          rw [e] at h; cases h
          refine ⟨by simp [made], by simp [maps], fun c hc _ => ?_, fun c hc => ?_, fun m _ => rfl⟩
          · simp [List.getElem?_append_left hc]
          · have hc' := (List.getElem?_eq_some_iff.1 hc).1
            simpa [List.getElem?_append_left hc'] using hc
      | abort => rw [e] at h; cases h
      | ub => rw [e] at h; cases h
  | drop d =>
      simp only [step] at h
      cases e : σ.obj d with
      | ok o =>
          rw [e] at h; cases h
          refine ⟨by simp [made], by simp [maps], fun c hc hne => ?_, fun c hc => ?_, fun m _ => rfl⟩
          · have : d ≠ c := fun e => hne (by rw [e])
            simp [List.getElem?_set_ne this]
          · by_cases hd : d = c
            · subst hd
              have hc' := (List.getElem?_eq_some_iff.1 hc).1
              simp [hc']
            · simpa [List.getElem?_set_ne hd] using hc
      | abort => rw [e] at h; cases h
      | ub => rw [e] at h; cases h
  | map d =>
      simp only [step] at h
      cases e : σ.obj d with
      | ok o =>
          rw [e] at h; cases h
          refine ⟨by simp [made], by simp [maps], fun c hc hne => rfl, fun c hc => hc, fun m hm => ?_⟩
          simp [List.getElem?_append_left hm]
      | abort => rw [e] at h; cases h
      | ub => rw [e] at h; cases h
  | mapTemp f ps =>
      cases h
      refine ⟨by simp [made], by simp [maps], fun c hc _ => ?_, fun c hc => ?_, fun m hm => ?_⟩
      · simp [List.getElem?_append_left hc]
      · have hc' := (List.getElem?_eq_some_iff.1 hc).1
        simpa [List.getElem?_append_left hc'] using hc
      · simp [List.getElem?_append_left hm]
  | apply x d y =>
      simp only [step] at h
      cases e : σ.obj d with
      | ok o => rw [e] at h; cases h; simp [made, maps, State.assign]
      | abort => rw [e] at h; cases h
      | ub => rw [e] at h; cases h
  | call x m y =>
      simp only [step] at h
      cases e : σ.callMap sem m (σ.vars y) with
      | ok o => rw [e] at h; cases h; simp [made, maps, State.assign]
      | abort => rw [e] at h; cases h
      | ub => rw [e] at h; cases h
  | solve x f ps y n =>
      simp only [step] at h
      generalize State.iterate sem _ _ n (σ.vars y) = r at h
      cases r with
      | ok o => cases h; simp [made, maps, State.assign]
      | abort => cases h
      | ub => cases h

theorem made_cons (s : Stmt F V) (p : List (Stmt F V)) : made (s :: p) = made [s] + made p := by
  cases s <;> simp [made] <;> omega

theorem maps_cons (s : Stmt F V) (p : List (Stmt F V)) : maps (s :: p) = maps [s] + maps p := by
  cases s <;> simp [maps] <;> omega

theorem run_tables {p : List (Stmt F V)} {σ τ : State F V} (h : run sem σ p = .ok τ) :
    τ.objs.length = σ.objs.length + made p ∧ τ.maps.length = σ.maps.length + maps p ∧
    (∀ c : Nat, c < σ.objs.length → .drop c ∉ p → τ.objs[c]? = σ.objs[c]?) ∧
    (∀ c : Nat, σ.objs[c]? = some none → τ.objs[c]? = some none) ∧
    (∀ m : Nat, m < σ.maps.length → τ.maps[m]? = σ.maps[m]?) := by
  induction p generalizing σ with
  | nil => cases h; simp [made, maps]
  | cons s p ih =>
      simp only [run] at h
      cases e : step sem σ s with
      | ok ρ =>
          rw [e] at h
          obtain ⟨a1, a2, a3, a4, a5⟩ := step_tables sem e
          obtain ⟨b1, b2, b3, b4, b5⟩ := ih h
          refine ⟨?_, ?_, fun c hc hn => ?_, fun c hc => b4 c (a4 c hc), fun m hm => ?_⟩
          · rw [b1, a1, made_cons s p]; omega
          · rw [b2, a2, maps_cons s p]; omega
          · simp only [List.mem_cons, not_or] at hn
            rw [b3 c (by omega) hn.2, a3 c hc (fun e => hn.1 e.symm)]
          · rw [b5 m (by omega), a5 m hm]
      | abort => rw [e] at h; cases h
      | ub => rw [e] at h; cases h

theorem run_dropped {p : List (Stmt F V)} {σ τ : State F V} (h : run sem σ p = .ok τ) {c : Nat}
    (hd : .drop c ∈ p) : τ.objs[c]? = some none := by
  induction p generalizing σ with
  | nil => cases hd
  | cons s p ih =>
      simp only [run] at h
      cases e : step sem σ s with
      | ok ρ =>
          rw [e] at h
          rcases List.mem_cons.1 hd with hs | hp
          · subst hs
            simp only [step] at e
            cases eo : σ.obj c with
            | ok o =>
                rw [eo] at e; cases e
                refine (run_tables sem h).2.2.2.1 c ?_
                have hc := (List.getElem?_eq_some_iff.1 (obj_ok.1 eo)).1
                simp [hc]
            | abort => rw [eo] at e; cases e
            | ub => rw [eo] at e; cases e
          · exact ih h hp
      | abort => rw [e] at h; cases h
      | ub => rw [e] at h; cases h

theorem fetch_capture (old new : Nat → V) (ps : List Param) :
    (ps.map (capture old)).map (fetch new) = ps.map (given old new) := by
  rw [List.map_map]
  refine List.map_congr_left fun a _ => ?_
  cases a <;> rfl

theorem invoke_withArgs (old new : Nat → V) (f : F) (ps : List Param) (a : V) :
    invoke sem new (withArgs old f ps) a = sem f a (ps.map (given old new)) := by
  simp only [invoke, withArgs]
  rw [fetch_capture]

theorem run_cons_ok {σ ρ : State F V} {s : Stmt F V} {p : List (Stmt F V)}
    (h : step sem σ s = .ok ρ) : run sem σ (s :: p) = run sem ρ p := by
  simp [run, h]

/-- After a closure was made, and as long as its scope has not ended, it is there. -/
theorem closure_there {v : Nat → V} {p q : List (Stmt F V)} {σ τ : State F V} {f : F} {ps : List Param}
    (hp : run sem (start v) p = .ok σ) (hq : run sem (start v) (p ++ .make f ps :: q) = .ok τ)
    (hd : .drop (made p) ∉ q) : τ.obj (made p) = .ok (withArgs σ.vars f ps) := by
  have hl : σ.objs.length = made p := by simpa [start] using (run_tables sem hp).1
  rw [run_append, hp, Res.ok_bind, run_cons_ok sem (ρ := ⟨σ.vars, _, σ.maps⟩) rfl] at hq
  rw [obj_ok, (run_tables sem hq).2.2.1 _ (by simp [hl]) hd]
  simp [← hl]

/-! ## Theorems -/

/-- A closure gives to its function the values which its parameters had when it was made, and follows pointers when
it is called, in all programs in which the scope of the closure has not ended. -/
theorem c111_apply {v : Nat → V} {p q : List (Stmt F V)} {σ τ : State F V} {f : F} {ps : List Param}
    (hp : run sem (start v) p = .ok σ) (hq : run sem (start v) (p ++ .make f ps :: q) = .ok τ)
    (hd : .drop (made p) ∉ q) (x y : Nat) :
    ∃ τ', run sem (start v) (p ++ .make f ps :: q ++ [.apply x (made p) y]) = .ok τ' ∧
      ∀ z, τ'.vars z = if z = x then sem f (τ.vars y) (ps.map (given σ.vars τ.vars)) else τ.vars z := by
  have ho := closure_there sem hp hq hd
  refine ⟨τ.assign x (sem f (τ.vars y) (ps.map (given σ.vars τ.vars))), ?_, fun z => rfl⟩
  rw [run_append, hq]
  simp [run, step, ho, invoke_withArgs]

/-- A copy of a closure has the same parameters, also after the original is gone. -/
theorem c111_copy {v : Nat → V} {p q r : List (Stmt F V)} {σ τ : State F V} {f : F} {ps : List Param}
    (hp : run sem (start v) p = .ok σ)
    (hr : run sem (start v) (p ++ .make f ps :: q ++ .dup (made p) :: r) = .ok τ)
    (hd : .drop (made (p ++ .make f ps :: q)) ∉ r) (x y : Nat) :
    ∃ τ', run sem (start v) (p ++ .make f ps :: q ++ .dup (made p) :: r ++
        [.apply x (made (p ++ .make f ps :: q)) y]) = .ok τ' ∧
      ∀ z, τ'.vars z = if z = x then sem f (τ.vars y) (ps.map (given σ.vars τ.vars)) else τ.vars z := by
  have hr' := hr
  rw [run_append] at hr'
  cases eρ : run sem (start v) (p ++ .make f ps :: q) with
  | abort => rw [eρ] at hr'; cases hr'
  | ub => rw [eρ] at hr'; cases hr'
  | ok ρ =>
      rw [eρ, Res.ok_bind] at hr'
      have hl : ρ.objs.length = made (p ++ .make f ps :: q) := by
        simpa [start] using (run_tables sem eρ).1
      have hq : .drop (made p) ∉ q := by
        intro hmem
        have e := eρ
        rw [run_append, hp, Res.ok_bind, run_cons_ok sem (ρ := ⟨σ.vars, _, σ.maps⟩) rfl] at e
        have hn := run_dropped sem e hmem
        have : ρ.obj (made p) = .ub := by simp [State.obj, hn]
        simp [run, step, this] at hr'
      have ho := closure_there sem hp eρ hq
      have hs : step sem ρ (.dup (made p)) =
          .ok { ρ with objs := ρ.objs ++ [some (withArgs σ.vars f ps)] } := by simp [step, ho]
      rw [run_cons_ok sem hs] at hr'
      have ho' : τ.obj (made (p ++ .make f ps :: q)) = .ok (withArgs σ.vars f ps) := by
        rw [obj_ok, (run_tables sem hr').2.2.1 _ (by simp [hl]) hd]
        simp [← hl]
      refine ⟨τ.assign x (sem f (τ.vars y) (ps.map (given σ.vars τ.vars))), ?_, fun z => rfl⟩
      rw [run_append, hr]
      simp [run, step, ho', invoke_withArgs]

/-- A map of a closure: while the scope of the closure has not ended a call of the map is a call of the function, with
the parameters of the moment at which the closure was made. -/
theorem c111_map {v : Nat → V} {p q r : List (Stmt F V)} {σ τ : State F V} {f : F} {ps : List Param}
    (hp : run sem (start v) p = .ok σ)
    (hr : run sem (start v) (p ++ .make f ps :: q ++ .map (made p) :: r) = .ok τ)
    (hd : .drop (made p) ∉ r) (x y : Nat) :
    ∃ τ', run sem (start v) (p ++ .make f ps :: q ++ .map (made p) :: r ++
        [.call x (maps (p ++ .make f ps :: q)) y]) = .ok τ' ∧
      ∀ z, τ'.vars z = if z = x then sem f (τ.vars y) (ps.map (given σ.vars τ.vars)) else τ.vars z := by
  have hr' := hr
  rw [run_append] at hr'
  cases eρ : run sem (start v) (p ++ .make f ps :: q) with
  | abort => rw [eρ] at hr'; cases hr'
  | ub => rw [eρ] at hr'; cases hr'
  | ok ρ =>
      rw [eρ, Res.ok_bind] at hr'
      have hl : ρ.maps.length = maps (p ++ .make f ps :: q) := by
        simpa [start] using (run_tables sem eρ).2.1
      have hq : .drop (made p) ∉ q := by
        intro hmem
        have e := eρ
        rw [run_append, hp, Res.ok_bind, run_cons_ok sem (ρ := ⟨σ.vars, _, σ.maps⟩) rfl] at e
        have hn := run_dropped sem e hmem
        have : ρ.obj (made p) = .ub := by simp [State.obj, hn]
        simp [run, step, this] at hr'
      have ho := closure_there sem hp eρ hq
      have hs : step sem ρ (.map (made p)) = .ok { ρ with maps := ρ.maps ++ [made p] } := by
        simp [step, ho]
      rw [run_cons_ok sem hs] at hr'
      have hm : τ.maps[maps (p ++ .make f ps :: q)]? = some (made p) := by
        rw [(run_tables sem hr').2.2.2.2 _ (by simp [hl])]
        simp [← hl]
      have ho' : τ.obj (made p) = .ok (withArgs σ.vars f ps) := by
        rw [obj_ok, (run_tables sem hr').2.2.1 _ ?_ hd, ← obj_ok]
        · exact ho
        · exact (List.getElem?_eq_some_iff.1 (obj_ok.1 ho)).1
      refine ⟨τ.assign x (sem f (τ.vars y) (ps.map (given σ.vars τ.vars))), ?_, fun z => rfl⟩
      rw [run_append, hr]
      simp [run, step, State.callMap, hm, ho', invoke_withArgs]

/-- cgs, eig_power and eigs may be called with a temporary closure: the closure lives until the solver returns, and
each call of the map is a call of the function with the parameters of the moment of the call of the solver. No
program fails there. -/
theorem c111_solvers {v : Nat → V} {p : List (Stmt F V)} {σ : State F V}
    (hp : run sem (start v) p = .ok σ) (f : F) (ps : List Param) (x y n : Nat) :
    ∃ τ', run sem (start v) (p ++ [.solve x f ps y n]) = .ok τ' ∧
      (∀ z, τ'.vars z =
        if z = x then (fun a => sem f a (ps.map (given σ.vars σ.vars)))^[n] (σ.vars y) else σ.vars z) ∧
      τ'.objs = σ.objs ∧ τ'.maps = σ.maps := by
  have key : ∀ (n : Nat) (a : V),
      State.iterate sem ⟨σ.vars, σ.objs ++ [some (withArgs σ.vars f ps)], σ.maps ++ [σ.objs.length]⟩
        σ.maps.length n a = .ok ((fun a => sem f a (ps.map (given σ.vars σ.vars)))^[n] a) := by
    intro n
    induction n with
    | zero => intro a; rfl
    | succ n ih =>
        intro a
        simp only [State.iterate, State.callMap, List.getElem?_concat_length, State.obj, Res.ok_bind]
        rw [ih, invoke_withArgs, Function.iterate_succ_apply]
  refine ⟨σ.assign x _, ?_, fun z => rfl, rfl, rfl⟩
  rw [run_append, hp, Res.ok_bind]
  simp only [run, step]
  rw [key]
  rfl

/-- When the scope of the closure has ended each call of a map of it is undefined behaviour. -/
theorem c111_dropped {v : Nat → V} {p q r : List (Stmt F V)} {τ : State F V} {f : F} {ps : List Param}
    (hr : run sem (start v) (p ++ .make f ps :: q ++ .map (made p) :: r) = .ok τ)
    (hd : .drop (made p) ∈ r) (x y : Nat) :
    run sem (start v) (p ++ .make f ps :: q ++ .map (made p) :: r ++
      [.call x (maps (p ++ .make f ps :: q)) y]) = .ub := by
  have hr' := hr
  rw [run_append] at hr'
  cases eρ : run sem (start v) (p ++ .make f ps :: q) with
  | abort => rw [eρ] at hr'; cases hr'
  | ub => rw [eρ] at hr'; cases hr'
  | ok ρ =>
      rw [eρ, Res.ok_bind] at hr'
      have hl : ρ.maps.length = maps (p ++ .make f ps :: q) := by
        simpa [start] using (run_tables sem eρ).2.1
      cases es : step sem ρ (.map (made p)) with
      | abort => simp [run, es] at hr'
      | ub => simp [run, es] at hr'
      | ok μ =>
          rw [run_cons_ok sem es] at hr'
          have hμ : μ.maps = ρ.maps ++ [made p] := by
            simp only [step] at es
            cases eo : ρ.obj (made p) with
            | ok o => rw [eo] at es; cases es; rfl
            | abort => rw [eo] at es; cases es
            | ub => rw [eo] at es; cases es
          have hm : τ.maps[maps (p ++ .make f ps :: q)]? = some (made p) := by
            rw [(run_tables sem hr').2.2.2.2 _ (by simp [hl, hμ]), hμ]
            simp [← hl]
          have hn := run_dropped sem hr' hd
          rw [run_append, hr]
          simp [run, step, State.callMap, hm, State.obj, hn]

/-- It is not true that a FunctionMap may be made of a temporary closure and kept: whatever the program does, the
first call of such a map is undefined behaviour. -/
theorem c111_negation_temporary {v : Nat → V} {p q : List (Stmt F V)} {τ : State F V} {f : F} {ps : List Param}
    (hq : run sem (start v) (p ++ .mapTemp f ps :: q) = .ok τ) (x y : Nat) :
    run sem (start v) (p ++ .mapTemp f ps :: q ++ [.call x (maps p) y]) = .ub := by
  have hq' := hq
  rw [run_append] at hq'
  cases eσ : run sem (start v) p with
  | abort => rw [eσ] at hq'; cases hq'
  | ub => rw [eσ] at hq'; cases hq'
  | ok σ =>
      rw [eσ, Res.ok_bind, run_cons_ok sem (ρ := ⟨σ.vars, σ.objs ++ [none], σ.maps ++ [σ.objs.length]⟩) rfl]
        at hq'
      have hl : σ.maps.length = maps p := by simpa [start] using (run_tables sem eσ).2.1
      have hm : τ.maps[maps p]? = some σ.objs.length := by
        rw [(run_tables sem hq').2.2.2.2 _ (by simp [hl])]
        simp [← hl]
      have hn : τ.objs[σ.objs.length]? = some none := (run_tables sem hq').2.2.2.1 _ (by simp)
      rw [run_append, hq]
      simp [run, step, State.callMap, hm, State.obj, hn]

/-- A program which ends no scope before its own end, and which keeps no map of a temporary closure, has no
undefined behaviour. -/
theorem c111_safe (v : Nat → V) (p : List (Stmt F V)) (h1 : ∀ c, .drop c ∉ p)
    (h2 : ∀ f ps, .mapTemp f ps ∉ p) : run sem (start v) p ≠ .ub := by
  have key : ∀ (p : List (Stmt F V)) (σ : State F V), (∀ c, .drop c ∉ p) → (∀ f ps, .mapTemp f ps ∉ p) →
      none ∉ σ.objs → run sem σ p ≠ .ub := by
    intro p
    induction p with
    | nil => intro σ _ _ _ h; cases h
    | cons s p ih =>
        intro σ h1 h2 hσ
        have g : ∀ c, σ.obj c ≠ .ub := by
          intro c hc
          unfold State.obj at hc
          split at hc
          · cases hc
          · rename_i e; exact hσ (List.mem_of_getElem? e)
          · cases hc
        have k1 : ∀ c, .drop c ∉ p := fun c hc => h1 c (List.mem_cons_of_mem _ hc)
        have k2 : ∀ f ps, .mapTemp f ps ∉ p := fun f ps hc => h2 f ps (List.mem_cons_of_mem _ hc)
        cases s with
        | set x w => exact ih _ k1 k2 hσ
        | make f ps => exact ih _ k1 k2 (by simpa using hσ)
        | dup c =>
            simp only [run, step]
            cases e : σ.obj c with
            | ok o => exact ih _ k1 k2 (by simpa using hσ)
            | abort => intro h; cases h
            | ub => exact absurd e (g c)
        | drop c => exact absurd List.mem_cons_self (h1 c)
        | map c =>
            simp only [run, step]
            cases e : σ.obj c with
            | ok o => exact ih _ k1 k2 hσ
            | abort => intro h; cases h
            | ub => exact absurd e (g c)
        | mapTemp f ps => exact absurd List.mem_cons_self (h2 f ps)
        | apply x c y =>
            simp only [run, step]
            cases e : σ.obj c with
            | ok o => exact ih _ k1 k2 hσ
            | abort => intro h; cases h
            | ub => exact absurd e (g c)
        | call x m y =>
            simp only [run, step, State.callMap]
            cases em : σ.maps[m]? with
            | none => intro h; cases h
            | some c =>
                cases e : σ.obj c with
                | ok o => simpa [e] using ih (σ.assign x (invoke sem σ.vars o (σ.vars y))) k1 k2 hσ
                | abort => intro h; simp [e] at h
                | ub => exact absurd e (g c)
        | solve x f ps y n =>
            have it : ∀ (n : Nat) (a : V), ∃ b,
                State.iterate sem
                  ⟨σ.vars, σ.objs ++ [some (withArgs σ.vars f ps)], σ.maps ++ [σ.objs.length]⟩
                  σ.maps.length n a = .ok b := by
              intro n
              induction n with
              | zero => intro a; exact ⟨a, rfl⟩
              | succ n ihn =>
                  intro a
                  simp only [State.iterate, State.callMap, List.getElem?_concat_length, State.obj, Res.ok_bind]
                  exact ihn _
            obtain ⟨b, hb⟩ := it n (σ.vars y)
            simp only [run, step]
            rw [hb]
            exact ih _ k1 k2 hσ
  exact key p _ h1 h2 (by simp [start])

/-! ## Examples -/

/-- Functions which add their parameters with weights 1, 10, 100. -/
def exSem : Unit → Int → List Int → Int := fun _ a l => l.foldr (fun b s => b + 10 * s) 0 * 10 + a

/-- Variable 1 changes after the closure was made, and it is there by value and by address. -/
example : (run exSem (start fun _ => 0) [.set 0 7, .set 1 2, .make () [.val 1, .ptr 1], .set 1 5,
    .apply 2 0 0]).bind (fun σ => .ok (σ.vars 2)) = .ok 527 := by decide

example : ∃ τ', run exSem (start fun _ => 0)
      ([.set 1 2] ++ .make () [.val 1] :: [.set 1 5] ++ [.apply 2 (made [(.set 1 2 : Stmt Unit Int)]) 0]) =
      .ok τ' ∧ ∀ z, τ'.vars z = if z = 2 then 20 else if z = 1 then 5 else if z = 1 then 2 else 0 :=
  c111_apply exSem (p := [.set 1 2]) (q := [.set 1 5]) (σ := (start fun _ => 0).assign 1 2) (τ := _) rfl rfl (by simp) 2 0

example : ∃ τ', run exSem (start fun _ => 0)
      ([] ++ .make () [] :: [.set 1 5] ++ .dup (made ([] : List (Stmt Unit Int))) :: [.drop 0] ++
        [.apply 2 (made ([] ++ .make () [] :: [.set 1 5] : List (Stmt Unit Int))) 1]) = .ok τ' ∧
      ∀ z, τ'.vars z = if z = 2 then 5 else if z = 1 then 5 else 0 :=
  c111_copy exSem (p := []) (q := [.set 1 5]) (r := [.drop 0]) (σ := start fun _ => 0) (τ := _) rfl rfl (by simp [made]) 2 1

example : ∃ τ', run exSem (start fun _ => 0)
      ([] ++ .make () [.val 1] :: [] ++ .map (made ([] : List (Stmt Unit Int))) :: [.set 1 5] ++
        [.call 2 (maps ([] ++ .make () [.val 1] :: [] : List (Stmt Unit Int))) 1]) = .ok τ' ∧
      ∀ z, τ'.vars z = if z = 2 then 5 else if z = 1 then 5 else 0 :=
  c111_map exSem (p := []) (q := []) (r := [.set 1 5]) (σ := start fun _ => 0) (τ := _) rfl rfl (by simp) 2 1

example : run exSem (start fun _ => 0)
      ([] ++ .make () [] :: [] ++ .map (made ([] : List (Stmt Unit Int))) :: [.drop 0] ++
        [.call 2 (maps ([] ++ .make () [] :: [] : List (Stmt Unit Int))) 1]) = .ub :=
  c111_dropped exSem (τ := _) rfl (by simp [made]) 2 1

example : run exSem (start fun _ => 0)
      ([] ++ .mapTemp () [] :: [.set 1 1] ++ [.call 2 (maps ([] : List (Stmt Unit Int))) 1]) = .ub :=
  c111_negation_temporary exSem (τ := _) rfl 2 1

example : ∃ τ', run exSem (start fun _ => 0) ([] ++ [.solve 2 () [.val 1] 1 3]) = .ok τ' ∧
    (∀ z, τ'.vars z = if z = 2 then (fun a => exSem () a [0])^[3] 0 else 0) ∧
    τ'.objs = [] ∧ τ'.maps = [] :=
  c111_solvers exSem (σ := start fun _ => 0) rfl () [.val 1] 2 1 3

example : run exSem (start fun _ => 0) [.make () [.val 0], .map 0, .call 1 0 1] ≠ .ub :=
  c111_safe exSem _ _ (by simp) (by simp)

end Verif.Closure
