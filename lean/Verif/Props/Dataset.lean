import Verif.Model.Dataset
import Verif.Props.FileOps
/-
C78: datasets of jobs.
-/
namespace Verif.Dataset

open Sdf

/-! Names -/

theorem digitsFuel_eq (n : Nat) : ∀ f g, n < f → n < g → digitsFuel f n = digitsFuel g n := by
  induction n using Nat.strongRecOn with
  | ind n ih =>
    intro f g hf hg
    obtain ⟨f, rfl⟩ : ∃ f', f = f' + 1 := ⟨f - 1, by omega⟩
    obtain ⟨g, rfl⟩ : ∃ g', g = g' + 1 := ⟨g - 1, by omega⟩
    rw [digitsFuel, digitsFuel]
    by_cases h : n < 10
    · rw [if_pos h, if_pos h]
    · rw [if_neg h, if_neg h, ih (n / 10) (by omega) f g (by omega) (by omega)]

/-- The digits of a number are those of its tenth part and the last one. -/
theorem digits_eq (n : Nat) : digits n =
    if n < 10 then [BitVec.ofNat 8 (48 + n)] else digits (n / 10) ++ [BitVec.ofNat 8 (48 + n % 10)] := by
  unfold digits
  rw [digitsFuel]
  by_cases h : n < 10
  · rw [if_pos h, if_pos h]
  · rw [if_neg h, if_neg h, digitsFuel_eq (n / 10) n (n / 10 + 1) (by omega) (by omega)]

theorem digits_range (n : Nat) : ∀ b ∈ digits n, 48 ≤ b.toNat ∧ b.toNat ≤ 57 := by
  induction n using Nat.strongRecOn with
  | ind n ih =>
    intro b hb
    rw [digits_eq] at hb
    have aux : ∀ k < 10, (BitVec.ofNat 8 (48 + k)).toNat = 48 + k := by
      intro k hk
      rw [BitVec.toNat_ofNat]
      exact Nat.mod_eq_of_lt (by omega)
    split at hb
    · rename_i h
      rw [List.mem_singleton] at hb
      subst hb
      rw [aux n h]
      omega
    · rcases List.mem_append.1 hb with hb | hb
      · exact ih (n / 10) (by omega) b hb
      · rw [List.mem_singleton] at hb
        subst hb
        rw [aux (n % 10) (by omega)]
        omega

/-- The number which a text means. -/
def value (l : List Byte) : Nat := l.foldl (fun a b => 10 * a + (b.toNat - 48)) 0

theorem value_digits (n : Nat) : value (digits n) = n := by
  induction n using Nat.strongRecOn with
  | ind n ih =>
    have aux : ∀ k < 10, (BitVec.ofNat 8 (48 + k)).toNat - 48 = k := by
      intro k hk
      rw [BitVec.toNat_ofNat, Nat.mod_eq_of_lt (by omega)]
      omega
    rw [digits_eq]
    split
    · rename_i h
      simp only [value, List.foldl_cons, List.foldl_nil]
      rw [aux n h]
      omega
    · have := ih (n / 10) (by omega)
      unfold value at this ⊢
      rw [List.foldl_append, this]
      simp only [List.foldl_cons, List.foldl_nil]
      rw [aux (n % 10) (by omega)]
      omega

theorem digits_inj {a b : Nat} (h : digits a = digits b) : a = b := by
  rw [← value_digits a, h, value_digits]

theorem digits_ne (n : Nat) : digits n ≠ [] := by
  rw [digits_eq]
  split <;> simp

theorem minus_not_digits (a b : Nat) : 45 :: digits a ≠ digits b := by
  intro h
  have := digits_range b 45 (by rw [← h]; simp)
  simp at this

theorem numberToString_inj {a b : Int} (h : numberToString a = numberToString b) : a = b := by
  unfold numberToString at h
  split at h <;> split at h
  · have := digits_inj (List.cons.inj h).2
    omega
  · exact absurd h (minus_not_digits _ _)
  · exact absurd h.symm (minus_not_digits _ _)
  · have := digits_inj h
    omega

theorem numberToString_last (a : Int) : ∃ b, (numberToString a).getLast? = some b ∧ b.toNat ≤ 57 := by
  obtain ⟨b, hb⟩ : ∃ b, (digits a.natAbs).getLast? = some b :=
    Option.isSome_iff_exists.1 (by simp [digits_ne])
  have hm := digits_range _ b (List.mem_of_getLast? hb)
  refine ⟨b, ?_, hm.2⟩
  unfold numberToString
  split
  · rw [List.getLast?_cons, hb]; rfl
  · exact hb

theorem recordPath_inj {name : Path} {a b : Int} (h : recordPath name a = recordPath name b) :
    toInt a = toInt b :=
  numberToString_inj (List.cons.inj (List.append_cancel_left h)).2

/-- C78: jobs with different numbers below 2^32 have different records. -/
theorem c78_names (name : Path) (a b : Nat) (ha : a < 2 ^ 32) (hb : b < 2 ^ 32) (h : a ≠ b) :
    recordPath name a ≠ recordPath name b := by
  intro e
  have e := recordPath_inj e
  have e : (toInt a) % ((2 ^ 32 : Nat) : Int) = (toInt b) % ((2 ^ 32 : Nat) : Int) := by rw [e]
  unfold toInt at e
  rw [show ((2 : Nat) ^ 32) = 4294967296 from rfl] at e
  rw [Int.bmod_emod, Int.bmod_emod] at e
  omega

/-- C78 is false for larger numbers: they are converted to `int`. -/
theorem c78_negation_names (name : Path) (a : Int) :
    recordPath name (a + 2 ^ 32) = recordPath name a := by
  have : toInt (a + 2 ^ 32) = toInt a := by
    unfold toInt
    exact Int.add_bmod_right a (2 ^ 32)
  rw [recordPath, recordPath, this]

theorem record_ne_tmp (name : Path) (a b : Int) :
    recordPath name a ≠ tmpPath (recordPath name b) := by
  intro h
  obtain ⟨x, hx, hle⟩ := numberToString_last (toInt a)
  have h1 : (recordPath name a).getLast? = some x := by
    rw [recordPath, List.getLast?_append, List.getLast?_cons, hx]; rfl
  have h2 : (tmpPath (recordPath name b)).getLast? = some 112 := by
    rw [tmpPath, List.getLast?_append]; rfl
  rw [h, h2] at h1
  have := Option.some.inj h1
  subst this
  simp at hle

theorem tmpPath_inj {a b : Path} (h : tmpPath a = tmpPath b) : a = b :=
  List.append_cancel_right h

/-! Invariant -/

/-- What is true of a process at each point. -/
def ProcOk (name : Path) (s : State) (x : Proc) : Prop :=
  let r := recordPath name x.job
  let t := tmpPath r
  match x.pc with
  | .checkBase | .makeDir | .stopped => True
  | .checkDir | .checkRecord => s.base = .dir
  | .unlinkTmp => s.base = .dir ∧ s.link r = none
  | .checkTmp => s.base = .dir ∧ s.link r = none ∧ s.link t = none
  | .openTmp e => s.base = .dir ∧ s.link r = none ∧ s.link t = none ∧ e = false
  | .write i rest => s.link r = none ∧ s.link t = some i ∧
      ∃ c, s.file t = some c ∧ c ++ rest = full x.recs
  | .closing | .checkDest | .checkOrig | .rename =>
      s.link r = none ∧ s.file t = some (full x.recs)
  | .unlinkDest | .aborted => False
  | .finished true => s.file r = some (full x.recs)
  | .finished false => ∃ c, s.file r = some c

structure Inv (name : Path) (s : State) : Prop where
  fresh : ∀ u i, s.link u = some i → i < s.next
  inj : ∀ u v i, s.link u = some i → s.link v = some i → u = v
  base : s.base ≠ .file
  ok : ∀ p x, s.proc p = some x → ProcOk name s x
  apart : ∀ p q x y, p ≠ q → s.proc p = some x → s.proc q = some y → x.pc.running →
    y.pc.running → recordPath name x.job ≠ recordPath name y.job

/-- What a process leaves as it is: everything but its temporary file, and its record if it did not
exist. -/
structure Frame (s s' : State) (r t : Path) : Prop where
  base : s.base = .dir → s'.base = .dir
  link : ∀ u, u ≠ t → (u ≠ r ∨ s.link u ≠ none) → s'.link u = s.link u
  file : ∀ u, u ≠ t → (u ≠ r ∨ s.link u ≠ none) → s'.file u = s.file u

theorem file_none {s : State} {u : Path} : s.file u = none ↔ s.link u = none := by
  unfold State.file
  simp

theorem file_some {s : State} {u : Path} {c : List Byte} (h : s.file u = some c) :
    ∃ i, s.link u = some i ∧ s.cont i = c := by
  unfold State.file at h
  simpa using h

theorem procOk_frame {name : Path} {s s' : State} {x y : Proc}
    (hr : y.pc.running → recordPath name y.job ≠ recordPath name x.job)
    (hf : Frame s s' (recordPath name x.job) (tmpPath (recordPath name x.job)))
    (hy : ProcOk name s y) : ProcOk name s' y := by
  have hne := record_ne_tmp name y.job x.job
  by_cases hrun : y.pc.running = true
  · have h1 := hr hrun
    have h2 : tmpPath (recordPath name y.job) ≠ tmpPath (recordPath name x.job) :=
      fun h => h1 (tmpPath_inj h)
    have h3 : tmpPath (recordPath name y.job) ≠ recordPath name x.job :=
      fun h => record_ne_tmp name x.job y.job h.symm
    have l1 := hf.link _ hne (Or.inl h1)
    have l2 := hf.link _ h2 (Or.inl h3)
    have f2 := hf.file _ h2 (Or.inl h3)
    have hb := hf.base
    obtain ⟨job, recs, pc⟩ := y
    unfold ProcOk at hy ⊢
    cases pc <;> simp only [l1, l2, f2] at hy ⊢ <;> first
      | exact hy
      | exact hb hy
      | exact ⟨hb hy.1, hy.2⟩
      | exact absurd hrun (by simp [Pc.running])
  · unfold ProcOk at hy ⊢
    have key : ∀ c, s.file (recordPath name y.job) = some c →
        s'.file (recordPath name y.job) = some c := by
      intro c hc
      obtain ⟨i, hi, _⟩ := file_some hc
      rw [hf.file _ hne (Or.inr (by rw [hi]; simp)), hc]
    obtain ⟨job, recs, pc⟩ := y
    cases pc with
    | finished w =>
      cases w with
      | true => exact key _ hy
      | false => exact Exists.imp key hy
    | aborted => exact hy
    | stopped => trivial
    | _ => exact absurd rfl hrun

theorem update_same {ι β : Type} [DecidableEq ι] (f : ι → β) (i : ι) (v : β) : update f i v i = v :=
  if_pos rfl

theorem update_ne {ι β : Type} [DecidableEq ι] (f : ι → β) {i j : ι} (v : β) (h : j ≠ i) :
    update f i v j = f j := if_neg h

/-- One step of a process keeps the invariant, if it keeps what belongs to the others. -/
theorem inv_of {name : Path} {s s' : State} {p : Nat} {x : Proc} {pc : Pc} (hi : Inv name s)
    (hx : s.proc p = some x) (hrun : x.pc.running = true)
    (hp : s'.proc = update s.proc p (some { x with pc := pc }))
    (fresh : ∀ u i, s'.link u = some i → i < s'.next)
    (inj : ∀ u v i, s'.link u = some i → s'.link v = some i → u = v)
    (base : s'.base ≠ .file)
    (hf : Frame s s' (recordPath name x.job) (tmpPath (recordPath name x.job)))
    (ok : ProcOk name s' { x with pc := pc }) : Inv name s' := by
  refine ⟨fresh, inj, base, ?_, ?_⟩
  · intro q y hy
    rw [hp] at hy
    by_cases hq : q = p
    · subst hq
      rw [update_same] at hy
      cases hy
      exact ok
    · rw [update_ne _ _ hq] at hy
      exact procOk_frame (fun hr => hi.apart q p y x hq hy hx hr hrun) hf (hi.ok q y hy)
  · have old : ∀ q y, s'.proc q = some y → y.pc.running = true →
        ∃ z, s.proc q = some z ∧ z.pc.running = true ∧ z.job = y.job := by
      intro q y hy hr
      rw [hp] at hy
      by_cases hq : q = p
      · subst hq
        rw [update_same] at hy
        cases hy
        exact ⟨x, hx, hrun, rfl⟩
      · rw [update_ne _ _ hq] at hy
        exact ⟨y, hy, hr, rfl⟩
    intro a b y z hab hy hz hry hrz
    obtain ⟨y', h1, h2, h3⟩ := old a y hy hry
    obtain ⟨z', h4, h5, h6⟩ := old b z hz hrz
    rw [← h3, ← h6]
    exact hi.apart a b y' z' hab h1 h4 h2 h5

theorem frame_goto (s : State) (p : Nat) (x : Proc) (pc : Pc) (r t : Path) :
    Frame s (s.goto p x pc) r t := ⟨id, fun _ _ _ => rfl, fun _ _ _ => rfl⟩

theorem inv_goto {name : Path} {s : State} {p : Nat} {x : Proc} (pc : Pc) (hi : Inv name s)
    (hx : s.proc p = some x) (hrun : x.pc.running = true)
    (ok : ProcOk name s { x with pc := pc }) :
    Inv name (s.goto p x pc) ∧
      Frame s (s.goto p x pc) (recordPath name x.job) (tmpPath (recordPath name x.job)) :=
  ⟨inv_of hi hx hrun rfl hi.fresh hi.inj hi.base (frame_goto s p x pc _ _) ok,
    frame_goto s p x pc _ _⟩

theorem step_inv {name : Path} {s s' : State} {p : Nat} {x : Proc} (hi : Inv name s)
    (hx : s.proc p = some x) (hs : step name s p x = some s') :
    Inv name s' ∧ Frame s s' (recordPath name x.job) (tmpPath (recordPath name x.job)) := by
  have hok := hi.ok p x hx
  have hrt : recordPath name x.job ≠ tmpPath (recordPath name x.job) := record_ne_tmp name _ _
  obtain ⟨job, recs, pc⟩ := x
  cases pc with
  | checkBase =>
    simp only [step] at hs
    split at hs
    · cases hs; exact inv_goto .makeDir hi hx rfl trivial
    · exact absurd ‹_› hi.base
    · cases hs; exact inv_goto .checkRecord hi hx rfl ‹_›
  | makeDir =>
    simp only [step, Option.some.injEq] at hs
    subst hs
    have hb : (if s.base = .none then Kind.dir else s.base) = .dir := by
      have := hi.base
      cases h : s.base <;> simp_all
    have fr : Frame s
        { s.goto p ⟨job, recs, .makeDir⟩ .checkDir with
          base := if s.base = .none then .dir else s.base }
        (recordPath name job) (tmpPath (recordPath name job)) :=
      ⟨fun _ => hb, fun _ _ _ => rfl, fun _ _ _ => rfl⟩
    exact ⟨inv_of (pc := .checkDir) hi hx rfl rfl hi.fresh hi.inj
      (by show (if s.base = .none then Kind.dir else s.base) ≠ _; rw [hb]; simp) fr hb, fr⟩
  | checkDir =>
    have hb : s.base = .dir := hok
    simp only [step, hb] at hs
    cases hs
    exact inv_goto .checkRecord hi hx rfl hb
  | checkRecord =>
    have hb : s.base = .dir := hok
    simp only [step] at hs
    split at hs
    · rename_i h
      cases hs
      refine inv_goto (.finished false) hi hx rfl ?_
      obtain ⟨i, h⟩ := Option.isSome_iff_exists.1 h
      exact ⟨s.cont i, by show (s.link _).map _ = _; rw [h]; rfl⟩
    · rename_i h
      cases hs
      exact inv_goto .unlinkTmp hi hx rfl ⟨hb, by simpa using h⟩
  | unlinkTmp =>
    obtain ⟨hb, hr⟩ := hok
    simp only [step, Option.some.injEq] at hs
    subst hs
    have fr : Frame s
        { s.goto p ⟨job, recs, .unlinkTmp⟩ .checkTmp with
          link := update s.link (tmpPath (recordPath name job)) none }
        (recordPath name job) (tmpPath (recordPath name job)) := by
      refine ⟨id, fun u hu _ => update_ne _ _ hu, fun u hu _ => ?_⟩
      show (update s.link _ none u).map _ = _
      rw [update_ne _ _ hu]; rfl
    have old : ∀ u i, update s.link (tmpPath (recordPath name job)) none u = some i →
        s.link u = some i := by
      intro u i h
      by_cases hu : u = tmpPath (recordPath name job)
      · subst hu; rw [update_same] at h; cases h
      · rwa [update_ne _ _ hu] at h
    exact ⟨inv_of (pc := .checkTmp) hi hx rfl rfl (fun u i h => hi.fresh u i (old u i h))
      (fun u v i h1 h2 => hi.inj u v i (old u i h1) (old v i h2)) hi.base fr
      ⟨hb, by show update _ _ _ _ = _; rw [update_ne _ _ hrt]; exact hr, update_same _ _ _⟩, fr⟩
  | checkTmp =>
    obtain ⟨hb, hr, ht⟩ := hok
    simp only [step, Option.some.injEq] at hs
    subst hs
    exact inv_goto _ hi hx rfl ⟨hb, hr, ht, by
      show (s.link (tmpPath (recordPath name job))).isSome = false
      simp only at ht
      rw [ht]; rfl⟩
  | openTmp e =>
    obtain ⟨hb, hr, ht, rfl⟩ := hok
    simp only at hr ht
    simp only [step, hb, ht] at hs
    simp only [ne_eq, not_true_eq_false, if_false, Option.some.injEq] at hs
    subst hs
    have hlt : ∀ u i, s.link u = some i → i ≠ s.next := fun u i h => (hi.fresh u i h).ne
    have fr : Frame s
        { s.goto p ⟨job, recs, .openTmp false⟩ (.write s.next (full recs)) with
          link := update s.link (tmpPath (recordPath name job)) (some s.next)
          cont := update s.cont s.next []
          next := s.next + 1 } (recordPath name job) (tmpPath (recordPath name job)) := by
      refine ⟨id, fun u hu _ => update_ne _ _ hu, fun u hu _ => ?_⟩
      show (update s.link _ (some s.next) u).map (update s.cont s.next []) = (s.link u).map s.cont
      rw [update_ne _ _ hu]
      cases h : s.link u with
      | none => rfl
      | some i => simp only [Option.map_some]; rw [update_ne _ _ (hlt u i h)]
    refine ⟨inv_of (pc := .write s.next (full recs)) hi hx rfl rfl ?_ ?_ hi.base fr ?_, fr⟩
    · intro u i h
      simp only at h ⊢
      by_cases hu : u = tmpPath (recordPath name job)
      · subst hu; rw [update_same] at h; cases h; omega
      · rw [update_ne _ _ hu] at h; exact (hi.fresh u i h).trans (Nat.lt_succ_self _)
    · intro u v i h1 h2
      simp only at h1 h2
      by_cases hu : u = tmpPath (recordPath name job) <;>
        by_cases hv : v = tmpPath (recordPath name job)
      · rw [hu, hv]
      · subst hu
        rw [update_same] at h1
        rw [update_ne _ _ hv] at h2
        cases h1
        exact absurd rfl (hlt v _ h2)
      · subst hv
        rw [update_same] at h2
        rw [update_ne _ _ hu] at h1
        cases h2
        exact absurd rfl (hlt u _ h1)
      · rw [update_ne _ _ hu] at h1
        rw [update_ne _ _ hv] at h2
        exact hi.inj u v i h1 h2
    · refine ⟨?_, update_same _ _ _, [], ?_, rfl⟩
      · show update _ _ _ _ = _
        rw [update_ne _ _ hrt]; exact hr
      · show (update s.link _ (some s.next) _).map (update s.cont s.next []) = _
        rw [update_same]
        simp only [Option.map_some]
        rw [update_same]
  | write i rest =>
    obtain ⟨hr, ht, c, hc, hfull⟩ := hok
    simp only at hr ht hc hfull
    cases rest with
    | nil =>
      simp only [step, Option.some.injEq] at hs
      subst hs
      rw [List.append_nil] at hfull
      exact inv_goto .closing hi hx rfl ⟨hr, by rw [← hfull]; exact hc⟩
    | cons b rest =>
      simp only [step, Option.some.injEq] at hs
      subst hs
      have fr : Frame s
          { s.goto p ⟨job, recs, .write i (b :: rest)⟩ (.write i rest) with
            cont := update s.cont i (s.cont i ++ [b]) }
          (recordPath name job) (tmpPath (recordPath name job)) := by
        refine ⟨id, fun _ _ _ => rfl, fun u hu _ => ?_⟩
        show (s.link u).map (update s.cont i _) = (s.link u).map s.cont
        cases h : s.link u with
        | none => rfl
        | some j =>
          have : j ≠ i := by
            rintro rfl
            exact hu (hi.inj u _ j h ht)
          simp only [Option.map_some]
          rw [update_ne _ _ this]
      refine ⟨inv_of (pc := .write i rest) hi hx rfl rfl hi.fresh hi.inj hi.base fr ?_, fr⟩
      refine ⟨hr, ht, c ++ [b], ?_, by rw [← hfull]; simp⟩
      obtain ⟨j, hj, hcj⟩ := file_some hc
      rw [ht] at hj
      cases hj
      show (s.link _).map (update s.cont i _) = _
      rw [ht]
      simp only [Option.map_some]
      rw [update_same, hcj]
  | closing =>
    obtain ⟨hr, ht⟩ := hok
    simp only at hr ht
    obtain ⟨i, hl, _⟩ := file_some ht
    simp only [step, hl, Option.isSome_some, if_true, Option.some.injEq] at hs
    subst hs
    exact inv_goto .checkDest hi hx rfl ⟨hr, ht⟩
  | checkDest =>
    obtain ⟨hr, ht⟩ := hok
    simp only at hr ht
    simp only [step, hr, Option.isSome_none, Bool.false_eq_true, if_false, Option.some.injEq] at hs
    subst hs
    exact inv_goto .checkOrig hi hx rfl ⟨hr, ht⟩
  | unlinkDest => exact hok.elim
  | checkOrig =>
    obtain ⟨hr, ht⟩ := hok
    simp only at hr ht
    obtain ⟨i, hl, _⟩ := file_some ht
    simp only [step, hl, Option.isSome_some, if_true, Option.some.injEq] at hs
    subst hs
    exact inv_goto .rename hi hx rfl ⟨hr, ht⟩
  | rename =>
    obtain ⟨hr, ht⟩ := hok
    simp only at hr ht
    obtain ⟨i, hl, hci⟩ := file_some ht
    simp only [step, hl, Option.some.injEq] at hs
    subst hs
    have fr : Frame s
        { s.goto p ⟨job, recs, .rename⟩ (.finished true) with
          link := update (update s.link (recordPath name job) (some i))
            (tmpPath (recordPath name job)) none }
        (recordPath name job) (tmpPath (recordPath name job)) := by
      have hl : ∀ u, u ≠ tmpPath (recordPath name job) →
          (u ≠ recordPath name job ∨ s.link u ≠ none) →
          update (update s.link (recordPath name job) (some i))
            (tmpPath (recordPath name job)) none u = s.link u := by
        intro u hu h
        have : u ≠ recordPath name job := by
          rcases h with h | h
          · exact h
          · rintro rfl; exact h hr
        rw [update_ne _ _ hu, update_ne _ _ this]
      refine ⟨id, hl, fun u hu h => ?_⟩
      show Option.map s.cont (update _ _ _ u) = (s.link u).map s.cont
      rw [hl u hu h]
    have old : ∀ u j, update (update s.link (recordPath name job) (some i))
        (tmpPath (recordPath name job)) none u = some j →
        u = recordPath name job ∧ j = i ∨
          u ≠ recordPath name job ∧ u ≠ tmpPath (recordPath name job) ∧ s.link u = some j := by
      intro u j h
      by_cases hu : u = tmpPath (recordPath name job)
      · rw [hu, update_same] at h; cases h
      · rw [update_ne _ _ hu] at h
        by_cases hv : u = recordPath name job
        · rw [hv, update_same] at h
          cases h
          exact Or.inl ⟨hv, rfl⟩
        · rw [update_ne _ _ hv] at h
          exact Or.inr ⟨hv, hu, h⟩
    refine ⟨inv_of (pc := .finished true) hi hx rfl rfl ?_ ?_ hi.base fr ?_, fr⟩
    · intro u j h
      rcases old u j h with ⟨_, rfl⟩ | ⟨_, _, h⟩
      · exact hi.fresh _ _ hl
      · exact hi.fresh _ _ h
    · intro u v j h1 h2
      rcases old u j h1 with ⟨e1, e2⟩ | ⟨_, hu, k1⟩ <;>
        rcases old v j h2 with ⟨e3, e4⟩ | ⟨_, hv, k2⟩
      · rw [e1, e3]
      · rw [e2] at k2
        exact absurd (hi.inj v _ i k2 hl) hv
      · rw [e4] at k1
        exact absurd (hi.inj u _ i k1 hl) hu
      · exact hi.inj u v j k1 k2
    · show Option.map s.cont (update _ _ _ (recordPath name job)) = _
      rw [update_ne _ _ hrt, update_same]
      simp only [Option.map_some]
      rw [hci]
  | finished w => simp [step] at hs
  | aborted => simp [step] at hs
  | stopped => simp [step] at hs

/-! Executions -/

/-- A process only starts when no process with the same record is running. -/
def Apart (name : Path) (s : State) : Op → Prop
  | .start _ job _ => ∀ q y, s.proc q = some y → y.pc.running = true →
      recordPath name y.job ≠ recordPath name job
  | _ => True

/-- An execution in which two processes with the same record never run at the same time. -/
def ApartRun (name : Path) : List Op → State → Prop
  | [], _ => True
  | o :: l, s => Apart name s o ∧ ∀ s', event name s o = some s' → ApartRun name l s'

/-- A system before any process is started: the name of the dataset is not that of a file, the
files have one name each. -/
structure Start (s : State) : Prop where
  fresh : ∀ u i, s.link u = some i → i < s.next
  inj : ∀ u v i, s.link u = some i → s.link v = some i → u = v
  base : s.base ≠ .file
  proc : ∀ p, s.proc p = none

theorem Start.inv {name : Path} {s : State} (h : Start s) : Inv name s :=
  ⟨h.fresh, h.inj, h.base, fun p x hx => by simp [h.proc] at hx,
    fun p q x y _ hx => by simp [h.proc] at hx⟩

/-- A process only makes its record when it ends. -/
theorem step_record {name : Path} {s s' : State} {p : Nat} {x : Proc}
    (hs : step name s p x = some s') (h : s.link (recordPath name x.job) = none) :
    s'.link (recordPath name x.job) = none ∨
      s'.proc p = some { x with pc := .finished true } := by
  have hrt : recordPath name x.job ≠ tmpPath (recordPath name x.job) := record_ne_tmp name _ _
  have hup : ∀ v, update s.link (tmpPath (recordPath name x.job)) v (recordPath name x.job) = none :=
    fun v => by rw [update_ne _ _ hrt]; exact h
  obtain ⟨job, recs, pc⟩ := x
  simp only at h hrt hup
  cases pc <;> simp only [step, h, Option.isSome_none] at hs <;> (try split at hs) <;>
    (try split at hs) <;> first
    | (cases hs; exact Or.inl h)
    | (cases hs; exact Or.inl (hup _))
    | (cases hs; exact Or.inr (update_same _ _ _))
    | simp_all

theorem step_proc {name : Path} {s s' : State} {p : Nat} {x : Proc}
    (hs : step name s p x = some s') :
    ∃ pc, s'.proc = update s.proc p (some { x with pc := pc }) := by
  obtain ⟨job, recs, pc⟩ := x
  cases pc <;> simp only [step] at hs <;> (try split at hs) <;>
    (try split at hs) <;> first
    | (cases hs; exact ⟨_, rfl⟩)
    | simp_all

/-- Everything about one event. -/
theorem event_inv {name : Path} {s s' : State} {o : Op} (hi : Inv name s) (ha : Apart name s o)
    (hs : event name s o = some s') :
    Inv name s' ∧
    (∀ job c, s.file (recordPath name job) = some c → s'.file (recordPath name job) = some c) ∧
    (∀ job c, s'.file (recordPath name job) = some c → s.file (recordPath name job) = some c ∨
      ∃ p x, s'.proc p = some x ∧ x.pc = .finished true ∧
        recordPath name x.job = recordPath name job ∧ c = full x.recs) ∧
    (∀ u, (∀ job, u ≠ recordPath name job ∧ u ≠ tmpPath (recordPath name job)) →
      s'.file u = s.file u) ∧
    (∀ p x, s.proc p = some x → ∃ pc, s'.proc p = some { x with pc := pc }) ∧
    (∀ p x, s.proc p = some x → x.pc.running = false → s'.proc p = some x) := by
  cases o with
  | start p job recs =>
    simp only [event] at hs
    split at hs
    · rename_i hp
      cases hs
      have hne : ∀ q y, s.proc q = some y → q ≠ p := by
        rintro q y hq rfl
        rw [hp] at hq; cases hq
      refine ⟨⟨hi.fresh, hi.inj, hi.base, ?_, ?_⟩, fun _ _ h => h, fun _ _ h => Or.inl h,
        fun _ _ => rfl, ?_, ?_⟩
      · intro q y hy
        by_cases hq : q = p
        · subst hq
          simp only [update_same, Option.some.injEq] at hy
          subst hy
          trivial
        · simp only [update_ne _ _ hq] at hy
          exact hi.ok q y hy
      · intro a b y z hab hy hz hry hrz
        by_cases h1 : a = p <;> by_cases h2 : b = p
        · exact absurd (h1.trans h2.symm) hab
        · subst h1
          simp only [update_same, Option.some.injEq] at hy
          simp only [update_ne _ _ h2] at hz
          subst hy
          exact (ha b z hz hrz).symm
        · subst h2
          simp only [update_same, Option.some.injEq] at hz
          simp only [update_ne _ _ h1] at hy
          subst hz
          exact ha a y hy hry
        · simp only [update_ne _ _ h1] at hy
          simp only [update_ne _ _ h2] at hz
          exact hi.apart a b y z hab hy hz hry hrz
      · intro q y hy
        exact ⟨y.pc, by simp only [update_ne _ _ (hne q y hy)]; exact hy⟩
      · intro q y hy _
        simp only [update_ne _ _ (hne q y hy)]; exact hy
    · cases hs
  | step p =>
    simp only [event, Option.bind_eq_some_iff] at hs
    obtain ⟨x, hx, hs⟩ := hs
    obtain ⟨hi', fr⟩ := step_inv hi hx hs
    obtain ⟨pc', hp'⟩ := step_proc hs
    have hrun : x.pc.running = true := by
      obtain ⟨job, recs, pc⟩ := x
      cases pc <;> first | rfl | simp [step] at hs
    refine ⟨hi', ?_, ?_, ?_, ?_, ?_⟩
    · intro job c hc
      obtain ⟨i, hl, _⟩ := file_some hc
      rw [fr.file _ (record_ne_tmp name _ _) (Or.inr (by rw [hl]; simp)), hc]
    · intro job c hc
      by_cases hl : s.link (recordPath name job) = none
      · by_cases hj : recordPath name job = recordPath name x.job
        · rw [hj] at hl hc
          rcases step_record hs hl with h | h
          · rw [file_none.2 h] at hc; cases hc
          · refine Or.inr ⟨p, _, h, rfl, hj.symm, ?_⟩
            have := hi'.ok p _ h
            have : s'.file (recordPath name x.job) = some (full x.recs) := this
            rw [this] at hc
            exact (Option.some.inj hc).symm
        · rw [fr.file _ (record_ne_tmp name _ _) (Or.inl hj), file_none.2 hl] at hc
          cases hc
      · rw [fr.file _ (record_ne_tmp name _ _) (Or.inr hl)] at hc
        exact Or.inl hc
    · intro u hu
      exact fr.file u (hu x.job).2 (Or.inl (hu x.job).1)
    · intro q y hy
      rw [hp']
      by_cases hq : q = p
      · subst hq
        rw [hx] at hy
        cases hy
        exact ⟨pc', update_same _ _ _⟩
      · exact ⟨y.pc, by rw [update_ne _ _ hq]; exact hy⟩
    · intro q y hy hr
      have hq : q ≠ p := by
        rintro rfl
        rw [hx] at hy
        cases hy
        rw [hrun] at hr
        cases hr
      rw [hp', update_ne _ _ hq, hy]
  | stop p =>
    simp only [event, Option.bind_eq_some_iff] at hs
    obtain ⟨x, hx, hs⟩ := hs
    split at hs
    · rename_i hrun
      cases hs
      obtain ⟨hi', fr⟩ := inv_goto .stopped hi hx hrun trivial
      refine ⟨hi', fun _ _ h => h, fun _ _ h => Or.inl h, fun _ _ => rfl, ?_, ?_⟩
      · intro q y hy
        by_cases hq : q = p
        · subst hq
          rw [hx] at hy
          cases hy
          exact ⟨.stopped, update_same _ _ _⟩
        · exact ⟨y.pc, by simp only [State.goto, update_ne _ _ hq]; exact hy⟩
      · intro q y hy hr
        have hq : q ≠ p := by
          rintro rfl
          rw [hx] at hy
          cases hy
          rw [hrun] at hr
          cases hr
        simp only [State.goto, update_ne _ _ hq]; exact hy
    · cases hs

/-- Everything about an execution. -/
theorem run_inv {name : Path} {ops : List Op} {s s' : State} (hi : Inv name s)
    (ha : ApartRun name ops s) (hs : run name ops s = some s') :
    Inv name s' ∧
    (∀ job c, s.file (recordPath name job) = some c → s'.file (recordPath name job) = some c) ∧
    (∀ job c, s'.file (recordPath name job) = some c → s.file (recordPath name job) = some c ∨
      ∃ p x, s'.proc p = some x ∧ x.pc = .finished true ∧
        recordPath name x.job = recordPath name job ∧ c = full x.recs) ∧
    (∀ u, (∀ job, u ≠ recordPath name job ∧ u ≠ tmpPath (recordPath name job)) →
      s'.file u = s.file u) ∧
    (∀ p x, s.proc p = some x → ∃ pc, s'.proc p = some { x with pc := pc }) ∧
    (∀ p x, s.proc p = some x → x.pc.running = false → s'.proc p = some x) := by
  induction ops generalizing s with
  | nil =>
    cases hs
    exact ⟨hi, fun _ _ h => h, fun _ _ h => Or.inl h, fun _ _ => rfl,
      fun p x h => ⟨x.pc, h⟩, fun p x h _ => h⟩
  | cons o l ih =>
    simp only [run, Option.bind_eq_some_iff] at hs
    obtain ⟨s1, h1, h2⟩ := hs
    obtain ⟨a1, a2, a3, a4, a5, a6⟩ := event_inv hi ha.1 h1
    obtain ⟨b1, b2, b3, b4, b5, b6⟩ := ih a1 (ha.2 s1 h1) h2
    refine ⟨b1, fun j c h => b2 j c (a2 j c h), ?_, fun u hu => (b4 u hu).trans (a4 u hu), ?_,
      fun p x h hr => b6 p x (a6 p x h hr) hr⟩
    · intro j c h
      rcases b3 j c h with h | h
      · rcases a3 j c h with h | ⟨p, x, h3, h4, h5⟩
        · exact Or.inl h
        · exact Or.inr ⟨p, x, b6 p x h3 (by rw [h4]; rfl), h4, h5⟩
      · exact Or.inr h
    · intro p x h
      obtain ⟨pc, h⟩ := a5 p x h
      obtain ⟨pc', h⟩ := b5 p _ h
      exact ⟨pc', h⟩

/-- C78: a record which exists is complete. In every execution in which two processes with the same
record do not run at the same time, with stops at any moment, a record has the contents it had at
the beginning or those of a process with that record which has ended: the header and all its
variables. -/
theorem c78_complete_partial {name : Path} {ops : List Op} {s s' : State} (h0 : Start s)
    (ha : ApartRun name ops s) (hs : run name ops s = some s') (job : Int) (c : List Byte)
    (hc : s'.file (recordPath name job) = some c) :
    s.file (recordPath name job) = some c ∨
      ∃ p x, s'.proc p = some x ∧ x.pc = .finished true ∧
        recordPath name x.job = recordPath name job ∧ c = full x.recs :=
  (run_inv h0.inv ha hs).2.2.1 job c hc

theorem run_append {name : Path} {a b : List Op} {s s' : State} (h : run name a s = some s') :
    run name (a ++ b) s = run name b s' := by
  induction a generalizing s with
  | nil => cases h; rfl
  | cons o l ih =>
    simp only [run, Option.bind_eq_some_iff] at h
    obtain ⟨s1, h1, h2⟩ := h
    simp only [List.cons_append, run, h1, Option.bind_some]
    exact ih h2

theorem apartRun_append {name : Path} {a b : List Op} {s s' : State} (h : run name a s = some s') :
    ApartRun name (a ++ b) s → ApartRun name a s ∧ ApartRun name b s' := by
  induction a generalizing s with
  | nil => cases h; exact fun hb => ⟨trivial, hb⟩
  | cons o l ih =>
    intro hab
    simp only [run, Option.bind_eq_some_iff] at h
    obtain ⟨s1, h1, h2⟩ := h
    refine ⟨⟨hab.1, fun s2 h => ?_⟩, (ih h2 (hab.2 s1 h1)).2⟩
    rw [h1] at h
    cases h
    exact (ih h2 (hab.2 s1 h1)).1

/-- C78: a record which exists at some moment is the same ever after. -/
theorem c78_kept_partial {name : Path} {ops later : List Op} {s s1 s2 : State} (h0 : Start s)
    (ha : ApartRun name (ops ++ later) s) (h1 : run name ops s = some s1)
    (h2 : run name (ops ++ later) s = some s2) (job : Int) (c : List Byte)
    (hc : s1.file (recordPath name job) = some c) : s2.file (recordPath name job) = some c := by
  obtain ⟨ha1, ha2⟩ := apartRun_append h1 ha
  rw [run_append h1] at h2
  exact (run_inv (run_inv h0.inv ha1 h1).1 ha2 h2).2.1 job c hc

/-- C78: no process is aborted; one which ends has its record in the dataset, and what it has
written can be read. -/
theorem c78_saved_partial {name : Path} {ops : List Op} {s s' : State} (h0 : Start s)
    (ha : ApartRun name ops s) (hs : run name ops s = some s') (p : Nat) (x : Proc)
    (hx : s'.proc p = some x) :
    x.pc ≠ .aborted ∧
    (x.pc = .finished true → s'.file (recordPath name x.job) = some (full x.recs) ∧
      ((∀ r ∈ x.recs, ValueOk r.1 ∧ NameOk r.2) →
        (openIn (s'.file (recordPath name x.job)) >>= loadAll (x.recs.map fun r => (r.1.kind, r.2)))
          = .ok (x.recs.map fun r => same r.1, ⟨[], false⟩))) ∧
    (x.pc = .finished false → recordExists name s' x.job = true) := by
  have hok := (run_inv h0.inv ha hs).1.ok p x hx
  obtain ⟨job, recs, pc⟩ := x
  refine ⟨?_, ?_, ?_⟩
  · rintro rfl
    exact hok
  · rintro rfl
    have hf : s'.file (recordPath name job) = some (full recs) := hok
    refine ⟨hf, fun hr => ?_⟩
    have := c42_round_trip_partial recs hr []
    rw [List.append_nil] at this
    simp only
    rw [hf]
    exact this
  · rintro rfl
    obtain ⟨c, hc⟩ : ∃ c, s'.file (recordPath name job) = some c := hok
    obtain ⟨i, hi, _⟩ := file_some hc
    simp only [recordExists]
    rw [hi]
    rfl

/-- C78: files which are not in the dataset are not changed. -/
theorem c78_others_partial {name : Path} {ops : List Op} {s s' : State} (h0 : Start s)
    (ha : ApartRun name ops s) (hs : run name ops s = some s') (u : Path)
    (hu : ∀ job, u ≠ recordPath name job ∧ u ≠ tmpPath (recordPath name job)) :
    s'.file u = s.file u := (run_inv h0.inv ha hs).2.2.2.1 u hu

/-- Bound for the number of steps a process has before it. -/
def left (x : Proc) : Nat :=
  let n := (full x.recs).length
  match x.pc with
  | .checkBase => n + 16
  | .makeDir => n + 15
  | .checkDir => n + 14
  | .checkRecord => n + 13
  | .unlinkTmp => n + 12
  | .checkTmp => n + 11
  | .openTmp _ => n + 10
  | .write _ rest => rest.length + 7
  | .closing => 6
  | .checkDest => 5
  | .unlinkDest => 4
  | .checkOrig => 3
  | .rename => 2
  | .finished _ | .aborted | .stopped => 0

theorem step_left {name : Path} {s : State} {p : Nat} {x : Proc} (h : x.pc.running = true) :
    ∃ s' pc, step name s p x = some s' ∧ s'.proc p = some { x with pc := pc } ∧
      left { x with pc := pc } < left x := by
  obtain ⟨job, recs, pc⟩ := x
  have hn : (full recs).length = header.length + (dumpAll recs).length := by
    rw [full, List.length_append]
  cases pc with
  | write i rest =>
    cases rest <;> exact ⟨_, _, rfl, update_same _ _ _, by simp [left]⟩
  | checkBase =>
    simp only [step]
    split <;> exact ⟨_, _, rfl, update_same _ _ _, by simp [left]⟩
  | openTmp e =>
    simp only [step]
    split
    · exact ⟨_, _, rfl, update_same _ _ _, by simp [left]⟩
    · split
      · exact ⟨_, _, rfl, update_same _ _ _, by
          cases e <;> simp [left, hn]
          omega⟩
      · exact ⟨_, _, rfl, update_same _ _ _, by
          cases e <;> simp [left, hn]
          omega⟩
  | finished w => cases h
  | aborted => cases h
  | stopped => cases h
  | makeDir => exact ⟨_, _, rfl, update_same _ _ _, by simp [left]⟩
  | unlinkTmp => exact ⟨_, _, rfl, update_same _ _ _, by simp [left]⟩
  | checkTmp => exact ⟨_, _, rfl, update_same _ _ _, by simp [left]⟩
  | _ =>
    simp only [step]
    split <;> exact ⟨_, _, rfl, update_same _ _ _, by simp [left]⟩

theorem apartRun_steps (name : Path) (n p : Nat) (s : State) :
    ApartRun name (List.replicate n (.step p)) s := by
  induction n generalizing s with
  | zero => trivial
  | succ n ih => exact ⟨trivial, fun s' _ => ih s'⟩

/-- C78: a process which is not stopped ends, with its record in the dataset. -/
theorem c78_ends_partial {name : Path} {s : State} {ops : List Op} {s1 : State} (h0 : Start s)
    (ha : ApartRun name ops s) (hs : run name ops s = some s1) {p : Nat} {x : Proc}
    (hx : s1.proc p = some x) (hrun : x.pc.running = true) :
    ∃ n s2 w, n ≤ left x ∧ run name (List.replicate n (.step p)) s1 = some s2 ∧
      s2.proc p = some { x with pc := .finished w } ∧ recordExists name s2 x.job = true := by
  have hinv := (run_inv h0.inv ha hs).1
  clear ha hs h0 ops s
  induction hk : left x using Nat.strongRecOn generalizing s1 x with
  | ind k ih =>
    subst hk
    obtain ⟨s', pc, e1, e2, e3⟩ := step_left (name := name) (s := s1) (p := p) hrun
    have hinv' := (step_inv hinv hx e1).1
    by_cases hr : pc.running = true
    · obtain ⟨n, s2, w, hn, h1, h2, h3⟩ := ih _ e3 e2 hr hinv' rfl
      refine ⟨n + 1, s2, w, by omega, ?_, h2, h3⟩
      rw [List.replicate_succ, run, event, hx, Option.bind_some, e1, Option.bind_some, h1]
    · have hok := hinv'.ok p _ e2
      cases pc with
      | finished w =>
        refine ⟨1, s', w, by omega, ?_, e2, ?_⟩
        · rw [List.replicate_succ, run, event, hx, Option.bind_some, e1]; rfl
        · obtain ⟨c, hc⟩ : ∃ c, s'.file (recordPath name x.job) = some c := by
            cases w with
            | true => exact ⟨_, hok⟩
            | false => exact hok
          obtain ⟨i, hi, _⟩ := file_some hc
          rw [recordExists, hi]; rfl
      | aborted => exact hok.elim
      | stopped =>
        exfalso
        obtain ⟨job, recs, pc⟩ := x
        have e4 : s'.proc p ≠ some ⟨job, recs, .stopped⟩ := by
          cases pc <;> simp only [step] at e1 <;> (try split at e1) <;> (try split at e1) <;>
            first
            | (cases e1; intro h; simp [State.goto, update] at h)
            | simp_all
        exact e4 e2
      | _ => exact absurd rfl hr

/-! Two processes with the same job -/

/-- An empty file system. -/
def empty : State := ⟨.none, fun _ => none, fun _ => [], 0, fun _ => none⟩

theorem empty_start : Start empty := by
  refine ⟨?_, ?_, ?_, fun _ => rfl⟩
  · intro u i h; cases h
  · intro u v i h; cases h
  · intro h; cases h

set_option maxRecDepth 20000 in
/-- One process with one job, from the beginning to the end. -/
example : ∃ s, run [100] (.start 0 5 [] :: List.replicate (header.length + 12) (.step 0)) empty = some s ∧
    s.file (recordPath [100] 5) = some header ∧ recordPath [100] 5 = [100, 47, 53] :=
  ⟨_, rfl, rfl, rfl⟩

set_option maxRecDepth 20000 in
/-- C78 is false for two processes with the same job: the second one deletes the temporary file of
the first, and the first one gives the name of the record to the file of the second, which is
empty. If the second is stopped, the empty record stays and the job is never done again. -/
theorem c78_negation_incomplete :
    ∃ ops s, run [100] ops empty = some s ∧ s.file (recordPath [100] 0) = some [] ∧
      (s.proc 0).map (·.pc) = some (.finished true) ∧ (s.proc 1).map (·.pc) = some .stopped :=
  ⟨.start 0 0 [] :: .start 1 0 [] :: List.replicate (7 + header.length) (.step 0) ++
    List.replicate 5 (.step 1) ++ List.replicate 5 (.step 0) ++ [.stop 1], _, rfl, rfl, rfl, rfl⟩

set_option maxRecDepth 20000 in
/-- C78 is false for two processes with the same job: a complete record is deleted by the second,
and if this is stopped it is lost. -/
theorem c78_negation_lost :
    ∃ ops later s1 s2, run [100] ops empty = some s1 ∧ s1.file (recordPath [100] 0) = some header ∧
      run [100] (ops ++ later) empty = some s2 ∧ s2.file (recordPath [100] 0) = none ∧
      (s2.proc 0).map (·.pc) = some (.finished true) :=
  ⟨.start 0 0 [] :: .start 1 0 [] :: List.replicate 4 (.step 0) ++ List.replicate 2 (.step 1) ++
    List.replicate (8 + header.length) (.step 0),
    List.replicate (7 + header.length) (.step 1) ++ [.stop 1], _, _, rfl, rfl, rfl, rfl, rfl⟩

end Verif.Dataset
