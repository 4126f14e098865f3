import Verif.Spec.Arpack
import Verif.Lemmas.SliceMat
import Mathlib.Tactic.Ring
import Mathlib.Tactic.Linarith
import Mathlib.Data.Real.Basic
/-
C74: the objects RArpack and CArpack.
-/
namespace Verif.Arpack

open Verif Tensor View Spec Svd

variable {L α β : Type}

/-- The types of eigenvalue that the constructor takes. -/
def ValidType (complex : Bool) (t : Int) : Prop := 0 ≤ t ∧ t ≤ 5 ∧ (complex = false → t ≤ 3)

/-- The constructor prepares a first call that the manual allows, of the type that was asked for. -/
theorem c74_construct [Neg β] [One β] (complex : Bool) (junk : Nat → α) {n nev : Nat} {t : Int}
    (ht : ValidType complex t) (h0 : 0 < nev) (hn : nev < n) :
    ∃ o : Obj α β, construct complex junk n t nev = .ok o ∧ o.status = .initialized ∧ o.args.n = n ∧
      o.args.nev = nev ∧ meaning o.args.which = some t ∧ FirstCall complex o.args o.work ∧
      o.work.info = 0 ∧ o.work.iparam[2]? = some (o.maxit : Int) ∧ 300 ≤ o.maxit ∧
      2 * n ≤ o.maxit * o.args.ncv := by
  have hmax : 0 < max (2 * nev) 20 := by omega
  have hm : 2 * n ≤ max 300 ((2 * n + max (min (max (2 * nev) 20) n) 1 - 1) / max (min (max (2 * nev) 20) n) 1)
      * min (max (2 * nev) 20) n := by
    obtain ⟨c, hc⟩ : ∃ c, c = min (max (2 * nev) 20) n := ⟨_, rfl⟩
    rw [← hc]
    have hc0 : 0 < c := by omega
    rw [show max c 1 = c by omega]
    refine le_trans ?_ (Nat.mul_le_mul_right c (le_max_right _ _))
    have := Nat.div_add_mod (2 * n + c - 1) c
    have h2 := Nat.mod_lt (2 * n + c - 1) hc0
    rw [Nat.mul_comm] at this
    omega
  obtain ⟨t0, t5, t3⟩ := ht
  have hw : ∃ s, (whichs complex)[t.toNat]? = some s ∧ meaning s = some t ∧ whichOf complex s := by
    cases complex
    · have := t3 rfl
      obtain rfl | rfl | rfl | rfl : t = 0 ∨ t = 1 ∨ t = 2 ∨ t = 3 := by omega
      all_goals exact ⟨_, rfl, rfl, by simp [whichOf]⟩
    · obtain rfl | rfl | rfl | rfl | rfl | rfl : t = 0 ∨ t = 1 ∨ t = 2 ∨ t = 3 ∨ t = 4 ∨ t = 5 := by omega
      all_goals exact ⟨_, rfl, rfl, by simp [whichOf]⟩
  obtain ⟨s, hs, hs1, hs2⟩ := hw
  unfold construct
  rw [if_neg (by rintro ⟨rfl, h⟩; have := t3 rfl; omega), if_neg (by omega), hs]
  dsimp only
  rw [if_neg (by omega)]
  refine ⟨_, rfl, rfl, rfl, rfl, hs1, ?_, rfl, rfl, le_max_left _ _, hm⟩
  · refine ⟨rfl, h0, ?_, ?_, hs2, ?_, rfl, ⟨_, ?_, rfl⟩, rfl, rfl, ?_, ?_, ?_, ?_, ?_, ?_⟩
    all_goals simp
    · omega
    · cases complex
      · simp only [Bool.false_eq_true, if_false]
        exact le_of_eq (by ring)
      · simp only [if_true]
        exact le_of_eq (by ring)
    · cases complex <;> simp
    · omega

/-- Otherwise it ends the program, except for the value 6 of the type. -/
theorem c74_refused [Neg β] [One β] (complex : Bool) (junk : Nat → α) {n nev : Nat} {t : Int} (h6 : t ≠ 6)
    (h : ¬ ValidType complex t ∨ nev = 0 ∨ n ≤ nev) :
    (construct complex junk n t nev : Res (Obj α β)) = .abort := by
  unfold construct
  split
  · rfl
  split
  · rfl
  rename_i h1 h2
  have ht : ValidType complex t := by
    refine ⟨by omega, by omega, fun hc => ?_⟩
    by_contra h4
    exact h1 ⟨hc, by omega⟩
  split
  · rename_i hw
    exfalso
    rw [List.getElem?_eq_none_iff] at hw
    obtain ⟨t0, t5, t3⟩ := ht
    cases complex
    · have := t3 rfl
      simp [whichs] at hw
      omega
    · simp [whichs] at hw
      omega
  · rw [if_pos (by rcases h with h | h | h
                   · exact absurd ht h
                   · exact Or.inl h
                   · right; omega)]

/-- A negation: the value 6, which is not one of the enumeration's, is let through, and the array is read
after its end. -/
theorem c74_negation_type [Neg β] [One β] (complex : Bool) (junk : Nat → α) (n nev : Nat) :
    (construct complex junk n 6 nev : Res (Obj α β)) = .ub := by
  cases complex <;> rfl

/-- A negation: znaupd demands 0 < NEV < N - 1, znaupd.f:101, and the constructor lets NEV = N - 1. -/
theorem c74_negation_nev [Neg β] [One β] (junk : Nat → α) : ∃ o : Obj α β,
    construct true junk 5 0 4 = .ok o ∧ ¬ (o.args.nev : Int) < (o.args.n : Int) - 1 :=
  ⟨_, rfl, by simp⟩

/-- A negation: error_message() returns a pointer that was not set, if there was no error. -/
theorem c74_negation_message [Neg β] [One β] (junk : Nat → α) : ∃ o : Obj α β,
    construct true junk 5 0 1 = .ok o ∧ errorMessage o = .ub :=
  ⟨_, rfl, rfl⟩

theorem readN_ok {a : List α} {p n : Nat} (h : p + n ≤ a.length) : ∃ v, readN a p n = .ok v ∧ v.length = n ∧
    ∀ i < n, a[p + i]? = v[i]? := by
  refine ⟨_, if_pos h, ?_, fun i hi => ?_⟩
  · rw [List.length_take, List.length_drop]
    omega
  · rw [List.getElem?_take, if_pos hi, List.getElem?_drop]

theorem writeN_ok {a v : List α} {q : Nat} (h : q + v.length ≤ a.length) : ∃ b, writeN a q v = .ok b ∧
    b.length = a.length ∧ (∀ i < v.length, b[q + i]? = v[i]?) ∧
    ∀ j, j < q ∨ q + v.length ≤ j → b[j]? = a[j]? := by
  have hl : (a.take q).length = q := by rw [List.length_take]; omega
  refine ⟨_, if_pos h, ?_, fun i hi => ?_, fun j hj => ?_⟩
  · simp only [List.length_append, List.length_take, List.length_drop]
    omega
  · rw [List.append_assoc, List.getElem?_append_right (by omega), hl, Nat.add_sub_cancel_left,
      List.getElem?_append_left hi]
  · rw [List.append_assoc]
    rcases hj with hj | hj
    · rw [List.getElem?_append_left (by omega), List.getElem?_take, if_pos hj]
    · rw [List.getElem?_append_right (by omega), hl, List.getElem?_append_right (by omega), List.getElem?_drop]
      congr 1
      omega

theorem pointer_ok {o : Obj α β} {k p : Nat} (hs : o.status = .running)
    (hp : o.work.ipntr[k]? = some ((p : Int) + 1)) (hw : p ≤ o.work.workd.length) : pointer o k = .ok p := by
  rw [pointer, if_neg (by simp [hs]), hp]
  simp only [Res.ofOption_some, Res.ok_bind]
  rw [if_neg (by omega)]
  congr 1
  omega

/-- The request that the library has left in an object. -/
structure Request (o : Obj α β) (p q : Nat) : Prop where
  running : o.status = .running
  x : o.work.ipntr[0]? = some ((p : Int) + 1)
  y : o.work.ipntr[1]? = some ((q : Int) + 1)
  workd : o.work.workd.length = 3 * o.args.n
  x_le : p + o.args.n ≤ 3 * o.args.n
  y_le : q + o.args.n ≤ 3 * o.args.n
  apart : p + o.args.n ≤ q ∨ q + o.args.n ≤ p

theorem getX_ok {o : Obj α β} {p q : Nat} (h : Request o p q) : ∃ x, getX o = .ok ⟨[o.args.n], x⟩ ∧
    x.length = o.args.n ∧ ∀ i < o.args.n, o.work.workd[p + i]? = x[i]? := by
  have h1 := h.x_le
  have h2 := h.workd
  obtain ⟨x, e1, e2, e3⟩ := readN_ok (a := o.work.workd) (p := p) (n := o.args.n) (by omega)
  refine ⟨x, ?_, e2, e3⟩
  rw [getX, pointer_ok h.running h.x (by omega), Res.ok_bind, e1, Res.ok_bind]

theorem setY_ok {o : Obj α β} {p q : Nat} (h : Request o p q) {y : List α} (hy : o.args.n ≤ y.length) :
    ∃ workd, setY o y = .ok { o with work := { o.work with workd := workd } } ∧
      workd.length = o.work.workd.length ∧ (∀ i < o.args.n, workd[q + i]? = y[i]?) ∧
      ∀ j, j < q ∨ q + o.args.n ≤ j → workd[j]? = o.work.workd[j]? := by
  have h1 := h.y_le
  have h2 := h.workd
  obtain ⟨v, v1, v2, v3⟩ := readN_ok (a := y) (p := 0) (n := o.args.n) (by omega)
  obtain ⟨b, b1, b2, b3, b4⟩ := writeN_ok (a := o.work.workd) (v := v) (q := q) (by omega)
  refine ⟨b, ?_, b2, fun i hi => ?_, fun j hj => b4 j (by omega)⟩
  · rw [setY, pointer_ok h.running h.y (by omega), Res.ok_bind, v1, Res.ok_bind, b1, Res.ok_bind]
  · rw [b3 i (by omega), ← v3 i hi, Nat.zero_add]

/-- After an answer the array has the same size. -/
theorem Answered.size {a : Args} {ans : List α → List α → Prop} {w w' : Work α β} (h : Answered a ans w w')
    (hw : w.workd.length = 3 * a.n) (hq : ∀ q : Nat, w.ipntr[1]? = some ((q : Int) + 1) → q + a.n ≤ 3 * a.n) :
    w'.workd.length = 3 * a.n := by
  obtain ⟨p, q, x, y, -, hq1, -, hy, -, -, h1, h2, -⟩ := h
  have hq := hq q hq1
  have hsome : ∀ j, w'.workd[j]?.isSome ↔ j < 3 * a.n := by
    intro j
    by_cases hj : j < q ∨ q + a.n ≤ j
    · rw [h2 j hj, ← hw]
      simp
    · have := h1 (j - q) (by omega)
      rw [show q + (j - q) = j by omega] at this
      rw [this, List.getElem?_eq_getElem (by omega)]
      simp
      omega
  have h3 : ∀ j, j < w'.workd.length ↔ j < 3 * a.n := fun j => by rw [← hsome]; simp
  have h4 := h3 (3 * a.n)
  have h5 := h3 w'.workd.length
  omega

/-- The methods of an object, as a user calls them. -/
inductive Call (α β : Type) where
  | update
  | getX
  | setY (y : List α)
  | setStartVector (v : List α)
  | setRandomStartVector
  | setTolerance (tol : β)
  | setMaxiter (m : Nat)

/-- One call; get_x changes nothing. -/
def step (lib : Lib L α β) (s : L × Obj α β) : Call α β → Res (L × Obj α β)
  | .update => Arpack.update lib s.1 s.2
  | .getX => do let _ ← Arpack.getX s.2; .ok s
  | .setY y => do let o ← Arpack.setY s.2 y; .ok (s.1, o)
  | .setStartVector v => do let o ← Arpack.setStartVector s.2 v; .ok (s.1, o)
  | .setRandomStartVector => .ok (s.1, Arpack.setRandomStartVector s.2)
  | .setTolerance tol => do let o ← Arpack.setTolerance s.2 tol; .ok (s.1, o)
  | .setMaxiter m => do let o ← Arpack.setMaxiter s.2 m; .ok (s.1, o)

/-- A sequence of calls. -/
def runCalls (lib : Lib L α β) : L × Obj α β → List (Call α β) → Res (L × Obj α β)
  | s, [] => .ok s
  | s, c :: cs => do let s ← step lib s c; runCalls lib s cs

/-- What the documentation asks of the arguments: vectors have n elements, and a number of iterations is
positive. -/
def Call.Proper (n : Nat) : Call α β → Prop
  | .setY y => n ≤ y.length
  | .setStartVector v => n ≤ v.length
  | .setMaxiter m => 0 < m
  | _ => True

/-- set_random_start_vector() is called before the first update(). -/
def RandomFirst : List (Call α β) → Prop
  | [] => True
  | .update :: cs => ∀ c ∈ cs, c ≠ .setRandomStartVector
  | _ :: cs => RandomFirst cs

/-- Any answer. -/
def anything : List α → List α → Prop := fun _ _ => True

/-- The states that an object can have, when the library was in the state l0. -/
inductive State (complex : Bool) (lib : Lib L α β) (a : Args) (l0 : L) : L × Obj α β → Prop
  | initialized {o : Obj α β} : o.args = a → o.status = .initialized → FirstCall complex a o.work →
      State complex lib a l0 (l0, o)
  | running {k : Nat} {l : L} {w0 w : Work α β} {o : Obj α β} : o.args = a → o.status = .running →
      FirstCall complex a w0 → Dialogue lib a anything l0 w0 k l w → w.ido = 1 ∨ w.ido = -1 →
      Answered a anything w o.work → State complex lib a l0 (l, o)
  | finished {k : Nat} {l : L} {w0 : Work α β} {o : Obj α β} : o.args = a → o.status = .finished →
      FirstCall complex a w0 → Dialogue lib a anything l0 w0 k l o.work → o.work.ido = 99 →
      o.work.info = 0 → State complex lib a l0 (l, o)
  | failed {l : L} {o : Obj α β} : o.args = a → o.status.code > Status.finished.code → o.error.isSome →
      State complex lib a l0 (l, o)

/-- What is in the place for y is an answer. -/
theorem answered_self {a : Args} {w : Work α β} {p q : Nat} (h1 : w.ipntr[0]? = some ((p : Int) + 1))
    (h2 : w.ipntr[1]? = some ((q : Int) + 1)) (hp : p + a.n ≤ w.workd.length)
    (hq : q + a.n ≤ w.workd.length) : Answered a anything w w := by
  obtain ⟨x, -, x2, x3⟩ := readN_ok hp
  obtain ⟨y, -, y2, y3⟩ := readN_ok hq
  exact ⟨p, q, x, y, h1, h2, x2, y2, x3, trivial, y3, fun _ _ => rfl, rfl⟩

theorem afterCall_state {complex : Bool} {lib : Lib L α β} {a : Args} {l0 l : L} {k : Nat} {w0 w : Work α β}
    (hm : Obeys complex lib anything a l0 w0) (hf : FirstCall complex a w0)
    (hd : Dialogue lib a anything l0 w0 k l w) {o : Obj α β} (ho : o.args = a) (hw : o.work = w) :
    afterCall o = .abort ∨ ∃ o', afterCall o = .ok o' ∧ State complex lib a l0 (l, o') := by
  subst hw
  rw [afterCall]
  split
  · rename_i h99
    split
    · exact .inr ⟨_, rfl, .failed ho (by simp [Status.code]) rfl⟩
    split
    · exact .inr ⟨_, rfl, .failed ho (by simp [Status.code]) rfl⟩
    split
    · exact .inl rfl
    · exact .inr ⟨_, rfl, .finished ho rfl hf hd h99 (by show o.work.info = 0; omega)⟩
  · split
    · exact .inr ⟨_, rfl, .failed ho (by simp [Status.code]) rfl⟩
    · rename_i h1
      have hido : o.work.ido = 1 ∨ o.work.ido = -1 := by omega
      obtain ⟨p, q, p1, q1, p2, q2, -⟩ := hm.pointers _ _ _ hd hido
      have := hm.workd_size _ _ _ hd
      exact .inr ⟨_, rfl, .running ho rfl hf hd hido (answered_self p1 q1 (by omega) (by omega))⟩

theorem update_state {complex : Bool} {lib : Lib L α β} (hm : Manual complex lib anything) {a : Args} {l0 : L}
    {s : L × Obj α β} (h : State complex lib a l0 s) :
    update lib s.1 s.2 = .abort ∨ ∃ s', update lib s.1 s.2 = .ok s' ∧ State complex lib a l0 s' := by
  cases h with
  | @initialized o ho hs hf =>
    rw [update, if_neg (by simp [hs]), if_neg (by simp [hs, Status.code])]
    have hd := Dialogue.first (lib := lib) (a := a) (ans := anything) (l0 := l0) (w0 := o.work)
    rcases afterCall_state (hm _ l0 _ hf) hf hd
      (o := { o with work := (lib.aupd l0 o.args o.work).2 }) ho (by rw [ho]) with h | ⟨o', h, h'⟩
    · simp only [h]
      exact .inl rfl
    · simp only [h]
      rw [← ho] at h'
      exact .inr ⟨_, rfl, by rw [← ho]; exact h'⟩
  | @running k l w0 w o ho hs hf hd hi ha =>
    rw [update, if_neg (by simp [hs, Status.code]), if_neg (by simp [hs])]
    have hd := Dialogue.next hd hi ha
    rcases afterCall_state (hm _ l0 _ hf) hf hd
      (o := { o with work := (lib.aupd l o.args o.work).2 }) ho (by rw [ho]) with h | ⟨o', h, h'⟩
    · simp only [h]
      exact .inl rfl
    · simp only [h]
      rw [← ho] at h'
      exact .inr ⟨_, rfl, by rw [← ho]; exact h'⟩
  | @finished k l w0 o ho hs hf hd h99 hi =>
    rw [update, if_neg (by simp [hs, Status.code]), if_pos (by simp [hs, Status.code])]
    exact .inr ⟨_, rfl, .failed ho (by simp [Status.code]) rfl⟩
  | @failed l o ho hs he =>
    rw [update, if_neg (by simp [Status.code] at hs ⊢; omega), if_pos (by simp [Status.code] at hs ⊢; omega)]
    exact .inr ⟨_, rfl, .failed ho (by simp [Status.code]) rfl⟩

theorem request_of {complex : Bool} {lib : Lib L α β} {ans : List α → List α → Prop} {l0 l : L}
    {w0 w : Work α β} {o : Obj α β} {k : Nat} (hm : Obeys complex lib ans o.args l0 w0)
    (hs : o.status = .running) (hd : Dialogue lib o.args ans l0 w0 k l w) (hi : w.ido = 1 ∨ w.ido = -1)
    (ha : o.work = w ∨ Answered o.args ans w o.work) : ∃ p q, Request o p q ∧
      w.ipntr[0]? = some ((p : Int) + 1) ∧ w.ipntr[1]? = some ((q : Int) + 1) := by
  obtain ⟨p, q, p1, q1, p2, q2, pq⟩ := hm.pointers _ _ _ hd hi
  have hsz := hm.workd_size _ _ _ hd
  refine ⟨p, q, ?_, p1, q1⟩
  rcases ha with rfl | ha
  · exact ⟨hs, p1, q1, hsz, p2, q2, pq⟩
  · have hsz' := Answered.size ha hsz (fun q' h => by rw [q1] at h; simp at h; omega)
    obtain ⟨-, -, -, -, -, -, -, -, -, -, -, -, hw⟩ := ha
    exact ⟨hs, by rw [hw]; exact p1, by rw [hw]; exact q1, hsz', p2, q2, pq⟩

/-- Every call keeps the states, or ends the program. -/
theorem step_state {complex : Bool} {lib : Lib L α β} (hm : Manual complex lib anything) {a : Args} {l0 : L}
    {s : L × Obj α β} (h : State complex lib a l0 s) {c : Call α β} (hc : c.Proper a.n)
    (hr : c = .setRandomStartVector → s.2.status ≠ .running) :
    step lib s c = .abort ∨ ∃ s', step lib s c = .ok s' ∧ State complex lib a l0 s' ∧
      (c ≠ .update → s'.2.status = s.2.status) := by
  cases c with
  | update =>
    rcases update_state hm h with h | ⟨s', h, h'⟩
    · exact .inl h
    · exact .inr ⟨s', h, h', fun h => absurd rfl h⟩
  | getX =>
    by_cases hs : s.2.status = .running
    · have h' := h
      cases h with
      | @running k l w0 w o ho hs hf hd hi ha =>
        subst ho
        obtain ⟨p, q, hq, -⟩ := request_of (hm _ l0 _ hf) hs hd hi (.inr ha)
        obtain ⟨x, e, -⟩ := getX_ok hq
        refine .inr ⟨_, ?_, h', fun _ => rfl⟩
        simp only [step, e, Res.ok_bind]
      | initialized _ h => exact absurd (hs.symm.trans h) (by decide)
      | finished _ h => exact absurd (hs.symm.trans h) (by decide)
      | failed _ h => exact absurd h (by rw [show Obj.status _ = _ from hs]; decide)
    · left
      simp [step, Arpack.getX, pointer, hs]
  | setY y =>
    by_cases hs : s.2.status = .running
    · cases h with
      | @running k l w0 w o ho hs hf hd hi ha =>
        subst ho
        obtain ⟨p, q, hq, p1, q1⟩ := request_of (hm _ l0 _ hf) hs hd hi (.inr ha)
        obtain ⟨wd, e1, e2, e3, e4⟩ := setY_ok hq (y := y) hc
        refine .inr ⟨(l, { o with work := { o.work with workd := wd } }), ?_,
          .running (w0 := w0) (w := w) (k := k) rfl hs hf hd hi ?_, fun _ => rfl⟩
        · simp only [step, e1, Res.ok_bind]
        · obtain ⟨p', q', x, y', p1', q1', x1, y1, x2, -, y2, y3, hw⟩ := ha
          have hqq : q' = q := by rw [q1] at q1'; simp at q1'; omega
          subst hqq
          refine ⟨p', q', x, y.take o.args.n, p1', q1', x1, ?_, x2, trivial, ?_, ?_, ?_⟩
          · simp only [Call.Proper] at hc
            simp [List.length_take, hc]
          · intro i hi
            rw [e3 i hi, List.getElem?_take, if_pos hi]
          · intro j hj
            rw [e4 j hj, y3 j hj]
          · show ({ o.work with workd := wd } : Work α β) = _
            rw [hw]
      | initialized _ h => exact absurd (hs.symm.trans h) (by decide)
      | finished _ h => exact absurd (hs.symm.trans h) (by decide)
      | failed _ h => exact absurd h (by rw [show Obj.status _ = _ from hs]; decide)
    · left
      simp [step, Arpack.setY, pointer, hs]
  | setStartVector v =>
    cases h with
    | @initialized o ho hs hf =>
      simp only [Call.Proper] at hc
      refine .inr ⟨(l0, { o with work := { o.work with info := 1, resid := v.take o.args.n } }), ?_,
        .initialized ho hs ?_, fun _ => rfl⟩
      · simp only [step, Arpack.setStartVector]
        rw [if_neg (by simp [hs, Status.code]), if_neg (by rw [ho]; omega)]
        rfl
      · exact { hf with resid_size := by simp [List.length_take, ho, hc] }
    | running ho hs => left; simp [step, Arpack.setStartVector, hs]
    | finished ho hs => left; simp [step, Arpack.setStartVector, hs, Status.code]
    | failed ho hs =>
      left
      simp only [step, Arpack.setStartVector]
      rw [if_pos (by simp only [Status.code] at hs ⊢; omega)]
      rfl
  | setRandomStartVector =>
    have hr := hr rfl
    refine .inr ⟨_, rfl, ?_, fun _ => rfl⟩
    cases h with
    | @initialized o ho hs hf => exact .initialized ho hs { hf with }
    | running ho hs => exact absurd hs hr
    | @finished k l w0 o ho hs hf hd h99 h0 =>
      refine .finished (k := k) (w0 := w0) ho hs hf ?_ h99 rfl
      show Dialogue lib a anything l0 w0 k l { o.work with info := 0 }
      rw [← h0]
      exact hd
    | failed ho hs he => exact .failed ho hs he
  | setTolerance tol =>
    cases h with
    | @initialized o ho hs hf =>
      refine .inr ⟨(l0, { o with work := { o.work with tol := tol } }), ?_, .initialized ho hs { hf with },
        fun _ => rfl⟩
      simp only [step, Arpack.setTolerance]
      rw [if_neg (by simp [hs, Status.code])]
      rfl
    | running ho hs => left; simp [step, Arpack.setTolerance, hs]
    | finished ho hs => left; simp [step, Arpack.setTolerance, hs, Status.code]
    | failed ho hs =>
      left
      simp only [step, Arpack.setTolerance]
      rw [if_pos (by simp only [Status.code] at hs ⊢; omega)]
      rfl
  | setMaxiter m =>
    cases h with
    | @initialized o ho hs hf =>
      refine .inr ⟨(l0, { o with
        maxit := m
        work := { o.work with iparam := o.work.iparam.set 2 m } }), ?_, .initialized ho hs ?_, fun _ => rfl⟩
      · simp only [step, Arpack.setMaxiter]
        rw [if_neg (by simp [hs, Status.code])]
        rfl
      · have hl := hf.iparam_size
        exact { hf with
          shifts := by
            have := hf.shifts
            simpa [List.getElem?_set] using this
          maxiter := ⟨m, by simpa [Call.Proper] using hc, by
            show (o.work.iparam.set 2 (m : Int))[2]? = _
            rw [List.getElem?_set_self (by omega)]⟩
          block := by
            have := hf.block
            simpa [List.getElem?_set] using this
          mode := by
            have := hf.mode
            simpa [List.getElem?_set] using this
          iparam_size := by simpa using hl }
    | running ho hs => left; simp [step, Arpack.setMaxiter, hs]
    | finished ho hs => left; simp [step, Arpack.setMaxiter, hs, Status.code]
    | failed ho hs =>
      left
      simp only [step, Arpack.setMaxiter]
      rw [if_pos (by simp only [Status.code] at hs ⊢; omega)]
      rfl

theorem run_state {complex : Bool} {lib : Lib L α β} (hm : Manual complex lib anything) {a : Args} {l0 : L}
    {cs : List (Call α β)} (hc : ∀ c ∈ cs, c.Proper a.n) : ∀ {s : L × Obj α β}, State complex lib a l0 s →
    (s.2.status = .initialized ∧ RandomFirst cs) ∨ (∀ c ∈ cs, c ≠ .setRandomStartVector) →
    runCalls lib s cs = .abort ∨ ∃ s', runCalls lib s cs = .ok s' ∧ State complex lib a l0 s' := by
  induction cs with
  | nil => exact fun {s} h _ => .inr ⟨s, rfl, h⟩
  | cons c cs ih =>
    intro s h hr
    rcases step_state hm h (hc c List.mem_cons_self) (by
      rintro rfl
      rcases hr with ⟨hs, -⟩ | hr
      · simp [hs]
      · exact absurd rfl (hr _ List.mem_cons_self)) with e | ⟨s', e, h', hkeep⟩
    · left
      rw [runCalls, e, Res.abort_bind]
    · rw [runCalls, e, Res.ok_bind]
      refine ih (fun c hc' => hc c (List.mem_cons_of_mem _ hc')) h' ?_
      rcases hr with ⟨hs, hr⟩ | hr
      · by_cases hu : c = .update
        · subst hu
          exact .inr hr
        · left
          refine ⟨(hkeep hu).trans hs, ?_⟩
          cases c <;> first | exact hr | exact absurd rfl hu
      · exact .inr fun c hc' => hr c (List.mem_cons_of_mem _ hc')

theorem getData_ok {lib : Lib L α β} {l : L} {o : Obj α β} {wantV : Bool} (h0 : 0 < o.args.nev)
    (hd : (lib.eupd l wantV o.args o.work).2.2.1.length = o.args.nev + 1)
    (hi : (lib.eupd l wantV o.args o.work).2.1.info = 0) :
    Finishes (fun fuel => getData fuel lib l o wantV)
      (.ok ((lib.eupd l wantV o.args o.work).1, { o with work := (lib.eupd l wantV o.args o.work).2.1 },
        ⟨[o.args.nev], (lib.eupd l wantV o.args o.work).2.2.1.take o.args.nev⟩,
        if wantV then some ⟨[o.args.n, o.args.nev], (lib.eupd l wantV o.args o.work).2.2.2⟩ else none)) := by
  obtain ⟨D, hD⟩ : ∃ D, D = (lib.eupd l wantV o.args o.work).2.2.1 := ⟨_, rfl⟩
  rw [← hD] at hd ⊢
  have hvec : IsVec (⟨[o.args.nev + 1], D⟩ : Tensor α) (o.args.nev + 1)
      (fun i => D.getD i (D[0]'(by omega))) :=
    ⟨rfl, hd, fun i hi => by simp [List.getD, List.getElem?_eq_getElem (show i < D.length by omega)]⟩
  have hsel := sel_run (q := 0) (p := o.args.nev) (d := o.args.nev + 1) h0
  have hval := valid_run (q := 0) (p := o.args.nev) (d := o.args.nev + 1) h0 (by omega)
  rw [Nat.cast_zero, Int.zero_add] at hsel hval
  obtain ⟨s, s1, s2, s3, s4⟩ := slice_vec hvec (by omega) hval hsel
  have hs : s = ⟨[o.args.nev], D.take o.args.nev⟩ := by
    obtain ⟨sd, sx⟩ := s
    simp only [List.length_map, List.length_range] at s2 s3 s4
    subst s2
    congr 1
    refine List.ext_getElem? fun i => ?_
    by_cases hi : i < o.args.nev
    · rw [s4 i hi, List.getElem?_take, if_pos hi]
      simp [List.getD, hi, List.getElem?_eq_getElem (show i < D.length by omega)]
    · rw [List.getElem?_eq_none (by omega), List.getElem?_eq_none (by simp; omega)]
  subst hs
  unfold getData
  simp only [hi, ne_eq, not_true_eq_false, if_false, ← hD]
  exact Finishes.bind s1 (Finishes.done _)

theorem getData_abort {lib : Lib L α β} {l : L} {o : Obj α β} {wantV : Bool}
    (hi : (lib.eupd l wantV o.args o.work).2.1.info ≠ 0) :
    Finishes (fun fuel => getData fuel lib l o wantV) .abort := by
  unfold getData
  simp only [hi, ne_eq, not_false_eq_true, if_true]
  exact Finishes.done _

/-- Whatever the sequence of calls of a new object, the library is used as its manual says, and no memory
is misused; and if the object is finished, get_data returns the values, and the vectors if they were
wanted, or ends the program. The answers given with set_y need not be products. -/
theorem c74_protocol [Neg β] [One β] {complex : Bool} {lib : Lib L α β} (hm : Manual complex lib anything)
    {junk : Nat → α} {n nev : Nat} {t : Int} {o : Obj α β} (ho : construct complex junk n t nev = .ok o)
    (l0 : L) {cs : List (Call α β)} (hc : ∀ c ∈ cs, c.Proper n) (hr : RandomFirst cs) :
    runCalls lib (l0, o) cs = .abort ∨ ∃ l o', runCalls lib (l0, o) cs = .ok (l, o') ∧ o'.args = o.args ∧
      (o'.status = .initialized → l = l0 ∧ FirstCall complex o.args o'.work) ∧
      (o'.status = .running → ∃ k w0 w, FirstCall complex o.args w0 ∧
        Dialogue lib o.args anything l0 w0 k l w ∧ (w.ido = 1 ∨ w.ido = -1) ∧
        Answered o.args anything w o'.work ∧ (∃ x, getX o' = .ok ⟨[n], x⟩ ∧ x.length = n)) ∧
      (o'.status = .finished → (∃ k w0, FirstCall complex o.args w0 ∧
        Dialogue lib o.args anything l0 w0 k l o'.work ∧ o'.work.ido = 99 ∧ o'.work.info = 0) ∧
        ∀ wantV, Finishes (fun fuel => getData fuel lib l o' wantV) .abort ∨
          ∃ l' o'' d v, Finishes (fun fuel => getData fuel lib l o' wantV) (.ok (l', o'', d, v)) ∧
            d.dims = [nev] ∧ d.data.length = nev ∧ v.isSome = wantV ∧
            ∀ z ∈ v, z.dims = [n, nev] ∧ z.data.length = n * nev) ∧
      (o'.status.code > Status.finished.code → ∃ m, errorMessage o' = .ok m) := by
  have hvalid : ValidType complex t ∧ 0 < nev ∧ nev < n := by
    by_cases h6 : t = 6
    · subst h6
      rw [c74_negation_type] at ho
      cases ho
    by_contra hcon
    rw [c74_refused complex junk h6 (by
      by_contra h
      exact hcon (by
        simp only [not_or, not_not] at h
        exact ⟨h.1, by omega, by omega⟩))] at ho
    cases ho
  obtain ⟨ht, h0, hn⟩ := hvalid
  obtain ⟨o1, e1, e2, e3, e4, -, e5, -⟩ := c74_construct (β := β) complex junk ht h0 hn
  rw [ho] at e1
  cases e1
  rcases run_state hm (a := o.args) (l0 := l0) (cs := cs) (by rw [e3]; exact hc) (.initialized rfl e2 e5)
    (.inl ⟨e2, hr⟩) with h | ⟨⟨l, o'⟩, h, hst⟩
  · exact .inl h
  refine .inr ⟨l, o', h, ?_⟩
  cases hst with
  | initialized ho' hs hf =>
    exact ⟨ho', fun _ => ⟨rfl, hf⟩, fun h => absurd (hs.symm.trans h) (by decide),
      fun h => absurd (hs.symm.trans h) (by decide), fun h => absurd h (by rw [hs]; decide)⟩
  | @running k _ w0 w _ ho' hs hf hd hi ha =>
    refine ⟨ho', fun h => absurd (hs.symm.trans h) (by decide), fun _ => ⟨k, w0, w, hf, hd, hi, ha, ?_⟩,
      fun h => absurd (hs.symm.trans h) (by decide), fun h => absurd h (by rw [hs]; decide)⟩
    rw [← ho'] at hf hd ha
    obtain ⟨p, q, hq, -⟩ := request_of (hm _ l0 _ hf) hs hd hi (.inr ha)
    obtain ⟨x, x1, x2, -⟩ := getX_ok hq
    rw [ho', e3] at x1 x2
    exact ⟨x, x1, x2⟩
  | @finished k _ w0 _ ho' hs hf hd h99 hi =>
    refine ⟨ho', fun h => absurd (hs.symm.trans h) (by decide), fun h => absurd (hs.symm.trans h) (by decide),
      fun _ => ⟨⟨k, w0, hf, hd, h99, hi⟩, fun wantV => ?_⟩, fun h => absurd h (by rw [hs]; decide)⟩
    rw [← ho'] at hf hd
    by_cases he : (lib.eupd l wantV o'.args o'.work).2.1.info = 0
    · right
      refine ⟨_, _, _, _, getData_ok (by rw [ho', e4]; exact h0) ((hm _ l0 _ hf).d_size _ _ _ wantV hd h99) he,
        ?_, ?_, ?_, ?_⟩
      · simp only [ho', e4]
      · have := (hm _ l0 _ hf).d_size _ _ _ wantV hd h99
        rw [List.length_take, this, ho', e4]
        omega
      · cases wantV <;> rfl
      · cases wantV
        · simp
        · have := (hm _ l0 _ hf).z_size _ _ _ hd h99
          simp only [if_true, Option.mem_some_iff]
          rintro z rfl
          rw [ho', e3, e4] at this
          refine ⟨by rw [ho', e3, e4], ?_⟩
          rw [ho']
          exact this
    · exact .inl (getData_abort he)
  | failed ho' hs he =>
    refine ⟨ho', fun h => absurd hs (by rw [h]; decide), fun h => absurd hs (by rw [h]; decide),
      fun h => absurd hs (by rw [h]; decide), fun _ => ?_⟩
    obtain ⟨m, hm⟩ := Option.isSome_iff_exists.1 he
    exact ⟨m, by rw [errorMessage, hm]; rfl⟩

/-- The order of the calls: the settings are refused once the algorithm runs, products are exchanged only
while it runs, and after its end update() fails without calling the library. -/
theorem c74_order (lib : Lib L α β) (l : L) (o : Obj α β) :
    (o.status.code ≥ Status.running.code → ∀ v tol m, setStartVector o v = .abort ∧
      setTolerance o tol = .abort ∧ setMaxiter o m = .abort) ∧
    (o.status ≠ .running → getX o = .abort ∧ ∀ y, setY o y = .abort) ∧
    (o.status.code > Status.running.code → ∃ m, update lib l o = .ok (l, { o with
      status := .error
      error := some m })) := by
  refine ⟨fun h v tol m => ⟨if_pos h, if_pos h, if_pos h⟩, fun h => ⟨?_, fun y => ?_⟩, fun h =>
    ⟨"ARPACK: Cannot call update() after the algorithm is finished.", ?_⟩⟩
  · simp [getX, pointer, h]
  · simp [setY, pointer, h]
  · rw [update, if_neg (by simp only [Status.code] at h ⊢; omega), if_pos h]

/-- A negation: set_maxiter(0) is taken, and the next call of the library is one that it refuses. -/
theorem c74_negation_maxiter [Neg β] [One β] (junk : Nat → α) : ∃ o o' : Obj α β,
    construct true junk 5 0 1 = .ok o ∧ setMaxiter o 0 = .ok o' ∧ ¬ FirstCall true o'.args o'.work := by
  refine ⟨_, _, rfl, rfl, fun h => ?_⟩
  obtain ⟨m, hm, h⟩ := h.maxiter
  simp at h
  omega

/-- A library that asks for m products, and then leaves `info` and the arrays of `e`. Its variable is the
number of products to ask for. -/
def asker (m : Nat) (info : Int) (e : Args → Bool → List α × List α) : Lib Nat α β where
  aupd l a w :=
    let k := if w.ido = 0 then m else l
    if k = 0 then (0, { w with ido := 99, info := info })
    else (k - 1, { w with ido := 1, ipntr := (w.ipntr.set 0 1).set 1 ((a.n : Int) + 1) })
  eupd l rvec a w := (l, { w with info := 0 }, e a rvec)

theorem asker_state {m : Nat} {info : Int} {e : Args → Bool → List α × List α} {complex : Bool}
    {ans : List α → List α → Prop} {a : Args} {l0 : Nat} {w0 : Work α β} (hf : FirstCall complex a w0)
    {k l : Nat} {w : Work α β} (h : Dialogue (asker m info e) a ans l0 w0 k l w) :
    w.workd.length = 3 * a.n ∧ 2 ≤ w.ipntr.length ∧
    ((w.ido = 1 ∧ w.ipntr[0]? = some 1 ∧ w.ipntr[1]? = some ((a.n : Int) + 1) ∧ k + l = m) ∨
      (w.ido = 99 ∧ w.info = info ∧ k = m + 1)) := by
  induction h with
  | first =>
    have h1 := hf.workd_size
    have h2 : 2 ≤ w0.ipntr.length := le_trans (by cases complex <;> decide) hf.ipntr_size
    simp only [asker, hf.ido, if_true]
    by_cases hm : m = 0
    · rw [if_pos hm]
      exact ⟨h1, h2, .inr ⟨rfl, rfl, by omega⟩⟩
    · rw [if_neg hm]
      refine ⟨h1, by simpa using h2, .inl ⟨rfl, ?_, ?_, by simp only; omega⟩⟩
      · show ((w0.ipntr.set 0 1).set 1 _)[0]? = _
        rw [List.getElem?_set_ne (by omega), List.getElem?_set_self (by omega)]
      · show ((w0.ipntr.set 0 1).set 1 _)[1]? = _
        rw [List.getElem?_set_self (by simp; omega)]
  | @next k l w w' hd hi ha ih =>
    obtain ⟨h1, h2, h3⟩ := ih
    obtain ⟨hido, p1, q1, hk⟩ : w.ido = 1 ∧ w.ipntr[0]? = some 1 ∧ w.ipntr[1]? = some ((a.n : Int) + 1) ∧
        k + l = m := by
      rcases h3 with h3 | ⟨h3, -⟩
      · exact h3
      · omega
    have hsz := Answered.size ha h1 (fun q hq => by rw [q1] at hq; simp at hq; omega)
    obtain ⟨-, -, -, -, -, -, -, -, -, -, -, -, hw⟩ := ha
    have hido' : w'.ido = 1 := by rw [hw]; exact hido
    have hip' : w'.ipntr = w.ipntr := by rw [hw]
    simp only [asker, hido', if_false, show ¬ (1 : Int) = 0 by decide]
    by_cases hm : l = 0
    · rw [if_pos hm]
      exact ⟨hsz, by simpa [hip'] using h2, .inr ⟨rfl, rfl, by omega⟩⟩
    · rw [if_neg hm]
      refine ⟨hsz, by simpa [hip'] using h2, .inl ⟨rfl, ?_, ?_, by simp only; omega⟩⟩
      · show ((w'.ipntr.set 0 1).set 1 _)[0]? = _
        rw [List.getElem?_set_ne (by omega), List.getElem?_set_self (by rw [hip']; omega)]
      · show ((w'.ipntr.set 0 1).set 1 _)[1]? = _
        rw [List.getElem?_set_self (by simp [hip']; omega)]

/-- It does what the manual says. -/
theorem asker_manual {m : Nat} {info : Int} {e : Args → Bool → List α × List α} (complex : Bool)
    (ans : List α → List α → Prop) (h1 : ∀ a b, (e a b).1.length = a.nev + 1)
    (h2 : ∀ a, (e a true).2.length = a.n * a.nev) :
    Manual complex (asker m info e : Lib Nat α β) ans := by
  intro a l0 w0 hf
  refine ⟨fun k l w h => ?_, fun k l w h => (asker_state hf h).1, fun k l w h hi => ?_, ⟨m + 1, fun k l w h => ?_⟩,
    fun _ _ _ _ _ _ => h1 _ _, fun _ _ _ _ _ => h2 _⟩
  · rcases (asker_state hf h).2.2 with h | h <;> omega
  · rcases (asker_state hf h).2.2 with ⟨-, p, q, -⟩ | h
    · exact ⟨0, a.n, by simpa using p, q, by omega, by omega, by omega⟩
    · omega
  · rcases (asker_state hf h).2.2 with h | h <;> omega

/-- The hypotheses of the theorems can be met: a program with a library that asks for three products. -/
example : ∃ (lib : Lib Nat Int Int) (o : Obj Int Int) (cs : List (Call Int Int)) (l : Nat) (o' : Obj Int Int),
    Manual true lib anything ∧ ValidType true 3 ∧ construct true (fun _ => 0) 6 3 2 = .ok o ∧
    (∀ c ∈ cs, c.Proper 6) ∧ RandomFirst cs ∧ runCalls lib (0, o) cs = .ok (l, o') ∧ o'.status = .finished := by
  refine ⟨asker 3 0 fun a _ => (List.replicate (a.nev + 1) 0, List.replicate (a.n * a.nev) 0), _,
    [.setRandomStartVector, .setTolerance 0, .setMaxiter 5, .update, .getX, .setY (List.replicate 6 1), .update,
      .setY (List.replicate 7 1), .setY (List.replicate 6 2), .update, .update], _, _,
    asker_manual _ _ (by simp) (by simp), ⟨by decide, by decide, by decide⟩, rfl, ?_, ?_, rfl, rfl⟩
  · simp [Call.Proper]
  · simp [RandomFirst]

end Verif.Arpack
