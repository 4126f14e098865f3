import Verif.Spec.TensorFail
import Verif.Props.AllocFail
/-
Functions which use buffers, on the values of the buffers.
-/
namespace Verif.TensorFail

open RefCount AllocFail

variable {α β ρ : Type}

/-- What holds after a function, whichever of its allocations fail: `Q` for the values of the vectors, the result and the number
of exceptions. False if the function may do something undefined or abort. -/
def wp (a : RefCount.Spec.ASt β) : Prog β ρ → (RefCount.Spec.ASt β → ρ → Nat → Prop) → Prop
  | .ret r, Q => Q a r 0
  | .stop, _ => False
  | .bad, _ => False
  | .prim o k, Q => Safe (o, .ptr) ∧ ∃ a' x, RefCount.Spec.step a o = some (a', x) ∧ wp a' (k (some x)) Q ∧
      (AllocFail.Spec.allocates o = true → wp a (k none) fun a r n => Q a r (n + 1))
  | .fill h l k, Q => ∃ c, a.vals[h]?.join = some c ∧ l.length = c.length ∧
      wp { a with vals := a.vals.set h (some l) } (k true) Q ∧ wp a (k false) fun a r n => Q a r (n + 1)
  | .load h k, Q => ∃ c, a.vals[h]?.join = some c ∧ wp a (k c) Q

/-- The heap has the values `a`, and besides them the blocks `G`, which nobody refers to. -/
structure Heap (s : St β) (a : RefCount.Spec.ASt β) (k : Nat) (G : List Nat) : Prop where
  ex : ∃ (g : Nat → Option (Cells β)) (t : St β), s = over g t ∧ Rel t a k ∧ Lost g t ∧
    (∀ b, (g b).isSome = true ↔ b ∈ G) ∧ G.Nodup

theorem safe_of {o : Op β} (h : Safe (o, .ptr)) (f : Fail) : Safe (o, f) := by
  cases o <;> first | trivial | (simp [Safe] at h)

/-- A lost block. -/
theorem heap_lost {g : Nat → Option (Cells β)} {t : St β} {a : RefCount.Spec.ASt β} {k : Nat} {G : List Nat}
    (r : Rel t a k) (l : Lost g t) (hG : ∀ b, (g b).isSome = true ↔ b ∈ G) (hN : G.Nodup) (c : Cells β) :
    Heap (newBlk (over g t) c).1 a k (t.nblk :: G) := by
  obtain ⟨e1, l1, hz⟩ := newBlk_lost_over r l c
  refine ⟨_, _, e1, rel_skip r, l1, fun b => ?_, ?_⟩
  · by_cases hb : b = t.nblk
    · simp [hb]
    · simp [upd, hb, hG]
  · refine List.nodup_cons.2 ⟨fun hm => ?_, hN⟩
    rw [← hG, hz] at hm
    cases hm

theorem prim_sim {s : St β} {a a' : RefCount.Spec.ASt β} {k : Nat} {G : List Nat} (H : Heap s a k G) {o : Op β} {x : Out β}
    (hs : Safe (o, .ptr)) (e : RefCount.Spec.step a o = some (a', x)) (f : Fail) :
    (∃ s', AllocFail.step s o f = .ok (s', some x) ∧ Heap s' a' k G) ∨
    (f ≠ .no ∧ AllocFail.Spec.allocates o = true ∧ ∃ s' G', AllocFail.step s o f = .ok (s', none) ∧ Heap s' a k G' ∧
      G'.length ≤ G.length + 1) := by
  obtain ⟨g, t, rfl, r, l, hG, hN⟩ := H.ex
  rcases step_cases (over g t) (safe_of hs f) with ⟨hf, ha, hc⟩ | hc
  · right
    refine ⟨hf, ha, ?_⟩
    rcases hc with ⟨e, -⟩ | ⟨c, e, -, -⟩
    · exact ⟨_, G, e, ⟨g, t, rfl, r, l, hG, hN⟩, by omega⟩
    · exact ⟨_, _, e, heap_lost r l hG hN c, by simp⟩
  · left
    obtain ⟨t1, e1, r1⟩ := step_sim r o e
    obtain ⟨e2, l2⟩ := step_over l e1
    exact ⟨over g t1, by rw [hc, e2]; rfl, ⟨g, t1, rfl, r1, l2, hG, hN⟩⟩

theorem fill_sim {s : St β} {a : RefCount.Spec.ASt β} {k : Nat} {G : List Nat} (H : Heap s a k G) {h : Nat}
    {l c : Cells β} (hc : a.vals[h]?.join = some c) (hl : l.length = c.length) (f : Fail) :
    (∃ s', fillAll s h l f = .ok (s', true) ∧ Heap s' { a with vals := a.vals.set h (some l) } k G) ∨
    (f ≠ .no ∧ ∃ s' G', fillAll s h l f = .ok (s', false) ∧ Heap s' a k G' ∧ G'.length ≤ G.length + 1) := by
  obtain ⟨g, t, rfl, r, ls, hG, hN⟩ := H.ex
  have key : AllocFail.appropriate (over g t) h f = (RefCount.appropriate (over g t) h >>= fun x => pure (x.1, some x.2)) →
      ∃ s', fillAll (over g t) h l f = .ok (s', true) ∧ Heap s' { a with vals := a.vals.set h (some l) } k G := by
    intro ea
    obtain ⟨p, hp, -, hcont⟩ := handle_of_vals r hc
    obtain ⟨t', q, e1, h1, h2, h3, r'⟩ := appropriate_sim r hp hcont
    obtain ⟨e2, l2⟩ := appropriate_over ls e1
    obtain ⟨Q, m, hQ, hb, -, hcont', -⟩ := r'.inv.content_some (p := q) (by omega)
    rw [h3] at hcont'; cases hcont'
    have hb' : getBlk (over g t') Q.blk = .ok c := getBlk_over (by simp [getBlk, hb])
    refine ⟨{ over g t' with blks := upd (over g t').blks Q.blk (some l) }, ?_, g,
      { t' with blks := upd t'.blks Q.blk (some l) }, ?_, write_sim r' h1 h2 hQ hb hl, ?_, hG, hN⟩
    · unfold fillAll
      rw [ea, e2]
      have hQ' : getPtr (over g t') q = .ok Q := by simp [getPtr, over, hQ]
      simp [hQ', hb', hl]
    · simp only [over]
      congr 1
      funext b
      by_cases hb2 : b = Q.blk <;> simp [upd, hb2]
    · intro b d e
      obtain ⟨e3, e4⟩ := l2 b d e
      dsimp only at e3
      have : b ≠ Q.blk := fun h => by rw [h, hb] at e3; cases e3
      exact ⟨by simp [upd, this, e3], e4⟩
  by_cases hf : f = .no
  · left; apply key; subst hf; rfl
  rcases appropriate_cases (over g t) h hf with ⟨p, P, c', -, -, -, ea⟩ | ea
  · right
    refine ⟨hf, ?_⟩
    by_cases hp : f = .ptr
    · refine ⟨_, _, ?_, heap_lost r ls hG hN (c'.take P.size), by simp⟩
      unfold fillAll; rw [ea]; simp [hp]
    · refine ⟨over g t, G, ?_, ⟨g, t, rfl, r, ls, hG, hN⟩, by omega⟩
      unfold fillAll; rw [ea]; simp [hp]
  · left; exact key ea

theorem load_sim {s : St β} {a : RefCount.Spec.ASt β} {k : Nat} {G : List Nat} (H : Heap s a k G) {h : Nat}
    {c : Cells β} (hc : a.vals[h]?.join = some c) : loadAll s h = .ok c := by
  obtain ⟨g, t, rfl, r, ls, hG, hN⟩ := H.ex
  obtain ⟨p, hp, hh, hcont⟩ := handle_of_vals r hc
  obtain ⟨P, m, hP, hb, hlen, hcont', -⟩ := r.inv.content_some (cnt_pos hp)
  rw [hcont] at hcont'; cases hcont'
  have hb' : getBlk (over g t) P.blk = .ok c := getBlk_over (by simp [getBlk, hb])
  have hP' : getPtr (over g t) p = .ok P := by simp [getPtr, over, hP]
  have hh' : handle (over g t) h = .ok p := hh
  unfold loadAll
  rw [hh', Res.ok_bind, hP', Res.ok_bind, hb', Res.ok_bind]
  simp [← hlen]

/-- A function which is correct for the values does what it should with the buffers. -/
theorem exec_sound (p : Prog β ρ) : ∀ {s : St β} {a : RefCount.Spec.ASt β} {k : Nat} {G : List Nat} (_ : Heap s a k G)
    {Q : RefCount.Spec.ASt β → ρ → Nat → Prop} (_ : wp a p Q) (fs : List Fail),
    ∃ s' a' r n G', exec s p fs = .ok (s', r) ∧ Heap s' a' k G' ∧ G'.length ≤ G.length + n ∧ Q a' r n ∧
      ((∀ f ∈ fs, f = .no) → n = 0) := by
  have hhead : ∀ fs : List Fail, (∀ f ∈ fs, f = .no) → fs.headD .no = .no := by
    rintro (_ | ⟨f, fs⟩) h
    · rfl
    · exact h f List.mem_cons_self
  induction p with
  | ret r => exact fun H Q w fs => ⟨_, _, r, 0, _, rfl, H, by omega, w, fun _ => rfl⟩
  | stop => exact fun H Q w => w.elim
  | bad => exact fun H Q w => w.elim
  | prim o q ih =>
    intro s a k G H Q w fs
    obtain ⟨hs, a1, x, e, w1, w2⟩ := w
    rcases prim_sim H hs e (fs.headD .no) with ⟨s1, e1, H1⟩ | ⟨hf, ha, s1, G1, e1, H1, hl⟩
    · obtain ⟨s', a', r, n, G', e2, H2, hl2, hq, hn⟩ := ih (some x) H1 w1 fs.tail
      exact ⟨s', a', r, n, G', by simp only [exec, e1, Res.ok_bind, e2], H2, hl2, hq,
        fun h => hn fun f hf => h f (List.mem_of_mem_tail hf)⟩
    · obtain ⟨s', a', r, n, G', e2, H2, hl2, hq, hn⟩ := ih none H1 (w2 ha) fs.tail
      exact ⟨s', a', r, n + 1, G', by simp only [exec, e1, Res.ok_bind, e2], H2, by omega, hq,
        fun h => absurd (hhead fs h) hf⟩
  | fill h l q ih =>
    intro s a k G H Q w fs
    obtain ⟨c, hc, hl, w1, w2⟩ := w
    rcases fill_sim H hc hl (fs.headD .no) with ⟨s1, e1, H1⟩ | ⟨hf, s1, G1, e1, H1, hl⟩
    · obtain ⟨s', a', r, n, G', e2, H2, hl2, hq, hn⟩ := ih true H1 w1 fs.tail
      exact ⟨s', a', r, n, G', by simp only [exec, e1, Res.ok_bind, e2], H2, hl2, hq,
        fun h => hn fun f hf => h f (List.mem_of_mem_tail hf)⟩
    · obtain ⟨s', a', r, n, G', e2, H2, hl2, hq, hn⟩ := ih false H1 w2 fs.tail
      exact ⟨s', a', r, n + 1, G', by simp only [exec, e1, Res.ok_bind, e2], H2, by omega, hq,
        fun h => absurd (hhead fs h) hf⟩
  | load h q ih =>
    intro s a k G H Q w fs
    obtain ⟨c, hc, w1⟩ := w
    obtain ⟨s', a', r, n, G', e2, H2, hl2, hq, hn⟩ := ih c H w1 fs
    exact ⟨s', a', r, n, G', by simp only [exec, load_sim H hc, Res.ok_bind, e2], H2, hl2, hq, hn⟩

/-- The function is stopped by an assertion, before it may be left by an exception. -/
def stops (a : RefCount.Spec.ASt β) : Prog β ρ → Prop
  | .ret _ => False
  | .stop => True
  | .bad => False
  | .prim o k => Safe (o, .ptr) ∧ AllocFail.Spec.allocates o = false ∧ ∃ a' x, RefCount.Spec.step a o = some (a', x) ∧
      stops a' (k (some x))
  | .fill _ _ _ => False
  | .load h k => ∃ c, a.vals[h]?.join = some c ∧ stops a (k c)

theorem exec_stops (p : Prog β ρ) : ∀ {s : St β} {a : RefCount.Spec.ASt β} {k : Nat} {G : List Nat} (_ : Heap s a k G)
    (_ : stops a p) (fs : List Fail), exec s p fs = .abort := by
  induction p with
  | ret r => exact fun H w => w.elim
  | stop => exact fun H w fs => rfl
  | bad => exact fun H w => w.elim
  | prim o q ih =>
    intro s a k G H w fs
    obtain ⟨hs, ha, a1, x, e, w1⟩ := w
    rcases prim_sim H hs e (fs.headD .no) with ⟨s1, e1, H1⟩ | ⟨-, ha', -⟩
    · simp only [exec, e1, Res.ok_bind, ih (some x) H1 w1 fs.tail]
    · rw [ha] at ha'; cases ha'
  | fill h l q ih => exact fun H w => w.elim
  | load h q ih =>
    intro s a k G H w fs
    obtain ⟨c, hc, w1⟩ := w
    simp only [exec, load_sim H hc, Res.ok_bind, ih c H w1 fs]

/-! ### Variables -/

def owned : Var → List Nat
  | .tensor d n => [d, n]
  | .idx h => [h]
  | .vec h => [h]
  | .gone => []

/-- A variable has a value. -/
def Holds (a : RefCount.Spec.ASt (Cell α)) : Var → Option (Spec.Val α) → Prop
  | .gone, none => True
  | .idx h, some (.idx l) => a.vals[h]? = some (some (ints l))
  | .vec h, some (.vec c) => a.vals[h]? = some (some (elts c))
  | .tensor d n, some (.tensor l c) =>
    d ≠ n ∧ a.vals[d]? = some (some (elts c)) ∧ a.vals[n]? = some (some (ints l)) ∧ Spec.total l = c.length
  | _, _ => False

/-- The variables have the values `w`, each has vectors of its own, and there are no other vectors. -/
structure TRel (vs : List Var) (a : RefCount.Spec.ASt (Cell α)) (w : Spec.VSt α) : Prop where
  len : vs.length = w.length
  val : ∀ (i : Nat) v x, vs[i]? = some v → w[i]? = some x → Holds a v x
  disj : ∀ (i j : Nat) v v' h, vs[i]? = some v → vs[j]? = some v' → h ∈ owned v → h ∈ owned v' → i = j
  live : ∀ (h : Nat) c, a.vals[h]? = some (some c) → ∃ (i : Nat) (v : Var), vs[i]? = some v ∧ h ∈ owned v

theorem holds_congr {a a' : RefCount.Spec.ASt (Cell α)} {v : Var} {x : Option (Spec.Val α)} (hh : Holds a v x)
    (e : ∀ h ∈ owned v, a'.vals[h]? = a.vals[h]?) : Holds a' v x := by
  cases v <;> rcases x with _ | x <;> try (first | trivial | exact hh.elim)
  all_goals cases x <;> simp only [Holds, owned, List.mem_cons, List.not_mem_nil, or_false, forall_eq_or_imp,
    forall_eq] at hh e ⊢
  · rw [e.1, e.2]; exact hh
  · rw [e]; exact hh
  · rw [e]; exact hh

theorem holds_live {a : RefCount.Spec.ASt (Cell α)} {v : Var} {x : Option (Spec.Val α)} (hh : Holds a v x) {h : Nat}
    (hm : h ∈ owned v) : ∃ c, a.vals[h]? = some (some c) := by
  cases v <;> rcases x with _ | x <;> try (first | exact hh.elim | (exact absurd hm List.not_mem_nil))
  all_goals cases x <;> simp only [Holds, owned, List.mem_cons, List.not_mem_nil, or_false] at hh hm
  · rcases hm with rfl | rfl
    · exact ⟨_, hh.2.1⟩
    · exact ⟨_, hh.2.2.1⟩
  · subst hm; exact ⟨_, hh⟩
  · subst hm; exact ⟨_, hh⟩

theorem TRel.value {vs : List Var} {a : RefCount.Spec.ASt (Cell α)} {w : Spec.VSt α} (r : TRel vs a w) {i : Nat} {v : Var}
    (h : vs[i]? = some v) : ∃ x, w[i]? = some x ∧ Holds a v x := by
  have hi := (List.getElem?_eq_some_iff.1 h).1
  have : i < w.length := by rw [← r.len]; exact hi
  exact ⟨w[i], List.getElem?_eq_getElem this, r.val _ _ _ h (List.getElem?_eq_getElem this)⟩

theorem TRel.lt {vs : List Var} {a : RefCount.Spec.ASt (Cell α)} {w : Spec.VSt α} (r : TRel vs a w) {i : Nat} {v : Var}
    (h : vs[i]? = some v) {n : Nat} (hn : n ∈ owned v) : n < a.vals.length := by
  obtain ⟨x, -, hh⟩ := r.value h
  obtain ⟨c, hc⟩ := holds_live hh hn
  exact (List.getElem?_eq_some_iff.1 hc).1

/-- Vectors which were created and destroyed again. -/
theorem TRel.skip {vs : List Var} {a a' : RefCount.Spec.ASt (Cell α)} {w : Spec.VSt α} (r : TRel vs a w)
    (l : List (Option (Cells (Cell α)))) (hl : ∀ x ∈ l, x = none) (e : a'.vals = a.vals ++ l) : TRel vs a' w := by
  refine ⟨r.len, fun i v x hv hx => ?_, r.disj, fun h c hc => ?_⟩
  · refine holds_congr (r.val i v x hv hx) fun h hh => ?_
    rw [e, List.getElem?_append_left (r.lt hv hh)]
  · rw [e] at hc
    by_cases hlt : h < a.vals.length
    · rw [List.getElem?_append_left hlt] at hc
      exact r.live h c hc
    · rw [List.getElem?_append_right (by omega)] at hc
      cases hl _ (List.mem_of_getElem? hc)

/-- A new variable. -/
theorem TRel.push {vs : List Var} {a a' : RefCount.Spec.ASt (Cell α)} {w : Spec.VSt α} (r : TRel vs a w) {v : Var}
    {x : Option (Spec.Val α)} (l : List (Option (Cells (Cell α)))) (e : a'.vals = a.vals ++ l) (hh : Holds a' v x)
    (ho : ∀ h, h ∈ owned v ↔ a.vals.length ≤ h ∧ h < a.vals.length + l.length) : TRel (vs ++ [v]) a' (w ++ [x]) := by
  refine ⟨by simp [r.len], fun i u y hu hy => ?_, fun i j u u' h hu hu' hm hm' => ?_, fun h c hc => ?_⟩
  · by_cases hi : i < vs.length
    · rw [List.getElem?_append_left hi] at hu
      rw [List.getElem?_append_left (by rw [← r.len]; exact hi)] at hy
      refine holds_congr (r.val i u y hu hy) fun h hh => ?_
      rw [e, List.getElem?_append_left (r.lt hu hh)]
    · rw [List.getElem?_append_right (by omega)] at hu
      rw [List.getElem?_append_right (by rw [← r.len]; omega)] at hy
      rw [← r.len] at hy
      have : i - vs.length = 0 := by
        have := (List.getElem?_eq_some_iff.1 hu).1
        simp at this
        omega
      rw [this] at hu hy
      cases hu; cases hy
      exact hh
  · have hlast : ∀ (i : Nat) u, (vs ++ [v])[i]? = some u → (i < vs.length ∧ vs[i]? = some u) ∨ (i = vs.length ∧ u = v) := by
      intro i u hu
      by_cases hi : i < vs.length
      · rw [List.getElem?_append_left hi] at hu; exact Or.inl ⟨hi, hu⟩
      · rw [List.getElem?_append_right (by omega)] at hu
        have : i - vs.length = 0 := by
          have := (List.getElem?_eq_some_iff.1 hu).1
          simp at this
          omega
        rw [this] at hu
        cases hu
        exact Or.inr ⟨by omega, rfl⟩
    rcases hlast i u hu with ⟨hi, e1⟩ | ⟨hi, rfl⟩ <;> rcases hlast j u' hu' with ⟨hj, e2⟩ | ⟨hj, rfl⟩
    · exact r.disj i j u u' h e1 e2 hm hm'
    · have := r.lt e1 hm
      have := ((ho h).1 hm').1
      omega
    · have := r.lt e2 hm'
      have := ((ho h).1 hm).1
      omega
    · omega
  · by_cases hlt : h < a.vals.length
    · rw [e, List.getElem?_append_left hlt] at hc
      obtain ⟨i, u, hu, hm⟩ := r.live h c hc
      exact ⟨i, u, by rw [List.getElem?_append_left ((List.getElem?_eq_some_iff.1 hu).1)]; exact hu, hm⟩
    · have hlen := (List.getElem?_eq_some_iff.1 hc).1
      rw [e, List.length_append] at hlen
      exact ⟨vs.length, v, by simp, (ho h).2 ⟨by omega, hlen⟩⟩

/-- A variable changes its value. -/
theorem TRel.update {vs : List Var} {a a' : RefCount.Spec.ASt (Cell α)} {w : Spec.VSt α} (r : TRel vs a w) {i : Nat} {v : Var}
    (hv : vs[i]? = some v) {x : Option (Spec.Val α)} (hh : Holds a' v x)
    (e : ∀ h, h ∉ owned v → a'.vals[h]? = a.vals[h]?) : TRel vs a' (w.set i x) := by
  refine ⟨by simp [r.len], fun j u y hu hy => ?_, r.disj, fun h c hc => ?_⟩
  · by_cases hj : i = j
    · subst hj
      rw [hv] at hu; cases hu
      obtain ⟨y', hy', -⟩ := r.value hv
      rw [List.getElem?_set_self ((List.getElem?_eq_some_iff.1 hy').1)] at hy
      cases hy
      exact hh
    · rw [List.getElem?_set_ne hj] at hy
      refine holds_congr (r.val j u y hu hy) fun h hm => e h fun hm' => hj (r.disj i j v u h hv hu hm' hm)
  · by_cases hm : h ∈ owned v
    · exact ⟨i, v, hv, hm⟩
    · rw [e h hm] at hc
      exact r.live h c hc

/-- A variable is destroyed. -/
theorem TRel.remove {vs : List Var} {a a' : RefCount.Spec.ASt (Cell α)} {w : Spec.VSt α} (r : TRel vs a w) {i : Nat} {v : Var}
    (hv : vs[i]? = some v) (hd : ∀ h ∈ owned v, a'.vals[h]? = some none)
    (e : ∀ h, h ∉ owned v → a'.vals[h]? = a.vals[h]?) : TRel (vs.set i .gone) a' (w.set i none) := by
  have hget : ∀ (j : Nat) u, (vs.set i .gone)[j]? = some u → (j = i ∧ u = .gone) ∨ (i ≠ j ∧ vs[j]? = some u) := by
    intro j u hu
    by_cases hj : i = j
    · subst hj
      rw [List.getElem?_set_self ((List.getElem?_eq_some_iff.1 hv).1)] at hu
      cases hu
      exact Or.inl ⟨rfl, rfl⟩
    · rw [List.getElem?_set_ne hj] at hu
      exact Or.inr ⟨hj, hu⟩
  refine ⟨by simp [r.len], fun j u y hu hy => ?_, fun j k u u' h hu hu' hm hm' => ?_, fun h c hc => ?_⟩
  · rcases hget j u hu with ⟨rfl, rfl⟩ | ⟨hj, hu⟩
    · obtain ⟨y', hy', -⟩ := r.value hv
      rw [List.getElem?_set_self ((List.getElem?_eq_some_iff.1 hy').1)] at hy
      cases hy
      trivial
    · rw [List.getElem?_set_ne hj] at hy
      refine holds_congr (r.val j u y hu hy) fun h hm => e h fun hm' => hj (r.disj i j v u h hv hu hm' hm)
  · rcases hget j u hu with ⟨rfl, rfl⟩ | ⟨hj, hu⟩
    · cases hm
    · rcases hget k u' hu' with ⟨rfl, rfl⟩ | ⟨hk, hu'⟩
      · cases hm'
      · exact r.disj j k u u' h hu hu' hm hm'
  · by_cases hm : h ∈ owned v
    · rw [hd h hm] at hc; cases hc
    · rw [e h hm] at hc
      obtain ⟨j, u, hu, hm2⟩ := r.live h c hc
      refine ⟨j, u, ?_, hm2⟩
      rw [List.getElem?_set_ne (fun hj => hm ?_)]
      · exact hu
      · subst hj; rw [hv] at hu; cases hu; exact hm2

theorem toInts_ints (l : List Int) : toInts (ints l : Cells (Cell α)) = some l := by
  induction l with
  | nil => rfl
  | cons n l ih => simp only [ints, List.map_cons, toInts] at ih ⊢; rw [ih]; rfl

theorem toElts_elts (l : Cells α) : toElts (elts l) = some l := by
  induction l with
  | nil => rfl
  | cons x l ih => cases x <;> (simp only [elts, List.map_cons, toElts, Option.map_none, Option.map_some] at ih ⊢; rw [ih]; rfl)

theorem foldl_prod (l : List Int) (a : Int) : l.foldl (· * ·) a = a * Spec.prod l := by
  induction l generalizing a with
  | nil => simp [Spec.prod]
  | cons n l ih => simp only [List.foldl_cons, ih, Spec.prod, Int.mul_assoc]

theorem total_eq (l : List Int) : Tensor.totalSizeI l = Spec.total l := by
  have key : ∀ (l : List Int) (a : Int), (l.foldl (fun (aux : Option Int) x => aux.bind fun a => if x < 0 then none
      else some (a * x)) (some a)) = if ∀ n ∈ l, 0 ≤ n then some (a * Spec.prod l) else none := by
    intro l
    induction l with
    | nil => intro a; simp [Spec.prod]
    | cons n l ih =>
      intro a
      simp only [List.foldl_cons, Option.bind_some, List.mem_cons, forall_eq_or_imp]
      by_cases hn : n < 0
      · have : ¬ 0 ≤ n := by omega
        rw [if_pos hn]
        simp only [this, false_and, if_false]
        clear ih
        induction l with
        | nil => rfl
        | cons m l ih => simpa using ih
      · have : 0 ≤ n := by omega
        rw [if_neg hn, ih]
        simp only [this, true_and, Spec.prod, Int.mul_assoc]
  unfold Tensor.totalSizeI Spec.total
  rw [key]
  cases l with
  | nil => simp
  | cons n l =>
    simp only [List.length_cons, ne_eq, Nat.add_eq_zero_iff, Nat.succ_ne_self, and_false, not_false_eq_true, if_true,
      reduceCtorEq, true_and]
    by_cases h : ∀ m ∈ n :: l, 0 ≤ m
    · rw [if_pos h, if_pos h]; simp
    · rw [if_neg h, if_neg h]; rfl

theorem TRel.get {vs : List Var} {a : RefCount.Spec.ASt (Cell α)} {w : Spec.VSt α} (r : TRel vs a w) {i : Nat}
    {x : Option (Spec.Val α)} (h : w[i]? = some x) : ∃ v, vs[i]? = some v ∧ Holds a v x := by
  have hi := (List.getElem?_eq_some_iff.1 h).1
  have : i < vs.length := by rw [r.len]; exact hi
  exact ⟨vs[i], List.getElem?_eq_getElem this, r.val _ _ _ (List.getElem?_eq_getElem this) h⟩

theorem TRel.tensor {vs : List Var} {a : RefCount.Spec.ASt (Cell α)} {w : Spec.VSt α} (r : TRel vs a w) {i : Nat}
    {l : List Int} {c : Cells α} (h : w[i]? = some (some (.tensor l c))) : ∃ d n, vs[i]? = some (.tensor d n) ∧ d ≠ n ∧
      a.vals[d]? = some (some (elts c)) ∧ a.vals[n]? = some (some (ints l)) ∧ Spec.total l = c.length := by
  obtain ⟨v, hv, hh⟩ := r.get h
  cases v <;> try exact hh.elim
  exact ⟨_, _, hv, hh⟩

theorem TRel.idx {vs : List Var} {a : RefCount.Spec.ASt (Cell α)} {w : Spec.VSt α} (r : TRel vs a w) {i : Nat}
    {l : List Int} (h : w[i]? = some (some (.idx l))) : ∃ k, vs[i]? = some (.idx k) ∧ a.vals[k]? = some (some (ints l)) := by
  obtain ⟨v, hv, hh⟩ := r.get h
  cases v <;> try exact hh.elim
  exact ⟨_, hv, hh⟩

theorem TRel.vec {vs : List Var} {a : RefCount.Spec.ASt (Cell α)} {w : Spec.VSt α} (r : TRel vs a w) {i : Nat}
    {c : Cells α} (h : w[i]? = some (some (.vec c))) : ∃ k, vs[i]? = some (.vec k) ∧ a.vals[k]? = some (some (elts c)) := by
  obtain ⟨v, hv, hh⟩ := r.get h
  cases v <;> try exact hh.elim
  exact ⟨_, hv, hh⟩

/-! ### Instructions -/

theorem wp_mono {p : Prog β ρ} : ∀ {a : RefCount.Spec.ASt β} {Q R : RefCount.Spec.ASt β → ρ → Nat → Prop}
    (_ : ∀ a r n, Q a r n → R a r n), wp a p Q → wp a p R := by
  induction p with
  | ret r => exact fun h w => h _ _ _ w
  | stop => exact fun _ w => w
  | bad => exact fun _ w => w
  | prim o k ih =>
    rintro a Q R h ⟨hs, a', x, e, w1, w2⟩
    exact ⟨hs, a', x, e, ih _ h w1, fun ha => ih _ (fun a r n => h a r (n + 1)) (w2 ha)⟩
  | fill m l k ih =>
    rintro a Q R h ⟨c, hc, hl, w1, w2⟩
    exact ⟨c, hc, hl, ih _ h w1, ih _ (fun a r n => h a r (n + 1)) w2⟩
  | load m k ih =>
    rintro a Q R h ⟨c, hc, w1⟩
    exact ⟨c, hc, ih _ h w1⟩

theorem wp_new {a : RefCount.Spec.ASt β} {n : Nat} {k : Option (Out β) → Prog β ρ}
    {Q : RefCount.Spec.ASt β → ρ → Nat → Prop}
    (h1 : wp { a with vals := a.vals ++ [some (List.replicate n none)] } (k (some .unit)) Q)
    (h2 : wp a (k none) fun a r n => Q a r (n + 1)) : wp a (.prim (.newSize n) k) Q :=
  ⟨trivial, _, _, rfl, h1, fun _ => h2⟩

theorem wp_copy {a : RefCount.Spec.ASt β} {h : Nat} {c : Cells β} (hc : a.vals[h]? = some (some c))
    {k : Option (Out β) → Prog β ρ} {Q : RefCount.Spec.ASt β → ρ → Nat → Prop}
    (h1 : wp { a with vals := a.vals ++ [some c] } (k (some .unit)) Q) : wp a (.prim (.copy h) k) Q :=
  ⟨trivial, _, _, by simp [RefCount.Spec.step, hc], h1, fun h => by cases h⟩

theorem wp_destroy {a : RefCount.Spec.ASt β} {h : Nat} {c : Cells β} (hc : a.vals[h]? = some (some c))
    {k : Option (Out β) → Prog β ρ} {Q : RefCount.Spec.ASt β → ρ → Nat → Prop}
    (h1 : wp { a with vals := a.vals.set h none } (k (some .unit)) Q) : wp a (.prim (.destroy h) k) Q :=
  ⟨trivial, _, _, by simp [RefCount.Spec.step, hc], h1, fun h => by cases h⟩

theorem wp_assign {a : RefCount.Spec.ASt β} {h g : Nat} {c d : Cells β} (hd : a.vals[h]? = some (some d))
    (hc : a.vals[g]? = some (some c)) {k : Option (Out β) → Prog β ρ} {Q : RefCount.Spec.ASt β → ρ → Nat → Prop}
    (h1 : wp { a with vals := a.vals.set h (some c) } (k (some .unit)) Q) : wp a (.prim (.assign h g) k) Q :=
  ⟨trivial, _, _, by simp [RefCount.Spec.step, hc, hd], h1, fun h => by cases h⟩

theorem wp_write {a : RefCount.Spec.ASt β} {h i : Nat} {v : β} {c : Cells β} (hc : a.vals[h]? = some (some c))
    (hi : i < c.length) {k : Option (Out β) → Prog β ρ} {Q : RefCount.Spec.ASt β → ρ → Nat → Prop}
    (h1 : wp { a with vals := a.vals.set h (some (c.set i (some v))) } (k (some .unit)) Q)
    (h2 : wp a (k none) fun a r n => Q a r (n + 1)) : wp a (.prim (.write h i v) k) Q :=
  ⟨trivial, _, _, by simp [RefCount.Spec.step, hc, hi], h1, fun _ => h2⟩

theorem wp_read {a : RefCount.Spec.ASt β} {h i : Nat} {v : Option β} {c : Cells β} (hc : a.vals[h]? = some (some c))
    (hi : c[i]? = some v) {k : Option (Out β) → Prog β ρ} {Q : RefCount.Spec.ASt β → ρ → Nat → Prop}
    (h1 : wp a (k (some (.val v))) Q) : wp a (.prim (.read h i) k) Q :=
  ⟨trivial, _, _, by simp [RefCount.Spec.step, hc, hi], h1, fun h => by cases h⟩

theorem wp_size {a : RefCount.Spec.ASt β} {h : Nat} {c : Cells β} (hc : a.vals[h]? = some (some c))
    {k : Option (Out β) → Prog β ρ} {Q : RefCount.Spec.ASt β → ρ → Nat → Prop}
    (h1 : wp a (k (some (.num c.length))) Q) : wp a (.prim (.size h) k) Q :=
  ⟨trivial, _, _, by simp [RefCount.Spec.step, hc], h1, fun h => by cases h⟩

theorem wp_fill {a : RefCount.Spec.ASt β} {h : Nat} {c l : Cells β} (hc : a.vals[h]? = some (some c))
    (hl : l.length = c.length) {k : Bool → Prog β ρ} {Q : RefCount.Spec.ASt β → ρ → Nat → Prop}
    (h1 : wp { a with vals := a.vals.set h (some l) } (k true) Q)
    (h2 : wp a (k false) fun a r n => Q a r (n + 1)) : wp a (.fill h l k) Q :=
  ⟨c, by simp [hc], hl, h1, h2⟩

theorem wp_load {a : RefCount.Spec.ASt β} {h : Nat} {c : Cells β} (hc : a.vals[h]? = some (some c))
    {k : Cells β → Prog β ρ} {Q : RefCount.Spec.ASt β → ρ → Nat → Prop} (h1 : wp a (k c) Q) : wp a (.load h k) Q :=
  ⟨c, by simp [hc], h1⟩

theorem wp_loadInts {a : RefCount.Spec.ASt (Cell α)} {h : Nat} {l : List Int} (hc : a.vals[h]? = some (some (ints l)))
    {k : List Int → TProg α} {Q : RefCount.Spec.ASt (Cell α) → List Var × Option (TOut α) → Nat → Prop} (h1 : wp a (k l) Q) :
    wp a (loadInts h k) Q := wp_load hc (by simpa only [toInts_ints] using h1)

theorem wp_loadElts {a : RefCount.Spec.ASt (Cell α)} {h : Nat} {c : Cells α} (hc : a.vals[h]? = some (some (elts c)))
    {k : Cells α → TProg α} {Q : RefCount.Spec.ASt (Cell α) → List Var × Option (TOut α) → Nat → Prop} (h1 : wp a (k c) Q) :
    wp a (loadElts h k) Q := wp_load hc (by simpa only [toElts_elts] using h1)

theorem wp_make {a : RefCount.Spec.ASt (Cell α)} {m : Nat} (hm : m = a.vals.length) {l : Cells (Cell α)} {ok exc : TProg α}
    {Q : RefCount.Spec.ASt (Cell α) → List Var × Option (TOut α) → Nat → Prop}
    (h1 : wp { a with vals := a.vals ++ [some l] } ok Q) (h2 : wp a exc fun a r n => Q a r (n + 1))
    (h3 : wp { a with vals := a.vals ++ [none] } exc fun a r n => Q a r (n + 1)) : wp a (make m l ok exc) Q := by
  subst hm
  refine wp_new (wp_fill (c := List.replicate l.length none) (by simp) (by simp) ?_ ?_) h2
  · simpa using h1
  · refine wp_destroy (c := List.replicate l.length none) (by simp) ?_
    simpa using h3

end Verif.TensorFail
