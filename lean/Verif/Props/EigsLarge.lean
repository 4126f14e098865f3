import Verif.Props.Arpack
import Verif.Props.EigsSmall
/-
C75: eigs for matrices of more than four rows.
-/
namespace Verif.Arpack

open Verif Tensor View Spec Svd Eig

variable {L α β : Type}

/-- The body of the loop answers every request, and changes nothing else. -/
def Answers (a : Args) (ans : List α → List α → Prop) (answer : Obj α β → Res (Obj α β)) : Prop :=
  ∀ o p q, o.args = a → Request o p q → ∃ workd,
    answer o = .ok { o with work := { o.work with workd := workd } } ∧
    Answered a ans o.work { o.work with workd := workd }

/-- The state with which the loop ends, from what the library has left. -/
inductive Ended (o : Obj α β) (l : L) (w : Work α β) : Res (L × Obj α β) → Prop
  | failed : w.info < 0 → Ended o l w .abort
  | finished : w.info = 0 → Ended o l w (.ok (l, { o with
      status := .finished
      work := w }))
  | unconverged {st : Status} {m : String} : w.info > 0 → st.code > Status.finished.code →
      Ended o l w (.ok (l, { o with
        status := st
        work := w
        error := some m }))

theorem loop_ok {complex : Bool} {lib : Lib L α β} {ans : List α → List α → Prop} {l0 : L} {w0 : Work α β}
    {a : Args} (hm : Obeys complex lib ans a l0 w0) {answer : Obj α β → Res (Obj α β)}
    (hans : Answers a ans answer) {K : Nat} (hK : ∀ k l w, Dialogue lib a ans l0 w0 k l w → k ≤ K) :
    ∀ (m k : Nat) (l : L) (o : Obj α β), K < k + m → o.args = a →
      o.status = .initialized ∨ o.status = .running → o.error = none →
      Dialogue lib a ans l0 w0 k (lib.aupd l a o.work).1 (lib.aupd l a o.work).2 →
      ∃ k' l' w r, Dialogue lib a ans l0 w0 k' l' w ∧ w.ido = 99 ∧
        Finishes (fun fuel => loop lib answer fuel l o) r ∧
        ∃ o', o'.args = a ∧ o'.maxit = o.maxit ∧ o'.error = none ∧ Ended o' l' w r := by
  intro m
  induction m with
  | zero =>
    intro k l o hk _ _ _ hd
    exact absurd (hK _ _ _ hd) (by omega)
  | succ m ih =>
    intro k l o hk ho hs he hd
    have hup : update lib l o = (do
        let o' ← afterCall { o with work := (lib.aupd l a o.work).2 }
        .ok ((lib.aupd l a o.work).1, o')) := by
      rw [update, if_neg (by rcases hs with hs | hs <;> simp [hs, Status.code]),
        if_neg (by rcases hs with hs | hs <;> simp [hs, Status.code]), ho]
    generalize (lib.aupd l a o.work).1 = l1 at hd hup
    generalize (lib.aupd l a o.work).2 = w1 at hd hup
    have hsuc : ∀ r, Finishes (fun fuel => loop lib answer (fuel + 1) l o) r →
        Finishes (fun fuel => loop lib answer fuel l o) r := by
      rintro r ⟨N, hN⟩
      refine ⟨N + 1, fun n hn => ?_⟩
      obtain ⟨n, rfl⟩ : ∃ n', n = n' + 1 := ⟨n - 1, by omega⟩
      exact hN n (by omega)
    by_cases h99 : w1.ido = 99
    · by_cases h1 : w1.info = 1
      · refine ⟨k, l1, w1, _, hd, h99, hsuc _ ⟨0, fun n _ => ?_⟩, o, ho, rfl, he,
          .unconverged (st := .tooManyIterations) (m := "Maximum number of iterations reached") (by omega)
            (by decide)⟩
        simp only [loop, hup, afterCall, h99, h1, if_true, Res.ok_bind, Run.ok_bind]
        rfl
      by_cases h2 : w1.info > 0
      · refine ⟨k, l1, w1, _, hd, h99, hsuc _ ⟨0, fun n _ => ?_⟩, o, ho, rfl, he,
          .unconverged (st := .noConvergence) (m := "Algorithm failed to converge") (by omega) (by decide)⟩
        simp only [loop, hup, afterCall, h99, h1, h2, if_true, if_false, Res.ok_bind, Run.ok_bind]
        rfl
      by_cases h3 : w1.info < 0
      · refine ⟨k, l1, w1, _, hd, h99, hsuc _ ⟨0, fun n _ => ?_⟩, o, ho, rfl, he, .failed h3⟩
        simp only [loop, hup, afterCall, h99, h1, h2, h3, if_true, if_false, Res.abort_bind, Run.abort_bind]
      · refine ⟨k, l1, w1, _, hd, h99, hsuc _ ⟨0, fun n _ => ?_⟩, o, ho, rfl, he, .finished (by omega)⟩
        simp only [loop, hup, afterCall, h99, h1, h2, h3, if_true, if_false, Res.ok_bind, Run.ok_bind]
        rfl
    · have hi : w1.ido = 1 ∨ w1.ido = -1 := by
        rcases hm.ido _ _ _ hd with h | h | h
        · exact .inl h
        · exact .inr h
        · exact absurd h h99
      obtain ⟨o1, ho1⟩ : ∃ o1 : Obj α β, o1 = { o with status := .running, work := w1 } := ⟨_, rfl⟩
      have hac : afterCall { o with work := w1 } = .ok o1 := by
        rw [afterCall, if_neg h99, if_neg (by show ¬ (w1.ido ≠ 1 ∧ w1.ido ≠ -1); omega), ho1]
      have ha1 : o1.args = a := by rw [ho1]; exact ho
      have hst : o1.status = .running := by rw [ho1]
      have hwk : o1.work = w1 := by rw [ho1]
      obtain ⟨p, q, hq, -⟩ := request_of (o := o1) (w := w1) (by rw [ha1]; exact hm) hst (by rw [ha1]; exact hd) hi
        (.inl hwk)
      obtain ⟨wd, e1, e2⟩ := hans o1 p q ha1 hq
      have hd' := Dialogue.next hd hi (by rw [← hwk]; exact e2)
      obtain ⟨k', l', w, r, f1, f2, f3, o', f4, f5, f6, f7⟩ := ih (k + 1) l1
        { o1 with work := { o1.work with workd := wd } } (by omega) ha1 (.inr hst) (by rw [ho1]; exact he) hd'
      refine ⟨k', l', w, r, f1, f2, hsuc _ ?_, o', f4, f5.trans (by rw [ho1]), f6, f7⟩
      obtain ⟨N, hN⟩ := f3
      refine ⟨N, fun n hn => ?_⟩
      beta_reduce
      rw [loop, hup, hac, Res.ok_bind, Run.ok_bind]
      simp only
      rw [if_pos (by rw [hst]; decide), e1, Run.ok_bind]
      exact hN n hn

/-- What eigs returns when ARPACK is used: nothing, the program ends, if the library says that there is an
error; if it does not converge, zeros and `false`, or the end of the program if the caller did not ask
to know it; and otherwise the arrays that the library leaves. -/
inductive Returned (lib : Lib L α β) [Zero α] (a : Args) (vectors : Option (Tensor α))
    (wantC : Bool) (l : L) (w : Work α β) : Res (Out α) → Prop
  | failed : w.info < 0 ∨ (w.info = 0 ∧ (lib.eupd l vectors.isSome a w).2.1.info ≠ 0) →
      Returned lib a vectors wantC l w .abort
  | unconverged : w.info > 0 → wantC = true →
      Returned lib a vectors wantC l w (.ok ⟨⟨[a.nev], List.replicate a.nev 0⟩, vectors, some false⟩)
  | unconverged_end : w.info > 0 → wantC = false → Returned lib a vectors wantC l w .abort
  | finished : w.info = 0 → (lib.eupd l vectors.isSome a w).2.1.info = 0 →
      Returned lib a vectors wantC l w
        (.ok ⟨⟨[a.nev], (lib.eupd l vectors.isSome a w).2.2.1.take a.nev⟩,
          if vectors.isSome then some ⟨[a.n, a.nev], (lib.eupd l vectors.isSome a w).2.2.2⟩ else none,
          if wantC then some true else none⟩)

/-- The arguments with which eigs calls the library for the first time. -/
structure Started (n : Nat) (t : Int) (neig : Nat) (vectors : Option (Tensor α)) (a : Args) (w : Work α β) :
    Prop where
  n_eq : a.n = n
  nev_eq : a.nev = neig
  which : meaning a.which = some t
  given : ∀ v ∈ vectors, n ≤ v.data.length → w.info = 1 ∧ w.resid = v.data.take n
  random : (∀ v ∈ vectors, v.data.length < n) → w.info = 0

theorem large_ok [Zero α] [Neg β] [One β] {complex : Bool} {lib : Lib L α β} {ans : List α → List α → Prop}
    (hm : Manual complex lib ans) (junk : Nat → α) (l0 : L) {n neig : Nat} {t : Int} (ht : ValidType complex t)
    (h0 : 0 < neig) (hn : neig < n) {answer : Obj α β → Res (Obj α β)}
    (hans : ∀ a : Args, a.n = n → Answers a ans answer) (vectors : Option (Tensor α)) (wantC : Bool) :
    ∃ a w0 k l w r, Started n t neig vectors a w0 ∧ FirstCall complex a w0 ∧
      Dialogue lib a ans l0 w0 k l w ∧ w.ido = 99 ∧
      Finishes (fun fuel => large fuel complex junk lib l0 answer n t neig vectors wantC) r ∧
      Returned lib a vectors wantC l w r := by
  obtain ⟨o, e1, e2, e3, e4, e5, e6, e7, -⟩ := c74_construct (β := β) complex junk ht h0 hn
  have hnone : o.error = none := by
    have := e1
    unfold construct at this
    split at this
    · cases this
    split at this
    · cases this
    split at this
    · cases this
    split at this
    · cases this
    cases this
    rfl
  obtain ⟨o1, hset, hs1, ha1, hf1, hst1, hn1⟩ : ∃ o1 : Obj α β, (match vectors with
      | some v => if v.size ≥ n then setStartVector o v.data else .ok o
      | none => .ok o) = .ok o1 ∧ o1.status = .initialized ∧ o1.args = o.args ∧
      FirstCall complex o.args o1.work ∧ Started n t neig vectors o.args o1.work ∧ o1.error = none := by
    cases vectors with
    | none => exact ⟨o, rfl, e2, rfl, e6, ⟨e3, e4, e5, by simp, fun _ => e7⟩, hnone⟩
    | some v =>
      by_cases hv : v.size ≥ n
      · simp only [size] at hv
        refine ⟨{ o with work := { o.work with info := 1, resid := v.data.take o.args.n } }, ?_, e2, rfl, ?_,
          ⟨e3, e4, e5, ?_, ?_⟩, hnone⟩
        · simp only [size, hv, if_true, setStartVector]
          rw [if_neg (by simp [e2, Status.code]), if_neg (by omega)]
        · exact { e6 with resid_size := by simp [List.length_take, e3]; omega }
        · intro v' hv' _
          cases hv'
          exact ⟨rfl, by rw [e3]⟩
        · intro h
          exact absurd (h v rfl) (by omega)
      · simp only [size] at hv
        refine ⟨o, by simp only [size, hv, if_false], e2, rfl, e6, ⟨e3, e4, e5, ?_, fun _ => e7⟩, hnone⟩
        intro v' hv' h
        cases hv'
        exact absurd h hv
  have hob := hm _ l0 _ hf1
  obtain ⟨K, hK⟩ := hob.ends
  obtain ⟨k, l, w, r, hd, h99, hfin, o', ho', -, he', hend⟩ := loop_ok hob (hans _ e3) hK (K + 1) 1 l0 o1 (by omega)
    ha1 (.inl hs1) hn1 .first
  have hlarge : ∀ r', Finishes (fun fuel => do
        let r ← loop lib answer fuel l0 o1
        finish fuel lib r.1 r.2 neig vectors wantC) r' →
      Finishes (fun fuel => large fuel complex junk lib l0 answer n t neig vectors wantC) r' := by
    intro r' h
    unfold large
    simp only [e1, Run.ok_bind]
    exact Finishes.bind (f := fun _ => Run.done _) ⟨0, fun _ _ => congrArg Run.done hset⟩ h
  refine ⟨o.args, o1.work, k, l, w, ?_⟩
  obtain ⟨s', a', m', w', er'⟩ := o'
  change a' = o.args at ho'
  subst ho'
  cases hend with
  | failed hi => exact ⟨_, hst1, hf1, hd, h99, hlarge _ (Finishes.bind_abort hfin), .failed (.inl hi)⟩
  | finished hi =>
    by_cases hinfo : (lib.eupd l vectors.isSome o.args w).2.1.info = 0
    · refine ⟨_, hst1, hf1, hd, h99, hlarge _ (Finishes.bind hfin ?_), .finished hi hinfo⟩
      unfold finish
      simp only [if_true]
      exact Finishes.bind (getData_ok (by simp only [e4]; exact h0) (hob.d_size _ _ _ _ hd h99) hinfo)
        (Finishes.done _)
    · refine ⟨_, hst1, hf1, hd, h99, hlarge _ (Finishes.bind hfin ?_), .failed (.inr ⟨hi, hinfo⟩)⟩
      unfold finish
      simp only [if_true]
      exact Finishes.bind_abort (getData_abort hinfo)
  | @unconverged st m hi hst =>
    have hne : st ≠ .finished := by rintro rfl; exact absurd hst (by decide)
    cases wantC
    · refine ⟨_, hst1, hf1, hd, h99, hlarge _ (Finishes.bind hfin ?_), .unconverged_end hi rfl⟩
      unfold finish
      simp only [hne, if_false, errorMessage, Res.ofOption_some, Run.ok_bind, Bool.false_eq_true]
      exact Finishes.done _
    · refine ⟨_, hst1, hf1, hd, h99, hlarge _ (Finishes.bind hfin ?_), .unconverged hi rfl⟩
      unfold finish
      simp only [hne, if_false, errorMessage, Res.ofOption_some, Run.ok_bind, if_true, fill, e4]
      simp only [totalSize, List.length_cons, List.length_nil, List.foldl_cons, List.foldl_nil, Nat.one_mul]
      exact Finishes.done _

theorem gemv_ok {α : Type} [Semiring α] {n : Nat} {A w : List α} {a : Nat → Nat → α} (hA : A.length = n * n)
    (ha : Stores A n n n a) {p q : Nat} (hp : p + n ≤ w.length) (hq : q + n ≤ w.length)
    (hpq : p + n ≤ q ∨ q + n ≤ p) : ∃ w' x y, gemv n A w p q = .ok w' ∧ x.length = n ∧ y.length = n ∧
      (∀ i < n, w[p + i]? = x[i]?) ∧ Product n a x y ∧ (∀ i < n, w'[q + i]? = y[i]?) ∧
      ∀ j, j < q ∨ q + n ≤ j → w'[j]? = w[j]? := by
  obtain ⟨x, x1, x2, x3⟩ := readN_ok hp
  obtain ⟨y, hy⟩ : ∃ y : List α, y = (List.range n).map fun i =>
      ((List.range n).map fun j => (A[i + n * j]?.getD 0) * (x[j]?.getD 0)).sum := ⟨_, rfl⟩
  have hyl : y.length = n := by simp [hy]
  obtain ⟨w', w1, -, w3, w4⟩ := writeN_ok (a := w) (v := y) (q := q) (by omega)
  refine ⟨w', x, y, ?_, x2, hyl, x3, fun f hf i hi => ?_, fun i hi => w3 i (by omega), fun j hj => w4 j (by omega)⟩
  · rw [gemv, if_neg (by omega), x1, Res.ok_bind, ← hy, w1]
  · rw [hy, List.getElem?_map, List.getElem?_range hi, Option.map_some]
    congr 1
    show ∑ j ∈ Finset.range n, _ = _
    refine Finset.sum_congr rfl fun j hj => ?_
    rw [Finset.mem_range] at hj
    rw [ha i j hi hj, hf j hj, Option.getD_some, Option.getD_some]

/-- The body of the loop for matrices puts a x in the place for y. -/
theorem answers_matrix {α : Type} [Semiring α] {n : Nat} {A : Tensor α} {a : Nat → Nat → α}
    (ha : IsMat A.dims A.data n n a) (args : Args) (hn : args.n = n) :
    Answers (β := β) args (Product n a) (answerMatrix A n) := by
  intro o p q ho h
  have hs : Stores A.data n n n a := by
    have := ha
    rw [ha.1] at this
    exact (isMat_stores ha.2.1).1 this
  have h1 := h.x_le
  have h2 := h.y_le
  have h3 := h.workd
  have h4 := h.apart
  rw [ho, hn] at h1 h2 h3 h4
  obtain ⟨w', x, y, e1, e2, e3, e4, e5, e6, e7⟩ := gemv_ok (w := o.work.workd) ha.2.1 hs (p := p) (q := q) (by omega)
    (by omega) h4
  refine ⟨w', ?_, p, q, x, y, h.x, h.y, by rw [e2, hn], by rw [e3, hn], by rw [hn]; exact e4, e5, by rw [hn]; exact e6,
    by rw [hn]; exact e7, rfl⟩
  rw [answerMatrix, pointer_ok h.running h.x (by omega), Res.ok_bind, pointer_ok h.running h.y (by omega), Res.ok_bind,
    e1, Res.ok_bind]

theorem eigs_large {L α β γ : Type} [Zero α] [Add α] [Mul α] [Neg β] [One β] (fuel : Nat) (complex : Bool)
    (N : Num α β γ) (eig : Tensor α → Bool → Bool → Res (Tensor γ × Option (Tensor γ) × Option (Tensor γ)))
    (junk : Nat → α) (lib : Lib L α β) (l : L) (A : Tensor α) (t : Int) {neig n : Nat}
    (vectors : Option (Tensor α)) (wantC : Bool) (hd : A.dims = [n, n]) (hk0 : 0 < neig) (hk : neig ≤ n)
    (hn : 4 < n) :
    eigs fuel complex N eig junk lib l A t neig vectors wantC
      = large fuel complex junk lib l (answerMatrix A n) n t neig vectors wantC := by
  obtain ⟨dims, data⟩ := A
  obtain rfl : dims = [n, n] := hd
  have e1 : (⟨[n, n], data⟩ : Tensor α).dimension 1 = .ok n := rfl
  have e0 : (⟨[n, n], data⟩ : Tensor α).dimension 0 = .ok n := rfl
  simp only [eigs, e1, e0, Run.ok_bind]
  rw [if_neg (by simp [Tensor.rank]), if_neg (by omega), if_neg (by omega)]

/-- C75: eigs of a matrix of n > 4 rows, with a library that does what its manual says. It always ends; the
library is called as the manual says, and every request for a product is answered with the product by
the matrix; what is returned is what the library leaves. -/
theorem c75_matrix {L α β γ : Type} [Semiring α] [Neg β] [One β] (complex : Bool) (N : Num α β γ)
    (eig : Tensor α → Bool → Bool → Res (Tensor γ × Option (Tensor γ) × Option (Tensor γ))) (junk : Nat → α)
    {lib : Lib L α β} (l0 : L) {A : Tensor α} {n neig : Nat} {t : Int} (hn : 4 < n) (h0 : 0 < neig)
    (hk : neig < n) (ht : ValidType complex t) {a : Nat → Nat → α} (ha : IsMat A.dims A.data n n a)
    (hm : Manual complex lib (Product n a)) (vectors : Option (Tensor α)) (wantC : Bool) :
    ∃ args w0 k l w r, Started n t neig vectors args w0 ∧ FirstCall complex args w0 ∧
      Dialogue lib args (Product n a) l0 w0 k l w ∧ w.ido = 99 ∧
      Finishes (fun fuel => eigs fuel complex N eig junk lib l0 A t neig vectors wantC) r ∧
      Returned lib args vectors wantC l w r := by
  rw [funext fun fuel => eigs_large fuel complex N eig junk lib l0 A t vectors wantC ha.1 h0 (by omega) hn]
  exact large_ok hm junk l0 ht h0 hk (fun args h => answers_matrix ha args h) vectors wantC

/-- C75: all the eigenvalues of a matrix of more than four rows cannot be asked for; nor types that are
not those of the enumeration; nor imaginary parts with real matrices. -/
theorem c75_refused {L α β γ : Type} [Zero α] [Add α] [Mul α] [Neg β] [One β] (fuel : Nat) (complex : Bool)
    (N : Num α β γ) (eig : Tensor α → Bool → Bool → Res (Tensor γ × Option (Tensor γ) × Option (Tensor γ)))
    (junk : Nat → α) (lib : Lib L α β) (l : L) (A : Tensor α) {t : Int} {neig n : Nat}
    (vectors : Option (Tensor α)) (wantC : Bool) (hd : A.dims = [n, n]) (hn : 4 < n) (h6 : t ≠ 6)
    (h : neig = n ∨ ¬ ValidType complex t) :
    eigs fuel complex N eig junk lib l A t neig vectors wantC = .done .abort := by
  by_cases hk : 0 < neig ∧ neig ≤ n
  · rw [eigs_large fuel complex N eig junk lib l A t vectors wantC hd hk.1 hk.2 hn, large,
      c74_refused complex junk h6 (by rcases h with h | h <;> [(right; right; omega); exact .inl h]), Run.abort_bind]
  · refine c73_refused fuel complex N eig junk lib l A t neig vectors wantC ?_
    rintro ⟨m, e, h1, h2⟩
    rw [hd] at e
    simp at e
    omega

/-- C75: a complex matrix of n > 4 rows, in exact arithmetic. If the numbers are returned without a sign of
failure, they are the eigenvalues of the type that was asked for, and the vectors are eigenvectors. -/
theorem c75_complex_partial {L γ : Type} (N : Num ℂ ℝ γ)
    (eig : Tensor ℂ → Bool → Bool → Res (Tensor γ × Option (Tensor γ) × Option (Tensor γ))) (junk : Nat → ℂ)
    {lib : Lib L ℂ ℝ} (l0 : L) {A : Tensor ℂ} {n k : Nat} {t : Int} (hn : 4 < n) (h0 : 0 < k) (hk : k < n)
    (ht : 0 ≤ t) (ht5 : t ≤ 5) {a : Nat → Nat → ℂ} (ha : IsMat A.dims A.data n n a)
    (hm : Manual true lib (Product n a)) (hg : Computes true lib (Product n a) (ZneupdAnswer a))
    (vectors : Option (Tensor ℂ)) (wantC : Bool) :
    ∃ r, Finishes (fun fuel => eigs fuel true N eig junk lib l0 A t k vectors wantC) r ∧
      (r = .abort ∨ (wantC = true ∧ r = .ok ⟨⟨[k], List.replicate k 0⟩, vectors, some false⟩) ∨
        ∃ (ev : Nat → ℂ) (e : Nat → Nat) (values : Tensor ℂ) (V : Option (Tensor ℂ)),
          r = .ok ⟨values, V, if wantC then some true else none⟩ ∧ IsSpectrum n a ev ∧ Chosen t n ev k e ∧
          IsVec values k (fun l => ev (e l)) ∧ V.isSome = vectors.isSome ∧
          ∀ v ∈ V, ∃ u, IsMat v.dims v.data n k u ∧ ∀ l < k, IsRight n a (ev (e l)) fun i => u i l) := by
  obtain ⟨args, w0, c, l, w, r, hs, hf, hd, h99, hfin, hr⟩ := c75_matrix true N eig junk l0 hn h0 hk
    ⟨ht, ht5, by simp⟩ ha hm vectors wantC
  refine ⟨r, hfin, ?_⟩
  cases hr with
  | failed _ => exact .inl rfl
  | unconverged _ hc => exact .inr (.inl ⟨hc, by rw [hs.nev_eq]⟩)
  | unconverged_end _ _ => exact .inl rfl
  | finished hi he =>
    obtain ⟨ev, e, g1, g2, g3, g4⟩ := hg _ _ _ hf _ _ _ hd h99 hi _ he t hs.which
    have hdl := (hm _ l0 _ hf).d_size _ _ _ vectors.isSome hd h99
    have hzl := (hm _ l0 _ hf).z_size _ _ _ hd h99
    rw [hs.n_eq] at g1 g2 g4 hzl
    rw [hs.nev_eq] at g2 g3 g4 hdl hzl
    refine .inr (.inr ⟨ev, e, _, _, rfl, g1, g2, ?_, ?_, ?_⟩)
    · rw [hs.nev_eq]
      refine ⟨rfl, by rw [List.length_take, hdl]; omega, fun l hl => ?_⟩
      show (List.take k _)[l]? = _
      rw [List.getElem?_take, if_pos hl, g3 l hl]
    · cases vectors <;> rfl
    · cases hv : vectors.isSome with
      | false => simp
      | true =>
        rw [hv] at g4
        obtain ⟨V, V1, V2⟩ := g4 rfl
        simp only [if_true, Option.mem_some_iff]
        rintro v rfl
        refine ⟨V, ?_, V2⟩
        rw [hs.n_eq, hs.nev_eq]
        exact (isMat_stores hzl).2 V1

/-- C75: a real symmetric matrix of n > 4 rows, in exact arithmetic. If the numbers are returned without a
sign of failure, they are the eigenvalues of the type that was asked for, in increasing order, and the
vectors are orthonormal eigenvectors. -/
theorem c75_symmetric_partial {L γ : Type} (N : Num ℝ ℝ γ)
    (eig : Tensor ℝ → Bool → Bool → Res (Tensor γ × Option (Tensor γ) × Option (Tensor γ))) (junk : Nat → ℝ)
    {lib : Lib L ℝ ℝ} (l0 : L) {A : Tensor ℝ} {n k : Nat} {t : Int} (hn : 4 < n) (h0 : 0 < k) (hk : k < n)
    (ht : 0 ≤ t) (ht3 : t ≤ 3) {a : Nat → Nat → ℝ} (ha : IsMat A.dims A.data n n a)
    (hsym : ∀ i < n, ∀ j < n, a i j = a j i)
    (hm : Manual false lib (Product n a)) (hg : Computes false lib (Product n a) (DseupdAnswer a))
    (vectors : Option (Tensor ℝ)) (wantC : Bool) :
    ∃ r, Finishes (fun fuel => eigs fuel false N eig junk lib l0 A t k vectors wantC) r ∧
      (r = .abort ∨ (wantC = true ∧ r = .ok ⟨⟨[k], List.replicate k 0⟩, vectors, some false⟩) ∨
        ∃ (w : Nat → ℝ) (e : Nat → Nat) (values : Tensor ℝ) (V : Option (Tensor ℝ)),
          r = .ok ⟨values, V, if wantC then some true else none⟩ ∧
          IsSpectrum n (fun i j => (a i j : ℂ)) (fun j => (w j : ℂ)) ∧ Chosen t n (fun j => (w j : ℂ)) k e ∧
          (∀ l m, l ≤ m → m < k → w (e l) ≤ w (e m)) ∧
          IsVec values k (fun l => w (e l)) ∧ V.isSome = vectors.isSome ∧
          ∀ v ∈ V, ∃ u, IsMat v.dims v.data n k u ∧
            (∀ l < k, ∀ i < n, ∑ j ∈ Finset.range n, a i j * u j l = w (e l) * u i l) ∧
            ∀ l < k, ∀ m < k, ∑ i ∈ Finset.range n, u i l * u i m = if l = m then 1 else 0) := by
  obtain ⟨args, w0, c, l, w, r, hs, hf, hd, h99, hfin, hr⟩ := c75_matrix false N eig junk l0 hn h0 hk
    ⟨ht, by omega, fun _ => ht3⟩ ha hm vectors wantC
  refine ⟨r, hfin, ?_⟩
  cases hr with
  | failed _ => exact .inl rfl
  | unconverged _ hc => exact .inr (.inl ⟨hc, by rw [hs.nev_eq]⟩)
  | unconverged_end _ _ => exact .inl rfl
  | finished hi he =>
    obtain ⟨ev, e, g1, g2, g0, g3, g4⟩ := hg _ _ _ hf _ _ _ hd h99 hi _ he (by rw [hs.n_eq]; exact hsym) t hs.which
    have hdl := (hm _ l0 _ hf).d_size _ _ _ vectors.isSome hd h99
    have hzl := (hm _ l0 _ hf).z_size _ _ _ hd h99
    rw [hs.n_eq] at g1 g2 g4 hzl
    rw [hs.nev_eq] at g2 g0 g3 g4 hdl hzl
    refine .inr (.inr ⟨ev, e, _, _, rfl, g1, g2, g0, ?_, ?_, ?_⟩)
    · rw [hs.nev_eq]
      refine ⟨rfl, by rw [List.length_take, hdl]; omega, fun l hl => ?_⟩
      show (List.take k _)[l]? = _
      rw [List.getElem?_take, if_pos hl, g3 l hl]
    · cases vectors <;> rfl
    · cases hv : vectors.isSome with
      | false => simp
      | true =>
        rw [hv] at g4
        obtain ⟨V, V1, V2, V3⟩ := g4 rfl
        simp only [if_true, Option.mem_some_iff]
        rintro v rfl
        refine ⟨V, ?_, V2, V3⟩
        rw [hs.n_eq, hs.nev_eq]
        exact (isMat_stores hzl).2 V1

/-- C75: a tensor of zeros given for the vectors, as a place where to put them, is taken as an estimate of
them, and the program ends. -/
theorem c75_negation_zeros {L α β γ : Type} [Semiring α] [Neg β] [One β] (complex : Bool) (N : Num α β γ)
    (eig : Tensor α → Bool → Bool → Res (Tensor γ × Option (Tensor γ) × Option (Tensor γ))) (junk : Nat → α)
    {lib : Lib L α β} (l0 : L) {A : Tensor α} {n neig : Nat} {t : Int} (hn : 4 < n) (h0 : 0 < neig)
    (hk : neig < n) (ht : ValidType complex t) {a : Nat → Nat → α} (ha : IsMat A.dims A.data n n a)
    (hm : Manual complex lib (Product n a)) (hz : RefusesZero complex lib (Product n a)) (wantC : Bool) :
    Finishes (fun fuel => eigs fuel complex N eig junk lib l0 A t neig (some (fill [n, neig] 0)) wantC) .abort := by
  obtain ⟨args, w0, c, l, w, r, hs, hf, hd, h99, hfin, hr⟩ := c75_matrix complex N eig junk l0 hn h0 hk ht ha hm
    (some (fill [n, neig] 0)) wantC
  have hlen : (fill [n, neig] (0 : α)).data = List.replicate (n * neig) 0 := by simp [fill, totalSize]
  obtain ⟨g1, g2⟩ := hs.given _ rfl (by
    rw [hlen, List.length_replicate]
    exact Nat.le_mul_of_pos_right _ h0)
  have hi := hz _ _ _ hf (by omega) (by
    intro x hx
    rw [g2, hlen] at hx
    exact List.eq_of_mem_replicate (List.mem_of_mem_take hx)) _ _ _ hd h99
  cases hr with
  | failed _ => exact hfin
  | unconverged h _ => omega
  | unconverged_end h _ => exact hfin
  | finished h _ => omega

/-- Libraries that ask for products and then give a good answer. -/
theorem asker_computes {complex : Bool} {ans : List α → List α → Prop} (m : Nat) (l0 : Nat)
    {Good : Args → Work α β → Bool → List α → List α → Prop}
    (h : ∀ (a : Args) (rvec : Bool), ∃ d z, d.length = a.nev + 1 ∧ z.length = a.n * a.nev ∧
      (0 < a.nev → a.nev < a.n → ∀ w, Good a w rvec d z)) :
    ∃ lib : Lib Nat α β, Manual complex lib ans ∧ Computes complex lib ans Good ∧
      ∀ a w0, FirstCall complex a w0 → ∀ k l w rvec, Dialogue lib a ans l0 w0 k l w → w.ido = 99 →
        w.info = 0 ∧ (lib.eupd l rvec a w).2.1.info = 0 := by
  choose d z h1 h2 h3 using h
  refine ⟨asker m 0 fun a b => (d a b, z a b), asker_manual _ _ h1 fun a => h2 a true,
    fun a l0 w0 hf k l w hd h99 hi rvec he => h3 a rvec hf.nev_pos ?_ _, fun a w0 hf k l w rvec hd h99 => ⟨?_, rfl⟩⟩
  · have := hf.nev_ncv
    have := hf.ncv_n
    omega
  · rcases (asker_state hf hd).2.2 with h | h
    · omega
    · exact h.2.1

/-- The first positions in some order. -/
theorem chosen_exists {t : Int} (h0 : 0 ≤ t) (h5 : t ≤ 5) {n k : Nat} (hk : k ≤ n) (ev : Nat → ℂ) :
    ∃ E : List Nat, E.length = k ∧ E.Nodup ∧ (∀ x ∈ E, x < n) ∧
      ∀ j < n, j ∉ E → ∀ x ∈ E, MayPrecede t (ev x) (ev j) := by
  obtain ⟨key, hkey, -⟩ := keys_eq h0 h5
  obtain ⟨sort, hs⟩ := exists_sort
  obtain ⟨E, -, e2, e3, -⟩ := sorted_chosen hkey (D := (List.range n).map ev) (ev := ev) (k := k) (by simp)
    (fun l hl => by simp [hl]) hk (hs _)
  have hget : ∀ (p : Nat) (hp : p < E.length), E.getD p 0 = E[p] := fun p hp => getD_lt hp
  refine ⟨E, e2, List.nodup_iff_injective_get.2 fun p q h => ?_, fun x hx => ?_, fun j hj hne x hx => ?_⟩
  · refine Fin.ext (e3.inj p q (by omega) (by omega) ?_)
    beta_reduce
    rw [hget p p.2, hget q q.2]
    simpa using h
  · obtain ⟨p, hp, rfl⟩ := List.mem_iff_getElem.1 hx
    have := e3.lt p (by omega)
    rwa [hget p hp] at this
  · obtain ⟨p, hp, rfl⟩ := List.mem_iff_getElem.1 hx
    have := e3.first j hj (fun l hl h => hne (by
      beta_reduce at h
      rw [← h, hget l (by omega)]
      exact List.getElem_mem _)) p (by omega)
    beta_reduce at this
    rwa [hget p hp] at this

theorem chosen_of {t : Int} {n k : Nat} {ev : Nat → ℂ} {E : List Nat} (h1 : E.length = k) (h2 : E.Nodup)
    (h3 : ∀ x ∈ E, x < n) (h4 : ∀ j < n, j ∉ E → ∀ x ∈ E, MayPrecede t (ev x) (ev j)) :
    Chosen t n ev k fun l => E.getD l 0 := by
  have hget : ∀ (p : Nat) (hp : p < E.length), E.getD p 0 = E[p] := fun p hp => getD_lt hp
  refine ⟨fun l hl => ?_, fun l m hl hm h => ?_, fun j hj hne l hl => ?_⟩
  · beta_reduce
    rw [hget l (by omega)]
    exact h3 _ (List.getElem_mem _)
  · beta_reduce at h
    rw [hget l (by omega), hget m (by omega)] at h
    exact (h2.getElem_inj_iff).1 h
  · beta_reduce
    rw [hget l (by omega)]
    refine h4 j hj (fun hm => ?_) _ (List.getElem_mem _)
    obtain ⟨p, hp, rfl⟩ := List.mem_iff_getElem.1 hm
    exact hne p (by omega) (hget p hp)

/-- A diagonal matrix. -/
def diag {α : Type} [Zero α] (c : Nat → α) (i j : Nat) : α := if i = j then c i else 0

theorem diag_spectrum (n : Nat) (c : Nat → ℂ) : IsSpectrum n (diag c) c := by
  have : (Matrix.of fun i j : Fin n => diag c i j) = Matrix.diagonal fun j : Fin n => c j := by
    ext i j
    simp only [Matrix.of_apply, diag, Matrix.diagonal_apply, Fin.ext_iff]
  rw [IsSpectrum, this, Matrix.charpoly_diagonal]

theorem meaning_range {s : String} {t : Int} (h : meaning s = some t) : 0 ≤ t ∧ t ≤ 5 := by
  unfold meaning at h
  split at h <;> simp at h <;> omega

/-- An answer for a diagonal matrix. -/
theorem diag_complex (c : Nat → ℂ) (a : Args) (rvec : Bool) : ∃ d z : List ℂ, d.length = a.nev + 1 ∧
    z.length = a.n * a.nev ∧ (a.nev ≤ a.n → ∀ w, ZneupdAnswer (diag c) a w rvec d z) := by
  by_cases hk : a.nev ≤ a.n
  swap
  · exact ⟨List.replicate (a.nev + 1) 0, List.replicate (a.n * a.nev) 0, by simp, by simp, fun h => absurd h hk⟩
  cases ht : meaning a.which with
  | none =>
    exact ⟨List.replicate (a.nev + 1) 0, List.replicate (a.n * a.nev) 0, by simp, by simp, fun _ w t h => by rw [ht] at h; cases h⟩
  | some t =>
    obtain ⟨h0, h5⟩ := meaning_range ht
    obtain ⟨E, e1, e2, e3, e4⟩ := chosen_exists h0 h5 hk c
    refine ⟨(List.range (a.nev + 1)).map fun l => c (E.getD l 0),
      (List.range (a.n * a.nev)).map fun p => if p % a.n = E.getD (p / a.n) 0 then 1 else 0, by simp, by simp,
      fun _ w t' h => ?_⟩
    rw [ht] at h
    cases h
    refine ⟨c, _, diag_spectrum _ c, chosen_of e1 e2 e3 e4, fun l hl => ?_, fun _ =>
      ⟨fun i l => if i = E.getD l 0 then 1 else 0, fun i l hi hl => ?_, fun l hl => ⟨⟨E.getD l 0, ?_, by simp⟩, fun i hi => ?_⟩⟩⟩
    · rw [List.getElem?_map, List.getElem?_range (by omega)]
      rfl
    · have hlt : i + a.n * l < a.n * a.nev := by
        calc i + a.n * l < a.n + a.n * l := by omega
          _ = a.n * (l + 1) := by ring
          _ ≤ _ := Nat.mul_le_mul_left _ hl
      rw [List.getElem?_map, List.getElem?_range hlt, Option.map_some, Nat.add_mul_mod_self_left, Nat.mod_eq_of_lt hi,
        Nat.add_mul_div_left _ _ (by omega), Nat.div_eq_of_lt hi, Nat.zero_add]
    · exact e3 _ (by rw [getD_lt (by omega)]; exact List.getElem_mem _)
    · simp only [diag, mul_ite, mul_one, mul_zero, Finset.sum_ite_eq', Finset.mem_range]
      by_cases h : i = E.getD l 0
      · rw [← h]
        simp [hi]
      · simp only [h, if_false, ite_self]

/-- An answer for a real diagonal matrix. -/
theorem diag_real (c : Nat → ℝ) (a : Args) (rvec : Bool) : ∃ d z : List ℝ, d.length = a.nev + 1 ∧
    z.length = a.n * a.nev ∧ (a.nev ≤ a.n → ∀ w, DseupdAnswer (diag c) a w rvec d z) := by
  by_cases hk : a.nev ≤ a.n
  swap
  · exact ⟨List.replicate (a.nev + 1) 0, List.replicate (a.n * a.nev) 0, by simp, by simp, fun h => absurd h hk⟩
  cases ht : meaning a.which with
  | none =>
    exact ⟨List.replicate (a.nev + 1) 0, List.replicate (a.n * a.nev) 0, by simp, by simp,
      fun _ w _ t h => by rw [ht] at h; cases h⟩
  | some t =>
    obtain ⟨h0, h5⟩ := meaning_range ht
    obtain ⟨E0, e1, e2, e3, e4⟩ := chosen_exists h0 h5 hk fun j => (c j : ℂ)
    obtain ⟨E, hperm, hsort⟩ : ∃ E : List Nat, E.Perm E0 ∧ E.Pairwise fun x y => c x ≤ c y := by
      refine ⟨E0.mergeSort fun x y => decide (c x ≤ c y), List.mergeSort_perm _ _, ?_⟩
      refine (List.pairwise_mergeSort (fun x y z h1 h2 => ?_) (fun x y => ?_) E0).imp fun h => by simpa using h
      · simp only [decide_eq_true_eq] at h1 h2 ⊢
        exact le_trans h1 h2
      · simp only [Bool.or_eq_true, decide_eq_true_eq]
        exact le_total _ _
    have e1 : E.length = a.nev := by rw [hperm.length_eq, e1]
    have e2 : E.Nodup := hperm.nodup_iff.2 e2
    have e3 : ∀ x ∈ E, x < a.n := fun x hx => e3 x (hperm.mem_iff.1 hx)
    have e4 : ∀ j < a.n, j ∉ E → ∀ x ∈ E, MayPrecede t (c x : ℂ) (c j : ℂ) := fun j hj hne x hx =>
      e4 j hj (fun h => hne (hperm.mem_iff.2 h)) x (hperm.mem_iff.1 hx)
    have hget : ∀ (p : Nat) (hp : p < E.length), E.getD p 0 = E[p] := fun p hp => getD_lt hp
    refine ⟨(List.range (a.nev + 1)).map fun l => c (E.getD l 0),
      (List.range (a.n * a.nev)).map fun p => if p % a.n = E.getD (p / a.n) 0 then 1 else 0, by simp, by simp,
      fun _ w _ t' h => ?_⟩
    rw [ht] at h
    cases h
    refine ⟨c, _, ?_, chosen_of e1 e2 e3 e4, fun l m hlm hm => ?_, fun l hl => ?_, fun _ =>
      ⟨fun i l => if i = E.getD l 0 then 1 else 0, fun i l hi hl => ?_, fun l hl i hi => ?_, fun l hl m hm => ?_⟩⟩
    · convert diag_spectrum a.n fun j => (c j : ℂ) using 3
      simp only [diag]
      split <;> simp
    · beta_reduce
      rw [hget l (by omega), hget m (by omega)]
      rcases Nat.lt_or_eq_of_le hlm with h | h
      · exact List.pairwise_iff_getElem.1 hsort l m _ _ h
      · subst h
        exact le_refl _
    · rw [List.getElem?_map, List.getElem?_range (by omega)]
      rfl
    · have hlt : i + a.n * l < a.n * a.nev := by
        calc i + a.n * l < a.n + a.n * l := by omega
          _ = a.n * (l + 1) := by ring
          _ ≤ _ := Nat.mul_le_mul_left _ hl
      rw [List.getElem?_map, List.getElem?_range hlt, Option.map_some, Nat.add_mul_mod_self_left, Nat.mod_eq_of_lt hi,
        Nat.add_mul_div_left _ _ (by omega), Nat.div_eq_of_lt hi, Nat.zero_add]
    · simp only [diag, mul_ite, mul_one, mul_zero, Finset.sum_ite_eq', Finset.mem_range]
      by_cases h : i = E.getD l 0
      · rw [← h]
        simp [hi]
      · simp only [h, if_false, ite_self]
    · have hl' : E.getD l 0 < a.n := e3 _ (by rw [hget l (by omega)]; exact List.getElem_mem _)
      simp only [mul_ite, mul_one, mul_zero]
      by_cases h : l = m
      · subst h
        rw [if_pos rfl, Finset.sum_eq_single (E.getD l 0)]
        · simp
        · intro b _ hb
          simp only [hb, if_false]
        · intro h
          exact absurd (Finset.mem_range.2 hl') h
      · rw [if_neg h]
        refine Finset.sum_eq_zero fun i _ => ?_
        by_cases hi : i = E.getD m 0
        · rw [if_pos hi, if_neg]
          rw [hi, hget l (by omega), hget m (by omega)]
          exact fun h' => h ((e2.getElem_inj_iff).1 h').symm
        · rw [if_neg hi]

def diagT {α : Type} [Zero α] (n : Nat) (c : Nat → α) : Tensor α :=
  ⟨[n, n], (List.range (n * n)).map fun p => diag c (p % n) (p / n)⟩

theorem diag_isMat {α : Type} [Zero α] (n : Nat) (c : Nat → α) :
    IsMat (diagT n c).dims (diagT n c).data n n (diag c) := by
  unfold diagT
  refine (isMat_stores (by simp)).2 fun i j hi hj => ?_
  have hlt : i + n * j < n * n := by
    calc i + n * j < n + n * j := by omega
      _ = n * (j + 1) := by ring
      _ ≤ _ := Nat.mul_le_mul_left _ hj
  rw [List.getElem?_map, List.getElem?_range hlt, Option.map_some, Nat.add_mul_mod_self_left, Nat.mod_eq_of_lt hi,
    Nat.add_mul_div_left _ _ (by omega), Nat.div_eq_of_lt hi, Nat.zero_add]

/-- If the library does not say that anything failed, eigs returns. -/
theorem matrix_returns {L α β γ : Type} [Semiring α] [Neg β] [One β] (complex : Bool) (N : Num α β γ)
    (eig : Tensor α → Bool → Bool → Res (Tensor γ × Option (Tensor γ) × Option (Tensor γ))) (junk : Nat → α)
    {lib : Lib L α β} {l0 : L} {A : Tensor α} {n neig : Nat} {t : Int} (hn : 4 < n) (h0 : 0 < neig)
    (hk : neig < n) (ht : ValidType complex t) {a : Nat → Nat → α} (ha : IsMat A.dims A.data n n a)
    (hm : Manual complex lib (Product n a))
    (hok : ∀ a' w0, FirstCall complex a' w0 → ∀ k l w rvec, Dialogue lib a' (Product n a) l0 w0 k l w → w.ido = 99 →
      w.info = 0 ∧ (lib.eupd l rvec a' w).2.1.info = 0) (vectors : Option (Tensor α)) :
    ∃ values V, Finishes (fun fuel => eigs fuel complex N eig junk lib l0 A t neig vectors true)
      (.ok ⟨values, V, some true⟩) := by
  obtain ⟨args, w0, c, l, w, r, hs, hf, hd, h99, hfin, hr⟩ := c75_matrix complex N eig junk l0 hn h0 hk ht ha hm
    vectors true
  obtain ⟨g1, g2⟩ := hok _ _ hf _ _ _ vectors.isSome hd h99
  cases hr with
  | failed h => rcases h with h | h <;> omega
  | unconverged h _ => omega
  | unconverged_end h _ => omega
  | finished _ _ => exact ⟨_, _, hfin⟩

/-- The hypotheses can be met: the complex diagonal matrices, with a library that asks for seven
products; three of the eigenvalues are returned, those of largest modulus. -/
example (c : Nat → ℂ) (vectors : Option (Tensor ℂ)) : ∃ (lib : Lib Nat ℂ ℝ) (ev : Nat → ℂ) (e : Nat → Nat)
    (values : Tensor ℂ) (V : Option (Tensor ℂ)), Manual true lib (Product 6 (diag c)) ∧
    Computes true lib (Product 6 (diag c)) (ZneupdAnswer (diag c)) ∧
    Finishes (fun fuel => eigs fuel true (num id fun _ => []) (fun _ _ _ => .abort) (fun _ => 0) lib 0
      (diagT 6 c) 0 3 vectors true) (.ok ⟨values, V, some true⟩) ∧
    IsSpectrum 6 (diag c) ev ∧ Chosen 0 6 ev 3 e ∧ IsVec values 3 fun l => ev (e l) := by
  obtain ⟨lib, h1, h2, h3⟩ := asker_computes (complex := true) (ans := Product 6 (diag c)) 7 0 fun a b => by
    obtain ⟨d, z, h1, h2, h3⟩ := diag_complex c a b
    exact ⟨d, z, h1, h2, fun _ h => h3 h.le⟩
  obtain ⟨values, V, h4⟩ := matrix_returns (n := 6) true (num id fun _ => []) (fun _ _ _ => .abort) (fun _ => 0)
    (neig := 3) (t := 0) (by norm_num) (by norm_num) (by norm_num) ⟨by norm_num, by norm_num, by norm_num⟩
    (diag_isMat 6 c) h1 h3 vectors
  obtain ⟨r, h5, h6⟩ := c75_complex_partial (num id fun _ => []) (fun _ _ _ => .abort) (fun _ => 0) 0 (n := 6) (k := 3)
    (t := 0) (by norm_num) (by norm_num) (by norm_num) (by norm_num) (by norm_num) (diag_isMat 6 c) h1 h2 vectors true
  have := h4.unique h5
  subst this
  rcases h6 with h | ⟨-, h⟩ | ⟨ev, e, values', V', h, g1, g2, g3, -⟩
  · cases h
  · cases h
  · cases h
    exact ⟨lib, ev, e, values, V, h1, h2, h4, g1, g2, g3⟩

/-- The eigenvalues of a diagonal matrix. -/
theorem diag_unique {n : Nat} {c ev : Nat → ℂ} (h : IsSpectrum n (diag c) ev)
    (hc : ∀ i < n, ∀ j < n, c i = c j → i = j) : ∀ i < n, ∀ j < n, ev i = ev j → i = j := by
  have e := (diag_spectrum n c).symm.trans h
  have hr : ∀ f : Nat → ℂ, (∏ j : Fin n, (Polynomial.X - Polynomial.C (f j))).roots
      = Finset.univ.val.map fun j : Fin n => f j := by
    intro f
    have := Polynomial.roots_multiset_prod_X_sub_C (Finset.univ.val.map fun j : Fin n => f j)
    rwa [Multiset.map_map] at this
  have e2 : (Finset.univ.val.map fun j : Fin n => c j) = (Finset.univ.val.map fun j : Fin n => ev j) := by
    rw [← hr, ← hr, e]
  have hnd : (Finset.univ.val.map fun j : Fin n => ev j).Nodup := by
    rw [← e2]
    exact (Multiset.nodup_map_iff_inj_on Finset.univ.nodup).2 fun i _ j _ h =>
      Fin.ext (hc i i.2 j j.2 h)
  intro i hi j hj h
  have := Multiset.inj_on_of_nodup_map hnd ⟨i, hi⟩ (Finset.mem_univ_val _) ⟨j, hj⟩ (Finset.mem_univ_val _) h
  simpa using this

/-- C75: the order of the eigenvalues is not that of the type: with any library that does what its manual
says, the two largest eigenvalues of the matrix with the diagonal 1, 2, ..., 5 are returned with the
largest one last. For n <= 4 it is first, C73. -/
theorem c75_negation_order {L γ : Type} (N : Num ℝ ℝ γ)
    (eig : Tensor ℝ → Bool → Bool → Res (Tensor γ × Option (Tensor γ) × Option (Tensor γ))) (junk : Nat → ℝ)
    {lib : Lib L ℝ ℝ} (l0 : L) (hm : Manual false lib (Product 5 (diag fun i => (i : ℝ) + 1)))
    (hg : Computes false lib (Product 5 (diag fun i => (i : ℝ) + 1)) (DseupdAnswer (diag fun i => (i : ℝ) + 1)))
    {vectors : Option (Tensor ℝ)} {values : Tensor ℝ} {V : Option (Tensor ℝ)}
    (h : Finishes (fun fuel => eigs fuel false N eig junk lib l0 (diagT 5 fun i => (i : ℝ) + 1) 2 2 vectors true)
      (.ok ⟨values, V, some true⟩)) : ∃ x y, values = ⟨[2], [x, y]⟩ ∧ x < y := by
  obtain ⟨r, h5, h6⟩ := c75_symmetric_partial N eig junk l0 (n := 5) (k := 2) (t := 2) (by norm_num) (by norm_num)
    (by norm_num) (by norm_num) (by norm_num) (diag_isMat 5 fun i => (i : ℝ) + 1) (by
      intro i _ j _
      simp only [diag]
      by_cases h : i = j
      · rw [h]
      · rw [if_neg h, if_neg (Ne.symm h)]) hm hg vectors true
  have := h.unique h5
  subst this
  rcases h6 with h | ⟨-, h⟩ | ⟨w, e, values', V', h, g1, g2, g3, ⟨v1, v2, v3⟩, -⟩
  · cases h
  · cases h
  · cases h
    have g1' : IsSpectrum 5 (diag fun i => ((i : ℂ) + 1)) fun j => (w j : ℂ) := by
      convert g1 using 3
      simp only [diag]
      split <;> simp
    have hinj := diag_unique g1' (by
      intro i _ j _ h
      have : (i : ℂ) = j := add_right_cancel h
      exact_mod_cast this) (e 0) (g2.lt 0 (by norm_num)) (e 1) (g2.lt 1 (by norm_num))
    have hne : w (e 0) ≠ w (e 1) := fun h => by
      have := g2.inj 0 1 (by norm_num) (by norm_num) (hinj (by beta_reduce; rw [h]))
      omega
    obtain ⟨dims, data⟩ := values
    simp only at v1 v2 v3
    subst v1
    refine ⟨w (e 0), w (e 1), ?_, lt_of_le_of_ne (g3 0 1 (by norm_num) (by norm_num)) hne⟩
    congr 1
    refine List.ext_getElem? fun l => ?_
    by_cases hl : l < 2
    · rw [v3 l hl]
      rcases (show l = 0 ∨ l = 1 by omega) with rfl | rfl <;> rfl
    · rw [List.getElem?_eq_none (by omega), List.getElem?_eq_none (by simp; omega)]

/-- Its hypotheses can be met. -/
example : ∃ (lib : Lib Nat ℝ ℝ) (values : Tensor ℝ) (V : Option (Tensor ℝ)),
    Manual false lib (Product 5 (diag fun i => (i : ℝ) + 1)) ∧
    Computes false lib (Product 5 (diag fun i => (i : ℝ) + 1)) (DseupdAnswer (diag fun i => (i : ℝ) + 1)) ∧
    Finishes (fun fuel => eigs fuel false (num Complex.re fun _ => []) (fun _ _ _ => .abort) (fun _ => 0) lib 0
      (diagT 5 fun i => (i : ℝ) + 1) 2 2 none true) (.ok ⟨values, V, some true⟩) := by
  obtain ⟨lib, h1, h2, h3⟩ := asker_computes (complex := false) (ans := Product 5 (diag fun i => (i : ℝ) + 1)) 7 0
    fun a b => by
      obtain ⟨d, z, h1, h2, h3⟩ := diag_real (fun i => (i : ℝ) + 1) a b
      exact ⟨d, z, h1, h2, fun _ h => h3 h.le⟩
  obtain ⟨values, V, h4⟩ := matrix_returns (n := 5) false (num Complex.re fun _ => []) (fun _ _ _ => .abort)
    (fun _ => 0) (neig := 2) (t := 2) (by norm_num) (by norm_num) (by norm_num) ⟨by norm_num, by norm_num, by norm_num⟩
    (diag_isMat 5 fun i => (i : ℝ) + 1) h1 h3 none
  exact ⟨lib, values, V, h1, h2, h4⟩

/-- The matrix {0,1;-1,0} three times in the diagonal. -/
def turns (i j : Nat) : ℝ := if i % 2 = 0 ∧ j = i + 1 then 1 else if j % 2 = 0 ∧ i = j + 1 then -1 else 0

/-- It has no real eigenvalues. -/
theorem turns_real (x : ℝ) (v : Nat → ℂ) : ¬ IsRight 6 (fun i j => (turns i j : ℂ)) x v := by
  rintro ⟨⟨p, hp, hne⟩, h⟩
  have hx : (x : ℂ) * x + 1 ≠ 0 := by
    intro h
    have := congrArg Complex.re h
    simp at this
    nlinarith [mul_self_nonneg x]
  have e0 := h 0 (by norm_num)
  have e1 := h 1 (by norm_num)
  have e2 := h 2 (by norm_num)
  have e3 := h 3 (by norm_num)
  have e4 := h 4 (by norm_num)
  have e5 := h 5 (by norm_num)
  simp [Finset.sum_range_succ, turns] at e0 e1 e2 e3 e4 e5
  have k0 : ((x : ℂ) * x + 1) * v 0 = 0 := by rw [e0] at e1; linear_combination -e1
  have k2 : ((x : ℂ) * x + 1) * v 2 = 0 := by rw [e2] at e3; linear_combination -e3
  have k4 : ((x : ℂ) * x + 1) * v 4 = 0 := by rw [e4] at e5; linear_combination -e5
  have k0 := (mul_eq_zero.1 k0).resolve_left hx
  have k2 := (mul_eq_zero.1 k2).resolve_left hx
  have k4 := (mul_eq_zero.1 k4).resolve_left hx
  rw [k0, mul_zero] at e0
  rw [k2, mul_zero] at e2
  rw [k4, mul_zero] at e4
  rcases (show p = 0 ∨ p = 1 ∨ p = 2 ∨ p = 3 ∨ p = 4 ∨ p = 5 by omega) with rfl | rfl | rfl | rfl | rfl | rfl
  · exact hne k0
  · exact hne e0
  · exact hne k2
  · exact hne e2
  · exact hne k4
  · exact hne e4

/-- C75: it is false that eigs finds eigenvalues of real nonsymmetric matrices: there is a library that does
what its manual says, and a matrix of six rows for which eigs returns, without any sign of failure,
numbers that are not eigenvalues. (No real number is one; the manual says nothing of this matrix,
because dsaupd is for symmetric ones.) -/
theorem c75_negation_real {γ : Type} (N : Num ℝ ℝ γ)
    (eig : Tensor ℝ → Bool → Bool → Res (Tensor γ × Option (Tensor γ) × Option (Tensor γ))) (junk : Nat → ℝ) :
    ∃ (A : Tensor ℝ) (lib : Lib Nat ℝ ℝ) (values : Tensor ℝ) (V : Option (Tensor ℝ)),
      IsMat A.dims A.data 6 6 turns ∧ Manual false lib (Product 6 turns) ∧
      Computes false lib (Product 6 turns) (DseupdAnswer turns) ∧
      Finishes (fun fuel => eigs fuel false N eig junk lib 0 A 0 2 none true) (.ok ⟨values, V, some true⟩) ∧
      ∀ x v, ¬ IsRight 6 (fun i j => (turns i j : ℂ)) (x : ℝ) v := by
  have hA : IsMat (⟨[6, 6], (List.range 36).map fun p => turns (p % 6) (p / 6)⟩ : Tensor ℝ).dims
      ((List.range 36).map fun p => turns (p % 6) (p / 6)) 6 6 turns := by
    refine (isMat_stores (by simp)).2 fun i j hi hj => ?_
    have hlt : i + 6 * j < 36 := by omega
    rw [List.getElem?_map, List.getElem?_range hlt, Option.map_some, Nat.add_mul_mod_self_left, Nat.mod_eq_of_lt hi,
      Nat.add_mul_div_left _ _ (by omega), Nat.div_eq_of_lt hi, Nat.zero_add]
  obtain ⟨lib, h1, h2, h3⟩ := asker_computes (complex := false) (ans := Product 6 turns) 7 0
    (Good := DseupdAnswer turns) (by
      intro a rvec
      refine ⟨List.replicate (a.nev + 1) 0, List.replicate (a.n * a.nev) 0, by simp, by simp, fun _ _ w hsym => ?_⟩
      have := hsym 0 (by omega) 1 (by omega)
      norm_num [turns] at this)
  obtain ⟨values, V, h4⟩ := matrix_returns (n := 6) false N eig junk (neig := 2) (t := 0) (by norm_num) (by norm_num)
    (by norm_num) ⟨by norm_num, by norm_num, by norm_num⟩ hA h1 h3 none
  exact ⟨_, lib, values, V, hA, h1, h2, h4, turns_real⟩

end Verif.Arpack
