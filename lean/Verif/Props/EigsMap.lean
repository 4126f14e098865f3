import Verif.Props.EigsLarge
import Verif.Props.SparseMult
/-
C76: eigs for functions and for sparse matrices.
-/
namespace Verif.Arpack

open Verif Tensor View Spec Svd Eig

variable {L α β γ : Type}

/-- The function f multiplies vectors of n elements by the matrix a. -/
def MapsBy [Semiring α] (f : Tensor α → Res (Tensor α)) (n : Nat) (a : Nat → Nat → α) : Prop :=
  ∀ x g, IsVec x n g → ∃ y, f x = .ok y ∧ IsVec y n fun i => ∑ j ∈ Finset.range n, a i j * g j

/-- The first n elements of f(x) are those of a x. -/
def Feeds [Semiring α] (f : Tensor α → Res (Tensor α)) (n : Nat) (a : Nat → Nat → α) : Prop :=
  ∀ x g, IsVec x n g → ∃ y, f x = .ok y ∧ n ≤ y.data.length ∧
    ∀ i < n, y.data[i]? = some (∑ j ∈ Finset.range n, a i j * g j)

theorem feeds_of [Semiring α] {f : Tensor α → Res (Tensor α)} {n : Nat} {a : Nat → Nat → α} (h : MapsBy f n a) :
    Feeds f n a := by
  intro x g hx
  obtain ⟨y, h1, h2⟩ := h x g hx
  exact ⟨y, h1, h2.2.1.ge, h2.2.2⟩

/-- The body of the loop for functions puts f(x) in the place for y. -/
theorem answers_map [Semiring α] {f : Tensor α → Res (Tensor α)} {n : Nat} {a : Nat → Nat → α}
    (hf : Feeds f n a) (args : Args) (hn : args.n = n) : Answers (β := β) args (Product n a) (answerMap f) := by
  intro o p q ho h
  obtain ⟨x, x1, x2, x3⟩ := getX_ok h
  rw [ho, hn] at x1 x2 x3
  obtain ⟨gx, hgx⟩ : ∃ g : Nat → α, ∀ l < n, x[l]? = some (g l) := by
    refine ⟨fun j => x[j]?.getD 0, fun l hl => ?_⟩
    beta_reduce
    rw [List.getElem?_eq_getElem (by omega)]
    rfl
  obtain ⟨y, y1, y3, y4⟩ := hf ⟨[n], x⟩ gx ⟨rfl, x2, hgx⟩
  obtain ⟨wd, w1, w2, w3, w4⟩ := setY_ok h (y := y.data) (by rw [ho, hn]; exact y3)
  rw [ho, hn] at w3 w4
  refine ⟨wd, ?_, p, q, x, y.data.take n, h.x, h.y, by rw [x2, hn], by rw [List.length_take, hn]; omega,
    by rw [hn]; exact x3, fun g hg i hi => ?_, by
      rw [hn]
      intro i hi
      rw [List.getElem?_take, if_pos hi]
      exact w3 i hi, by rw [hn]; exact w4, rfl⟩
  · rw [answerMap, x1, Res.ok_bind, y1, Res.ok_bind, w1]
  · rw [List.getElem?_take, if_pos hi, y4 i hi]
    congr 1
    refine Finset.sum_congr rfl fun j hj => ?_
    rw [Finset.mem_range] at hj
    have := hg j hj
    rw [hgx j hj, Option.some.injEq] at this
    rw [this]

/-- There is only one answer that is the product. -/
theorem answered_unique [Semiring α] {n : Nat} {a : Nat → Nat → α} {args : Args} (hn : args.n = n)
    {w w1 w2 : Work α β} (h1 : Answered args (Product n a) w w1) (h2 : Answered args (Product n a) w w2) :
    w1 = w2 := by
  obtain ⟨p, q, x, y, a1, a2, a3, a4, a5, a6, a7, a8, a9⟩ := h1
  obtain ⟨p', q', x', y', b1, b2, b3, b4, b5, b6, b7, b8, b9⟩ := h2
  obtain rfl : p = p' := by
    rw [a1] at b1
    simpa using b1
  obtain rfl : q = q' := by
    rw [a2] at b2
    simpa using b2
  obtain rfl : x = x' := by
    refine List.ext_getElem? fun i => ?_
    by_cases hi : i < args.n
    · rw [← a5 i hi, ← b5 i hi]
    · rw [List.getElem?_eq_none (by omega), List.getElem?_eq_none (by omega)]
  have hx : ∀ l < n, x[l]? = some (x[l]?.getD 0) := fun l hl => by
    rw [List.getElem?_eq_getElem (by omega)]
    rfl
  have hw : w1.workd = w2.workd := by
    refine List.ext_getElem? fun j => ?_
    by_cases hj : j < q ∨ q + args.n ≤ j
    · rw [a8 j hj, b8 j hj]
    · obtain ⟨i, rfl⟩ : ∃ i, j = q + i := ⟨j - q, by omega⟩
      rw [a7 i (by omega), b7 i (by omega), a6 _ hx i (by omega), b6 _ hx i (by omega)]
  rw [a9, b9, hw]

/-- The loop does the same with all the functions that give the product. -/
theorem loop_same [Semiring α] {n : Nat} {b : Nat → Nat → α} {complex : Bool} {lib : Lib L α β} {l0 : L}
    {w0 : Work α β} {a : Args} (hn : a.n = n) (hm : Obeys complex lib (Product n b) a l0 w0)
    {answer answer' : Obj α β → Res (Obj α β)} (hans : Answers a (Product n b) answer)
    (hans' : Answers a (Product n b) answer') :
    ∀ (fuel k : Nat) (l : L) (o : Obj α β), o.args = a → o.status = .initialized ∨ o.status = .running →
      Dialogue lib a (Product n b) l0 w0 k (lib.aupd l a o.work).1 (lib.aupd l a o.work).2 →
      loop lib answer fuel l o = loop lib answer' fuel l o := by
  intro fuel
  induction fuel with
  | zero => intros; rfl
  | succ fuel ih =>
    intro k l o ho hs hd
    have hup : update lib l o = (do
        let o' ← afterCall { o with work := (lib.aupd l a o.work).2 }
        .ok ((lib.aupd l a o.work).1, o')) := by
      rw [update, if_neg (by rcases hs with hs | hs <;> simp [hs, Status.code]),
        if_neg (by rcases hs with hs | hs <;> simp [hs, Status.code]), ho]
    generalize (lib.aupd l a o.work).1 = l1 at hd hup
    generalize (lib.aupd l a o.work).2 = w1 at hd hup
    by_cases h99 : w1.ido = 99
    · have hfin : ∀ o', afterCall { o with work := w1 } = .ok o' → ¬ o'.status.code < Status.finished.code := by
        intro o' h
        simp only [afterCall, h99, if_true] at h
        split at h
        · cases h; simp [Status.code]
        split at h
        · cases h; simp [Status.code]
        split at h
        · cases h
        · cases h; simp [Status.code]
      rw [loop, loop, hup]
      cases hac : afterCall { o with work := w1 } with
      | ok o' =>
        simp only [Res.ok_bind, Run.ok_bind]
        rw [if_neg (hfin _ hac), if_neg (hfin _ hac)]
      | abort => rfl
      | ub => rfl
    · have hi : w1.ido = 1 ∨ w1.ido = -1 := by
        rcases hm.ido _ _ _ hd with h | h | h
        · exact .inl h
        · exact .inr h
        · exact absurd h h99
      obtain ⟨o1, ho1⟩ : ∃ o1 : Obj α β, o1 = { o with status := .running, work := w1 } := ⟨_, rfl⟩
      have hac : afterCall { o with work := w1 } = .ok o1 := by
        rw [afterCall, if_neg h99, if_neg (by show ¬ (w1.ido ≠ 1 ∧ w1.ido ≠ -1); omega), ho1]
      have ha1 : o1.args = a := by rw [ho1]; exact ho
      have hst : o1.status = .running := by rw [ho1]
      have hwk : o1.work = w1 := by rw [ho1]
      obtain ⟨p, q, hq, -⟩ := request_of (o := o1) (w := w1) (by rw [ha1]; exact hm) hst (by rw [ha1]; exact hd) hi
        (.inl hwk)
      obtain ⟨wd, e1, e2⟩ := hans o1 p q ha1 hq
      obtain ⟨wd', e1', e2'⟩ := hans' o1 p q ha1 hq
      have hwd : wd = wd' := congrArg Work.workd (answered_unique hn e2 e2')
      subst hwd
      have hd' := Dialogue.next hd hi (by rw [← hwk]; exact e2)
      rw [loop, loop, hup, hac, Res.ok_bind, Run.ok_bind, Run.ok_bind]
      simp only
      rw [if_pos (by rw [hst]; decide), if_pos (by rw [hst]; decide), e1, e1', Run.ok_bind, Run.ok_bind]
      exact ih (k + 1) l1 _ ha1 (.inr hst) hd'

theorem large_same [Semiring α] [Neg β] [One β] {n : Nat} {b : Nat → Nat → α} {complex : Bool} {lib : Lib L α β}
    (hm : Manual complex lib (Product n b)) (junk : Nat → α) (l0 : L) {neig : Nat} {t : Int}
    (ht : ValidType complex t) (h0 : 0 < neig) (hn : neig < n) {answer answer' : Obj α β → Res (Obj α β)}
    (hans : ∀ a : Args, a.n = n → Answers a (Product n b) answer)
    (hans' : ∀ a : Args, a.n = n → Answers a (Product n b) answer') (vectors : Option (Tensor α)) (wantC : Bool)
    (fuel : Nat) : large fuel complex junk lib l0 answer n t neig vectors wantC
      = large fuel complex junk lib l0 answer' n t neig vectors wantC := by
  obtain ⟨o, e1, e2, e3, e4, e5, e6, -⟩ := c74_construct (β := β) complex junk ht h0 hn
  obtain ⟨o1, hset, hs1, ha1, hf1⟩ : ∃ o1 : Obj α β, (match vectors with
      | some v => if v.size ≥ n then setStartVector o v.data else .ok o
      | none => .ok o) = .ok o1 ∧ o1.status = .initialized ∧ o1.args = o.args ∧
      FirstCall complex o.args o1.work := by
    cases vectors with
    | none => exact ⟨o, rfl, e2, rfl, e6⟩
    | some v =>
      by_cases hv : v.size ≥ n
      · simp only [size] at hv
        refine ⟨{ o with work := { o.work with info := 1, resid := v.data.take o.args.n } }, ?_, e2, rfl, ?_⟩
        · simp only [size, hv, if_true, setStartVector]
          rw [if_neg (by simp [e2, Status.code]), if_neg (by omega)]
        · exact { e6 with resid_size := by simp [List.length_take, e3]; omega }
      · simp only [size] at hv
        exact ⟨o, by simp only [size, hv, if_false], e2, rfl, e6⟩
  have hloop := loop_same e3 (hm _ l0 _ hf1) (hans _ e3) (hans' _ e3) fuel 1 l0 o1 ha1 (.inl hs1) .first
  unfold large
  simp only [e1, Run.ok_bind]
  cases vectors with
  | none =>
    cases hset
    simp only [Run.ok_bind, hloop]
  | some v =>
    simp only at hset ⊢
    rw [hset]
    simp only [Run.ok_bind, hloop]

/-- C76: eigs of a function that multiplies vectors of n > 4 elements by a matrix does the same as eigs of
the matrix. -/
theorem c76_large [Semiring α] [Neg β] [One β] (complex : Bool) (N : Num α β γ)
    (eig : Tensor γ → Bool → Bool → Res (Tensor γ × Option (Tensor γ) × Option (Tensor γ)))
    (eigA : Tensor α → Bool → Bool → Res (Tensor γ × Option (Tensor γ) × Option (Tensor γ))) (up : α → γ)
    (junkM : Nat → γ) (junk : Nat → α) {lib : Lib L α β} (l0 : L) {f : Tensor α → Res (Tensor α)} {A : Tensor α}
    {n neig : Nat} {t : Int} (hn : 4 < n) (h0 : 0 < neig) (hk : neig < n) (ht : ValidType complex t)
    {a : Nat → Nat → α} (hf : MapsBy f n a) (ha : IsMat A.dims A.data n n a)
    (hm : Manual complex lib (Product n a)) (vectors : Option (Tensor α)) (wantC : Bool) (fuel : Nat) :
    doEigs fuel complex N eig up junkM junk lib l0 f n t neig vectors wantC
      = eigs fuel complex N eigA junk lib l0 A t neig vectors wantC := by
  rw [eigs_large fuel complex N eigA junk lib l0 A t vectors wantC ha.1 h0 (by omega) hn]
  unfold doEigs
  rw [if_neg (by omega), if_neg (by omega)]
  exact large_same hm junk l0 ht h0 hk (fun args h => answers_map (feeds_of hf) args h)
    (fun args h => answers_matrix ha args h) vectors wantC fuel

/-- t.at(range(), range(k)) = s. -/
theorem assign_column {α : Type} {t s : Tensor α} {a b k : Nat} {f : Nat → Nat → α} {h : Nat → α}
    (ht : IsMat t.dims t.data a b f) (ha : 0 < a) (hk : k < b) (hs : IsVec s a h) :
    ∃ t' : Tensor α, Finishes (fun n => assign n t [.all, .single k] s) (.ok t') ∧
      IsMat t'.dims t'.data a b fun i j => if j = k then h i else f i j := by
  have hlim : limits t.dims t.data.length [.all, .single k] = [a, b] := by simp [limits, ht.1]
  have hsel : selAll [.all, .single k] [a, b] = [(List.range a).map Int.ofNat, [k].map Int.ofNat] := rfl
  obtain ⟨h1, -⟩ := c12_assign_tensor t s (isMat_wf ht) (isVec_wf hs) [.all, .single k] (by simp)
    (by rw [hlim]; simp; omega) (by rw [hlim]; exact ⟨trivial, ⟨by omega, by omega⟩, trivial⟩)
    (by
      rw [hlim, hsel]
      simp only [List.mem_cons, List.not_mem_nil, or_false]
      rintro l (rfl | rfl)
      · exact List.nodup_range.map fun x y e => Int.ofNat.inj e
      · simp)
  rw [hlim, hsel] at h1
  obtain ⟨t', h2, h3, h4, h5, h6⟩ := h1 (by rw [hs.2.1]; simp [prod])
  refine ⟨t', h2, by rw [h4, ht.1], ?_, fun i j hi hj => ?_⟩
  · have : t'.data.length = totalSize t'.dims := h3
    rw [this, h4, ht.1]
    simp [totalSize]
  · rw [h4, ht.1]
    beta_reduce
    split
    · rename_i hjk
      subst hjk
      have := (h5 [i, 0] [i, j] ⟨by simp [hi], by simp, trivial⟩).1
      rw [this]
      simpa [elem, InB, hi, colPos] using hs.2.2 i hi
    · rename_i hjk
      rw [h6 [i, j] ⟨hi, hj, trivial⟩ (by
        rintro ⟨q, hq⟩
        exact hjk (by simpa using (picks2 hq).2))]
      have := ht.2.2 i j hi hj
      rw [ht.1] at this
      exact this

/-- The loop over the columns. -/
theorem columnLoop_ok [Semiring α] {f : Tensor α → Res (Tensor α)} (up : α → γ) {n : Nat} {a : Nat → Nat → α}
    (hf : MapsBy f n a) : ∀ (k i : Nat) (M : Tensor γ) (m : Nat → Nat → γ), i + k = n →
      IsMat M.dims M.data n n m → (∀ r < n, ∀ c < i, m r c = up (a r c)) →
      ∃ M', Finishes (fun fuel => columnLoop fuel f up n k i M) (.ok M') ∧
        IsMat M'.dims M'.data n n fun r c => up (a r c) := by
  intro k
  induction k with
  | zero =>
    intro i M m hi hM hm
    exact ⟨M, Finishes.done _, hM.congr fun r c hr hc => hm r hr c (by omega)⟩
  | succ k ih =>
    intro i M m hi hM hm
    have hz : IsVec (fill [n] (0 : α)) n fun _ => 0 := by
      refine ⟨rfl, by simp [fill, totalSize], fun l hl => ?_⟩
      simp [fill, totalSize, hl]
    obtain ⟨v, v1, v2⟩ := set1_isVec hz (show i < n by omega) 1
    obtain ⟨y, y1, y2⟩ := hf v _ v2
    obtain ⟨M1, m1, m2⟩ := assign_column hM (by omega) (show i < n by omega) (map_isVec y2 up)
    obtain ⟨M', h1, h2⟩ := ih (i + 1) M1 _ (by omega) m2 fun r hr c hc => by
      beta_reduce
      split
      · rename_i h
        subst h
        congr 1
        rw [Finset.sum_eq_single c (fun j _ hj => by simp [hj])
          (fun h => absurd (Finset.mem_range.2 (by omega)) h)]
        simp
      · exact hm r hr c (by omega)
    refine ⟨M', ?_, h2⟩
    refine Finishes.bind (f := fun _ => Run.done _) ⟨0, fun _ _ => congrArg Run.done v1⟩ ?_
    refine Finishes.bind (f := fun _ => Run.done _) ⟨0, fun _ _ => congrArg Run.done y1⟩ ?_
    exact Finishes.bind m1 h1

theorem junk_isMat (junkM : Nat → γ) (n : Nat) :
    IsMat [n, n] ((List.range (n * n)).map junkM) n n fun i j => junkM (i + n * j) := by
  refine (isMat_stores (by simp)).2 fun i j hi hj => ?_
  have hlt : i + n * j < n * n := by
    calc i + n * j < n + n * j := by omega
      _ = n * (j + 1) := by ring
      _ ≤ _ := Nat.mul_le_mul_left _ hj
  rw [List.getElem?_map, List.getElem?_range hlt, Option.map_some]

/-- The case n <= 4: the matrix is formed. -/
theorem doEigs_small [Semiring α] [Neg β] [One β] (complex : Bool) (N : Num α β γ)
    (eig : Tensor γ → Bool → Bool → Res (Tensor γ × Option (Tensor γ) × Option (Tensor γ))) (up : α → γ)
    (junkM : Nat → γ) (junk : Nat → α) (lib : Lib L α β) (l0 : L) {f : Tensor α → Res (Tensor α)}
    {n neig : Nat} (t : Int) (hn : n ≤ 4) (h0 : 0 < neig) (hk : neig ≤ n) {a : Nat → Nat → α} (hf : MapsBy f n a)
    (vectors : Option (Tensor α)) (wantC : Bool) :
    ∃ M : Tensor γ, IsMat M.dims M.data n n (fun r c => up (a r c)) ∧
      ∀ r, Finishes (fun fuel => small fuel N (eig M) t neig vectors.isSome wantC) r →
        Finishes (fun fuel => doEigs fuel complex N eig up junkM junk lib l0 f n t neig vectors wantC) r := by
  obtain ⟨M, h1, h2⟩ := columnLoop_ok up hf n 0 ⟨[n, n], (List.range (n * n)).map junkM⟩ _ (by omega)
    (junk_isMat junkM n) (fun _ _ _ h => by omega)
  refine ⟨M, h2, fun r hr => ?_⟩
  unfold doEigs
  simp only [show ¬ (neig > n ∨ neig = 0) by omega, hn, if_true, if_false]
  exact Finishes.bind h1 hr

theorem isMat_unique {M A : Tensor α} {n m : Nat} {a : Nat → Nat → α} (hM : IsMat M.dims M.data n m a)
    (hA : IsMat A.dims A.data n m a) : M = A := by
  obtain ⟨md, ml⟩ := M
  obtain ⟨ad, al⟩ := A
  obtain rfl : md = [n, m] := hM.1
  obtain rfl : ad = [n, m] := hA.1
  have h1 := (isMat_stores hM.2.1).1 hM
  have h2 := (isMat_stores hA.2.1).1 hA
  have e1 : ml.length = n * m := hM.2.1
  have e2 : al.length = n * m := hA.2.1
  congr 1
  refine List.ext_getElem? fun p => ?_
  by_cases hp : p < n * m
  · have hn : 0 < n := Nat.pos_of_ne_zero fun h => by simp [h] at hp
    have := h1 (p % n) (p / n) (Nat.mod_lt _ hn) (Nat.div_lt_of_lt_mul hp)
    rw [Nat.mod_add_div] at this
    have h := h2 (p % n) (p / n) (Nat.mod_lt _ hn) (Nat.div_lt_of_lt_mul hp)
    rw [Nat.mod_add_div] at h
    rw [this, h]
  · rw [List.getElem?_eq_none (by omega), List.getElem?_eq_none (by omega)]

/-- C76: eigs of a complex function that multiplies vectors of n <= 4 elements by a matrix does the same as
eigs of the matrix. -/
theorem c76_complex_small [Semiring α] [Neg β] [One β] (N : Num α β α)
    (eig : Tensor α → Bool → Bool → Res (Tensor α × Option (Tensor α) × Option (Tensor α)))
    (junkM junk : Nat → α) (lib : Lib L α β) (l0 : L) {f : Tensor α → Res (Tensor α)} {A : Tensor α}
    {n neig : Nat} (t : Int) (hn : n ≤ 4) (h0 : 0 < neig) (hk : neig ≤ n) {a : Nat → Nat → α}
    (hf : MapsBy f n a) (ha : IsMat A.dims A.data n n a) (vectors : Option (Tensor α)) (wantC : Bool)
    {r : Res (Out α)} (hr : Finishes (fun fuel => eigs fuel true N eig junk lib l0 A t neig vectors wantC) r) :
    Finishes (fun fuel => doEigs fuel true N eig id junkM junk lib l0 f n t neig vectors wantC) r := by
  obtain ⟨M, h1, h2⟩ := doEigs_small true N eig id junkM junk lib l0 t hn h0 hk hf vectors wantC
  obtain rfl := isMat_unique h1 ha
  refine h2 r ?_
  rwa [funext fun fuel => eigs_small fuel true N eig junk lib l0 M t vectors wantC ha.1 h0 hk hn] at hr

/-- C76: eigs of a real function that multiplies vectors of n <= 4 elements by a matrix, if zgeev does what
its manual says and succeeds: the real parts of k eigenvalues, those of the type that is asked for, in
order, and the real parts of eigenvectors on the left. -/
theorem c76_real_partial (g : Zgeev ℂ) (sort : List ℝ → List Int) (hs : ∀ v, SortIndices v false (sort v))
    (junkM : Nat → ℂ) (junk : Nat → ℝ) (lib : Lib L ℝ ℝ) (l0 : L) {f : Tensor ℝ → Res (Tensor ℝ)} {n k : Nat}
    (hn : n ≤ 4) (hk0 : 0 < k) (hk : k ≤ n) {t : Int} (h0 : 0 ≤ t) (h5 : t ≤ 5) (vectors : Option (Tensor ℝ))
    (wantC : Bool) {a : Nat → Nat → ℝ} (hf : MapsBy f n a)
    (hg : ∀ d, Stores d n n n (fun i j => (a i j : ℂ)) → d.length = n * n →
      ZgeevAnswer vectors.isSome false n d n n n (g vectors.isSome false n d n n n) ∧
      (g vectors.isSome false n d n n n).info = 0) :
    ∃ (ev : Nat → ℂ) (e : Nat → Nat) (values : Tensor ℝ) (V : Option (Tensor ℝ)) (d : List ℂ),
      IsSpectrum n (fun i j => (a i j : ℂ)) ev ∧ Chosen t n ev k e ∧ InOrder t k (fun l => ev (e l)) ∧
      Finishes (fun fuel => doEigs fuel false (num Complex.re sort) (eigComplex g) (fun x : ℝ => (x : ℂ)) junkM junk
        lib l0 f n t k vectors wantC) (.ok ⟨values, V, if wantC then some true else none⟩) ∧
      IsVec values k (fun l => (ev (e l)).re) ∧ V.isSome = vectors.isSome ∧
      Stores d n n n (fun i j => (a i j : ℂ)) ∧ d.length = n * n ∧
      ∀ v ∈ V, ∃ u : Nat → Nat → ℂ, (IsMat v.dims v.data n k fun i l => (u i (e l)).re) ∧
        (∀ j < n, IsLeft n (fun i j => (a i j : ℂ)) (ev j) fun i => u i j) ∧
        Stores (g true false n d n n n).vl n n n u := by
  obtain ⟨M, hM, hfin⟩ := doEigs_small false (num Complex.re sort) (eigComplex g) (fun x : ℝ => (x : ℂ)) junkM junk lib
    l0 t hn hk0 hk hf vectors wantC
  have hst : Stores M.data n n n fun i j => (a i j : ℂ) := by
    have := hM
    rw [hM.1] at this
    exact (isMat_stores hM.2.1).1 this
  obtain ⟨g1, g2⟩ := hg M.data hst hM.2.1
  obtain ⟨h1, h3, -, h5'⟩ := g1 (by omega) le_rfl hM.2.1 le_rfl le_rfl
  obtain ⟨ev, w1, w3, w4, -⟩ := h5' g2 _ hst
  obtain ⟨v, hv⟩ : ∃ v, vectors.isSome = true →
      Stores (g vectors.isSome false n M.data n n n).vl n n n v ∧
        ∀ j < n, IsLeft n (fun i j => (a i j : ℂ)) (ev j) fun i => v i j := by
    cases hv : vectors.isSome with
    | false => exact ⟨fun _ _ => 0, by simp⟩
    | true =>
      rw [hv] at w4
      obtain ⟨v, v1⟩ := w4 rfl
      exact ⟨v, fun _ => v1⟩
  have he : eigComplex g M false vectors.isSome = .ok (⟨[n], (g vectors.isSome false n M.data n n n).w⟩, none,
      if vectors.isSome then some ⟨[n, n], (g vectors.isSome false n M.data n n n).vl⟩ else none) := by
    simp only [eigComplex, checks_ok M hM.1 (by omega), Res.ok_bind]
    rfl
  obtain ⟨e, values, V, f1, f2, f3, f4, f5, f6⟩ := small_ok (back := Complex.re) (eig := eigComplex g M) (v := v) hs h0
    h5 hk0 hk wantC he (ev := ev) ⟨rfl, h1, w1⟩ (by cases vectors <;> rfl) (by
      cases hv' : vectors.isSome with
      | false => simp
      | true =>
        simp only [if_true, Option.mem_some_iff]
        rintro l rfl
        rw [hv'] at hv h3
        exact (isMat_stores (h3 rfl)).2 (hv rfl).1)
  refine ⟨ev, e, values, V, M.data, w3, f1, f2, hfin _ f3, f4, f5, hst, hM.2.1, fun W hW => ⟨v, f6 W hW, ?_⟩⟩
  have hsome : vectors.isSome = true := by
    rw [← f5]
    exact Option.isSome_iff_exists.2 ⟨W, hW⟩
  rw [hsome] at hv
  exact ⟨(hv rfl).2, (hv rfl).1⟩

/-- C76: if the matrix is symmetric, and zgeev makes the largest component of each vector real, the numbers
are k of the eigenvalues, those of the type that is asked for, in order, with their eigenvectors. -/
theorem c76_symmetric_partial (g : Zgeev ℂ) (sort : List ℝ → List Int) (hs : ∀ v, SortIndices v false (sort v))
    (junkM : Nat → ℂ) (junk : Nat → ℝ) (lib : Lib L ℝ ℝ) (l0 : L) {f : Tensor ℝ → Res (Tensor ℝ)} {n k : Nat}
    (hn : n ≤ 4) (hk0 : 0 < k) (hk : k ≤ n) {t : Int} (h0 : 0 ≤ t) (h5 : t ≤ 5) (vectors : Option (Tensor ℝ))
    (wantC : Bool) {a : Nat → Nat → ℝ} (hf : MapsBy f n a) (hsym : ∀ i < n, ∀ j < n, a i j = a j i)
    (hg : ∀ d, Stores d n n n (fun i j => (a i j : ℂ)) → d.length = n * n →
      ZgeevAnswer vectors.isSome false n d n n n (g vectors.isSome false n d n n n) ∧
      (g vectors.isSome false n d n n n).info = 0)
    (hr : ∀ d, Stores d n n n (fun i j => (a i j : ℂ)) → d.length = n * n →
      ∀ V, Stores (g true false n d n n n).vl n n n V → LargestReal n V) :
    ∃ (w : Nat → ℝ) (e : Nat → Nat) (values : Tensor ℝ) (V : Option (Tensor ℝ)),
      IsSpectrum n (fun i j => (a i j : ℂ)) (fun j => (w j : ℂ)) ∧ Chosen t n (fun j => (w j : ℂ)) k e ∧
      InOrder t k (fun l => (w (e l) : ℂ)) ∧
      Finishes (fun fuel => doEigs fuel false (num Complex.re sort) (eigComplex g) (fun x : ℝ => (x : ℂ)) junkM junk
        lib l0 f n t k vectors wantC) (.ok ⟨values, V, if wantC then some true else none⟩) ∧
      IsVec values k (fun l => w (e l)) ∧ V.isSome = vectors.isSome ∧
      ∀ v ∈ V, ∃ u : Nat → Nat → ℝ, IsMat v.dims v.data n k u ∧
        ∀ l < k, IsRight n (fun i j => (a i j : ℂ)) (w (e l)) fun i => (u i l : ℂ) := by
  obtain ⟨ev, e, values, V, d, h1, h2, h3, h4, h6, h7, h9, h10, h8⟩ := c76_real_partial g sort hs junkM junk lib l0 hn
    hk0 hk h0 h5 vectors wantC hf hg
  have him : ∀ j < n, ((ev j).re : ℂ) = ev j := by
    intro j hj
    obtain ⟨u, hu⟩ := spectrum_right h1 hj
    exact Complex.ext (by simp) (by simp [symmetric_real hsym hu])
  refine ⟨fun j => (ev j).re, e, values, V, ?_, ⟨h2.lt, h2.inj, fun j hj hne l hl => ?_⟩, fun l m hlm hm => ?_, h4, h6,
    h7, fun v hv => ?_⟩
  · rw [IsSpectrum, h1]
    refine Finset.prod_congr rfl fun j _ => ?_
    rw [him j j.2]
  · rw [him j hj, him _ (h2.lt l hl)]
    exact h2.first j hj hne l hl
  · beta_reduce
    rw [him _ (h2.lt l (by omega)), him _ (h2.lt m hm)]
    exact h3 l m hlm hm
  · obtain ⟨u, u1, u2, u3⟩ := h8 v hv
    refine ⟨_, u1, fun l hl => ?_⟩
    have hel := h2.lt l hl
    obtain ⟨⟨p, hp, hne⟩, h⟩ := normal_right (symmetric_normal hsym) (u2 (e l) hel)
    obtain ⟨i, hi, i1, i2⟩ := hr d h9 h10 u u3 (e l) hel
    refine ⟨⟨i, hi, fun h0 => ?_⟩, fun i hi => ?_⟩
    · have hz : u i (e l) = 0 := Complex.ext (by simpa using h0) (by simpa using i1)
      have := i2 p hp
      rw [hz, norm_zero] at this
      exact hne (norm_le_zero_iff.1 this)
    · beta_reduce
      have := congrArg Complex.re (h i hi)
      rw [← him _ hel] at this
      simp only [Complex.re_sum, Complex.re_ofReal_mul] at this
      rw [← Complex.ofReal_mul, ← this, Complex.ofReal_sum]
      simp only [Complex.ofReal_mul]

/-- What is refused. -/
theorem c76_refused [Zero α] [One α] [Neg β] [One β] (fuel : Nat) (complex : Bool) (N : Num α β γ)
    (eig : Tensor γ → Bool → Bool → Res (Tensor γ × Option (Tensor γ) × Option (Tensor γ))) (up : α → γ)
    (junkM : Nat → γ) (junk : Nat → α) (lib : Lib L α β) (l0 : L) (f : Tensor α → Res (Tensor α))
    (n neig : Nat) {t : Int} (vectors : Option (Tensor α)) (wantC : Bool)
    (h : neig = 0 ∨ n < neig ∨ (4 < n ∧ (neig = n ∨ (t ≠ 6 ∧ ¬ ValidType complex t)))) (h6 : t ≠ 6) :
    doEigs fuel complex N eig up junkM junk lib l0 f n t neig vectors wantC = .done .abort := by
  unfold doEigs
  split
  · rfl
  · rename_i hk
    obtain ⟨h4, h⟩ : 4 < n ∧ (neig = n ∨ (t ≠ 6 ∧ ¬ ValidType complex t)) := by
      rcases h with h | h | h
      · omega
      · omega
      · exact h
    rw [if_neg (by omega), large, c74_refused complex junk h6 (by
      rcases h with h | h
      · exact .inr (.inr (by omega))
      · exact .inl h.2), Run.abort_bind]

/-- The product of a sparse matrix and a vector. -/
theorem sparse_vector [CommSemiring α] {S : Sparse α} {r n : Nat} {a : Nat → Nat → α}
    (hs : IsCsr S.rows S.cols S.rowStart S.column S.data r n a) {x : Tensor α} {g : Nat → α} (hx : IsVec x n g) :
    ∃ y, S.mmultST x = .ok y ∧ IsVec y r fun i => ∑ j ∈ Finset.range n, a i j * g j := by
  obtain ⟨y, h1, h2, h3, h4⟩ := (Sparse.c39_sparse_tensor S x (isVec_wf hx) r n a hs n [] hx.1).1 rfl
  refine ⟨y, h1, h3, ?_, fun i hi => ?_⟩
  · have : y.data.length = totalSize y.dims := h2
    rw [this, h3]
    simp [totalSize]
  · have := h4 i [] hi trivial g (fun j hj => by
      rw [hx.1]
      simpa [elem, InB, hj, colPos] using hx.2.2 j hj)
    rw [h3] at this
    simpa [elem, InB, hi, colPos] using this

theorem sparse_maps [CommSemiring α] {S : Sparse α} {n : Nat} {a : Nat → Nat → α}
    (hs : IsCsr S.rows S.cols S.rowStart S.column S.data n n a) : MapsBy S.mmultST n a :=
  fun _ _ hx => sparse_vector hs hx

/-- C76: eigs of a sparse matrix of n > 4 rows and columns does the same as eigs of the matrix with all its
elements. -/
theorem c76_sparse_large [CommSemiring α] [Neg β] [One β] (complex : Bool) (N : Num α β γ)
    (eig : Tensor γ → Bool → Bool → Res (Tensor γ × Option (Tensor γ) × Option (Tensor γ)))
    (eigA : Tensor α → Bool → Bool → Res (Tensor γ × Option (Tensor γ) × Option (Tensor γ))) (up : α → γ)
    (junkM : Nat → γ) (junk : Nat → α) {lib : Lib L α β} (l0 : L) {S : Sparse α} {A : Tensor α}
    {n neig : Nat} {t : Int} (hn : 4 < n) (h0 : 0 < neig) (hk : neig < n) (ht : ValidType complex t)
    {a : Nat → Nat → α} (hs : IsCsr S.rows S.cols S.rowStart S.column S.data n n a)
    (ha : IsMat A.dims A.data n n a) (hm : Manual complex lib (Product n a)) (vectors : Option (Tensor α))
    (wantC : Bool) (fuel : Nat) :
    eigsSparse fuel complex N eig up junkM junk lib l0 S t neig vectors wantC
      = eigs fuel complex N eigA junk lib l0 A t neig vectors wantC := by
  unfold eigsSparse
  rw [hs.2.1]
  exact c76_large complex N eig eigA up junkM junk l0 hn h0 hk ht (sparse_maps hs) ha hm vectors wantC fuel

/-- C76: the same for complex matrices of n <= 4 rows and columns. -/
theorem c76_sparse_complex_small [CommSemiring α] [Neg β] [One β] (N : Num α β α)
    (eig : Tensor α → Bool → Bool → Res (Tensor α × Option (Tensor α) × Option (Tensor α)))
    (junkM junk : Nat → α) (lib : Lib L α β) (l0 : L) {S : Sparse α} {A : Tensor α}
    {n neig : Nat} (t : Int) (hn : n ≤ 4) (h0 : 0 < neig) (hk : neig ≤ n) {a : Nat → Nat → α}
    (hs : IsCsr S.rows S.cols S.rowStart S.column S.data n n a) (ha : IsMat A.dims A.data n n a)
    (vectors : Option (Tensor α)) (wantC : Bool) {r : Res (Out α)}
    (hr : Finishes (fun fuel => eigs fuel true N eig junk lib l0 A t neig vectors wantC) r) :
    Finishes (fun fuel => eigsSparse fuel true N eig id junkM junk lib l0 S t neig vectors wantC) r := by
  unfold eigsSparse
  rw [hs.2.1]
  exact c76_complex_small N eig junkM junk lib l0 t hn h0 hk (sparse_maps hs) ha vectors wantC hr

/-- C76, a negation: a sparse matrix of n > 4 columns and more rows is not refused. The rows after the n-th
are ignored: eigs does the same as for the square matrix with the first n rows. -/
theorem c76_negation_tall [CommSemiring α] [Neg β] [One β] (complex : Bool) (N : Num α β γ)
    (eig : Tensor γ → Bool → Bool → Res (Tensor γ × Option (Tensor γ) × Option (Tensor γ)))
    (eigA : Tensor α → Bool → Bool → Res (Tensor γ × Option (Tensor γ) × Option (Tensor γ))) (up : α → γ)
    (junkM : Nat → γ) (junk : Nat → α) {lib : Lib L α β} (l0 : L) {S : Sparse α} {A : Tensor α}
    {n r neig : Nat} {t : Int} (hn : 4 < n) (hr : n < r) (h0 : 0 < neig) (hk : neig < n)
    (ht : ValidType complex t) {a : Nat → Nat → α}
    (hs : IsCsr S.rows S.cols S.rowStart S.column S.data r n a)
    (ha : IsMat A.dims A.data n n a) (hm : Manual complex lib (Product n a)) (vectors : Option (Tensor α))
    (wantC : Bool) (fuel : Nat) :
    eigsSparse fuel complex N eig up junkM junk lib l0 S t neig vectors wantC
      = eigs fuel complex N eigA junk lib l0 A t neig vectors wantC := by
  rw [eigs_large fuel complex N eigA junk lib l0 A t vectors wantC ha.1 h0 (by omega) hn]
  unfold eigsSparse doEigs
  rw [hs.2.1, if_neg (by omega), if_neg (by omega)]
  refine large_same hm junk l0 ht h0 hk (fun args h => answers_map (fun x g hx => ?_) args h)
    (fun args h => answers_matrix ha args h) vectors wantC fuel
  obtain ⟨y, h1, h2⟩ := sparse_vector hs hx
  exact ⟨y, h1, by rw [h2.2.1]; omega, fun i hi => h2.2.2 i (by omega)⟩

/-- C76, a negation: with fewer rows than columns, elements out of the vector S x are read, if the library
asks for a product. -/
theorem c76_negation_wide [CommSemiring α] [Neg β] [One β] (complex : Bool) (N : Num α β γ)
    (eig : Tensor γ → Bool → Bool → Res (Tensor γ × Option (Tensor γ) × Option (Tensor γ))) (up : α → γ)
    (junkM : Nat → γ) (junk : Nat → α) {lib : Lib L α β} (l0 : L) {S : Sparse α}
    {n r neig : Nat} {t : Int} (hn : 4 < n) (hr : r < n) (h0 : 0 < neig) (hk : neig < n)
    (ht : ValidType complex t) {a : Nat → Nat → α}
    (hs : IsCsr S.rows S.cols S.rowStart S.column S.data r n a) (hm : Manual complex lib anything)
    (hask : ∀ args (w : Work α β), FirstCall complex args w → (lib.aupd l0 args w).2.ido = 1) (wantC : Bool) :
    Finishes (fun fuel => eigsSparse fuel complex N eig up junkM junk lib l0 S t neig none wantC) .ub := by
  obtain ⟨o, e1, e2, e3, e4, e5, e6, -⟩ := c74_construct (β := β) complex junk ht h0 hk
  have hi := hask _ _ e6
  have hob := hm _ l0 _ e6
  have hd : Dialogue lib o.args anything l0 o.work 1 _ _ := .first
  have hup : update lib l0 o = (do
      let o' ← afterCall { o with work := (lib.aupd l0 o.args o.work).2 }
      .ok ((lib.aupd l0 o.args o.work).1, o')) := by
    rw [update, if_neg (by simp [e2, Status.code]), if_neg (by simp [e2, Status.code])]
  generalize (lib.aupd l0 o.args o.work).1 = l1 at hd hup
  generalize (lib.aupd l0 o.args o.work).2 = w1 at hd hup hi
  obtain ⟨o1, ho1⟩ : ∃ o1 : Obj α β, o1 = { o with status := .running, work := w1 } := ⟨_, rfl⟩
  have hac : afterCall { o with work := w1 } = .ok o1 := by
    rw [afterCall, if_neg (by rw [hi]; decide), if_neg (by show ¬ (w1.ido ≠ 1 ∧ w1.ido ≠ -1); omega), ho1]
  have ha1 : o1.args = o.args := by rw [ho1]
  obtain ⟨p, q, hq, -⟩ := request_of (o := o1) (w := w1) (by rw [ha1]; exact hob) (by rw [ho1])
    (by rw [ha1]; exact hd) (.inl hi) (.inl (by rw [ho1]))
  obtain ⟨x, x1, x2, x3⟩ := getX_ok hq
  rw [ha1, e3] at x1 x2
  obtain ⟨y, y1, y2⟩ := sparse_vector hs (x := ⟨[n], x⟩) (g := fun j => x[j]?.getD 0) ⟨rfl, x2, fun l hl => by
    show x[l]? = _
    have : l < x.length := by omega
    simp [this]⟩
  have hans : answerMap S.mmultST o1 = .ub := by
    have hp : o1.args.n = n := by rw [ha1, e3]
    have := hq.y_le
    have := hq.workd
    rw [answerMap, x1, Res.ok_bind, y1, Res.ok_bind, setY, pointer_ok hq.running hq.y (by omega), Res.ok_bind, readN,
      if_neg (by rw [y2.2.1, hp]; omega)]
    rfl
  refine ⟨1, fun fuel hfuel => ?_⟩
  obtain ⟨fuel, rfl⟩ : ∃ f', fuel = f' + 1 := ⟨fuel - 1, by omega⟩
  beta_reduce
  unfold eigsSparse doEigs
  rw [hs.2.1, if_neg (by omega), if_neg (by omega)]
  unfold large
  simp only [e1, Run.ok_bind, loop, hup, hac, Res.ok_bind]
  rw [if_pos (by rw [ho1]; simp [Status.code]), hans]
  rfl

/-- The function that multiplies the i-th element by c(i). -/
def scaleBy [Semiring α] (c : Nat → α) (x : Tensor α) : Res (Tensor α) :=
  .ok ⟨x.dims, x.data.mapIdx fun i v => c i * v⟩

theorem scaleBy_maps [Semiring α] (c : Nat → α) (n : Nat) : MapsBy (scaleBy c) n (diag c) := by
  intro x g hx
  refine ⟨_, rfl, hx.1, by simp [hx.2.1], fun i hi => ?_⟩
  simp only [List.getElem?_mapIdx, hx.2.2 i hi, Option.map_some]
  rw [Finset.sum_eq_single i (fun j _ hj => by simp [diag, Ne.symm hj]) (fun h => absurd (Finset.mem_range.2 hi) h)]
  simp [diag]

/-- A zgeev for diagonal matrices. -/
def zDiag (c : Nat → ℂ) : Zgeev ℂ := fun _ _ n _ _ _ _ =>
  ⟨0, (List.range n).map c, (diagT n fun _ => (1 : ℂ)).data, (diagT n fun _ => (1 : ℂ)).data⟩

theorem zDiag_answer (c : Nat → ℂ) (n : Nat) (wantL wantR : Bool) {d : List ℂ} (hd : Stores d n n n (diag c)) :
    ZgeevAnswer wantL wantR n d n n n (zDiag c wantL wantR n d n n n) := by
  intro _ _ _ _ _
  have hone : Stores (diagT n fun _ => (1 : ℂ)).data n n n (diag fun _ => 1) :=
    (isMat_stores (by simp [diagT])).1 (diag_isMat n fun _ => (1 : ℂ))
  have hlen : (diagT n fun _ => (1 : ℂ)).data.length = n * n := by simp [diagT]
  refine ⟨by simp [zDiag], fun _ => hlen, fun _ => hlen, fun _ A hA => ?_⟩
  have hAd : ∀ i < n, ∀ j < n, A i j = diag c i j := by
    intro i hi j hj
    have := hA i j hi hj
    rw [hd i j hi hj, Option.some.injEq] at this
    exact this.symm
  refine ⟨c, fun j hj => by simp [zDiag, hj], ?_, fun _ => ⟨_, hone, fun j hj => ⟨⟨j, hj, by simp [diag]⟩, fun i hi => ?_⟩⟩,
    fun _ => ⟨_, hone, fun j hj => ⟨⟨j, hj, by simp [diag]⟩, fun i hi => ?_⟩⟩⟩
  · have := diag_spectrum n c
    rw [IsSpectrum] at this ⊢
    rw [← this]
    congr 1
    ext i j
    exact hAd i i.2 j j.2
  · rw [Finset.sum_eq_single j (fun k _ hk => by simp [diag, hk]) (fun h => absurd (Finset.mem_range.2 hj) h),
      hAd j hj i hi]
    by_cases h : i = j
    · simp [diag, h]
    · simp [diag, h, Ne.symm h]
  · rw [Finset.sum_eq_single j (fun k _ hk => by simp [diag, hk]) (fun h => absurd (Finset.mem_range.2 hj) h),
      hAd i hi j hj]
    by_cases h : i = j
    · simp [diag, h]
    · simp [diag, h]

/-- The hypotheses of `c76_symmetric_partial` can be met. -/
example (c : Nat → ℝ) (lib : Lib Unit ℝ ℝ) (vectors : Option (Tensor ℝ)) : ∃ sort values V w,
    Finishes (fun fuel => doEigs fuel false (num Complex.re sort) (eigComplex (zDiag fun i => (c i : ℂ)))
      (fun x : ℝ => (x : ℂ)) (fun _ => 0) (fun _ => 0) lib () (scaleBy c) 3 2 2 vectors true)
      (.ok ⟨values, V, some true⟩) ∧ IsVec values 2 w := by
  obtain ⟨sort, hs⟩ := exists_sort
  have hc : (fun i j => ((diag c i j : ℝ) : ℂ)) = diag fun i => (c i : ℂ) := by
    funext i j
    simp only [diag]
    split <;> simp
  obtain ⟨w, e, values, V, -, -, -, h1, h2, -⟩ := c76_symmetric_partial (zDiag fun i => (c i : ℂ)) sort hs (fun _ => 0)
    (fun _ => 0) lib () (n := 3) (k := 2) (t := 2) (by norm_num) (by norm_num) (by norm_num) (by norm_num) (by norm_num)
    vectors true (scaleBy_maps c 3) (fun i _ j _ => by
      simp only [diag]
      by_cases h : i = j
      · rw [h]
      · rw [if_neg h, if_neg (Ne.symm h)]) (fun d hd _ => ⟨zDiag_answer _ 3 _ _ (by rw [← hc]; exact hd), rfl⟩)
    (fun d _ _ V hV j hj => by
      have hone : Stores (diagT 3 fun _ => (1 : ℂ)).data 3 3 3 (diag fun _ => 1) :=
        (isMat_stores (by simp [diagT])).1 (diag_isMat 3 fun _ => (1 : ℂ))
      have hV' : ∀ i < 3, V i j = diag (fun _ => (1 : ℂ)) i j := by
        intro i hi
        have := hone i j hi hj
        rw [show (diagT 3 fun _ => (1 : ℂ)).data[i + 3 * j]? = some (V i j) from hV i j hi hj, Option.some.injEq] at this
        exact this
      refine ⟨j, hj, by rw [hV' j hj]; simp [diag], fun k hk => ?_⟩
      rw [hV' j hj, hV' k hk]
      simp only [diag]
      split <;> simp)
  exact ⟨sort, values, V, _, h1, h2⟩

/-- The function and the matrix, six elements, with a library that asks for seven products: both give the
same, and converge. -/
example (c : Nat → ℂ) (vectors : Option (Tensor ℂ)) : ∃ (lib : Lib Nat ℂ ℝ) (values : Tensor ℂ)
    (V : Option (Tensor ℂ)), Manual true lib (Product 6 (diag c)) ∧
    Finishes (fun fuel => doEigs fuel true (num id fun _ => []) (fun _ _ _ => .abort) id (fun _ => 0) (fun _ => 0)
      lib 0 (scaleBy c) 6 0 3 vectors true) (.ok ⟨values, V, some true⟩) := by
  obtain ⟨lib, h1, h2, h3⟩ := asker_computes (complex := true) (ans := Product 6 (diag c)) 7 0 fun a b => by
    obtain ⟨d, z, h1, h2, h3⟩ := diag_complex c a b
    exact ⟨d, z, h1, h2, fun _ h => h3 h.le⟩
  obtain ⟨values, V, h4⟩ := matrix_returns (n := 6) true (num id fun _ => []) (fun _ _ _ => .abort) (fun _ => 0)
    (neig := 3) (t := 0) (by norm_num) (by norm_num) (by norm_num) ⟨by norm_num, by norm_num, by norm_num⟩
    (diag_isMat 6 c) h1 h3 vectors
  refine ⟨lib, values, V, h1, ?_⟩
  rw [funext fun fuel => c76_large true (num id fun _ => []) (fun _ _ _ => .abort) (fun _ _ _ => .abort) id (fun _ => 0)
    (fun _ => 0) (A := diagT 6 c) 0 (by norm_num) (by norm_num) (by norm_num) ⟨by norm_num, by norm_num, by norm_num⟩
    (scaleBy_maps c 6) (diag_isMat 6 c) h1 vectors true fuel]
  exact h4

/-- The 4 x 5 matrix without elements meets the hypotheses of `c76_negation_wide`. -/
example (wantC : Bool) : ∃ lib : Lib Nat ℂ ℝ, Manual true lib anything ∧
    Finishes (fun fuel => eigsSparse fuel true (num id fun _ => []) (fun _ _ _ => .abort) id (fun _ => 0) (fun _ => 0)
      lib 0 ⟨4, 5, [0, 0, 0, 0, 0], [], []⟩ 0 1 none wantC) .ub := by
  have hm : Manual true (asker 1 0 fun a _ => (List.replicate (a.nev + 1) 0, List.replicate (a.n * a.nev) 0) : Lib Nat ℂ ℝ)
    anything := asker_manual _ _ (by simp) (by simp)
  refine ⟨_, hm, c76_negation_wide true _ _ id _ _ 0 (n := 5) (r := 4) (a := fun _ _ => 0) (by norm_num) (by norm_num)
    (by norm_num) (by norm_num) ⟨by norm_num, by norm_num, by norm_num⟩ ?_ hm (fun a w h => ?_) wantC⟩
  · refine ⟨rfl, rfl, ⟨rfl, rfl, by simp, rfl, rfl, by simp, by simp⟩, fun i j hi hj => .inr ⟨rfl, fun v hv => ?_⟩⟩
    obtain ⟨_, _, _, _, _, _, _, h, _⟩ := hv
    simp at h
  · simp [asker, h.ido]

end Verif.Arpack
