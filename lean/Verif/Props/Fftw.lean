import Verif.Lemmas.Dft
import Verif.Props.Permute
import Mathlib.RingTheory.RootsOfUnity.Complex
/-
C66: Fourier transforms.
-/
namespace Verif.Fftw

open Verif Spec Finset

variable {α : Type}

section
variable [CommSemiring α] (W : Int → Nat → Nat → α)

omit [CommSemiring α] in
theorem wf_prod {t : Tensor α} (ht : t.WF) (hd : t.dims ≠ []) : t.data.length = prod t.dims := by
  rw [ht, totalSize_of_ne hd]

omit [CommSemiring α] in
theorem reads {t : Tensor α} {x : List Nat → α} (hx : Entries t.dims t.data x) {idx : List Nat}
    (h : InB idx t.dims) : t.data[colPos t.dims idx]? = some (x idx) := by
  have := hx idx h
  rwa [elem, if_pos h] at this

/-- The transform of the marked indices, in a new tensor or in place. FFTW is used without rounding. -/
theorem c66_some_partial (inPlace : Bool) (t : Tensor α) (ht : t.WF) (hd : t.dims ≠ [])
    (x : List Nat → α) (hx : Entries t.dims t.data x) (convert : List Bool)
    (hc : convert.length = t.dims.length) (hp : MarkedPos convert t.dims) (direction : Int)
    (hs : direction = -1 ∨ direction = 1) :
    ∃ r, fftwSome W inPlace t convert direction = .ok r ∧ r.dims = t.dims ∧ r.WF ∧
      Entries r.dims r.data (dft (W direction) convert t.dims · x) := by
  have hl := wf_prod ht hd
  have hX : ∀ idx, InB idx t.dims →
      t.data[colPos t.dims idx]? = some (t.data.getD (colPos t.dims idx) 0) := by
    intro idx h
    have := colPos_lt h
    simp [hl, this]
  obtain ⟨out, h1, h2, h3⟩ := guru_ok W inPlace t.data t.dims hl
    (dft (W direction) convert t.dims · x) (split convert t.dims 1).1 (split convert t.dims 1).2
    direction hs ((MarkedPos.split hc 1).1 hp)
    (by
      intro h k hh hk
      obtain ⟨idx, h1, rfl, rfl⟩ := InB_merge convert t.dims k h 1 hc hk hh
      refine ⟨idx, h1, by rw [outOff_split _ _ _ _ hc h1, Nat.one_mul], ?_⟩
      rw [sums_tot (W direction) (fun p => t.data.getD p 0) _ _ _ _ (by simpa using hk.length)]
      · congr 1
        have := tot_split (W direction) (fun p => t.data.getD p 0) convert t.dims idx 1 0 hc h1
        rw [Nat.zero_add] at this
        rw [this]
        refine dft_congr _ _ _ _ _ _ hc h1 fun j hj => ?_
        have := reads hx hj
        simp [this]
      · intro j hj
        obtain ⟨i, h2, h3, h4⟩ := InB_merge convert t.dims j (unmarked convert idx) 1 hc hj hh
        have := inOff_split convert t.dims i 1 hc h2
        rw [h3, h4, Nat.one_mul] at this
        rw [this]
        exact hX i h2)
    (by
      intro idx h
      obtain ⟨h1, h2⟩ := InB_split convert t.dims idx 1 hc h
      exact ⟨_, _, h2, h1, by rw [outOff_split _ _ _ _ hc h, Nat.one_mul]⟩)
  refine ⟨⟨t.dims, out⟩, ?_, rfl, ?_, h3⟩
  · rw [fftwSome, Res.assert_pos hc, Res.ok_bind, doSome, h1]
    rfl
  · rw [Tensor.WF, h2, totalSize_of_ne hd]

/-- The transform of all the indices. -/
theorem c66_all_partial (inPlace : Bool) (t : Tensor α) (ht : t.WF) (hd : t.dims ≠ [])
    (x : List Nat → α) (hx : Entries t.dims t.data x) (hp : ∀ n ∈ t.dims, n ≠ 0) (direction : Int)
    (hs : direction = -1 ∨ direction = 1) :
    ∃ r, fftwAll W inPlace t direction = .ok r ∧ r.dims = t.dims ∧ r.WF ∧
      Entries r.dims r.data (dft (W direction) (List.replicate t.dims.length true) t.dims · x) := by
  have hl := wf_prod ht hd
  have hc : (List.replicate t.dims.length true).length = t.dims.length := by simp
  have hX : ∀ idx, InB idx t.dims →
      t.data[colPos t.dims idx]? = some (t.data.getD (colPos t.dims idx) 0) := by
    intro idx h
    have := colPos_lt h
    simp [hl, this]
  have hplan : doAll W inPlace t.data t.dims direction
      = guru W inPlace t.data (split (List.replicate t.dims.length true) t.dims 1).1.reverse [] direction := by
    rw [doAll, ← rowMajor_reverse]
    split
    · rename_i h
      obtain ⟨n, e⟩ := List.length_eq_one_iff.1 h
      rw [e]
      rfl
    · rw [dimensions_eq, Res.ok_bind, plan]
  have hn : (split (List.replicate t.dims.length true) t.dims 1).1.map (·.n) = t.dims := by
    have : ∀ (ds : List Nat) s, (split (List.replicate ds.length true) ds s).1.map (·.n) = ds := by
      intro ds
      induction ds with
      | nil => intro s; rfl
      | cons d ds ih => intro s; simp [List.replicate_succ, split, ih]
    exact this _ _
  have hrev : ∀ {a d : List Nat}, InB a d → InB a.reverse d.reverse := by
    intro a d
    induction d generalizing a with
    | nil =>
      cases a with
      | nil => exact fun _ => trivial
      | cons => intro h; simp [InB] at h
    | cons n ns ih =>
      cases a with
      | nil => intro h; simp [InB] at h
      | cons i is =>
        intro h
        rw [List.reverse_cons, List.reverse_cons]
        exact (ih h.2).append ⟨h.1, trivial⟩
  have hlen : ∀ {k : List Nat}, InB k t.dims →
      k.length = (split (List.replicate t.dims.length true) t.dims 1).1.length := by
    intro k hk
    have := congrArg List.length hn
    rw [List.length_map] at this
    rw [this]
    exact hk.length
  have hoff : ∀ idx, InB idx t.dims →
      outOff (split (List.replicate t.dims.length true) t.dims 1).1.reverse idx.reverse
        = colPos t.dims idx := by
    intro idx h
    rw [outOff_reverse _ _ (hlen h)]
    have := outOff_split _ _ _ 1 hc h
    rw [split_all_loop, marked_all _ _ h.length, Nat.one_mul] at this
    simpa [outOff] using this
  obtain ⟨out, h1, h2, h3⟩ := guru_ok W inPlace t.data t.dims hl
    (dft (W direction) (List.replicate t.dims.length true) t.dims · x)
    (split (List.replicate t.dims.length true) t.dims 1).1.reverse [] direction hs
    (by
      intro d hd
      rw [List.mem_reverse] at hd
      have : d.n ∈ (split (List.replicate t.dims.length true) t.dims 1).1.map (·.n) :=
        List.mem_map_of_mem hd
      rw [hn] at this
      exact hp _ this)
    (by
      intro h k hh hk
      rw [List.map_reverse, hn] at hk
      have hk' := hrev hk
      rw [List.reverse_reverse] at hk'
      refine ⟨k.reverse, hk', ?_, ?_⟩
      · have := hoff _ hk'
        rw [List.reverse_reverse] at this
        cases h with
        | nil => simpa [outOff] using this
        | cons => simp [InB] at hh
      · have h0 : inOff [] h = 0 := by cases h <;> rfl
        rw [sums_tot (W direction) (fun p => t.data.getD p 0) _ _ _ _
          (by simpa using (hlen hk'))]
        · congr 1
          have e := tot_reverse (W direction) (fun p => t.data.getD p 0)
            (split (List.replicate t.dims.length true) t.dims 1).1 k.reverse 0 (hlen hk')
          rw [List.reverse_reverse] at e
          rw [h0, e]
          have := tot_split (W direction) (fun p => t.data.getD p 0)
            (List.replicate t.dims.length true) t.dims k.reverse 1 0 hc hk'
          rw [marked_all _ _ hk'.length, split_all_loop] at this
          have h1 : ∀ l, inOff [] l = 0 := by intro l; cases l <;> rfl
          rw [h1, Nat.zero_add] at this
          rw [this]
          refine dft_congr _ _ _ _ _ _ hc hk' fun j hj => ?_
          have := reads hx hj
          simp [this]
        · intro j hj
          rw [List.map_reverse, hn] at hj
          have hj' := hrev hj
          rw [List.reverse_reverse] at hj'
          have e := inOff_reverse (split (List.replicate t.dims.length true) t.dims 1).1 j.reverse
            (hlen hj')
          rw [List.reverse_reverse] at e
          have := inOff_split _ _ _ 1 hc hj'
          rw [split_all_loop, marked_all _ _ hj'.length, Nat.one_mul] at this
          have h1 : ∀ l, inOff [] l = 0 := by intro l; cases l <;> rfl
          rw [h1, Nat.zero_add] at this
          rw [h0, Nat.zero_add, e, this]
          exact hX _ hj')
    (by
      intro idx h
      refine ⟨[], idx.reverse, trivial, ?_, ?_⟩
      · rw [List.map_reverse, hn]
        exact hrev h
      · rw [hoff idx h]
        simp [outOff])
  refine ⟨⟨t.dims, out⟩, ?_, rfl, ?_, h3⟩
  · rw [fftwAll, hplan, h1]
    rfl
  · rw [Tensor.WF, h2, totalSize_of_ne hd]

/-- One index: the same as the transform where only this index is marked. -/
theorem c66_dim_some (inPlace : Bool) (t : Tensor α) (dim : Nat) (h : dim < t.dims.length)
    (direction : Int) :
    fftwDim W inPlace t dim direction = fftwSome W inPlace t
      (List.replicate dim false ++ true :: List.replicate (t.dims.length - dim - 1) false)
      direction := by
  have e : t.dims = t.dims.take dim ++ t.dims[dim] :: t.dims.drop (dim + 1) := by
    rw [← List.drop_eq_getElem_cons h, List.take_append_drop]
  have hs := split_one (t.dims.take dim) (t.dims.drop (dim + 1)) t.dims[dim] 1
  rw [← e] at hs
  have hl1 : (t.dims.take dim).length = dim := by simp; omega
  have hl2 : (t.dims.drop (dim + 1)).length = t.dims.length - dim - 1 := by simp; omega
  rw [hl1, hl2] at hs
  rw [fftwDim, fftwSome, Res.assert_pos (by omega), Res.assert_pos (by simp; omega), Res.ok_bind,
    Res.ok_bind, doDim, doSome, hs, Int.toNat_natCast, List.getElem?_eq_getElem h]
  rfl

/-- The transforms along one index are sums over this index. -/
theorem dft_one (V : Nat → Nat → α) (l m : List Nat) (n k : Nat) (a b : List Nat) (x : List Nat → α)
    (ha : a.length = l.length) (hb : b.length = m.length) :
    dft V (List.replicate l.length false ++ true :: List.replicate m.length false) (l ++ n :: m)
      (a ++ k :: b) x = ∑ j ∈ range n, V n (j * k) * x (a ++ j :: b) := by
  have h0 : ∀ (m b : List Nat) (x : List Nat → α), b.length = m.length →
      dft V (List.replicate m.length false) m b x = x b := by
    intro m
    induction m with
    | nil =>
      intro b x h
      cases b with
      | nil => rfl
      | cons => simp at h
    | cons c m ih =>
      intro b x h
      cases b with
      | nil => simp at h
      | cons i b => simp [List.replicate_succ, dft, ih b _ (by simpa using h)]
  induction l generalizing a x with
  | nil =>
    cases a with
    | nil => simp [dft, h0 m b _ hb]
    | cons => simp at ha
  | cons c l ih =>
    cases a with
    | nil => simp at ha
    | cons i a =>
      simp [List.replicate_succ, dft, ih a (fun js => x (i :: js)) (by simpa using ha)]

/-- The transform along one index. -/
theorem c66_dim_partial (inPlace : Bool) (t : Tensor α) (ht : t.WF) (l m : List Nat) (n : Nat)
    (hd : t.dims = l ++ n :: m) (hn : n ≠ 0) (x : List Nat → α) (hx : Entries t.dims t.data x)
    (direction : Int) (hs : direction = -1 ∨ direction = 1) :
    ∃ r, fftwDim W inPlace t l.length direction = .ok r ∧ r.dims = t.dims ∧ r.WF ∧
      ∀ a k b, InB a l → k < n → InB b m → elem r.dims r.data (a ++ k :: b)
        = some (∑ j ∈ range n, W direction n (j * k) * x (a ++ j :: b)) := by
  rw [c66_dim_some W inPlace t l.length (by simp [hd])]
  have hlen : t.dims.length - l.length - 1 = m.length := by simp [hd]
  rw [hlen]
  obtain ⟨r, h1, h2, h3, h4⟩ := c66_some_partial W inPlace t ht (by simp [hd]) x hx
    (List.replicate l.length false ++ true :: List.replicate m.length false) (by simp [hd])
    (by
      rw [hd]
      have h0 : ∀ m : List Nat, MarkedPos (List.replicate m.length false) m := by
        intro m
        induction m with
        | nil => trivial
        | cons c m ih => exact ⟨by simp, ih⟩
      clear hd hlen
      induction l with
      | nil => exact ⟨fun _ => hn, h0 m⟩
      | cons c l ih => exact ⟨by simp, ih⟩) direction hs
  refine ⟨r, h1, h2, h3, fun a k b ha hk hb => ?_⟩
  rw [h4 _ (by rw [h2, hd]; exact ha.append ⟨hk, hb⟩), hd]
  beta_reduce
  rw [dft_one _ _ _ _ _ _ _ _ ha.length hb.length]

/-- A vector. -/
theorem c66_vector_partial (inPlace : Bool) (t : Tensor α) (ht : t.WF) (n : Nat) (hd : t.dims = [n])
    (hn : n ≠ 0) (x : Nat → α) (hx : ∀ i < n, t.data[i]? = some (x i)) (direction : Int)
    (hs : direction = -1 ∨ direction = 1) :
    ∃ r, fftwAll W inPlace t direction = .ok r ∧ r.dims = [n] ∧
      ∀ k : Nat, k < n → r.data[k]? = some (∑ j ∈ range n, W direction n (j * k) * x j) := by
  obtain ⟨r, h1, h2, h3, h4⟩ := c66_all_partial W inPlace t ht (by simp [hd]) (fun i => x (i.headD 0))
    (by
      intro idx h
      rw [hd] at h ⊢
      match idx, h with
      | [i], h =>
        rw [elem, if_pos h]
        simpa [colPos] using hx i h.1) (by simpa [hd] using hn) direction hs
  refine ⟨r, h1, h2.trans hd, fun k hk => ?_⟩
  have hb : InB [k] [n] := ⟨hk, trivial⟩
  have := h4 [k] (by rw [h2, hd]; exact hb)
  rw [h2, hd, elem, if_pos hb] at this
  simpa [colPos, dft] using this

/-- A matrix. -/
theorem c66_matrix_partial (inPlace : Bool) (t : Tensor α) (ht : t.WF) (n m : Nat)
    (hd : t.dims = [n, m]) (hn : n ≠ 0) (hm : m ≠ 0) (x : Nat → Nat → α)
    (hx : ∀ i j, i < n → j < m → elem t.dims t.data [i, j] = some (x i j)) (direction : Int)
    (hs : direction = -1 ∨ direction = 1) :
    ∃ r, fftwAll W inPlace t direction = .ok r ∧ r.dims = [n, m] ∧
      ∀ k l : Nat, k < n → l < m → elem r.dims r.data [k, l] = some (∑ i ∈ range n, ∑ j ∈ range m,
        W direction n (i * k) * W direction m (j * l) * x i j) := by
  obtain ⟨r, h1, h2, h3, h4⟩ := c66_all_partial W inPlace t ht (by simp [hd])
    (fun i => x (i.headD 0) (i.tail.headD 0))
    (by
      intro idx h
      rw [hd] at h
      match idx, h with
      | [i, j], h => simpa using hx i j h.1 h.2.1) (by simpa [hd] using ⟨hn, hm⟩) direction hs
  refine ⟨r, h1, h2.trans hd, fun k l hk hl => ?_⟩
  have hb : InB [k, l] [n, m] := ⟨hk, hl, trivial⟩
  rw [h4 [k, l] (by rw [h2, hd]; exact hb), hd]
  simp only [dft, List.length_cons, List.length_nil, List.replicate_succ, Finset.mul_sum]
  congr 1
  refine Finset.sum_congr rfl fun i _ => Finset.sum_congr rfl fun j _ => ?_
  simp only [List.headD_cons, List.tail_cons, List.replicate_zero, dft]
  ring

omit [CommSemiring α] in
/-- A tensor has only one family of elements. -/
theorem Entries.ext {a b : Tensor α} (ha : a.WF) (hb : b.WF) (hd : a.dims = b.dims) {x y : List Nat → α}
    (hx : Entries a.dims a.data x) (hy : Entries b.dims b.data y)
    (h : ∀ idx, InB idx a.dims → x idx = y idx) : a = b := by
  refine Tensor.ext_elem ha hb hd fun idx hi => ?_
  rw [hx idx hi, hy idx (hd ▸ hi), h idx hi]

/-- Every tensor with indices has elements. -/
theorem Entries.exists {t : Tensor α} (ht : t.WF) (hd : t.dims ≠ []) :
    Entries t.dims t.data fun idx => t.data.getD (colPos t.dims idx) 0 := by
  intro idx h
  have := colPos_lt h
  rw [elem, if_pos h]
  simp [wf_prod ht hd, this]

theorem markedPos_all {ds : List Nat} (hp : ∀ n ∈ ds, n ≠ 0) (cs : List Bool) : MarkedPos cs ds := by
  induction ds generalizing cs with
  | nil => cases cs <;> trivial
  | cons d ds ih =>
    cases cs with
    | nil => trivial
    | cons c cs => exact ⟨fun _ => hp d (by simp), ih (fun n hn => hp n (by simp [hn])) cs⟩

/-- All the indices: the same as the transform where they are all marked. -/
theorem c66_all_some (inPlace : Bool) (t : Tensor α) (ht : t.WF) (hd : t.dims ≠ [])
    (hp : ∀ n ∈ t.dims, n ≠ 0) (direction : Int) (hs : direction = -1 ∨ direction = 1) :
    fftwAll W inPlace t direction
      = fftwSome W inPlace t (List.replicate t.dims.length true) direction := by
  obtain ⟨r, h1, h2, h3, h4⟩ := c66_all_partial W inPlace t ht hd _ (Entries.exists ht hd) hp direction hs
  obtain ⟨r', h1', h2', h3', h4'⟩ := c66_some_partial W inPlace t ht hd _ (Entries.exists ht hd)
    (List.replicate t.dims.length true) (by simp) (markedPos_all hp _) direction hs
  rw [h1, h1', Entries.ext h3 h3' (h2.trans h2'.symm) h4 h4' fun _ _ => rfl]

/-- In place or not, the result is the same. -/
theorem c66_in_place (t : Tensor α) (ht : t.WF) (hd : t.dims ≠ []) (convert : List Bool)
    (hp : MarkedPos convert t.dims) (direction : Int) :
    fftwSome W true t convert direction = fftwSome W false t convert direction := by
  by_cases hc : convert.length = t.dims.length
  · by_cases hs : direction = -1 ∨ direction = 1
    · obtain ⟨r, h1, h2, h3, h4⟩ := c66_some_partial W true t ht hd _ (Entries.exists ht hd) convert hc
        hp direction hs
      obtain ⟨r', h1', h2', h3', h4'⟩ := c66_some_partial W false t ht hd _ (Entries.exists ht hd)
        convert hc hp direction hs
      rw [h1, h1', Entries.ext h3 h3' (h2.trans h2'.symm) h4 h4' fun _ _ => rfl]
    · rw [fftwSome, fftwSome, doSome, doSome, guru, guru, if_neg (fun h => hs h.1),
        if_neg (fun h => hs h.1)]
  · rw [fftwSome, fftwSome, Res.assert_neg hc, Res.abort_bind, Res.abort_bind]

theorem c66_in_place_all (t : Tensor α) (ht : t.WF) (hd : t.dims ≠ []) (hp : ∀ n ∈ t.dims, n ≠ 0)
    (direction : Int) (hs : direction = -1 ∨ direction = 1) :
    fftwAll W true t direction = fftwAll W false t direction := by
  rw [c66_all_some W true t ht hd hp direction hs, c66_all_some W false t ht hd hp direction hs,
    c66_in_place W t ht hd _ (markedPos_all hp _) direction]

/-- Transforms along different indices: the same as the transform along all of them. -/
theorem c66_twice_partial (ip ip' ip'' : Bool) (t : Tensor α) (ht : t.WF) (hd : t.dims ≠ [])
    (cs es : List Bool) (hc : cs.length = t.dims.length) (he : es.length = t.dims.length)
    (ha : Apart cs es) (hp : ∀ n ∈ t.dims, n ≠ 0) (direction : Int)
    (hs : direction = -1 ∨ direction = 1) :
    (fftwSome W ip t cs direction >>= fun r => fftwSome W ip' r es direction)
      = fftwSome W ip'' t (List.zipWith (· || ·) cs es) direction := by
  have hE := Entries.exists ht hd
  obtain ⟨r, h1, h2, h3, h4⟩ := c66_some_partial W ip t ht hd _ hE cs hc (markedPos_all hp _) direction hs
  obtain ⟨q, g1, g2, g3, g4⟩ := c66_some_partial W ip' r h3 (h2 ▸ hd) _ h4 es (h2 ▸ he)
    (markedPos_all (h2 ▸ hp) _) direction hs
  obtain ⟨u, f1, f2, f3, f4⟩ := c66_some_partial W ip'' t ht hd _ hE (List.zipWith (· || ·) cs es)
    (by simp [hc, he]) (markedPos_all hp _) direction hs
  rw [h1, Res.ok_bind, g1, f1]
  congr 1
  refine Entries.ext g3 f3 (g2.trans (h2.trans f2.symm)) g4 f4 fun idx hi => ?_
  rw [h2]
  rw [g2, h2] at hi
  exact dft_dft _ cs es _ _ hc he hi ha _

/-- Without marks nothing changes. -/
theorem c66_none (ip : Bool) (t : Tensor α) (ht : t.WF) (hd : t.dims ≠ []) (direction : Int)
    (hs : direction = -1 ∨ direction = 1) :
    fftwSome W ip t (List.replicate t.dims.length false) direction = .ok t := by
  have h0 : ∀ m : List Nat, MarkedPos (List.replicate m.length false) m := by
    intro m
    induction m with
    | nil => trivial
    | cons c m ih => exact ⟨by simp, ih⟩
  have hE := Entries.exists ht hd
  obtain ⟨r, h1, h2, h3, h4⟩ := c66_some_partial W ip t ht hd _ hE (List.replicate t.dims.length false)
    (by simp) (h0 _) direction hs
  rw [h1, Entries.ext h3 ht h2 h4 hE fun idx hi => ?_]
  rw [h2] at hi
  have : ∀ (ds : List Nat) (idx : List Nat) (x : List Nat → α), InB idx ds →
      dft (W direction) (List.replicate ds.length false) ds idx x = x idx := by
    intro ds
    induction ds with
    | nil =>
      intro idx x h
      cases idx with
      | nil => rfl
      | cons => simp [InB] at h
    | cons d ds ih =>
      intro idx x h
      cases idx with
      | nil => simp [InB] at h
      | cons i is => exact ih is (fun js => x (i :: js)) h.2
  exact this _ _ _ hi

/-- One index after the other: the transform of all the indices. -/
theorem c66_one_by_one_partial (ip ip' : Bool) (t : Tensor α) (ht : t.WF) (hd : t.dims ≠ [])
    (hp : ∀ n ∈ t.dims, n ≠ 0) (direction : Int) (hs : direction = -1 ∨ direction = 1) :
    (List.range t.dims.length).foldlM (fun r (i : Nat) => fftwDim W ip r i direction) t
      = fftwAll W ip' t direction := by
  have key : ∀ k, k ≤ t.dims.length →
      (List.range k).foldlM (fun r (i : Nat) => fftwDim W ip r i direction) t
        = fftwSome W ip' t (List.replicate k true ++ List.replicate (t.dims.length - k) false)
          direction := by
    intro k
    induction k with
    | zero =>
      intro _
      simp only [List.range_zero, List.foldlM_nil, List.replicate_zero, List.nil_append, Nat.sub_zero]
      rw [c66_none W ip' t ht hd direction hs]
      rfl
    | succ k ih =>
      intro hk
      rw [List.range_succ, List.foldlM_append, ih (by omega)]
      simp only [List.foldlM_cons, List.foldlM_nil, bind_pure]
      have hE := Entries.exists ht hd
      obtain ⟨r, h1, h2, -, -⟩ := c66_some_partial W ip' t ht hd _ hE
        (List.replicate k true ++ List.replicate (t.dims.length - k) false) (by simp; omega)
        (markedPos_all hp _) direction hs
      have hcomp := c66_twice_partial W ip' ip ip' t ht hd
        (List.replicate k true ++ List.replicate (t.dims.length - k) false)
        (List.replicate k false ++ true :: List.replicate (t.dims.length - k - 1) false)
        (by simp; omega) (by simp; omega)
        (by
          have hm : t.dims.length - k = t.dims.length - k - 1 + 1 := by omega
          rw [hm, List.replicate_succ, Nat.add_sub_cancel]
          generalize t.dims.length - k - 1 = m
          clear hm h1 ih hk
          induction k with
          | zero =>
            refine ⟨rfl, ?_⟩
            induction m with
            | zero => trivial
            | succ m ih => exact ⟨rfl, ih⟩
          | succ k ih => exact ⟨rfl, ih⟩) hp direction hs
      rw [h1, Res.ok_bind] at hcomp ⊢
      rw [c66_dim_some W ip r k (by rw [h2]; omega), h2, hcomp]
      congr 1
      have hm : t.dims.length - k = t.dims.length - (k + 1) + 1 := by omega
      rw [hm, List.replicate_succ, Nat.add_sub_cancel]
      generalize t.dims.length - (k + 1) = m
      clear hm hcomp h1 ih hk
      induction k with
      | zero => simp [List.replicate_succ]
      | succ k ih => simpa [List.replicate_succ] using ih
  have := key _ le_rfl
  rw [this, c66_all_some W ip' t ht hd hp direction hs]
  simp

end

section
variable [CommSemiring α] (W : Int → Nat → Nat → α)

/-- Wrong arguments stop the program. -/
theorem c66_refused (ip : Bool) (t : Tensor α) (dim direction : Int) (convert : List Bool) :
    (¬(0 ≤ dim ∧ dim < t.dims.length) → fftwDim W ip t dim direction = .abort) ∧
      (convert.length ≠ t.dims.length → fftwSome W ip t convert direction = .abort) := by
  constructor
  · intro h
    rw [fftwDim, Res.assert_neg h, Res.abort_bind]
  · intro h
    rw [fftwSome, Res.assert_neg h, Res.abort_bind]

/-- Tensors without indices and transforms along empty indices are not refused, but FFTW is used in ways
that are not defined: it reads an element that does not exist, or there is no plan to execute. -/
theorem c66_undefined (ip : Bool) (direction : Int) :
    fftwAll W ip (⟨[], []⟩ : Tensor α) direction = .ub ∧
      fftwSome W ip (⟨[], []⟩ : Tensor α) [] direction = .ub ∧
      ∀ (t : Tensor α) (convert : List Bool), convert.length = t.dims.length →
        ¬MarkedPos convert t.dims → fftwSome W ip t convert direction = .ub := by
  refine ⟨?_, ?_, ?_⟩
  · rw [fftwAll, doAll, if_neg (by simp), dimensions_eq, Res.ok_bind, plan, guru]
    split
    · cases ip <;> rfl
    · rfl
  · rw [fftwSome, Res.assert_pos (by simp), Res.ok_bind, doSome, guru]
    split
    · cases ip <;> rfl
    · rfl
  · intro t convert hc hp
    rw [fftwSome, Res.assert_pos hc, Res.ok_bind, doSome, guru,
      if_neg (fun h => hp ((MarkedPos.split hc 1).2 h.2))]
    rfl

end

section complex

theorem root_eq (s : Int) (n m : Nat) :
    root s n m = Complex.exp (s * (2 * Real.pi * Complex.I) / n) ^ m := by
  rw [root, ← Complex.exp_nat_mul]
  congr 1
  ring

theorem undo_root (s : Int) (hs : s = -1 ∨ s = 1) : Undo (root s) (root (-s)) := by
  intro n j l hj hl
  have hn : (n : ℂ) ≠ 0 := by
    have : n ≠ 0 := by omega
    exact_mod_cast this
  have e : ∀ m, root s n (j * m) * root (-s) n (m * l)
      = Complex.exp (s * (2 * Real.pi * Complex.I) * ((j : ℂ) - l) / n) ^ m := by
    intro m
    rw [root, root, ← Complex.exp_add, ← Complex.exp_nat_mul]
    congr 1
    push_cast
    ring
  simp only [e]
  split
  · rename_i h
    subst h
    simp
  · rename_i h
    have h1 : Complex.exp (s * (2 * Real.pi * Complex.I) * ((j : ℂ) - l) / n) ≠ 1 := by
      intro h1
      obtain ⟨z, hz⟩ := Complex.exp_eq_one_iff.1 h1
      have hpi : (2 * Real.pi * Complex.I : ℂ) ≠ 0 := Complex.two_pi_I_ne_zero
      have h2 : (s : ℂ) * ((j : ℂ) - l) = z * n := by
        field_simp at hz
        linear_combination hz
      have h3 : s * ((j : ℤ) - l) = z * n := by exact_mod_cast h2
      have h4 : (n : ℤ) ∣ (j : ℤ) - l := by
        rcases hs with rfl | rfl
        · exact ⟨-z, by linarith⟩
        · exact ⟨z, by linarith⟩
      have h5 := Int.eq_zero_of_abs_lt_dvd h4 (by rw [abs_lt]; constructor <;> omega)
      omega
    have h2 := geom_sum_mul (Complex.exp (s * (2 * Real.pi * Complex.I) * ((j : ℂ) - l) / n)) n
    have h3 : Complex.exp (s * (2 * Real.pi * Complex.I) * ((j : ℂ) - l) / n) ^ n = 1 := by
      rw [← Complex.exp_nat_mul, Complex.exp_eq_one_iff]
      refine ⟨s * ((j : ℤ) - l), ?_⟩
      push_cast
      field_simp
    rw [h3, sub_self] at h2
    exact (mul_eq_zero.1 h2).resolve_right (sub_ne_zero.2 h1)

/-- A transform and then the transform in the other direction: the tensor times the number of elements
along the indices that are transformed. -/
theorem c66_round_trip_partial (ip ip' : Bool) (t : Tensor ℂ) (ht : t.WF) (hd : t.dims ≠ [])
    (convert : List Bool) (hc : convert.length = t.dims.length) (hp : MarkedPos convert t.dims)
    (direction : Int) (hs : direction = -1 ∨ direction = 1) :
    (fftwSome root ip t convert direction >>= fun r => fftwSome root ip' r convert (-direction))
      = .ok ⟨t.dims, t.data.map ((markedSize convert t.dims : ℂ) * ·)⟩ := by
  have hE := Entries.exists ht hd
  obtain ⟨r, h1, h2, h3, h4⟩ := c66_some_partial root ip t ht hd _ hE convert hc hp direction hs
  obtain ⟨q, g1, g2, g3, g4⟩ := c66_some_partial root ip' r h3 (h2 ▸ hd) _ h4 convert (h2 ▸ hc)
    (h2 ▸ hp) (-direction) (by omega)
  rw [h1, Res.ok_bind, g1]
  congr 1
  refine Entries.ext g3 ?_ (g2.trans h2) g4 (y := fun idx => (markedSize convert t.dims : ℂ) *
    t.data.getD (colPos t.dims idx) 0) ?_ fun idx hi => ?_
  · simpa [Tensor.WF] using ht
  · intro idx hi
    have := reads hE hi
    simp only at hi ⊢
    rw [elem, if_pos hi, List.getElem?_map, this]
    rfl
  · rw [g2, h2] at hi
    rw [h2]
    exact dft_undo (undo_root direction hs) convert t.dims idx hc hi _

/-- Parseval: the squares of the absolute values. -/
theorem c66_parseval_partial (ip : Bool) (t : Tensor ℂ) (ht : t.WF) (hd : t.dims ≠ [])
    (convert : List Bool) (hc : convert.length = t.dims.length) (hp : MarkedPos convert t.dims)
    (direction : Int) (hs : direction = -1 ∨ direction = 1) :
    ∃ r, fftwSome root ip t convert direction = .ok r ∧
      (r.data.map fun z => ‖z‖ ^ 2).sum
        = markedSize convert t.dims * (t.data.map fun z => ‖z‖ ^ 2).sum := by
  have hE := Entries.exists ht hd
  obtain ⟨r, h1, h2, h3, h4⟩ := c66_some_partial root ip t ht hd _ hE convert hc hp direction hs
  refine ⟨r, h1, ?_⟩
  have hstar : ∀ (ds : List Nat) (cs : List Bool) (idx : List Nat) (x : List Nat → ℂ),
      starRingEnd ℂ (dft (root direction) cs ds idx x)
        = dft (root (-direction)) cs ds idx fun i => starRingEnd ℂ (x i) := by
    intro ds
    induction ds with
    | nil => intro cs idx x; rcases cs with - | ⟨- | -, cs⟩ <;> rfl
    | cons d ds ih =>
      intro cs idx x
      rcases cs with - | ⟨- | -, cs⟩
      · rfl
      · cases idx with
        | nil => rfl
        | cons i is => exact ih cs is fun js => x (i :: js)
      · cases idx with
        | nil => rfl
        | cons i is =>
          simp only [dft, map_sum, map_mul, ih]
          refine Finset.sum_congr rfl fun j _ => ?_
          congr 1
          rw [root, root, ← Complex.exp_conj]
          congr 1
          simp [Complex.conj_ofReal, Complex.conj_ofNat]
  have hsq : ∀ (u : Tensor ℂ) (x : List Nat → ℂ), u.WF → u.dims ≠ [] → Entries u.dims u.data x →
      (((u.data.map fun z => ‖z‖ ^ 2).sum : ℝ) : ℂ) = total u.dims fun i => x i * starRingEnd ℂ (x i) := by
    intro u x hu hud hx
    rw [total_entries u.dims (u.data.map fun z => z * starRingEnd ℂ z) _
      (by rw [List.length_map]; exact wf_prod hu hud)]
    · rw [← Complex.ofRealHom_eq_coe, map_list_sum, List.map_map]
      congr 1
      apply List.map_congr_left
      intro z _
      simp [Complex.mul_conj, Complex.normSq_eq_norm_sq]
    · intro idx hi
      have := reads hx hi
      rw [elem, if_pos hi, List.getElem?_map, this]
      rfl
  have e1 := hsq r _ h3 (h2 ▸ hd) h4
  have e2 := hsq t _ ht hd hE
  have := dft_parseval (undo_root direction hs) (fun n j l => by rw [Nat.mul_comm]) convert t.dims hc
    (fun idx => t.data.getD (colPos t.dims idx) 0)
    (fun idx => starRingEnd ℂ (t.data.getD (colPos t.dims idx) 0))
  rw [h2] at e1
  simp only [hstar] at e1
  rw [this, ← e2] at e1
  exact_mod_cast e1

/-- The first element of the transform of all the indices is the sum of the elements. -/
theorem c66_zero_frequency_partial (ip : Bool) (t : Tensor ℂ) (ht : t.WF) (hd : t.dims ≠ [])
    (hp : ∀ n ∈ t.dims, n ≠ 0) (direction : Int) (hs : direction = -1 ∨ direction = 1) :
    ∃ r, fftwAll root ip t direction = .ok r ∧ r.data[0]? = some t.data.sum := by
  have hE := Entries.exists ht hd
  obtain ⟨r, h1, h2, h3, h4⟩ := c66_all_partial root ip t ht hd _ hE hp direction hs
  refine ⟨r, h1, ?_⟩
  have hz : ∀ ds : List Nat, (∀ n ∈ ds, n ≠ 0) → InB (ds.map fun _ => 0) ds := by
    intro ds
    induction ds with
    | nil => intro _; trivial
    | cons d ds ih =>
      intro h
      exact ⟨Nat.pos_of_ne_zero (h d (by simp)), ih fun n hn => h n (by simp [hn])⟩
  have hc : ∀ ds : List Nat, colPos ds (ds.map fun _ => 0) = 0 := by
    intro ds
    induction ds with
    | nil => rfl
    | cons d ds ih => rw [List.map_cons, colPos_cons, ih]; rfl
  have hb := hz t.dims hp
  have := h4 _ (h2 ▸ hb)
  rw [h2, elem, if_pos hb, hc] at this
  rw [this, ← total_entries t.dims t.data _ (wf_prod ht hd) hE]
  congr 1
  have : ∀ (ds : List Nat) (x : List Nat → ℂ),
      dft (root direction) (List.replicate ds.length true) ds (ds.map fun _ => 0) x = total ds x := by
    intro ds
    induction ds with
    | nil => intro x; rfl
    | cons d ds ih =>
      intro x
      simp only [List.length_cons, List.replicate_succ, List.map_cons, dft, total, Nat.mul_zero, ih]
      refine Finset.sum_congr rfl fun j _ => ?_
      simp [root]
  exact this _ _

end complex

section
variable [CommSemiring α] (W : Int → Nat → Nat → α)

/-- The transform is linear. -/
theorem c66_linear_partial (ip : Bool) (ds : List Nat) (hd : ds ≠ []) (l m : List α)
    (hl : l.length = prod ds) (hm : m.length = prod ds) (a b : α) (convert : List Bool)
    (hc : convert.length = ds.length) (hp : MarkedPos convert ds) (direction : Int)
    (hs : direction = -1 ∨ direction = 1) :
    ∃ p q, fftwSome W ip ⟨ds, l⟩ convert direction = .ok ⟨ds, p⟩ ∧
      fftwSome W ip ⟨ds, m⟩ convert direction = .ok ⟨ds, q⟩ ∧
      fftwSome W ip ⟨ds, List.zipWith (fun x y => a * x + b * y) l m⟩ convert direction
        = .ok ⟨ds, List.zipWith (fun x y => a * x + b * y) p q⟩ := by
  have w : ∀ k : List α, k.length = prod ds → Tensor.WF ⟨ds, k⟩ := by
    intro k hk
    rw [Tensor.WF, totalSize_of_ne hd]
    exact hk
  have hz : ∀ {k j : List α} {x y : List Nat → α}, Entries ds k x → Entries ds j y →
      Entries ds (List.zipWith (fun x y => a * x + b * y) k j) fun i => a * x i + b * y i := by
    intro k j x y hx hy idx hi
    have h1 := hx idx hi
    have h2 := hy idx hi
    rw [elem, if_pos hi] at h1 h2 ⊢
    rw [List.getElem?_zipWith, h1, h2]
  have hw : ∀ k j : List α, k.length = prod ds → j.length = prod ds →
      Tensor.WF (⟨ds, List.zipWith (fun x y => a * x + b * y) k j⟩ : Tensor α) := by
    intro k j hk hj
    exact w _ (by simp [hk, hj])
  have e1 := Entries.exists (w l hl) hd
  have e2 := Entries.exists (w m hm) hd
  obtain ⟨⟨d1, p⟩, h1, h2, h3, h4⟩ := c66_some_partial W ip _ (w l hl) hd _ e1 convert hc hp direction hs
  obtain ⟨⟨d2, q⟩, g1, g2, g3, g4⟩ := c66_some_partial W ip _ (w m hm) hd _ e2 convert hc hp direction hs
  obtain ⟨⟨d3, u⟩, f1, f2, f3, f4⟩ := c66_some_partial W ip _ (hw l m hl hm) hd _ (hz e1 e2) convert hc
    hp direction hs
  replace h2 := h2.symm
  replace g2 := g2.symm
  replace f2 := f2.symm
  simp only at h2 g2 f2
  subst h2 g2 f2
  refine ⟨p, q, h1, g1, f1.trans ?_⟩
  congr 1
  refine Entries.ext f3 (hw p q (wf_prod h3 hd) (wf_prod g3 hd)) rfl f4 (hz h4 g4) fun idx hi => ?_
  have := dft_linear (W direction) convert ds idx 2 (fun j => if j = 0 then a else b)
    (fun j js => if j = 0 then l.getD (colPos ds js) 0 else m.getD (colPos ds js) 0)
  simpa [Finset.sum_range_succ] using this

end

/-! The hypotheses can be met. -/

/-- The numbers of the transforms of length 1 and 2. -/
def w2 (_ : Int) (_ m : Nat) : Int := (-1) ^ m

example : fftwAll w2 false ⟨[2], [3, 5]⟩ (-1) = .ok ⟨[2], [8, -2]⟩ := by decide +kernel
example : fftwAll w2 true ⟨[2, 1, 2], [3, 5, 7, 10]⟩ 1 = .ok ⟨[2, 1, 2], [25, -5, -9, 1]⟩ := by
  decide +kernel
example : fftwDim w2 false ⟨[3, 2], [1, 2, 3, 4, 5, 6]⟩ 1 (-1) = .ok ⟨[3, 2], [5, 7, 9, -3, -3, -3]⟩ := by
  decide +kernel
example : fftwSome w2 false ⟨[3, 2], [1, 2, 3, 4, 5, 6]⟩ [false, true] (-1)
    = .ok ⟨[3, 2], [5, 7, 9, -3, -3, -3]⟩ := by decide +kernel
example : fftwSome w2 false ⟨[0, 2], []⟩ [false, true] (-1) = .ok ⟨[0, 2], []⟩ := by decide +kernel
example : fftwSome w2 false ⟨[0, 2], []⟩ [true, true] (-1) = .ub := by decide +kernel
example : fftwDim w2 false ⟨[3, 2], [1, 2, 3, 4, 5, 6]⟩ 2 (-1) = .abort := by decide +kernel

theorem example_entries : Entries [2, 3] [1, 1, 1, 1, 1, 1] fun _ => (1 : ℂ) := by
  intro idx h
  match idx, h with
  | [i, j], h =>
    have h1 : i < 2 := h.1
    have h2 : j < 3 := h.2.1
    rw [elem, if_pos h]
    have : i + 2 * (j + 3 * 0) < 6 := by omega
    simp only [colPos]
    generalize i + 2 * (j + 3 * 0) = p at this
    match p, this with
    | 0, _ | 1, _ | 2, _ | 3, _ | 4, _ | 5, _ => rfl

example : ∃ r, fftwSome root false ⟨[2, 3], [1, 1, 1, 1, 1, 1]⟩ [true, false] (-1) = .ok r ∧
    r.dims = [2, 3] ∧ r.WF ∧ Entries r.dims r.data (dft (root (-1)) [true, false] [2, 3] · fun _ => 1) :=
  c66_some_partial root false ⟨[2, 3], [1, 1, 1, 1, 1, 1]⟩ rfl (by simp) (fun _ => 1) example_entries
    [true, false] rfl (by simp [MarkedPos]) (-1) (.inl rfl)

example : ∃ r, fftwAll root true ⟨[2, 3], [1, 1, 1, 1, 1, 1]⟩ 1 = .ok r ∧ r.dims = [2, 3] ∧ r.WF ∧
    Entries r.dims r.data (dft (root 1) [true, true] [2, 3] · fun _ => 1) :=
  c66_all_partial root true ⟨[2, 3], [1, 1, 1, 1, 1, 1]⟩ rfl (by simp) (fun _ => 1) example_entries
    (by simp) 1 (.inr rfl)

example : ∃ r, fftwDim root false ⟨[2, 3], [1, 1, 1, 1, 1, 1]⟩ 1 1 = .ok r ∧ r.dims = [2, 3] ∧ r.WF ∧
    ∀ a k b, InB a [2] → k < 3 → InB b [] → elem r.dims r.data (a ++ k :: b)
      = some (∑ j ∈ range 3, root 1 3 (j * k) * 1) :=
  c66_dim_partial root false ⟨[2, 3], [1, 1, 1, 1, 1, 1]⟩ rfl [2] [] 3 rfl (by simp) (fun _ => 1)
    example_entries 1 (.inr rfl)

example : (fftwSome root true ⟨[2, 3], [1, 2, 3, 4, 5, 6]⟩ [true, false] (-1) >>= fun r =>
    fftwSome root false r [true, false] 1) = .ok ⟨[2, 3], [2, 4, 6, 8, 10, 12]⟩ := by
  have := c66_round_trip_partial true false ⟨[2, 3], [1, 2, 3, 4, 5, 6]⟩ rfl (by simp) [true, false] rfl
    (by simp [MarkedPos]) (-1) (.inl rfl)
  rw [show (- -1 : Int) = 1 by rfl] at this
  rw [this]
  simp [markedSize]
  norm_num

example : fftwDim root false ⟨[2, 3], [1, 2, 3, 4, 5, 6]⟩ 0 1 = fftwSome root false
    ⟨[2, 3], [1, 2, 3, 4, 5, 6]⟩ [true, false] 1 :=
  c66_dim_some root false ⟨[2, 3], [1, 2, 3, 4, 5, 6]⟩ 0 (by simp) 1

example : ((fftwSome w2 false ⟨[2, 2], [1, 2, 3, 4]⟩ [true, false] 1) >>= fun r =>
    fftwSome w2 true r [false, true] 1) = fftwSome w2 false ⟨[2, 2], [1, 2, 3, 4]⟩ [true, true] 1 :=
  c66_twice_partial w2 false true false ⟨[2, 2], [1, 2, 3, 4]⟩ rfl (by simp) [true, false] [false, true]
    rfl rfl (by simp [Apart]) (by simp) 1 (.inr rfl)

example : fftwSome w2 true ⟨[2, 2], [1, 2, 3, 4]⟩ [true, false] 5
    = fftwSome w2 false ⟨[2, 2], [1, 2, 3, 4]⟩ [true, false] 5 :=
  c66_in_place w2 ⟨[2, 2], [1, 2, 3, 4]⟩ rfl (by simp) [true, false] (by simp [MarkedPos]) 5

end Verif.Fftw
