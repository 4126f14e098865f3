import Verif.Props.Fftw
import Verif.Props.Shift
import Verif.Lemmas.Arith
/-
C127: laws of Fourier transforms.
-/
namespace Verif.Fftw

open Verif Spec Finset

section numbers

theorem root_add (s : Int) (n a b : Nat) : root s n (a + b) = root s n a * root s n b := by
  rw [root_eq, root_eq, root_eq, pow_add]

theorem root_period (s : Int) (n b : Nat) (hn : n ≠ 0) : root s n (n * b) = 1 := by
  rw [root, Complex.exp_eq_one_iff]
  refine ⟨s * b, ?_⟩
  have : (n : ℂ) ≠ 0 := by exact_mod_cast hn
  push_cast
  field_simp

theorem root_mod (s : Int) (n a k : Nat) (hn : n ≠ 0) : root s n (a % n * k) = root s n (a * k) := by
  have : a * k = a % n * k + n * (a / n * k) := by
    conv_lhs => rw [← Nat.mod_add_div a n]
    ring
  rw [this, root_add, root_period s n _ hn, mul_one]

theorem root_zero (s : Int) (n : Nat) : root s n 0 = 1 := by rw [root_eq, pow_zero]

theorem root_neg (s : Int) (n m : Nat) : root (-s) n m * root s n m = 1 := by
  rw [root, root, ← Complex.exp_add, Complex.exp_eq_one_iff]
  exact ⟨0, by push_cast; ring⟩

theorem root_star (s : Int) (n m : Nat) : (starRingEnd ℂ) (root s n m) = root (-s) n m := by
  rw [root, root, ← Complex.exp_conj]
  congr 1
  simp only [map_div₀, map_mul, map_intCast, map_natCast, Complex.conj_ofReal, Complex.conj_I,
    map_ofNat]
  push_cast
  ring

theorem root_opposite (s : Int) (n j k : Nat) (hk : k < n) :
    root s n (j * ((n - k) % n)) = root (-s) n (j * k) := by
  have hn : n ≠ 0 := by omega
  have h1 : root s n (j * ((n - k) % n)) * root s n (j * k) = 1 := by
    rw [mul_comm j, root_mod s n _ j hn, ← root_add,
      show (n - k) * j + j * k = n * j by rw [mul_comm j k, ← add_mul, Nat.sub_add_cancel hk.le]]
    exact root_period s n j hn
  exact mul_right_cancel₀ (right_ne_zero_of_mul_eq_one h1) (h1.trans (root_neg s n (j * k)).symm)

theorem sum_rotate {β : Type} [AddCommMonoid β] (n h : Nat) (G : Nat → β) :
    ∑ i ∈ range n, G ((i + h) % n) = ∑ j ∈ range n, G j := by
  rcases Nat.eq_zero_or_pos n with rfl | hn
  · rfl
  refine Finset.sum_nbij' (fun i => (i + h) % n) (fun j => (j + (n - h % n)) % n) ?_ ?_ ?_ ?_ ?_
  · intro i _; exact mem_range.2 (Nat.mod_lt _ hn)
  · intro i _; exact mem_range.2 (Nat.mod_lt _ hn)
  · intro i hi
    have hi := mem_range.1 hi
    have h1 := Nat.mod_lt h hn
    show ((i + h) % n + (n - h % n)) % n = i
    rw [Nat.mod_add_mod, show i + h + (n - h % n) = i + n * (h / n + 1) by
      have := Nat.mod_add_div h n
      rw [Nat.mul_add, Nat.mul_one]; omega, Nat.add_mul_mod_self_left, Nat.mod_eq_of_lt hi]
  · intro i hi
    have hi := mem_range.1 hi
    have h1 := Nat.mod_lt h hn
    show ((i + (n - h % n)) % n + h) % n = i
    rw [Nat.mod_add_mod, show i + (n - h % n) + h = i + n * (h / n + 1) by
      have := Nat.mod_add_div h n
      rw [Nat.mul_add, Nat.mul_one]; omega, Nat.add_mul_mod_self_left, Nat.mod_eq_of_lt hi]
  · intro i _; rfl

end numbers

section formulas

theorem dft_conj (s : Int) (cs : List Bool) (ds ks : List Nat) (x : List Nat → ℂ) :
    dft (root s) cs ds ks (fun i => (starRingEnd ℂ) (x i))
      = (starRingEnd ℂ) (dft (root (-s)) cs ds ks x) := by
  induction cs generalizing ds ks x with
  | nil => cases ds <;> cases ks <;> rfl
  | cons m cs ih =>
    cases ds with
    | nil => cases m <;> cases ks <;> rfl
    | cons d ds =>
      cases ks with
      | nil => cases m <;> rfl
      | cons k ks =>
        cases m
        · exact ih ds ks fun js => x (k :: js)
        · simp only [dft, map_sum, map_mul, root_star, neg_neg]
          exact sum_congr rfl fun j _ => by rw [ih ds ks fun js => x (j :: js)]

theorem opposite_inB {cs : List Bool} {ds ks : List Nat} (hc : cs.length = ds.length)
    (h : InB ks ds) : InB (opposite cs ds ks) ds := by
  induction ds generalizing cs ks with
  | nil =>
    match cs, ks, h with
    | [], [], _ => trivial
  | cons d ds ih =>
    match cs, ks, h with
    | c :: cs, k :: ks, h =>
      refine ⟨?_, ih (by simpa using hc) h.2⟩
      split
      · exact Nat.mod_lt _ (Nat.lt_of_le_of_lt (Nat.zero_le _) h.1)
      · exact h.1

theorem dft_opposite (s : Int) (cs : List Bool) (ds ks : List Nat) (hc : cs.length = ds.length)
    (h : InB ks ds) (x : List Nat → ℂ) :
    dft (root s) cs ds (opposite cs ds ks) x = dft (root (-s)) cs ds ks x := by
  induction ds generalizing cs ks x with
  | nil =>
    match cs, ks, h with
    | [], [], _ => rfl
  | cons d ds ih =>
    match cs, ks, h with
    | true :: cs, k :: ks, h =>
      show dft (root s) (true :: cs) (d :: ds) ((d - k) % d :: opposite cs ds ks) x = _
      simp only [dft]
      exact sum_congr rfl fun j _ => by
        rw [ih cs ks (by simpa using hc) h.2, root_opposite s d j k h.1]
    | false :: cs, k :: ks, h =>
      show dft (root s) (false :: cs) (d :: ds) (k :: opposite cs ds ks) x = _
      exact ih cs ks (by simpa using hc) h.2 _

theorem opposite_opposite {cs : List Bool} {ds ks : List Nat} (hc : cs.length = ds.length)
    (h : InB ks ds) : opposite cs ds (opposite cs ds ks) = ks := by
  induction ds generalizing cs ks with
  | nil =>
    match cs, ks, h with
    | [], [], _ => rfl
  | cons d ds ih =>
    match cs, ks, h with
    | c :: cs, k :: ks, h =>
      simp only [opposite]
      rw [ih (by simpa using hc) h.2]
      congr 1
      cases c
      · rfl
      · simp only [if_true]
        have h1 := h.1
        rcases Nat.eq_zero_or_pos k with rfl | hk
        · simp
        · rw [Nat.mod_eq_of_lt (show d - k < d by omega), Nat.mod_eq_of_lt (by omega)]; omega

theorem dft_cyclic (s : Int) (cs : List Bool) (ds ks : List Nat) (hc : cs.length = ds.length)
    (h : InB ks ds) (x y : List Nat → ℂ) :
    dft (root s) cs ds ks (fun i => cyclic cs ds i x y)
      = dft (root s) cs ds ks x * dft (root s) cs ds ks y := by
  induction ds generalizing cs ks x y with
  | nil =>
    match cs, ks, h with
    | [], [], _ => rfl
  | cons d ds ih =>
    match cs, ks, h with
    | true :: cs, k :: ks, h =>
      have hd : d ≠ 0 := by have := h.1; omega
      have ih' := fun x y => ih cs ks (by simpa using hc) h.2 x y
      simp only [dft, cyclic]
      have lin : ∀ F : Nat → List Nat → ℂ, dft (root s) cs ds ks (fun js => ∑ j ∈ range d, F j js)
          = ∑ j ∈ range d, dft (root s) cs ds ks (F j) := by
        intro F
        have := dft_linear (root s) cs ds ks d (fun _ => 1) F
        simpa only [one_mul] using this
      simp only [lin, ih']
      rw [sum_mul]
      simp only [mul_sum]
      rw [sum_comm]
      refine sum_congr rfl fun j hj => ?_
      have hj := mem_range.1 hj
      rw [← sum_rotate d j]
      refine sum_congr rfl fun i hi => ?_
      have hi := mem_range.1 hi
      have e : ((i + j) % d + d - j) % d = i := by
        by_cases hlt : i + j < d
        · rw [Nat.mod_eq_of_lt hlt, show i + j + d - j = i + d by omega, Nat.add_mod_right,
            Nat.mod_eq_of_lt hi]
        · rw [show (i + j) % d = i + j - d from by
            rw [Nat.mod_eq_sub_mod (by omega), Nat.mod_eq_of_lt (by omega)],
            show i + j - d + d - j = i by omega, Nat.mod_eq_of_lt hi]
      rw [e, root_mod s d _ k hd, add_mul, root_add]
      ring
    | false :: cs, k :: ks, h =>
      exact ih cs ks (by simpa using hc) h.2 _ _

/-- The displacement of fftshift along an index. -/
def half (fwd : Bool) (n : Nat) : Nat := if fwd then n / 2 else (n + 1) / 2

theorem dft_shift (s : Int) (fwd : Bool) (cs fs : List Bool) (ds ks : List Nat)
    (hc : cs.length = ds.length) (hf : fs.length = ds.length) (h : InB ks ds) (x y : List Nat → ℂ)
    (hxy : ∀ i, InB i ds → y (Shift.targets fwd fs ds i) = x i) :
    dft (root s) cs ds (Shift.targets fwd (List.zipWith (fun c f => f && !c) cs fs) ds ks) y
      = phase (root s) (half fwd) (List.zipWith (· && ·) cs fs) ds ks * dft (root s) cs ds ks x := by
  induction ds generalizing cs fs ks x y with
  | nil =>
    match cs, fs, ks, h with
    | [], [], [], _ =>
      show y [] = 1 * x []
      rw [one_mul]; exact hxy [] trivial
  | cons d ds ih =>
    match cs, fs, ks, h with
    | c :: cs, f :: fs, k :: ks, h =>
      have ih' := fun x y q => ih cs fs ks (by simpa using hc) (by simpa using hf) h.2 x y q
      have hd : d ≠ 0 := by have := h.1; omega
      simp only [List.zipWith_cons_cons, Shift.targets]
      cases c <;> cases f
      · simp only [Bool.false_and, Bool.false_eq_true, if_false, dft, phase]
        exact ih' _ _ fun i hi => hxy (k :: i) ⟨h.1, hi⟩
      · simp only [Bool.true_and, Bool.not_false, if_true, dft, phase, Bool.false_and]
        exact ih' _ _ fun i hi => hxy (k :: i) ⟨h.1, hi⟩
      · simp only [Bool.false_and, Bool.false_eq_true, if_false, dft, phase, Bool.and_false]
        rw [mul_sum]
        refine sum_congr rfl fun j hj => ?_
        rw [ih' (fun js => x (j :: js)) (fun js => y (j :: js))
          fun i hi => hxy (j :: i) ⟨mem_range.1 hj, hi⟩]
        ring
      · simp only [Bool.not_true, Bool.and_false, Bool.false_eq_true, if_false, dft, phase,
          Bool.and_self]
        rw [← sum_rotate d (half fwd d), mul_sum]
        refine sum_congr rfl fun j hj => ?_
        rw [ih' (fun js => x (j :: js)) (fun js => y ((j + half fwd d) % d :: js))
          fun i hi => hxy (j :: i) ⟨mem_range.1 hj, hi⟩, root_mod s d _ k hd, add_mul, root_add]
        ring

end formulas

theorem entries_map {α β : Type} {ds : List Nat} {l : List α} {x : List Nat → α} (f : α → β)
    (h : Entries ds l x) : Entries ds (l.map f) fun i => f (x i) := by
  intro i hi
  rw [Tensor.elem_map, h i hi]; rfl

/-- C127: the transform of the conjugate is the conjugate of the transform in the other direction. -/
theorem c127_conj (ip ip' : Bool) (t : Tensor ℂ) (ht : t.WF) (hd : t.dims ≠ []) (convert : List Bool)
    (hc : convert.length = t.dims.length) (hp : MarkedPos convert t.dims) (direction : Int)
    (hs : direction = -1 ∨ direction = 1) :
    (do fftwSome root ip (← Tensor.unop (starRingEnd ℂ) t) convert direction) =
      (do Tensor.unop (starRingEnd ℂ) (← fftwSome root ip' t convert (-direction))) ∧
    ∃ r, (do fftwSome root ip (← Tensor.unop (starRingEnd ℂ) t) convert direction) = .ok r := by
  have hE := Entries.exists ht hd
  have wf : (⟨t.dims, t.data.map (starRingEnd ℂ)⟩ : Tensor ℂ).WF := by
    show (t.data.map _).length = _
    rw [List.length_map]; exact ht
  obtain ⟨r, h1, h2, h3, h4⟩ := c66_some_partial root ip' t ht hd _ hE convert hc hp (-direction)
    (by omega)
  obtain ⟨q, g1, g2, g3, g4⟩ := c66_some_partial root ip _ wf hd _ (entries_map (starRingEnd ℂ) hE)
    convert hc hp direction hs
  rw [Tensor.unop_ok _ t ht, Res.ok_bind, g1, h1, Res.ok_bind, Tensor.unop_ok _ r h3]
  refine ⟨?_, _, rfl⟩
  congr 1
  refine Entries.ext g3 (by show (r.data.map _).length = _; rw [List.length_map]; exact h3)
    (g2.trans h2.symm) g4 (entries_map (starRingEnd ℂ) h4) fun idx _ => ?_
  exact dft_conj direction convert t.dims idx _

/-- C127: the transform in the other direction has the same elements at the opposite frequencies. -/
theorem c127_opposite (ip ip' : Bool) (t : Tensor ℂ) (ht : t.WF) (hd : t.dims ≠ [])
    (convert : List Bool) (hc : convert.length = t.dims.length) (hp : MarkedPos convert t.dims)
    (direction : Int) (hs : direction = -1 ∨ direction = 1) :
    ∃ r q, fftwSome root ip t convert direction = .ok r ∧
      fftwSome root ip' t convert (-direction) = .ok q ∧ r.dims = t.dims ∧ q.dims = t.dims ∧
      ∀ idx, InB idx t.dims →
        elem q.dims q.data idx = elem r.dims r.data (opposite convert t.dims idx) := by
  have hE := Entries.exists ht hd
  obtain ⟨r, h1, h2, h3, h4⟩ := c66_some_partial root ip t ht hd _ hE convert hc hp direction hs
  obtain ⟨q, g1, g2, g3, g4⟩ := c66_some_partial root ip' t ht hd _ hE convert hc hp (-direction)
    (by omega)
  refine ⟨r, q, h1, g1, h2, g2, fun idx hi => ?_⟩
  rw [g4 idx (by rw [g2]; exact hi), h4 _ (by rw [h2]; exact opposite_inB hc hi)]
  exact congrArg some (dft_opposite direction convert t.dims idx hc hi _).symm

/-- C127: the transform of real numbers has conjugate elements at opposite frequencies. -/
theorem c127_real (ip : Bool) (t : Tensor ℂ) (ht : t.WF) (hd : t.dims ≠ []) (convert : List Bool)
    (hc : convert.length = t.dims.length) (hp : MarkedPos convert t.dims) (direction : Int)
    (hs : direction = -1 ∨ direction = 1) (hr : ∀ z ∈ t.data, z.im = 0) :
    ∃ r, fftwSome root ip t convert direction = .ok r ∧ r.dims = t.dims ∧
      ∀ idx z, elem r.dims r.data idx = some z →
        elem r.dims r.data (opposite convert t.dims idx) = some ((starRingEnd ℂ) z) := by
  have hE := Entries.exists ht hd
  obtain ⟨r, h1, h2, h3, h4⟩ := c66_some_partial root ip t ht hd _ hE convert hc hp direction hs
  refine ⟨r, h1, h2, fun idx z hz => ?_⟩
  have hi : InB idx r.dims := by
    by_contra hn
    rw [elem, if_neg hn] at hz
    cases hz
  have hi' : InB idx t.dims := h2 ▸ hi
  rw [h4 idx hi] at hz
  cases hz
  rw [h4 _ (by rw [h2]; exact opposite_inB hc hi')]
  congr 1
  refine (dft_opposite direction convert t.dims idx hc hi' _).trans ?_
  have h5 := dft_conj (-direction) convert t.dims idx fun i => t.data.getD (colPos t.dims i) 0
  rw [neg_neg] at h5
  rw [← h5]
  refine dft_congr _ convert t.dims idx _ _ hc hi' fun j hj => ?_
  have hj' := reads hE hj
  exact (Complex.conj_eq_iff_im.2 (hr _ (List.mem_of_getElem? hj'))).symm

/-- C127: two transforms in the same direction give the tensor at the opposite indices, times the
number of elements along the indices which are transformed. -/
theorem c127_twice (ip ip' : Bool) (t : Tensor ℂ) (ht : t.WF) (hd : t.dims ≠ []) (convert : List Bool)
    (hc : convert.length = t.dims.length) (hp : MarkedPos convert t.dims) (direction : Int)
    (hs : direction = -1 ∨ direction = 1) :
    ∃ r, (fftwSome root ip t convert direction >>= fun r => fftwSome root ip' r convert direction)
        = .ok r ∧ r.dims = t.dims ∧
      ∀ idx z, elem t.dims t.data idx = some z →
        elem r.dims r.data (opposite convert t.dims idx) =
          some ((markedSize convert t.dims : ℂ) * z) := by
  have hE := Entries.exists ht hd
  obtain ⟨r, h1, h2, h3, h4⟩ := c66_some_partial root ip t ht hd _ hE convert hc hp direction hs
  obtain ⟨q, g1, g2, g3, g4⟩ := c66_some_partial root ip' r h3 (h2 ▸ hd) _ h4 convert (h2 ▸ hc)
    (h2 ▸ hp) direction hs
  refine ⟨q, by rw [h1, Res.ok_bind, g1], g2.trans h2, fun idx z hz => ?_⟩
  have hi : InB idx t.dims := by
    by_contra hn
    rw [elem, if_neg hn] at hz
    cases hz
  rw [hE idx hi] at hz
  cases hz
  rw [g4 _ (by rw [g2, h2]; exact opposite_inB hc hi)]
  refine congrArg some ?_
  show dft (root direction) convert r.dims _ _ = _
  rw [h2, dft_opposite direction convert t.dims idx hc hi,
    dft_undo (undo_root direction hs) convert t.dims idx hc hi]

/-- C127: the product by elements of two transforms, transformed back, is the cyclic convolution
times the number of elements along the indices which are transformed. -/
theorem c127_convolution (i₁ i₂ i₃ : Bool) (t u : Tensor ℂ) (ht : t.WF) (hu : u.WF)
    (hd : t.dims ≠ []) (htu : u.dims = t.dims) (x y : List Nat → ℂ) (hx : Entries t.dims t.data x)
    (hy : Entries u.dims u.data y) (convert : List Bool) (hc : convert.length = t.dims.length)
    (hp : MarkedPos convert t.dims) (direction : Int) (hs : direction = -1 ∨ direction = 1) :
    ∃ r, (do
        let a ← fftwSome root i₁ t convert direction
        let b ← fftwSome root i₂ u convert direction
        let p ← Tensor.binopTT (· * ·) a b
        fftwSome root i₃ p convert (-direction)) = .ok r ∧ r.dims = t.dims ∧
      Entries r.dims r.data fun idx =>
        (markedSize convert t.dims : ℂ) * cyclic convert t.dims idx x y := by
  obtain ⟨a, a1, a2, a3, a4⟩ := c66_some_partial root i₁ t ht hd x hx convert hc hp direction hs
  obtain ⟨b, b1, b2, b3, b4⟩ := c66_some_partial root i₂ u hu (htu ▸ hd) y hy convert (htu ▸ hc)
    (htu ▸ hp) direction hs
  have hab : a.dims = b.dims := by rw [a2, b2, htu]
  have hl : a.data.length = b.data.length := by
    have e1 : a.data.length = Tensor.totalSize a.dims := a3
    have e2 : b.data.length = Tensor.totalSize b.dims := b3
    rw [e1, e2, hab]
  have wf : (⟨a.dims, List.zipWith (· * ·) a.data b.data⟩ : Tensor ℂ).WF := by
    show (List.zipWith (· * ·) a.data b.data).length = _
    rw [List.length_zipWith, ← hl, min_self]; exact a3
  have hE : Entries a.dims (List.zipWith (· * ·) a.data b.data) fun i =>
      dft (root direction) convert t.dims i fun i => cyclic convert t.dims i x y := by
    intro i hi
    rw [Tensor.elem_zipWith _ _ _ _ _ _ _ (a4 i hi) (hab ▸ b4 i (hab ▸ hi)), htu]
    exact congrArg some (dft_cyclic direction convert t.dims i hc (a2 ▸ hi) x y).symm
  obtain ⟨r, r1, r2, r3, r4⟩ := c66_some_partial root i₃ _ wf (a2 ▸ hd) _ hE convert (a2 ▸ hc) (a2 ▸ hp)
    (-direction) (by omega)
  refine ⟨r, ?_, r2.trans a2, fun idx hi => ?_⟩
  · rw [a1, Res.ok_bind, b1, Res.ok_bind, Tensor.binopTT_ok _ a b a3 hl, Res.ok_bind, r1]
  · rw [r4 idx hi]
    have hi' : InB idx t.dims := (r2.trans a2) ▸ hi
    show some (dft (root (-direction)) convert a.dims idx _) = _
    rw [a2, dft_undo (undo_root direction hs) convert t.dims idx hc hi']

/-- C127: fftshift before a transform multiplies each element of the transform by the root of unity of
the displacement, along the indices of both, and moves the elements along the other indices of
fftshift. -/
theorem c127_shift (ip ip' : Bool) (t : Tensor ℂ) (ht : t.WF) (hd : t.dims ≠ []) (fs : List Bool)
    (hf : fs.length = t.dims.length) (fwd : Bool) (convert : List Bool)
    (hc : convert.length = t.dims.length) (hp : MarkedPos convert t.dims) (direction : Int)
    (hs : direction = -1 ∨ direction = 1) :
    ∃ u r q, Finishes (fun fuel => Shift.shiftSome fuel t fs fwd) (.ok u) ∧
      fftwSome root ip t convert direction = .ok r ∧
      fftwSome root ip' u convert direction = .ok q ∧ r.dims = t.dims ∧ q.dims = t.dims ∧
      ∀ idx z, elem r.dims r.data idx = some z →
        elem q.dims q.data
          (Shift.targets fwd (List.zipWith (fun c f => f && !c) convert fs) t.dims idx) =
        some (phase (root direction) (half fwd) (List.zipWith (· && ·) convert fs) t.dims idx * z) := by
  obtain ⟨u, hu, u2, u3, u4⟩ := Shift.c53_several ht fs hf fwd
  have hE := Entries.exists ht hd
  have hE' := Entries.exists u3 (u2 ▸ hd)
  obtain ⟨r, h1, h2, h3, h4⟩ := c66_some_partial root ip t ht hd _ hE convert hc hp direction hs
  obtain ⟨q, g1, g2, g3, g4⟩ := c66_some_partial root ip' u u3 (u2 ▸ hd) _ hE' convert (u2 ▸ hc)
    (u2 ▸ hp) direction hs
  refine ⟨u, r, q, hu, h1, g1, h2, g2.trans u2, fun idx z hz => ?_⟩
  have hi : InB idx r.dims := by
    by_contra hn
    rw [elem, if_neg hn] at hz
    cases hz
  have hi' : InB idx t.dims := h2 ▸ hi
  rw [h4 idx hi] at hz
  cases hz
  have hl : (List.zipWith (fun c f => f && !c) convert fs).length = t.dims.length := by
    rw [List.length_zipWith, hc, hf, min_self]
  rw [g4 _ (by rw [g2, u2]; exact Shift.targets_inB fwd hl hi'), u2]
  congr 1
  refine dft_shift direction fwd convert fs t.dims idx hc hf hi' _ _ fun i hi => ?_
  have e := u4 i hi
  have k := hE' _ (by rw [u2]; exact Shift.targets_inB fwd hf hi)
  rw [k, hE i hi, Option.some.injEq] at e
  rw [u2] at e
  exact e

section Examples

private noncomputable def t3 : Tensor ℂ := ⟨[3, 2], [1, 2, 3, 4, 5, 6]⟩

/-- The hypotheses of the theorems can be met. -/
example : t3.WF ∧ t3.dims ≠ [] ∧ [true, false].length = t3.dims.length ∧
    MarkedPos [true, false] t3.dims ∧ (∀ z ∈ t3.data, z.im = 0) ∧
    Entries t3.dims t3.data fun idx => t3.data.getD (colPos t3.dims idx) 0 := by
  have hw : t3.WF := rfl
  refine ⟨hw, by decide, rfl, (by simp [MarkedPos, t3]), ?_,
    Entries.exists hw (by decide)⟩
  intro z hz
  simp only [t3, List.mem_cons, List.not_mem_nil, or_false] at hz
  rcases hz with rfl | rfl | rfl | rfl | rfl | rfl <;> simp

/-- The cyclic convolution of vectors is the usual one. -/
example (n k : Nat) (x y : List Nat → ℂ) :
    cyclic [true] [n] [k] x y = ∑ j ∈ range n, x [j] * y [(k + n - j) % n] := rfl

/-- The opposite frequencies of a matrix transformed along its rows. -/
example : opposite [true, false] [3, 2] [1, 1] = [2, 1] ∧
    opposite [true, false] [3, 2] [0, 1] = [0, 1] := ⟨rfl, rfl⟩

end Examples

end Verif.Fftw
