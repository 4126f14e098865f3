import Verif.Model.FftwMachine
import Verif.Props.Fftw
import Verif.Props.FoldMachine
/-
C117: lengths and strides which are given to FFTW.

`w` is the number of bits of int.
-/
namespace Verif.FftwMachine

open Verif Fftw Machine Spec

variable {α : Type}

/-- The lengths are of type int, and so is the stride of an index with two or more values: the product of the lengths before
it. -/
def Fits (w : Nat) (dims : List Nat) : Prop :=
  ∀ (i n : Nat), dims[i]? = some n → n < 2 ^ (w - 1) ∧ (2 ≤ n → prod (dims.take i) < 2 ^ (w - 1))

/-- The same, index by index. -/
def Ok (w : Nat) : Nat → List Nat → Prop
  | _, [] => True
  | s, n :: ns => n < 2 ^ (w - 1) ∧ (2 ≤ n → s < 2 ^ (w - 1)) ∧ Ok w (s * n) ns

theorem ok_of (w : Nat) : ∀ (dims : List Nat) (s : Nat),
    (∀ (i n : Nat), dims[i]? = some n → n < 2 ^ (w - 1) ∧ (2 ≤ n → s * prod (dims.take i) < 2 ^ (w - 1))) → Ok w s dims
  | [], _, _ => trivial
  | n :: ns, s, h => by
    have h0 := h 0 n rfl
    refine ⟨h0.1, fun hn => by simpa [prod] using h0.2 hn, ok_of w ns (s * n) fun i m hm => ?_⟩
    have := h (i + 1) m hm
    simpa [prod, Nat.mul_assoc] using this

theorem Fits.ok {w : Nat} {dims : List Nat} (h : Fits w dims) : Ok w 1 dims :=
  ok_of w dims 1 fun i n hi => by simpa using h i n hi

theorem Ok.append {w : Nat} {m : List Nat} : ∀ {l : List Nat} {s : Nat}, Ok w s (l ++ m) → Ok w s l ∧ Ok w (s * prod l) m
  | [], s, h => ⟨trivial, by simpa [prod] using h⟩
  | n :: ns, s, h => by
    obtain ⟨h1, h2, h3⟩ := h
    obtain ⟨h4, h5⟩ := Ok.append h3
    exact ⟨⟨h1, h2, h4⟩, by simpa [prod, Nat.mul_assoc] using h5⟩

/-- Equal lengths, and equal strides if they are used. -/
structure Same (a b : IoDim) : Prop where
  n : a.n = b.n
  is : 2 ≤ a.n → a.is = b.is
  os : 2 ≤ a.n → a.os = b.os

theorem foldlM_congr {β : Type} {f g : β → Nat → Option β} : ∀ {l : List Nat} {b : β}, (∀ c, ∀ j ∈ l, f c j = g c j) →
    l.foldlM f b = l.foldlM g b
  | [], _, _ => rfl
  | i :: l, b, h => by
    rw [List.foldlM_cons, List.foldlM_cons, h b i (by simp)]
    congr 1
    funext c
    exact foldlM_congr fun c j hj => h c j (by simp [hj])

theorem sumO_congr [Zero α] [Add α] {n : Nat} {f g : Nat → Option α} (h : ∀ j < n, f j = g j) : sumO n f = sumO n g :=
  foldlM_congr fun c j hj => by rw [h j (List.mem_range.1 hj)]

theorem Same.mul {a b : IoDim} (h : Same a b) {j : Nat} (hj : j < a.n) : j * a.is = j * b.is ∧ j * a.os = j * b.os := by
  by_cases h2 : 2 ≤ a.n
  · rw [h.is h2, h.os h2]
    exact ⟨rfl, rfl⟩
  · obtain rfl : j = 0 := by omega
    simp

theorem same_n : ∀ {l m : List IoDim}, List.Forall₂ Same l m → l.map (·.n) = m.map (·.n)
  | _, _, .nil => rfl
  | _, _, .cons h t => by rw [List.map_cons, List.map_cons, h.n, same_n t]

theorem sums_same [Zero α] [Add α] [Mul α] (W : Nat → Nat → α) (inp : List α) : ∀ {l m : List IoDim},
    List.Forall₂ Same l m → ∀ (ks : List Nat) (a : Nat), sums W inp l ks a = sums W inp m ks a
  | _, _, .nil, _, _ => rfl
  | _, _, .cons h t, [], a => rfl
  | _, _, .cons (a := d) (b := e) h t, k :: ks, a => by
    rw [sums, sums, ← h.n]
    refine sumO_congr fun j hj => ?_
    rw [(h.mul hj).1, sums_same W inp t]

theorem off_same : ∀ {l m : List IoDim}, List.Forall₂ Same l m → ∀ {h : List Nat}, h ∈ allIdx (l.map (·.n)) →
    outOff l h = outOff m h ∧ inOff l h = inOff m h
  | _, _, .nil, _, _ => ⟨rfl, rfl⟩
  | _, _, .cons (l₁ := l) h t, idx, hi => by
    rw [List.map_cons, allIdx, List.mem_flatMap] at hi
    obtain ⟨i, hi, hm⟩ := hi
    obtain ⟨is, his, rfl⟩ := List.mem_map.1 hm
    obtain ⟨h1, h2⟩ := off_same t his
    obtain ⟨h3, h4⟩ := h.mul (List.mem_range.1 hi)
    simp only [outOff, inOff]
    rw [h1, h2, h3, h4]
    exact ⟨rfl, rfl⟩

theorem writes_same [Zero α] [Add α] [Mul α] (W : Nat → Nat → α) (inp : List α) {f f' l l' : List IoDim}
    (hf : List.Forall₂ Same f f') (hl : List.Forall₂ Same l l') : writes W inp f l = writes W inp f' l' := by
  unfold writes
  rw [← same_n hf, ← same_n hl]
  refine List.flatMap_congr fun h hh => ?_
  refine List.map_congr_left fun k hk => ?_
  rw [(off_same hl hh).1, (off_same hl hh).2, (off_same hf hk).1, sums_same W inp hf]

theorem guru_same [Zero α] [Add α] [Mul α] (W : Int → Nat → Nat → α) (inPlace : Bool) (inp : List α)
    {f f' l l' : List IoDim} (hf : List.Forall₂ Same f f') (hl : List.Forall₂ Same l l') (direction : Int) :
    Fftw.guru W inPlace inp f l direction = Fftw.guru W inPlace inp f' l' direction := by
  have e : (∀ d ∈ f, d.n ≠ 0) ↔ ∀ d ∈ f', d.n ≠ 0 := by
    have h1 : ∀ g : List IoDim, (∀ d ∈ g, d.n ≠ 0) ↔ ∀ n ∈ g.map (·.n), n ≠ 0 := fun g => by simp
    rw [h1, h1, same_n hf]
  unfold Fftw.guru
  rw [writes_same _ inp hf hl]
  simp only [e]

theorem place_ok {w : Nat} (hw : 1 ≤ w) {n s : Nat} (h1 : n < 2 ^ (w - 1)) (h2 : 2 ≤ n → s < 2 ^ (w - 1)) :
    ∃ d, place ⟨conv w n, conv w s, conv w s⟩ = .ok d ∧ Same d ⟨n, s, s⟩ := by
  unfold place
  rw [conv_nat hw h1]
  simp only []
  rw [if_neg (by omega)]
  by_cases hn : 2 ≤ n
  · rw [if_neg (by omega), conv_nat hw (h2 hn), if_neg (by omega)]
    exact ⟨_, rfl, by simp, by simp, by simp⟩
  · rw [if_pos (by omega)]
    refine ⟨_, rfl, by simp, ?_, ?_⟩ <;> (intro h; simp at h; omega)

theorem places_append {l m : List IntDim} {a b : List IoDim} (h1 : places l = .ok a) (h2 : places m = .ok b) :
    places (l ++ m) = .ok (a ++ b) := by
  induction l generalizing a with
  | nil =>
    obtain rfl := Res.ok.inj h1
    exact h2
  | cons d ds ih =>
    rw [places] at h1
    cases hd : place d with
    | abort => rw [hd] at h1; exact absurd h1 (by simp)
    | ub => rw [hd] at h1; exact absurd h1 (by simp)
    | ok x =>
      rw [hd, Res.ok_bind] at h1
      cases hr : places ds with
      | abort => rw [hr] at h1; exact absurd h1 (by simp)
      | ub => rw [hr] at h1; exact absurd h1 (by simp)
      | ok r =>
        rw [hr, Res.ok_bind] at h1
        obtain rfl := Res.ok.inj h1
        rw [List.cons_append, places, hd, Res.ok_bind, ih hr, Res.ok_bind]
        rfl

theorem strides_ok {w : Nat} (hw : 1 ≤ w) : ∀ {ds : List Nat} {s : Nat}, Ok w s ds →
    ∃ l, places (strides w ds s).1 = .ok l ∧ List.Forall₂ Same l (Fftw.strides ds s).1 ∧
      (strides w ds s).2 = ((Fftw.strides ds s).2 : Int) ∧ (Fftw.strides ds s).2 = s * prod ds
  | [], s, _ => ⟨[], rfl, .nil, rfl, by simp [Fftw.strides, prod]⟩
  | n :: ns, s, ⟨h1, h2, h3⟩ => by
    obtain ⟨d, e1, e2⟩ := place_ok hw h1 h2
    obtain ⟨l, e3, e4, e5, e6⟩ := strides_ok hw h3
    have ec : (s : Int) * conv w n = ((s * n : Nat) : Int) := by rw [conv_nat hw h1]; push_cast; rfl
    refine ⟨d :: l, ?_, ?_, ?_, ?_⟩
    · rw [strides, ec, places, e1, Res.ok_bind, e3, Res.ok_bind]
    · exact .cons e2 e4
    · rw [strides, ec, e5]
      rfl
    · rw [Fftw.strides, e6]
      simp [prod, Nat.mul_assoc]

theorem split_ok {w : Nat} (hw : 1 ≤ w) : ∀ {cs : List Bool} {ds : List Nat} {s : Nat}, Ok w s ds →
    ∃ f l, places (split w cs ds s).1 = .ok f ∧ places (split w cs ds s).2 = .ok l ∧
      List.Forall₂ Same f (Fftw.split cs ds s).1 ∧ List.Forall₂ Same l (Fftw.split cs ds s).2
  | [], _, _, _ => ⟨[], [], by rw [split.eq_def, Fftw.split.eq_def]; exact ⟨rfl, rfl, .nil, .nil⟩⟩
  | _ :: _, [], _, _ => ⟨[], [], by rw [split.eq_def, Fftw.split.eq_def]; exact ⟨rfl, rfl, .nil, .nil⟩⟩
  | c :: cs, n :: ns, s, ⟨h1, h2, h3⟩ => by
    obtain ⟨d, e1, e2⟩ := place_ok hw h1 h2
    obtain ⟨f, l, e3, e4, e5, e6⟩ := split_ok hw (cs := cs) h3
    rw [split, Fftw.split]
    cases c
    · simp only [if_true]
      exact ⟨f, d :: l, e3, by rw [places, e1, Res.ok_bind, e4, Res.ok_bind], e5, .cons e2 e6⟩
    · simp only [Bool.true_eq_false, if_false]
      exact ⟨d :: f, l, by rw [places, e1, Res.ok_bind, e3, Res.ok_bind], e4, .cons e2 e5, e6⟩

section
variable [Zero α] [Add α] [Mul α] (W : Int → Nat → Nat → α)

/-- C117: the transform of some indices is that of unbounded integers, if the lengths and the strides fit. -/
theorem c117_some_partial {w : Nat} (hw : 1 ≤ w) (inPlace : Bool) {t : Tensor α} (h : Fits w t.dims) (convert : List Bool)
    (direction : Int) : fftwSome w W inPlace t convert direction = Fftw.fftwSome W inPlace t convert direction := by
  obtain ⟨f, l, e1, e2, e3, e4⟩ := split_ok hw (cs := convert) h.ok
  unfold fftwSome Fftw.fftwSome doSome Fftw.doSome guru
  rw [e1, Res.ok_bind, e2, Res.ok_bind, guru_same W inPlace t.data e3 e4]

/-- C117: the same for one index. -/
theorem c117_dim_partial {w : Nat} (hw : 1 ≤ w) (inPlace : Bool) {t : Tensor α} (h : Fits w t.dims) (dim direction : Int) :
    fftwDim w W inPlace t dim direction = Fftw.fftwDim W inPlace t dim direction := by
  unfold fftwDim Fftw.fftwDim
  by_cases hd : 0 ≤ dim ∧ dim < t.dims.length
  swap
  · rw [Res.assert_neg hd, Res.abort_bind, Res.abort_bind]
  rw [Res.assert_pos hd, Res.ok_bind, Res.ok_bind]
  obtain ⟨k, rfl⟩ := Int.eq_ofNat_of_zero_le hd.1
  have hk : k < t.dims.length := by omega
  rw [Int.toNat_natCast]
  have e : t.dims = t.dims.take k ++ t.dims[k] :: t.dims.drop (k + 1) := by
    rw [← List.drop_eq_getElem_cons hk, List.take_append_drop]
  have hok := h.ok
  rw [e] at hok
  obtain ⟨h1, h2, h3, h4⟩ := hok.append
  obtain ⟨l, e1, e2, e3, e4⟩ := strides_ok hw h1
  obtain ⟨d, d1, d2⟩ := place_ok hw h2 h3
  obtain ⟨m, m1, m2, m3, m4⟩ := strides_ok hw h4
  have hdo : doDim w W inPlace t.data k t.dims direction = Fftw.doDim W inPlace t.data k t.dims direction := by
    unfold doDim Fftw.doDim
    rw [List.getElem?_eq_getElem hk]
    simp only [Res.ofOption, Res.ok_bind]
    have ec : ((1 : Nat) : Int) = 1 := rfl
    rw [ec] at e1 e3
    rw [e3, e4, conv_nat hw h2]
    rw [conv_nat hw h2] at d1
    have em : ((1 * prod (t.dims.take k) : Nat) : Int) * (t.dims[k] : Int) = ((1 * prod (t.dims.take k) * t.dims[k] : Nat) : Int) := by
      push_cast; rfl
    rw [em]
    unfold guru
    rw [places, d1, Res.ok_bind, places, Res.ok_bind, Res.ok_bind, places_append e1 m1, Res.ok_bind]
    exact guru_same W inPlace t.data (.cons d2 .nil) (List.rel_append e2 m2) direction
  rw [hdo]

theorem plan_nat {w : Nat} (hw : 1 ≤ w) (inPlace : Bool) (inp : List α) {dims : List Nat} (h : ∀ n ∈ dims, n < 2 ^ (w - 1))
    (direction : Int) :
    plan W inPlace inp (dims.map fun (n : Nat) => conv w n) direction = Fftw.plan W inPlace inp dims direction := by
  have e : dims.map (fun (n : Nat) => conv w n) = dims.map fun (n : Nat) => (n : Int) :=
    List.map_congr_left fun n hn => conv_nat hw (h n hn)
  unfold plan
  rw [e, if_neg (by rintro ⟨n, hn, h0⟩; obtain ⟨m, -, rfl⟩ := List.mem_map.1 hn; omega), List.map_map]
  congr 1
  exact (List.map_congr_left (fun n _ => by simp)).trans (List.map_id _)

/-- C117: the transform of all the indices, for which FFTW computes the strides itself: only the lengths must fit. -/
theorem c117_all_partial {w : Nat} (hw : 1 ≤ w) (inPlace : Bool) {t : Tensor α} (h : ∀ n ∈ t.dims, n < 2 ^ (w - 1))
    (direction : Int) : fftwAll w W inPlace t direction = Fftw.fftwAll W inPlace t direction := by
  have e : doAll w W inPlace t.data t.dims direction = Fftw.doAll W inPlace t.data t.dims direction := by
    unfold doAll Fftw.doAll
    split
    · exact plan_nat W hw inPlace t.data h direction
    · rw [dimensions_eq, Res.ok_bind, Res.ok_bind]
      exact plan_nat W hw inPlace t.data (by simpa using h) direction
  unfold fftwAll Fftw.fftwAll
  rw [e]

omit [Zero α] [Add α] [Mul α] in
theorem fits_of_prod {w : Nat} {dims : List Nat} (h0 : ∀ n ∈ dims, n ≠ 0) (h : prod dims < 2 ^ (w - 1)) : Fits w dims := by
  intro i n hi
  obtain ⟨hlt, he⟩ := List.getElem?_eq_some_iff.1 hi
  have e : dims = dims.take i ++ dims[i] :: dims.drop (i + 1) := by
    rw [← List.drop_eq_getElem_cons hlt, List.take_append_drop]
  have hpos : ∀ l : List Nat, (∀ n ∈ l, n ≠ 0) → 0 < prod l := by
    intro l
    induction l with
    | nil => intro _; simp
    | cons a l ih =>
      intro h
      rw [prod_cons]
      exact Nat.mul_pos (Nat.pos_of_ne_zero (h a (by simp))) (ih fun n hn => h n (by simp [hn]))
  have p1 := hpos (dims.take i) fun n hn => h0 n (List.mem_of_mem_take hn)
  have p2 := hpos (dims.drop (i + 1)) fun n hn => h0 n (List.mem_of_mem_drop hn)
  rw [e, prod_append, prod_cons, he] at h
  generalize prod (dims.take i) = a at p1 h ⊢
  generalize prod (dims.drop (i + 1)) = b at p2 h
  have h1 : n * a ≤ a * (n * b) := by
    calc n * a = a * n := Nat.mul_comm _ _
      _ ≤ a * (n * b) := Nat.mul_le_mul_left _ (Nat.le_mul_of_pos_right _ p2)
  constructor
  · have : n ≤ n * a := Nat.le_mul_of_pos_right _ p1
    omega
  · intro hn
    have : a ≤ n * a := Nat.le_mul_of_pos_left _ (by omega)
    omega

/-- C117: the transforms of a tensor with less than 2^31 elements are right: the conversions to int do not change the
lengths, nor any stride. -/
theorem c117_memory (inPlace : Bool) {t : Tensor α} (ht : t.WF) (h0 : ∀ n ∈ t.dims, n ≠ 0) (hs : t.data.length < 2 ^ 31)
    (convert : List Bool) (dim direction : Int) :
    fftwAll 32 W inPlace t direction = Fftw.fftwAll W inPlace t direction ∧
    fftwDim 32 W inPlace t dim direction = Fftw.fftwDim W inPlace t dim direction ∧
    fftwSome 32 W inPlace t convert direction = Fftw.fftwSome W inPlace t convert direction := by
  have hf : Fits 32 t.dims := by
    by_cases hd : t.dims = []
    · rw [hd]
      intro i n hi
      simp at hi
    · refine fits_of_prod h0 ?_
      rw [← totalSize_of_ne hd, ← ht]
      simpa using hs
  refine ⟨c117_all_partial W (by decide) inPlace (fun n hn => ?_) direction, c117_dim_partial W (by decide) inPlace hf dim direction,
    c117_some_partial W (by decide) inPlace hf convert direction⟩
  obtain ⟨i, hi⟩ := List.mem_iff_getElem?.1 hn
  exact (hf i n hi).1

/-- C117 is false of long vectors: if n is 2^31 or more, and less than 2^32, FFTW gets a negative length and makes no
plan. -/
theorem c117_negation_null {w n : Nat} (hw : 1 ≤ w) (h1 : 2 ^ (w - 1) ≤ n) (h2 : n < 2 ^ w) (inPlace : Bool) (data : List α)
    (direction : Int) : fftwAll w W inPlace ⟨[n], data⟩ direction = .ub ∧
      fftwDim w W inPlace ⟨[n], data⟩ 0 direction = .ub ∧ fftwSome w W inPlace ⟨[n], data⟩ [true] direction = .ub := by
  have hneg : conv w (n : Int) < 0 := by
    have hp : 2 ^ w = 2 * 2 ^ (w - 1) := by rw [← pow_succ']; congr 1; omega
    unfold conv
    rw [Int.bmod_def, Int.emod_eq_of_lt (by omega) (by exact_mod_cast h2), if_neg (by omega)]
    omega
  have hpl : ∀ s, place ⟨conv w n, s, s⟩ = .ub := fun s => by rw [place, if_pos hneg]
  refine ⟨?_, ?_, ?_⟩
  · rw [fftwAll, doAll, if_pos (by rfl), plan, if_pos ⟨conv w n, by simp, hneg⟩]
    rfl
  · rw [fftwDim, Res.assert_pos (by simp), Res.ok_bind, doDim]
    simp only [Res.ofOption, Int.toNat_zero, List.getElem?_cons_zero, Res.ok_bind, guru, places, hpl, Res.ub_bind]
  · rw [fftwSome, Res.assert_pos (by simp), Res.ok_bind, doSome, guru]
    simp only [split, Bool.true_eq_false, if_false, places, hpl, Res.ub_bind]

/-- C117 is false of longer vectors: the transform of 2^w + m elements is that of the first m elements, in the same memory. -/
theorem c117_negation_vector {w m : Nat} (hw : 1 ≤ w) (hm : m < 2 ^ (w - 1)) (inPlace : Bool) (data : List α)
    (direction : Int) : doAll w W inPlace data [2 ^ w + m] direction = Fftw.doAll W inPlace data [m] direction := by
  have e : conv w ((2 ^ w + m : Nat) : Int) = (m : Int) := by
    rw [← conv_nat hw hm]
    unfold conv
    rw [Nat.cast_add, Int.add_bmod_left]
  unfold doAll Fftw.doAll
  rw [if_pos (by rfl), if_pos (by rfl)]
  have e1 : [2 ^ w + m].map (fun (n : Nat) => conv w n) = [m].map fun (n : Nat) => conv w n := by
    simp only [List.map_cons, List.map_nil]
    rw [e, conv_nat hw hm]
  rw [e1]
  exact plan_nat W hw inPlace data (by simpa using hm) direction

omit [Zero α] [Add α] [Mul α] in
theorem writeAll_keep {p : Nat} : ∀ {ws : List (Nat × Option α)} {b b' : List (Option α)}, writeAll b ws = .ok b' →
    (∀ x ∈ ws, x.1 ≠ p) → b'[p]? = b[p]?
  | [], b, b', h, _ => by rw [Res.ok.inj h]
  | (q, none) :: ws, b, b', h, _ => by exact absurd h (by simp [writeAll])
  | (q, some v) :: ws, b, b', h, hp => by
    rw [writeAll] at h
    split at h
    · rw [writeAll_keep h fun x hx => hp x (by simp [hx]), List.getElem?_set_ne (hp (q, some v) (by simp))]
    · exact absurd h (by simp)

omit [Zero α] [Add α] [Mul α] in
theorem mapM_id_some : ∀ {b : List (Option α)} {r : List α}, b.mapM id = some r → b = r.map some
  | [], r, h => by
    simp at h
    rw [h]
    rfl
  | none :: b, r, h => by simp at h
  | some a :: b, r, h => by
    rw [List.mapM_cons] at h
    cases hb : b.mapM id with
    | none => rw [hb] at h; simp at h
    | some x =>
      rw [hb] at h
      simp at h
      rw [← h, mapM_id_some hb]
      rfl

omit [Zero α] [Add α] [Mul α] in
/-- The elements which are not written keep their value. -/
theorem updWrites_keep {l l' : List α} {ws : List (Nat × Option α)} (h : updWrites l ws = .ok l') {p : Nat}
    (hp : ∀ x ∈ ws, x.1 ≠ p) : l'[p]? = l[p]? := by
  unfold updWrites at h
  cases hb : writeAll (l.map some) ws with
  | abort => rw [hb] at h; exact absurd h (by simp)
  | ub => rw [hb] at h; exact absurd h (by simp)
  | ok b =>
    rw [hb, Res.ok_bind, finish] at h
    cases hm : b.mapM id with
    | none => rw [hm] at h; exact absurd h (by simp [Res.ofOption])
    | some x =>
      rw [hm] at h
      obtain rfl := Res.ok.inj h
      have := writeAll_keep hb hp
      rw [mapM_id_some hm, List.getElem?_map, List.getElem?_map] at this
      cases h1 : x[p]? <;> cases h2 : l[p]? <;> rw [h1, h2] at this <;> simp_all

/-- A plan changes only the elements whose position it computes. -/
theorem guru_keep {inp out : List α} {fft loop : List IoDim} {direction : Int}
    (h : Fftw.guru W true inp fft loop direction = .ok out) {p : Nat}
    (hp : ∀ i ∈ allIdx (loop.map (·.n)), ∀ k ∈ allIdx (fft.map (·.n)), outOff loop i + outOff fft k ≠ p) :
    out[p]? = inp[p]? := by
  unfold Fftw.guru at h
  split at h
  · refine updWrites_keep h fun x hx => ?_
    unfold writes at hx
    obtain ⟨i, hi, hx⟩ := List.mem_flatMap.1 hx
    obtain ⟨k, hk, rfl⟩ := List.mem_map.1 hx
    exact hp i hi k hk
  · exact absurd h (by simp)

/-- The elements after the first m of a vector of 2^w + m elements are not changed by fftw_inplace. -/
theorem c117_negation_rest {w m : Nat} (hw : 1 ≤ w) (hm : m < 2 ^ (w - 1)) {data : List α} {direction : Int} {r : Tensor α}
    (h : fftwAll w W true ⟨[2 ^ w + m], data⟩ direction = .ok r) {p : Nat} (hp : m ≤ p) : r.data[p]? = data[p]? := by
  unfold fftwAll at h
  rw [c117_negation_vector W hw hm, Fftw.doAll, if_pos (by rfl), Fftw.plan] at h
  cases hg : Fftw.guru W true data (rowMajor [m]) [] direction with
  | abort => rw [hg] at h; exact absurd h (by simp)
  | ub => rw [hg] at h; exact absurd h (by simp)
  | ok out =>
    rw [hg] at h
    obtain rfl := Res.ok.inj h
    refine guru_keep W hg fun i hi k hk => ?_
    have hk := mem_allIdx.1 hk
    match k, hk with
    | [a], hk =>
      have ha : a < m := by simpa [rowMajor, InB] using hk
      simp [outOff, rowMajor]
      omega

/-- C117 is false of tensors with more elements than an int can count: the stride of the last index of a tensor of dimensions
a, b, n with a * b = 2^w is cut to zero. fftw_inplace for this index does not change the elements after the first 2^w. -/
theorem c117_negation_stride {w a b n : Nat} (hw : 1 ≤ w) (ha : a < 2 ^ (w - 1)) (hb : b < 2 ^ (w - 1)) (hab : a * b = 2 ^ w)
    (hn : 2 ≤ n) (hn' : n < 2 ^ (w - 1)) {data : List α} {direction : Int} {r : Tensor α}
    (h : fftwDim w W true ⟨[a, b, n], data⟩ 2 direction = .ok r ∨
      fftwSome w W true ⟨[a, b, n], data⟩ [false, false, true] direction = .ok r)
    {p : Nat} (hp : 2 ^ w ≤ p) : r.data[p]? = data[p]? := by
  obtain ⟨d, d1, d2⟩ := place_ok hw ha (s := 1) (fun h => by omega)
  obtain ⟨e, e1, e2⟩ := place_ok hw hb (s := a) (fun _ => ha)
  have hz : conv w ((2 ^ w : Nat) : Int) = 0 := by
    unfold conv
    exact Int.bmod_self
  have f1 : place ⟨conv w n, 0, 0⟩ = .ok ⟨n, 0, 0⟩ := by
    rw [conv_nat hw hn', place, if_neg (by simp only; omega), if_neg (by simp only; omega), if_neg (by simp)]
    simp
  have hsame : List.Forall₂ Same [d, e] [⟨a, 1, 1⟩, ⟨b, a, a⟩] := .cons d2 (.cons e2 .nil)
  have key : ∀ out, Fftw.guru W true data [⟨n, 0, 0⟩] [d, e] direction = .ok out → out[p]? = data[p]? := by
    intro out ho
    rw [guru_same W true data (.cons ⟨rfl, fun _ => rfl, fun _ => rfl⟩ .nil) hsame direction] at ho
    refine guru_keep W ho fun i hi k hk => ?_
    have hi := mem_allIdx.1 hi
    have hk := mem_allIdx.1 hk
    match i, hi, k, hk with
    | [x, y], hi, [z], _ =>
      obtain ⟨hx, hy⟩ : x < a ∧ y < b := by simpa [InB] using hi
      simp only [outOff]
      have : x + y * a < a * b := by
        calc x + y * a < a + y * a := by omega
          _ = (y + 1) * a := by ring
          _ ≤ b * a := Nat.mul_le_mul_right _ hy
          _ = a * b := Nat.mul_comm _ _
      omega
  have hdo : ∀ out, guru W true data [⟨conv w n, conv w ((2 ^ w : Nat) : Int), conv w ((2 ^ w : Nat) : Int)⟩]
      [⟨conv w a, conv w ((1 : Nat) : Int), conv w ((1 : Nat) : Int)⟩, ⟨conv w b, conv w a, conv w a⟩] direction = .ok out →
      out[p]? = data[p]? := by
    intro out ho
    rw [guru, hz] at ho
    simp only [places, f1, d1, e1, Res.ok_bind] at ho
    exact key out ho
  rcases h with h | h
  · rw [fftwDim, Res.assert_pos (by simp), Res.ok_bind] at h
    have hd : doDim w W true data 2 [a, b, n] direction = guru W true data
        [⟨conv w n, conv w ((2 ^ w : Nat) : Int), conv w ((2 ^ w : Nat) : Int)⟩]
        [⟨conv w a, conv w ((1 : Nat) : Int), conv w ((1 : Nat) : Int)⟩, ⟨conv w b, conv w a, conv w a⟩] direction := by
      have e0 : (1 : Int) * conv w a = a := by rw [conv_nat hw ha, one_mul]
      have e1 : (a : Int) * conv w b = ((2 ^ w : Nat) : Int) := by rw [conv_nat hw hb, ← hab]; push_cast; rfl
      unfold doDim
      simp only [strides, List.take, List.drop, Res.ofOption, List.getElem?_cons_succ, List.getElem?_cons_zero, Res.ok_bind,
        List.append_nil, e0, e1]
      rfl
    rw [show ((2 : Int)).toNat = 2 from rfl, hd] at h
    cases hg : guru W true data [⟨conv w n, conv w ((2 ^ w : Nat) : Int), conv w ((2 ^ w : Nat) : Int)⟩]
      [⟨conv w a, conv w ((1 : Nat) : Int), conv w ((1 : Nat) : Int)⟩, ⟨conv w b, conv w a, conv w a⟩] direction with
    | abort => rw [hg] at h; exact absurd h (by simp)
    | ub => rw [hg] at h; exact absurd h (by simp)
    | ok out =>
      rw [hg] at h
      obtain rfl := Res.ok.inj h
      exact hdo out hg
  · rw [fftwSome, Res.assert_pos (by simp), Res.ok_bind] at h
    have hd : doSome w W true data [false, false, true] [a, b, n] direction = guru W true data
        [⟨conv w n, conv w ((2 ^ w : Nat) : Int), conv w ((2 ^ w : Nat) : Int)⟩]
        [⟨conv w a, conv w ((1 : Nat) : Int), conv w ((1 : Nat) : Int)⟩, ⟨conv w b, conv w a, conv w a⟩] direction := by
      unfold doSome
      simp only [split, if_true, Bool.true_eq_false, if_false, Nat.one_mul, hab]
    rw [hd] at h
    cases hg : guru W true data [⟨conv w n, conv w ((2 ^ w : Nat) : Int), conv w ((2 ^ w : Nat) : Int)⟩]
      [⟨conv w a, conv w ((1 : Nat) : Int), conv w ((1 : Nat) : Int)⟩, ⟨conv w b, conv w a, conv w a⟩] direction with
    | abort => rw [hg] at h; exact absurd h (by simp)
    | ub => rw [hg] at h; exact absurd h (by simp)
    | ok out =>
      rw [hg] at h
      obtain rfl := Res.ok.inj h
      exact hdo out hg

end

/-- The hypotheses can be met. -/
example : Fits 32 [2 ^ 16, 2 ^ 15, 1, 1] ∧ ¬ Fits 32 [2 ^ 16, 2 ^ 16, 2] ∧ 2 ^ 16 * 2 ^ 16 = 2 ^ 32 := by
  refine ⟨?_, fun h => ?_, by norm_num⟩
  · intro i n hi
    match i, hi with
    | 0, hi => obtain rfl := Option.some.inj hi; norm_num [prod]
    | 1, hi => obtain rfl := Option.some.inj hi; norm_num [prod]
    | 2, hi => obtain rfl := Option.some.inj hi; norm_num
    | 3, hi => obtain rfl := Option.some.inj hi; norm_num
    | i + 4, hi => simp at hi
  · have := (h 2 2 rfl).2 le_rfl
    norm_num [prod] at this

/-- Those of `c117_memory`. -/
example : ∃ t : Tensor Int, t.WF ∧ (∀ n ∈ t.dims, n ≠ 0) ∧ t.data.length < 2 ^ 31 :=
  ⟨⟨[2, 3], [1, 2, 3, 4, 5, 6]⟩, rfl, by decide, by decide⟩

/-- Those of `c117_negation_rest` and `c117_negation_stride`, with integers of three bits. -/
example : (∃ r, fftwAll 3 (fun _ _ _ => (1 : Int)) true ⟨[2 ^ 3 + 2], [1, 2, 3, 4, 5, 6, 7, 8, 9, 10]⟩ 1 = .ok r) ∧
    ∃ r, fftwDim 4 (fun _ _ _ => (1 : Int)) true ⟨[4, 4, 2], List.replicate 32 1⟩ 2 1 = .ok r :=
  ⟨⟨_, rfl⟩, ⟨_, rfl⟩⟩

end Verif.FftwMachine
