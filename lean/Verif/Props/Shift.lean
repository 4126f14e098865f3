import Verif.Model.Shift
import Verif.Props.View
import Verif.Lemmas.Fold2
import Verif.Props.Dims
/-
C53: fftshift.
-/
namespace Verif.Shift

open Verif View Spec

variable {α β : Type}

/-- Copying the planes `x, ..., x+len-1` of `s` to the planes `y, ..., y+len-1` of `t`. -/
theorem assign_planes {a n b : Nat} (ha : 0 < a) (hn : 0 < n) (hb : 0 < b) {t s : Tensor β}
    (ht : t.dims = [a, n, b]) (wt : t.WF) (hs : s.dims = [a, n, b]) (ws : s.WF) {x y len : Nat}
    (hl : 0 < len) (hx : x + len ≤ n) (hy : y + len ≤ n) :
    ∃ t', Finishes (fun fuel => assignView fuel t
        [.all, .step y ((y + len : Nat) - 1 : Int) 1, .all] s
        [.all, .step x ((x + len : Nat) - 1 : Int) 1, .all]) (.ok t') ∧
      t'.dims = [a, n, b] ∧ t'.WF ∧ ∀ p i q, p < a → i < n → q < b →
        t'.data[p + a * (i + n * q)]? = if y ≤ i ∧ i < y + len
          then s.data[p + a * (i - y + x + n * q)]? else t.data[p + a * (i + n * q)]? := by
  have hsel : ∀ z : Nat, sel (.step z ((z + len : Nat) - 1 : Int) 1) n
      = (List.range len).map fun k : Nat => (z : Int) + k * 1 := by
    intro z
    rw [sel, if_pos (by omega)]
    congr 2
    rw [Int.ediv_one]
    omega
  have hlim : ∀ (u : Tensor β) (z : Nat), u.dims = [a, n, b] →
      limits u.dims u.data.length [.all, .step z ((z + len : Nat) - 1 : Int) 1, .all] = [a, n, b] := by
    intro u z hu
    simp [limits, hu]
  have hsa : ∀ z : Nat, selAll [.all, .step z ((z + len : Nat) - 1 : Int) 1, .all] [a, n, b]
      = [(List.range a).map Int.ofNat, (List.range len).map fun k : Nat => (z : Int) + k * 1,
        (List.range b).map Int.ofNat] := by
    intro z
    simp only [selAll, hsel]
    rfl
  have hval : ∀ z : Nat, z + len ≤ n →
      ValidAll [.all, .step z ((z + len : Nat) - 1 : Int) 1, .all] [a, n, b] := by
    intro z hz
    simp only [ValidAll, Spec.Valid, true_and, and_true]
    omega
  have hnz : ∀ d ∈ [a, n, b], d ≠ 0 := by
    simp
    omega
  obtain ⟨v, h1, h2, -⟩ := c12_assign_slice t s wt ws
    [.all, .step y ((y + len : Nat) - 1 : Int) 1, .all]
    [.all, .step x ((x + len : Nat) - 1 : Int) 1, .all] (by simp) (by simp)
    (by rw [hlim t y ht]; exact hnz) (by rw [hlim s x hs]; exact hnz)
    (by rw [hlim t y ht]; exact hval y hy) (by rw [hlim s x hs]; exact hval x hx)
    (by
      rw [hlim t y ht, hsa]
      intro l hl
      simp only [List.mem_cons, List.not_mem_nil, or_false] at hl
      rcases hl with rfl | rfl | rfl
      · exact List.Nodup.map (fun a b h => by simpa using h) List.nodup_range
      · exact List.Nodup.map (fun a b h => by simpa using h) List.nodup_range
      · exact List.Nodup.map (fun a b h => by simpa using h) List.nodup_range)
  obtain ⟨w, w1, w2, w3, w4, w5⟩ := c11_slice s ws
    [.all, .step x ((x + len : Nat) - 1 : Int) 1, .all] (by simp)
    (by rw [hlim s x hs]; exact hnz) (by rw [hlim s x hs]; exact hval x hx)
  rw [hlim s x hs, hsa] at w3 w4 w5
  rw [hlim t y ht, hsa] at h2
  have hvw := Res.ok.inj (h1.unique w1)
  have hvd : v.data = w.data := (Prod.mk.inj hvw).2
  have hwd : w.dims = [a, len, b] := by rw [w3]; simp
  have hwl : w.data.length = a * (len * b) := by
    have : w.data.length = Tensor.totalSize w.dims := w2
    rw [this, hwd]
    simp [Tensor.totalSize, Nat.mul_assoc]
  obtain ⟨t', f1, f2, f3, f4, f5⟩ := h2 (by rw [hvd, hwl]; simp [prod])
  refine ⟨t', f1, f3.trans ht, f2, fun p i q hp hi hq => ?_⟩
  have hel : ∀ (l : List β) (m j : Nat), j < m → elem [a, m, b] l [p, j, q] = l[p + a * (j + m * q)]? := by
    intro l m j hj
    simp [elem, InB, hp, hj, hq, colPos]
  split
  · rename_i hin
    have hj : i - y < len := by omega
    have e1 := (f4 [p, i - y, q] [p, i, q] (by
      simp [Picks, hp, hq, hj]
      omega)).1
    rw [hel _ _ _ hi] at e1
    rw [e1]
    have e2 := (w5 [p, i - y, q] [p, i - y + x, q] (by
      simp [Picks, hp, hq, hj]
      omega)).2.2
    rw [hwd, hel _ _ _ hj, hel _ _ _ (by omega)] at e2
    rw [hvd, ← e2]
    simp [colPos]
  · rename_i hin
    have := f5 [p, i, q] (by simp [InB, hp, hi, hq]) (by
      rintro ⟨j, hj⟩
      match j, hj with
      | [j1, j2, j3], hj =>
        simp only [Picks, and_true] at hj
        obtain ⟨-, h2, -⟩ := hj
        rw [List.getElem?_map, Option.map_eq_some_iff] at h2
        obtain ⟨k, hk, e⟩ := h2
        obtain ⟨hlt, e2⟩ := List.getElem?_eq_some_iff.1 hk
        rw [List.length_range] at hlt
        rw [List.getElem_range] at e2
        omega)
    rw [hel _ _ _ hi, hel _ _ _ hi] at this
    exact this

/-- The place to which fftshift moves what is at `i`, along an index of dimension `n`: FFTW_FORWARD
moves by half of it, FFTW_BACKWARD by the rest. -/
def target (n : Nat) (fwd : Bool) (i : Nat) : Nat :=
  (i + if fwd then n / 2 else (n + 1) / 2) % n

theorem halves_eq (n : Nat) (fwd : Bool) (hn : 0 < n) :
    (halves n fwd).1 = (if fwd then n / 2 else (n + 1) / 2) ∧
    (halves n fwd).2 = n - (halves n fwd).1 := by
  rw [halves]
  cases fwd <;> split <;> simp <;> omega

theorem foldl_mul (l : List Nat) (k : Nat) : l.foldl (· * ·) k = k * prod l := by
  induction l generalizing k with
  | nil => simp
  | cons d l ih => rw [List.foldl_cons, ih]; simp [Nat.mul_assoc]

theorem three_index {a n b : Nat} {k : Nat} (hk : k < a * (n * b)) :
    ∃ p i q, p < a ∧ i < n ∧ q < b ∧ k = p + a * (i + n * q) := by
  obtain ⟨idx, h1, h2⟩ := colPos_surj [a, n, b] k (by simpa [prod] using hk)
  match idx, h1 with
  | [p, i, q], h1 =>
    simp only [InB, and_true] at h1
    exact ⟨p, i, q, h1.1, h1.2.1, h1.2.2, by rw [← h2]; simp [colPos]⟩

/-- The elements of the result, if there are any. -/
theorem shiftDim_nonempty {t : Tensor α} (wf : t.WF) (hz : ∀ d ∈ t.dims, d ≠ 0) {P Q : List Nat} {n : Nat}
    (hd : t.dims = P ++ n :: Q) (fwd : Bool) :
    ∃ t' : Tensor α, Finishes (fun fuel => shiftDim fuel t (P.length : Nat) fwd) (.ok t') ∧
      t'.dims = t.dims ∧ t'.WF ∧ ∀ p i q, p < prod P → i < n → q < prod Q →
        t'.data[p + prod P * (target n fwd i + n * q)]? = t.data[p + prod P * (i + n * q)]? := by
  have hn : 0 < n := Nat.pos_of_ne_zero (hz n (by simp [hd]))
  have hpos : ∀ l : List Nat, (∀ d ∈ l, d ≠ 0) → 0 < prod l := by
    intro l hl
    induction l with
    | nil => simp
    | cons d l ih =>
      rw [prod_cons]
      exact Nat.mul_pos (Nat.pos_of_ne_zero (hl d (by simp))) (ih fun d hd => hl d (by simp [hd]))
  have hP : 0 < prod P := hpos P fun d h => hz d (by simp [hd, h])
  have hQ : 0 < prod Q := hpos Q fun d h => hz d (by simp [hd, h])
  have hlen : t.data.length = prod P * (n * prod Q) := by
    have : t.data.length = Tensor.totalSize t.dims := wf
    rw [this, hd, totalSize_of_ne (by simp), prod_append, prod_cons]
  have hget : t.dims[P.length]? = some n := by simp [hd]
  by_cases h1 : n = 1
  · refine ⟨t, ⟨0, fun fuel _ => ?_⟩, rfl, wf, fun p i q hp hi hq => ?_⟩
    · beta_reduce
      rw [shiftDim]
      simp only [Int.toNat_natCast, hget]
      rw [Res.assert_pos (by rw [hd]; simp)]
      simp [h1]
    · have : target n fwd i = i := by
        subst h1
        simp only [target]
        omega
      rw [this]
  · obtain ⟨e1, e2⟩ := halves_eq n fwd hn
    set h := (halves n fwd).1 with hh
    have hh0 : 0 < h ∧ h < n := by rw [e1]; cases fwd <;> simp <;> omega
    have hin : (⟨t.dims, t.data.map some⟩ : Tensor (Option α)).reshape [prod P, n, prod Q]
        = .ok ⟨[prod P, n, prod Q], t.data.map some⟩ := by
      rw [Tensor.reshape, Res.assert_bind, if_pos (by
        simp [Tensor.totalSize, Tensor.size, hlen, Nat.mul_assoc])]
      rfl
    obtain ⟨t1, ⟨N1, f1⟩, d1, wf1, g1⟩ := assign_planes hP hn hQ (t := Tensor.fill [prod P, n, prod Q] none)
      (s := (⟨[prod P, n, prod Q], t.data.map some⟩ : Tensor (Option α))) rfl
      (by simp [Tensor.WF, Tensor.fill]) rfl
      (by simp [Tensor.WF, Tensor.totalSize, hlen, Nat.mul_assoc]) (x := n - h) (y := 0) (len := h)
      (by omega) (by omega) (by omega)
    obtain ⟨t2, ⟨N2, f2⟩, d2, wf2, g2⟩ := assign_planes hP hn hQ (t := t1)
      (s := (⟨[prod P, n, prod Q], t.data.map some⟩ : Tensor (Option α))) d1 wf1 rfl
      (by simp [Tensor.WF, Tensor.totalSize, hlen, Nat.mul_assoc]) (x := 0) (y := h) (len := n - h)
      (by omega) (by omega) (by omega)
    have hval : ∀ p i q, p < prod P → i < n → q < prod Q →
        t2.data[p + prod P * (target n fwd i + n * q)]? = (t.data.map some)[p + prod P * (i + n * q)]? := by
      intro p i q hp hi hq
      have htar : target n fwd i = if i < n - h then i + h else i + h - n := by
        rw [target, ← e1]
        split
        · exact Nat.mod_eq_of_lt (by omega)
        · rw [Nat.mod_eq_sub_mod (by omega), Nat.mod_eq_of_lt (by omega)]
      rw [htar]
      split
      · rw [g2 p _ q hp (by omega) hq, if_pos (by omega)]
        simp only [Nat.add_sub_cancel, Nat.add_zero]
      · rw [g2 p _ q hp (by omega) hq, if_neg (by omega), g1 p _ q hp (by omega) hq,
          if_pos (by omega)]
        simp only
        congr 4
        omega
    have hl2 : t2.data.length = prod P * (n * prod Q) := by
      have : t2.data.length = Tensor.totalSize t2.dims := wf2
      rw [this, d2]
      simp [Tensor.totalSize, Nat.mul_assoc]
    -- all elements have been written
    have hall : ∃ r : List α, t2.data = r.map some := by
      have : ∀ k, k < t2.data.length → ∃ x, t2.data[k]? = some (some x) := by
        intro k hk
        rw [hl2] at hk
        obtain ⟨p, i, q, hp, hi, hq, rfl⟩ := three_index hk
        -- i is the target of something
        obtain ⟨j, hj, ej⟩ : ∃ j, j < n ∧ target n fwd j = i := by
          refine ⟨if h ≤ i then i - h else i + n - h, by split <;> omega, ?_⟩
          rw [target, ← e1]
          split
          · rw [Nat.sub_add_cancel (by omega), Nat.mod_eq_of_lt hi]
          · rw [Nat.sub_add_cancel (by omega), Nat.add_mod_right, Nat.mod_eq_of_lt hi]
        have hb : p + prod P * (j + n * q) < t.data.length := by
          rw [hlen]
          have := colPos_lt (dims := [prod P, n, prod Q]) (idx := [p, j, q]) (by simp [InB, hp, hj, hq])
          simpa [colPos, prod] using this
        refine ⟨t.data[p + prod P * (j + n * q)], ?_⟩
        rw [← ej, hval p j q hp hj hq, List.getElem?_map, List.getElem?_eq_getElem hb]
        rfl
      have gen : ∀ l : List (Option α), (∀ k, k < l.length → ∃ x, l[k]? = some (some x)) →
          ∃ r : List α, l = r.map some := by
        intro l
        induction l with
        | nil => intro _; exact ⟨[], rfl⟩
        | cons x l ih =>
          intro hx
          obtain ⟨y, hy⟩ := hx 0 (by simp)
          obtain ⟨r, hr⟩ := ih fun k hk => by simpa using hx (k + 1) (by simpa using hk)
          exact ⟨y :: r, by rw [hr]; simpa using hy⟩
      exact gen _ this
    obtain ⟨r, hr⟩ := hall
    have hrl : r.length = t.data.length := by rw [hlen, ← hl2, hr]; simp
    refine ⟨⟨t.dims, r⟩, ⟨max N1 N2, fun fuel hf => ?_⟩, rfl, ?_, fun p i q hp hi hq => ?_⟩
    · have hbe : (t.dims.take P.length).foldl (· * ·) 1 = prod P := by
        rw [foldl_mul, hd]; simp
      have haf : (t.dims.drop (P.length + 1)).foldl (· * ·) 1 = prod Q := by
        rw [foldl_mul, hd, show P ++ n :: Q = (P ++ [n]) ++ Q by simp,
          List.drop_left' (by simp), Nat.one_mul]
      have c1 := f1 fuel (by omega)
      have c2 := f2 fuel (by omega)
      beta_reduce
      rw [shiftDim]
      simp only [Int.toNat_natCast, hget]
      rw [Res.assert_pos (by rw [hd]; simp)]
      simp only [Run.ok_bind, Res.ofOption_some, if_neg h1, hbe, haf, ← hh, e2]
      have hdf : (Tensor.fill [prod P, n, prod Q] (none : Option α)).dims = [prod P, n, prod Q] := rfl
      rw [hdf, hin, Run.ok_bind]
      have k1 : ((0 + h : Nat) - 1 : Int) = (h : Int) - 1 := by omega
      have k2 : ((n - h + h : Nat) - 1 : Int) = (n : Int) - 1 := by omega
      have k3 : ((h + (n - h) : Nat) - 1 : Int) = (n : Int) - 1 := by omega
      have k4 : ((0 + (n - h) : Nat) - 1 : Int) = ((n - h : Nat) : Int) - 1 := by omega
      simp only [k1, k2, k3, k4, Nat.cast_zero] at c1 c2
      rw [c1, Run.ok_bind, c2, Run.ok_bind]
      have hre : t2.reshape t.dims = .ok ⟨t.dims, t2.data⟩ := by
        rw [Tensor.reshape, Res.assert_bind, if_pos (by
          rw [Tensor.size, hl2, ← hlen]; exact wf.symm)]
        rfl
      rw [hre, Run.ok_bind, hr, finish_map_some]
      rfl
    · rw [Tensor.WF, hrl]; exact wf
    · have := hval p i q hp hi hq
      rw [hr, List.getElem?_map, List.getElem?_map] at this
      exact Option.map_injective (Option.some_injective α) this

/-- The view of a range of planes of a tensor without elements. -/
theorem mkView_planes {α : Type} (t : Tensor α) {b n a : Nat} (hd : t.dims = [b, n, a]) (s e : Int) (he : e < n) :
    mkView t [.all, .step s e 1, .all] = .ok ([(b : Int), e - s + 1, (a : Int)],
      .product (.full b 1 0 b) (.product (.step n b (s * b) (s * b) (e * b) b)
        (.leaf (.full a (b * n) 0 (a * (b * n)))) none) none) := by
  simp [mkView, hd, Spec.new, setLimits, Leaf.setLimit, Res.assert_bind, he, sizes, Leaf.size,
    build, mkProduct, Range.setFactor, Leaf.setFactor, Leaf.limit, Leaf.factor]

theorem assignView_planes_empty {t s : Tensor α} {b n a : Nat} (h0 : b * n * a = 0)
    (hd : t.dims = [b, n, a]) (hs : s.dims = [b, n, a]) {x y x' y' : Int} (hy : y < n) (hy' : y' < n)
    (hl : y - x = y' - x') :
    Finishes (fun fuel => assignView fuel t [.all, .step x y 1, .all] s [.all, .step x' y' 1, .all])
      (.ok t) := by
  refine ⟨2, fun fuel hf => ?_⟩
  obtain ⟨k, rfl⟩ : ∃ k, fuel = k + 2 := ⟨fuel - 2, by omega⟩
  have hz : (a : Int) * (b * n) = 0 := by
    rw [Int.mul_comm]; exact_mod_cast h0
  beta_reduce
  rw [assignView, mkView_planes t hd x y hy, Run.ok_bind, mkView_planes s hs x' y' hy', Run.ok_bind, hl,
    Res.assert_pos rfl, Run.ok_bind]
  simp only [hz]
  simp [Range.reset, Range.pop, Leaf.pop, Leaf.reset, viewLoop]

theorem prod_eq_zero {l : List Nat} : prod l = 0 ↔ 0 ∈ l := by
  induction l with
  | nil => simp
  | cons d l ih => rw [prod_cons, Nat.mul_eq_zero, ih, List.mem_cons, eq_comm]

/-- A tensor without elements is not changed. -/
theorem shiftDim_empty {t : Tensor α} (wf : t.WF) (hz : 0 ∈ t.dims) {P Q : List Nat} {n : Nat}
    (hd : t.dims = P ++ n :: Q) (fwd : Bool) :
    Finishes (fun fuel => shiftDim fuel t (P.length : Nat) fwd) (.ok t) := by
  have hget : t.dims[P.length]? = some n := by simp [hd]
  have h0 : prod P * n * prod Q = 0 := by
    rw [Nat.mul_assoc, ← prod_cons, ← prod_append, ← hd]
    exact prod_eq_zero.2 hz
  have hlen : t.data.length = 0 := by
    have : t.data.length = Tensor.totalSize t.dims := wf
    rw [this, hd, totalSize_of_ne (by simp), prod_append, prod_cons, ← Nat.mul_assoc, h0]
  have hdata : t.data = [] := List.length_eq_zero_iff.1 hlen
  have htd : Tensor.totalSize t.dims = 0 := by rw [← hlen]; exact wf.symm
  by_cases h1 : n = 1
  · refine ⟨0, fun fuel _ => ?_⟩
    beta_reduce
    rw [shiftDim]
    simp only [Int.toNat_natCast, hget]
    rw [Res.assert_pos (by rw [hd]; simp)]
    simp [h1]
  · have hhm : (halves n fwd).1 + (halves n fwd).2 = n := by
      rw [halves]
      cases fwd <;> split <;> simp <;> omega
    set h := (halves n fwd).1 with hh
    set m := (halves n fwd).2 with hm
    have hin : (⟨t.dims, t.data.map some⟩ : Tensor (Option α)).reshape [prod P, n, prod Q]
        = .ok ⟨[prod P, n, prod Q], []⟩ := by
      rw [Tensor.reshape, Res.assert_bind, if_pos (by
        simp [Tensor.totalSize, Tensor.size, hlen, h0])]
      simp [hdata]
    have hfill : Tensor.fill [prod P, n, prod Q] (none : Option α) = ⟨[prod P, n, prod Q], []⟩ := by
      simp [Tensor.fill, Tensor.totalSize, h0]
    obtain ⟨N1, f1⟩ := assignView_planes_empty (t := (⟨[prod P, n, prod Q], []⟩ : Tensor (Option α)))
      (s := ⟨[prod P, n, prod Q], []⟩) h0 rfl rfl (x := 0) (y := (h : Int) - 1) (x' := m)
      (y' := (n : Int) - 1) (by omega) (by omega) (by omega)
    obtain ⟨N2, f2⟩ := assignView_planes_empty (t := (⟨[prod P, n, prod Q], []⟩ : Tensor (Option α)))
      (s := ⟨[prod P, n, prod Q], []⟩) h0 rfl rfl (x := h) (y := (n : Int) - 1) (x' := 0)
      (y' := (m : Int) - 1) (by omega) (by omega) (by omega)
    refine ⟨max N1 N2, fun fuel hf => ?_⟩
    have hbe : (t.dims.take P.length).foldl (· * ·) 1 = prod P := by
      rw [foldl_mul, hd]; simp
    have haf : (t.dims.drop (P.length + 1)).foldl (· * ·) 1 = prod Q := by
      rw [foldl_mul, hd, show P ++ n :: Q = (P ++ [n]) ++ Q by simp,
        List.drop_left' (by simp), Nat.one_mul]
    have c1 := f1 fuel (by omega)
    have c2 := f2 fuel (by omega)
    beta_reduce at c1 c2 ⊢
    rw [shiftDim]
    simp only [Int.toNat_natCast, hget]
    rw [Res.assert_pos (by rw [hd]; simp)]
    simp only [Run.ok_bind, Res.ofOption_some, if_neg h1, hbe, haf, ← hh, ← hm, hfill]
    rw [hin, Run.ok_bind, c1, Run.ok_bind, c2, Run.ok_bind]
    have hre : (⟨[prod P, n, prod Q], []⟩ : Tensor (Option α)).reshape t.dims = .ok ⟨t.dims, []⟩ := by
      rw [Tensor.reshape, Res.assert_bind, if_pos (by simpa [Tensor.size] using htd)]
      rfl
    rw [hre, Run.ok_bind]
    show _ = Run.done (.ok t)
    have : t = ⟨t.dims, []⟩ := by rw [← hdata]
    rw [this]
    rfl

/-- The elements of the result. -/
theorem shiftDim_ok {t : Tensor α} (wf : t.WF) {P Q : List Nat} {n : Nat}
    (hd : t.dims = P ++ n :: Q) (fwd : Bool) :
    ∃ t' : Tensor α, Finishes (fun fuel => shiftDim fuel t (P.length : Nat) fwd) (.ok t') ∧
      t'.dims = t.dims ∧ t'.WF ∧ ∀ p i q, p < prod P → i < n → q < prod Q →
        t'.data[p + prod P * (target n fwd i + n * q)]? = t.data[p + prod P * (i + n * q)]? := by
  by_cases hz : 0 ∈ t.dims
  · refine ⟨t, shiftDim_empty wf hz hd fwd, rfl, wf, fun p i q hp hi hq => ?_⟩
    have : prod t.dims = 0 := prod_eq_zero.2 hz
    rw [hd, prod_append, prod_cons, Nat.mul_eq_zero, Nat.mul_eq_zero] at this
    omega
  · exact shiftDim_nonempty wf (fun d h e => hz (e ▸ h)) hd fwd

theorem target_lt {n i : Nat} (fwd : Bool) (hn : 0 < n) : target n fwd i < n := Nat.mod_lt _ hn

theorem target_target {n i : Nat} (fwd : Bool) (hi : i < n) :
    target n (!fwd) (target n fwd i) = i := by
  simp only [target, Nat.mod_add_mod]
  have : i + (if fwd then n / 2 else (n + 1) / 2) + (if (!fwd) = true then n / 2 else (n + 1) / 2)
      = i + n := by
    cases fwd <;> simp <;> omega
  rw [this, Nat.add_mod_right, Nat.mod_eq_of_lt hi]

/-- C53: fftshift along one index moves each element by half of the dimension along it, around the
end; the other indices do not change.  -/
theorem c53_shift {t : Tensor α} (wf : t.WF) {P Q : List Nat}
    {n : Nat} (hd : t.dims = P ++ n :: Q) (fwd : Bool) :
    ∃ t' : Tensor α, Finishes (fun fuel => shiftDim fuel t (P.length : Nat) fwd) (.ok t') ∧
      t'.dims = t.dims ∧ t'.WF ∧ ∀ p i q, InB p P → i < n → InB q Q →
        elem t'.dims t'.data (p ++ target n fwd i :: q) = elem t.dims t.data (p ++ i :: q) := by
  obtain ⟨t', h1, h2, h3, h4⟩ := shiftDim_ok wf hd fwd
  refine ⟨t', h1, h2, h3, fun p i q hp hi hq => ?_⟩
  have hin : ∀ j, j < n → InB (p ++ j :: q) (P ++ n :: Q) :=
    fun j hj => (InB_append hp.length).2 ⟨hp, hj, hq⟩
  rw [h2, hd]
  simp only [elem, hin i hi, hin _ (target_lt fwd (by omega)), if_true]
  rw [Tensor.colPos_split1 P Q p q n i hp.length, Tensor.colPos_split1 P Q p q n _ hp.length]
  exact h4 _ _ _ (colPos_lt hp) hi (colPos_lt hq)

/-- C53: a position which does not exist stops the program. -/
theorem c53_position (t : Tensor α) (dim : Int) (fwd : Bool)
    (h : dim < 0 ∨ (t.dims.length : Int) ≤ dim) :
    Finishes (fun fuel => shiftDim fuel t dim fwd) .abort := by
  refine ⟨0, fun fuel _ => ?_⟩
  beta_reduce
  rw [shiftDim, Res.assert_neg (by omega)]
  rfl

/-- Where fftshift moves an element, if the indices with flags are shifted. -/
def targets (fwd : Bool) : List Bool → List Nat → List Nat → List Nat
  | f :: fs, d :: ds, i :: is => (if f then target d fwd i else i) :: targets fwd fs ds is
  | _, _, _ => []

theorem targets_inB (fwd : Bool) {fs : List Bool} {ds is : List Nat} (hl : fs.length = ds.length)
    (h : InB is ds) : InB (targets fwd fs ds is) ds := by
  induction ds generalizing fs is with
  | nil =>
    match fs, is, h with
    | [], [], _ => trivial
  | cons d ds ih =>
    match fs, is, h with
    | f :: fs, i :: is, h =>
      refine ⟨?_, ih (by simpa using hl) h.2⟩
      split
      · exact target_lt fwd (by have := h.1; omega)
      · exact h.1

theorem targets_targets (fwd : Bool) {fs : List Bool} {ds is : List Nat} (hl : fs.length = ds.length)
    (h : InB is ds) : targets (!fwd) fs ds (targets fwd fs ds is) = is := by
  induction ds generalizing fs is with
  | nil =>
    match fs, is, h with
    | [], [], _ => rfl
  | cons d ds ih =>
    match fs, is, h with
    | f :: fs, i :: is, h =>
      simp only [targets]
      rw [ih (by simpa using hl) h.2]
      cases f
      · simp
      · simp only [if_true]
        rw [target_target fwd h.1]

theorem shiftLoop_ok (fwd : Bool) (fs : List Bool) (P Q : List Nat) (hl : fs.length = Q.length)
    {t : Tensor α} (wf : t.WF) (hd : t.dims = P ++ Q) :
    ∃ t' : Tensor α, Finishes (fun fuel => shiftLoop fuel fwd P.length fs t) (.ok t') ∧
      t'.dims = t.dims ∧ t'.WF ∧ ∀ p q, InB p P → InB q Q →
        elem t'.dims t'.data (p ++ targets fwd fs Q q) = elem t.dims t.data (p ++ q) := by
  induction fs generalizing P Q t with
  | nil =>
    have : Q = [] := by simpa using hl.symm
    subst this
    refine ⟨t, ⟨0, fun _ _ => rfl⟩, rfl, wf, fun p q _ hq => ?_⟩
    match q, hq with
    | [], _ => rfl
  | cons f fs ih =>
    match Q, hl with
    | d :: Q, hl =>
      obtain ⟨t1, ⟨N1, c1⟩, h1, h2, h3⟩ : ∃ t1 : Tensor α,
          Finishes (fun fuel => if f then shiftDim fuel t (P.length : Nat) fwd else pure t) (.ok t1) ∧
          t1.dims = t.dims ∧ t1.WF ∧ ∀ p i q, InB p P → i < d → InB q Q →
            elem t1.dims t1.data (p ++ (if f then target d fwd i else i) :: q)
              = elem t.dims t.data (p ++ i :: q) := by
        cases f
        · exact ⟨t, ⟨0, fun _ _ => rfl⟩, rfl, wf, fun _ _ _ _ _ _ => rfl⟩
        · exact c53_shift wf hd fwd
      obtain ⟨t2, ⟨N2, c2⟩, k1, k2, k3⟩ := ih (P ++ [d]) Q (by simpa using hl) h2
        (by rw [h1, hd]; simp)
      refine ⟨t2, ⟨max N1 N2, fun fuel hf => ?_⟩, k1.trans h1, k2, fun p q hp hq => ?_⟩
      · have e1 := c1 fuel (by omega)
        have e2 := c2 fuel (by omega)
        beta_reduce at e1 e2 ⊢
        rw [shiftLoop, e1, Run.ok_bind]
        rw [List.length_append] at e2
        exact e2
      · match q, hq with
        | i :: q, hq =>
          have hi : InB (p ++ [if f then target d fwd i else i]) (P ++ [d]) := by
            refine (InB_append hp.length).2 ⟨hp, ?_, trivial⟩
            split
            · exact target_lt fwd (by have := hq.1; omega)
            · exact hq.1
          have e := k3 _ q hi hq.2
          rw [List.append_assoc, List.append_assoc] at e
          exact e.trans (h3 p i q hp hq.1 hq.2)

/-- C53: fftshift along several indices moves each element along each of them. -/
theorem c53_several {t : Tensor α} (wf : t.WF) (fs : List Bool)
    (hl : fs.length = t.dims.length) (fwd : Bool) :
    ∃ t' : Tensor α, Finishes (fun fuel => shiftSome fuel t fs fwd) (.ok t') ∧
      t'.dims = t.dims ∧ t'.WF ∧ ∀ idx, InB idx t.dims →
        elem t'.dims t'.data (targets fwd fs t.dims idx) = elem t.dims t.data idx := by
  obtain ⟨t', ⟨N, h1⟩, h2, h3, h4⟩ := shiftLoop_ok fwd fs [] t.dims hl wf rfl
  refine ⟨t', ⟨N, fun fuel hf => ?_⟩, h2, h3, fun idx hi => h4 [] idx trivial hi⟩
  beta_reduce
  rw [shiftSome, Res.assert_pos hl.symm]
  exact h1 fuel hf

/-- C53: fftshift along all the indices is that with all the flags. -/
theorem c53_all (t : Tensor α) (fwd : Bool) (fuel : Nat) :
    shiftAll fuel t fwd = shiftSome fuel t (t.dims.map fun _ => true) fwd := by
  rw [shiftAll, shiftSome, Res.assert_pos (by simp), Run.ok_bind]
  congr 1
  exact (List.map_const' ..).symm

/-- C53: another number of flags than of indices stops the program. -/
theorem c53_flags (t : Tensor α) (fs : List Bool) (hl : fs.length ≠ t.dims.length) (fwd : Bool) :
    Finishes (fun fuel => shiftSome fuel t fs fwd) .abort := by
  refine ⟨0, fun fuel _ => ?_⟩
  beta_reduce
  rw [shiftSome, Res.assert_neg (fun h => hl h.symm)]
  rfl

/-- C53: a shift with FFTW_BACKWARD undoes one with FFTW_FORWARD along the same indices, and
conversely. -/
theorem c53_inverse {t : Tensor α} (wf : t.WF) (fs : List Bool)
    (hl : fs.length = t.dims.length) (fwd : Bool) :
    ∃ t' : Tensor α, Finishes (fun fuel => shiftSome fuel t fs fwd) (.ok t') ∧
      Finishes (fun fuel => shiftSome fuel t' fs (!fwd)) (.ok t) := by
  obtain ⟨t1, h1, h2, h3, h4⟩ := c53_several wf fs hl fwd
  obtain ⟨t2, k1, k2, k3, k4⟩ := c53_several h3 fs (by rw [h2]; exact hl) (!fwd)
  refine ⟨t1, h1, ?_⟩
  have : t2 = t := by
    apply Tensor.ext_elem k3 wf (k2.trans h2)
    intro idx hi
    rw [k2, h2] at hi
    rw [← h4 idx hi, ← k4 _ (by rw [h2]; exact targets_inB fwd hl hi), h2, targets_targets fwd hl hi]
  rw [← this]
  exact k1

/-- C53: the same for one index. -/
theorem c53_inverse_one {t : Tensor α} (wf : t.WF) (k : Nat)
    (hk : k < t.dims.length) (fwd : Bool) :
    ∃ t' : Tensor α, Finishes (fun fuel => shiftDim fuel t k fwd) (.ok t') ∧
      Finishes (fun fuel => shiftDim fuel t' k (!fwd)) (.ok t) := by
  obtain ⟨P, n, Q, hd, rfl⟩ := Tensor.split1 t.dims k hk
  obtain ⟨t1, h1, h2, h3, h4⟩ := shiftDim_ok wf hd fwd
  obtain ⟨t2, k1, k2, k3, k4⟩ := shiftDim_ok h3 (h2.trans hd) (!fwd)
  refine ⟨t1, h1, ?_⟩
  have : t2 = t := by
    apply Tensor.ext_elem k3 wf (k2.trans h2)
    intro idx hi
    rw [k2, h2, hd] at hi
    obtain ⟨p, i, q, rfl, hp, hi', hq⟩ := Tensor.inB_split hi
    have hr : i < n ∧ InB q Q := ⟨hi', hq⟩
    rw [k2, h2, hd]
    simp only [elem, hi, if_true]
    rw [Tensor.colPos_split1 P Q p q n i hp.length]
    rw [← h4 _ _ _ (colPos_lt hp) hr.1 (colPos_lt hr.2),
      ← k4 _ _ _ (colPos_lt hp) (target_lt fwd (by have := hr.1; omega)) (colPos_lt hr.2),
      target_target fwd hr.1]
  rw [← this]
  exact k1

/-- The hypotheses of these theorems can be met. -/
example : (⟨[2, 3], [1, 2, 3, 4, 5, 6]⟩ : Tensor Nat).WF ∧ (⟨[2, 0], []⟩ : Tensor Nat).WF ∧ target 3 true 2 = 0 ∧
    target 3 false 0 = 2 ∧ targets true [true, true] [2, 3] [1, 2] = [0, 0] := by
  refine ⟨rfl, rfl, by decide, by decide, by decide⟩

end Verif.Shift
