import Verif.Props.SparseKron
import Verif.Props.Fold
/-
C39: products of sparse matrices and tensors.
-/
namespace Verif.Sparse

open Verif Verif.Spec

variable {α β : Type} [CommSemiring α]

/-- Product of a sparse row and a vector. -/
def dotRow (row : List (Nat × α)) (g : Nat → α) : α := (row.map fun p => p.2 * g p.1).sum

theorem dotRow_eq {c : Nat} {row : List (Nat × α)} (h : RowOk c row) (g : Nat → α) :
    dotRow row g = ∑ j ∈ Finset.range c, look row j * g j := by
  induction row with
  | nil => simp [dotRow, look_nil]
  | cons p ps ih =>
    have hp := h.2 p (by simp)
    have hn : ∀ v, (p.1, v) ∉ ps := by
      intro v hv
      have := h.1
      rw [List.map_cons, List.pairwise_cons] at this
      exact absurd (this.1 p.1 (List.mem_map.mpr ⟨_, hv, rfl⟩)) (lt_irrefl _)
    have e : ∀ j, look (p :: ps) j * g j = (if p.1 = j then p.2 * g j else 0) + look ps j * g j := by
      intro j
      rw [look_cons]
      split
      · rename_i e
        subst e
        rw [look_of_not_mem hn, zero_mul, add_zero]
      · rw [zero_add]
    simp only [e]
    rw [Finset.sum_add_distrib, ← ih h.tail.1, Finset.sum_ite_eq, if_pos (Finset.mem_range.mpr hp)]
    simp [dotRow]

/-- The same as the loop computes it, from a given number on. -/
def dotFrom {α : Type} [Add α] [Mul α] (acc : α) (row : List (Nat × α)) (g : Nat → α) : α :=
  row.foldl (fun x p => x + p.2 * g p.1) acc

theorem dotFrom_eq (acc : α) (row : List (Nat × α)) (g : Nat → α) : dotFrom acc row g = acc + dotRow row g := by
  induction row generalizing acc with
  | nil => simp [dotFrom, dotRow]
  | cons p ps ih =>
    have : dotFrom acc (p :: ps) g = dotFrom (acc + p.2 * g p.1) ps g := rfl
    rw [this, ih]
    simp [dotRow, add_assoc]

section
omit [CommSemiring α]
variable [Zero α] [Add α] [Mul α]

omit [Zero α] in
theorem rowDot_ok (vec : List α) (off : Nat) (row : List (Nat × α)) (g : Nat → α)
    (hg : ∀ p ∈ row, vec[off + p.1]? = some (g p.1)) (cs : List Nat) (ds : List α) (acc : α) :
    rowDot vec off row.length (row.map (·.1) ++ cs) (row.map (·.2) ++ ds) acc =
      .ok (dotFrom acc row g, cs, ds) := by
  induction row generalizing acc with
  | nil => simp [rowDot, dotFrom]
  | cons p ps ih =>
    rw [List.length_cons, List.map_cons, List.map_cons, List.cons_append, List.cons_append, rowDot,
      hg p (by simp), Res.ofOption_some, Res.ok_bind, ih (fun q hq => hg q (by simp [hq]))]
    rfl

theorem mmultRows_ok (rs : List Nat) (vec : List α) (off : Nat) (L : List (List (Nat × α))) (g : Nat → α)
    (hg : ∀ row ∈ L, ∀ p ∈ row, vec[off + p.1]? = some (g p.1)) (i k : Nat) (hrs : rs.drop i = starts k L)
    (P Q : List α) :
    mmultRows rs vec off i L.length (L.flatten.map (·.1)) (L.flatten.map (·.2)) P.length
      (P ++ (List.replicate L.length 0 ++ Q)) = .ok (P ++ (L.map (fun row => dotFrom 0 row g) ++ Q)) := by
  induction L generalizing i k P with
  | nil => rfl
  | cons row L ih =>
    obtain ⟨h1, h2, h3⟩ := drop_starts hrs
    have hget : (P ++ (List.replicate (L.length + 1) 0 ++ Q))[P.length]? = some 0 := by
      rw [List.getElem?_append_right (le_refl _), Nat.sub_self, List.replicate_succ]; rfl
    rw [List.length_cons, mmultRows, hget, h1, h2]
    simp only [Res.ofOption_some, Res.ok_bind]
    rw [if_neg (by omega), show k + row.length - k = row.length by omega, List.flatten_cons, List.map_append,
      List.map_append, rowDot_ok vec off row g (hg row (by simp)), Res.ok_bind]
    have hset : (P ++ (List.replicate (L.length + 1) 0 ++ Q)).set P.length (dotFrom 0 row g) =
        (P ++ [dotFrom 0 row g]) ++ (List.replicate L.length 0 ++ Q) := by
      rw [List.set_append_right (h := le_refl _), Nat.sub_self, List.replicate_succ]
      simp
    have := ih (fun r hr => hg r (by simp [hr])) (i + 1) (k + row.length) h3 (P ++ [dotFrom 0 row g])
    simp only [hset]
    rw [List.length_append, List.length_singleton] at this
    rw [this]
    simp

theorem mmultLoop_ok (s : Sparse α) (L : List (List (Nat × α))) (hL : HasRows s L) (vec : List α)
    (c : Nat) (hok : ∀ row ∈ L, RowOk c row) (g : Nat → Nat → α) (n l : Nat)
    (hg : ∀ j x, j < c → l ≤ x → x < l + n → vec[x * c + j]? = some (g x j)) (P : List α)
    (hP : P.length = l * s.rows) :
    mmultLoop s vec c l n (P ++ List.replicate (n * s.rows) 0) =
      .ok (P ++ ((List.range' l n).map fun x => L.map fun row => dotFrom 0 row (g x)).flatten) := by
  induction n generalizing l P with
  | zero => simp [mmultLoop]
  | succ n ih =>
    rw [mmultLoop, ← hP, hL.2.1, hL.2.2.1, hL.2.2.2, ← hL.1]
    have hrep : List.replicate ((n + 1) * L.length) (0 : α) =
        List.replicate L.length 0 ++ List.replicate (n * L.length) 0 := by
      rw [Nat.add_mul, Nat.one_mul, Nat.add_comm, List.replicate_add]
    rw [hrep, mmultRows_ok (starts 0 L) vec (l * c) L (g l)
      (fun row hrow p hp => hg p.1 l ((hok row hrow).2 p hp) (le_refl _) (by omega)) 0 0 (by simp)]
    rw [Res.ok_bind, ← List.append_assoc, hL.1, ih (l + 1) (fun j x h1 h2 h3 => hg j x h1 (by omega) (by omega))]
    · rw [List.range'_succ, List.map_cons, List.flatten_cons, List.append_assoc]
    · rw [List.length_append, List.length_map, hP, hL.1, Nat.add_mul, Nat.one_mul]

omit [Zero α] [Add α] [Mul α] in
theorem foldl_mul (l : List Nat) (n : Nat) : l.foldl (· * ·) n = n * Spec.prod l := by
  induction l generalizing n with
  | nil => simp [Spec.prod]
  | cons x xs ih => rw [List.foldl_cons, ih, Spec.prod, Nat.mul_assoc]

/-- What the product computes: for each row the sum of the products with the stored elements, from left to right. -/
theorem mmultST_ok (s : Sparse α) (t : Tensor α) (wf : t.WF) (d : Nat) (ds : List Nat) (hd : t.dims = d :: ds)
    (hc : s.cols = d) (L : List (List (Nat × α))) (hL : HasRows s L) (hok : ∀ row ∈ L, RowOk d row) :
    ∃ u : Tensor α, mmultST s t = .ok u ∧ u.WF ∧ u.dims = s.rows :: ds ∧
      ∀ i is row, L[i]? = some row → InB is ds → ∀ g : Nat → α,
        (∀ p ∈ row, elem t.dims t.data (p.1 :: is) = some (g p.1)) →
        elem u.dims u.data (i :: is) = some (dotFrom 0 row g) := by
  have hdim : t.dimension 0 = .ok d := by
    rw [Tensor.dimension, Tensor.rank, hd, Res.assert_pos (by simp), Res.ok_bind,
      Res.assert_pos (by omega), Res.ok_bind]
    rfl
  have hsz : t.data.length = d * Spec.prod ds := by rw [wf, hd, totalSize_of_ne (by simp)]; rfl
  rw [mmultST, hdim, Res.ok_bind, Res.assert_pos hc.symm, Res.ok_bind, hd]
  simp only [List.tail_cons, foldl_mul, Nat.one_mul]
  have hfill : (Tensor.fill (s.rows :: ds) (0 : α)).data =
      [] ++ List.replicate (Spec.prod ds * s.rows) 0 := by
    rw [Tensor.fill]
    simp only [List.nil_append]
    rw [totalSize_of_ne (by simp), Spec.prod, Nat.mul_comm]
  have hget : ∀ j x, j < d → 0 ≤ x → x < 0 + Spec.prod ds →
      t.data[x * d + j]? = some (t.data.getD (x * d + j) 0) := by
    intro j x hj _ hx
    have : x * d + j < t.data.length := by
      rw [hsz, Nat.add_comm, Nat.mul_comm]; exact pos_lt' hj (by omega)
    rw [List.getD_eq_getElem?_getD, List.getElem?_eq_getElem this]; rfl
  rw [hfill, mmultLoop_ok s L hL t.data d hok (fun x j => t.data.getD (x * d + j) 0) _ 0 hget [] (by simp)]
  simp only [Res.ok_bind, List.nil_append]
  have hlen := hL.1
  have hgrid : ((List.range' 0 (Spec.prod ds)).map fun x =>
        L.map fun row => dotFrom 0 row fun j => t.data.getD (x * d + j) 0).flatten =
      (List.range (s.rows * Spec.prod ds)).map fun x =>
        dotFrom 0 (L.getD (x % s.rows) []) fun j => t.data.getD (x / s.rows * d + j) 0 := by
    rw [← List.range_eq_range', ← flatten_grid s.rows (Spec.prod ds) fun l k =>
      dotFrom 0 (L.getD k []) fun j => t.data.getD (l * d + j) 0]
    congr 1
    apply List.map_congr_left
    intro x _
    apply List.ext_getElem (by simp [hlen])
    intro k h1 h2
    simp only [List.length_map] at h1
    simp [List.getD_eq_getElem?_getD, List.getElem?_eq_getElem h1]
  rw [hgrid]
  refine ⟨_, rfl, ?_, rfl, ?_⟩
  · show List.length _ = _
    rw [List.length_map, List.length_range, totalSize_of_ne (by simp), Spec.prod]
  · intro i is row hrow his g hg
    have hi : i < s.rows := by rw [← hlen]; exact (List.getElem?_eq_some_iff.1 hrow).1
    have hcp : colPos ds is < Spec.prod ds := colPos_lt his
    rw [elem, if_pos ⟨hi, his⟩, List.getElem?_map, colPos, List.getElem?_range (pos_lt' hi hcp)]
    have hr0 : 0 < s.rows := by omega
    simp only [Option.map_some, Option.some.injEq]
    rw [Nat.add_mul_div_left _ _ hr0, Nat.div_eq_of_lt hi, Nat.zero_add,
      Nat.add_mul_mod_self_left, Nat.mod_eq_of_lt hi, List.getD_eq_getElem?_getD, hrow, Option.getD_some]
    have hj : ∀ p ∈ row, p.1 < d := (hok _ (List.mem_of_getElem? hrow)).2
    have key : ∀ (row : List (Nat × α)) (acc : α), (∀ p ∈ row, p.1 < d) →
        (∀ p ∈ row, elem (d :: ds) t.data (p.1 :: is) = some (g p.1)) →
        dotFrom acc row (fun j => t.data.getD (colPos ds is * d + j) 0) = dotFrom acc row g := by
      intro row
      induction row with
      | nil => intros; rfl
      | cons p ps ih =>
        intro acc h1 h2
        have e := h2 p (by simp)
        rw [elem, if_pos ⟨h1 p (by simp), his⟩, colPos] at e
        have e2 : t.data.getD (colPos ds is * d + p.1) 0 = g p.1 := by
          rw [List.getD_eq_getElem?_getD, Nat.add_comm, Nat.mul_comm, e]; rfl
        have e3 : ∀ f : Nat → α, dotFrom acc (p :: ps) f = dotFrom (acc + p.2 * f p.1) ps f := fun _ => rfl
        rw [e3, e3, e2]
        exact ih _ (fun q hq => h1 q (by simp [hq])) (fun q hq => h2 q (by simp [hq]))
    exact key row 0 hj hg

end

/-- C39: product of a sparse matrix and a tensor of any rank: contraction with its first index. -/
theorem c39_sparse_tensor (s : Sparse α) (t : Tensor α) (wf : t.WF) (r c : Nat) (f : Nat → Nat → α)
    (hs : IsCsr s.rows s.cols s.rowStart s.column s.data r c f) (d : Nat) (ds : List Nat)
    (hd : t.dims = d :: ds) :
    (d = c → ∃ u : Tensor α, mmultST s t = .ok u ∧ u.WF ∧ u.dims = r :: ds ∧
      ∀ i is, i < r → InB is ds → ∀ g : Nat → α, (∀ j < c, elem t.dims t.data (j :: is) = some (g j)) →
        elem u.dims u.data (i :: is) = some (∑ j ∈ Finset.range c, f i j * g j)) ∧
    (d ≠ c → mmultST s t = .abort) := by
  obtain ⟨L, hL, hlen, hok, hv⟩ := IsCsr_rows hs
  have hc := hs.2.1
  have hr := hs.1
  constructor
  · rintro rfl
    obtain ⟨u, e, wfu, hdu, hel⟩ := mmultST_ok s t wf d ds hd hc L hL hok
    refine ⟨u, e, wfu, by rw [hdu, hr], ?_⟩
    intro i is hi his g hg
    have hrow : L[i]? = some L[i] := List.getElem?_eq_getElem (by omega)
    have hok' := hok _ (List.mem_of_getElem? hrow)
    rw [hel i is _ hrow his g (fun p hp => hg p.1 (hok'.2 p hp)), dotFrom_eq, zero_add, dotRow_eq hok']
    congr 1
    apply Finset.sum_congr rfl
    intro j hj
    rw [hv i j _ hrow (Finset.mem_range.mp hj)]
  · intro hne
    have hdim : t.dimension 0 = .ok d := by
      rw [Tensor.dimension, Tensor.rank, hd, Res.assert_pos (by simp), Res.ok_bind,
        Res.assert_pos (by omega), Res.ok_bind]
      rfl
    rw [mmultST, hdim, Res.ok_bind, Res.assert_neg (by rw [hc]; exact hne)]
    rfl

omit [CommSemiring α] in
/-- Tensors with the same dimensions and elements are equal. -/
theorem tensor_ext {t u : Tensor α} (wt : t.WF) (wu : u.WF) (hd : t.dims = u.dims) (hne : t.dims ≠ [])
    (h : ∀ idx, InB idx t.dims → elem t.dims t.data idx = elem u.dims u.data idx) : t = u := by
  obtain ⟨td, tx⟩ := t
  obtain ⟨ud, ux⟩ := u
  simp only at hd hne h
  subst hd
  have l1 : tx.length = Spec.prod td := by rw [← totalSize_of_ne hne]; exact wt
  have l2 : ux.length = Spec.prod td := by rw [← totalSize_of_ne hne]; exact wu
  congr 1
  apply List.ext_getElem? 
  intro p
  by_cases hp : p < Spec.prod td
  · obtain ⟨idx, hi, rfl⟩ := colPos_surj td p hp
    have := h idx hi
    rwa [elem, elem, if_pos hi, if_pos hi] at this
  · rw [List.getElem?_eq_none (by omega), List.getElem?_eq_none (by omega)]

/-- C39: for inner dimension other than zero, mmult(s,t) = mmult(full(s),t). (If it is zero, the dense
product stops the program, and the sparse one gives zeros.) -/
theorem c39_dense (s : Sparse α) (hs : ValidCsr s.rows s.cols s.rowStart s.column s.data) (t : Tensor α)
    (wf : t.WF) (ds : List Nat) (hd : t.dims = s.cols :: ds) (h0 : s.cols ≠ 0) :
    ∃ u d, mmultST s t = .ok u ∧ full s = .ok d ∧ Tensor.mmult d t = .ok u := by
  obtain ⟨f, hf⟩ := exists_isCsr s hs
  obtain ⟨u, e, wfu, hdu, hel⟩ := (c39_sparse_tensor s t wf _ _ f hf _ _ hd).1 rfl
  obtain ⟨d, e1, m1⟩ := c35_full s _ _ f hf
  obtain ⟨u', e2, wfu', hdu', hel'⟩ := (Tensor.c19_fold d t (IsMat.wf m1) wf (-1) 0 [s.rows] [] [] ds s.cols s.cols
    m1.1 hd (by rw [m1.1]; simp [norm]) (by rw [hd]; simp [norm])).1 rfl h0
  refine ⟨u, d, e, e1, ?_⟩
  rw [Tensor.mmult, e2]
  have hdims : u'.dims = s.rows :: ds := by rw [hdu']; simp [outDims]
  congr 1
  apply tensor_ext wfu' wfu (by rw [hdims, hdu]) (by rw [hdims]; simp)
  intro idx hidx
  rw [hdims] at hidx
  match idx, hidx with
  | i :: is, ⟨hi, his⟩ =>
    have hg : ∃ g : Nat → α, ∀ j < s.cols, elem t.dims t.data (j :: is) = some (g j) := by
      have : ∀ j, ∃ v, j < s.cols → elem t.dims t.data (j :: is) = some v := by
        intro j
        by_cases hj : j < s.cols
        · obtain ⟨v, hv, -⟩ := Tensor.elem_some wf (js := j :: is) (by rw [hd]; exact ⟨hj, his⟩) (by simp)
          exact ⟨v, fun _ => hv⟩
        · exact ⟨0, fun h => absurd h hj⟩
      choose g hg using this
      exact ⟨g, hg⟩
    obtain ⟨g, hg⟩ := hg
    rw [hel i is hi his g hg]
    have := hel' [i] [] [] is ⟨hi, trivial⟩ trivial trivial his (f i) g (fun l hl => m1.2.2 i l hi hl) hg
    simpa [outIdx] using this

/-- C39 is false for the product of a tensor and a sparse matrix: it always stops the program, because
dimension(-1) is rejected. -/
theorem c39_tensor_sparse_aborts (t : Tensor α) (s : Sparse α) : mmultTS t s = .abort := by
  rw [mmultTS, Tensor.dimension, Res.assert_pos (by omega), Res.ok_bind, Res.assert_neg (by omega)]
  rfl

theorem multTSRun_ok (vec matrix : List α) (w : Nat × Nat × Nat → α) (steps : List (Nat × Nat × Nat))
    (dest : List α)
    (h : ∀ s ∈ steps, s.1 < dest.length ∧ ∃ u m, vec[s.2.1]? = some u ∧ matrix[s.2.2]? = some m ∧ w s = u * m) :
    ∃ out, multTSRun vec matrix steps dest = .ok out ∧ out.length = dest.length ∧
      ∀ p y, dest[p]? = some y → out[p]? = some (y + (steps.map fun s => if s.1 = p then w s else 0).sum) := by
  induction steps generalizing dest with
  | nil => exact ⟨dest, rfl, rfl, fun p y hy => by simpa using hy⟩
  | cons s ss ih =>
    obtain ⟨d, v, x⟩ := s
    obtain ⟨hd, u, m, h1, h2, h3⟩ := h _ (List.mem_cons_self)
    simp only at hd h1 h2 h3
    have hy := List.getElem?_eq_getElem hd
    rw [multTSRun, hy, h1, h2]
    simp only [Res.ofOption_some, Res.ok_bind]
    obtain ⟨out, e, hl, hv⟩ := ih (dest.set d (dest[d] + u * m)) (fun t ht => by
      rw [List.length_set]; exact h t (by simp [ht]))
    refine ⟨out, e, by rw [hl, List.length_set], ?_⟩
    intro p y hp
    rw [List.map_cons, List.sum_cons]
    by_cases hdp : d = p
    · subst hdp
      rw [hy] at hp
      cases hp
      rw [hv d (dest[d] + u * m) (by rw [List.getElem?_set_self hd]), if_pos rfl, h3, add_assoc]
    · rw [hv p y (by rw [List.getElem?_set_ne hdp]; exact hp), if_neg hdp, zero_add]

theorem sum_flatten (L : List (List α)) : L.flatten.sum = (L.map List.sum).sum := by
  induction L with
  | nil => rfl
  | cons x xs ih => rw [List.flatten_cons, List.sum_append, List.map_cons, List.sum_cons, ih]

theorem sum_if_pos (n i0 l l0 : Nat) (v : Nat → α) (hi : i0 < n) :
    ((List.range n).map fun i => if l * n + i = i0 + n * l0 then v i else 0).sum =
      if l = l0 then v i0 else 0 := by
  have e : ∀ i ∈ Finset.range n, (if l * n + i = i0 + n * l0 then v i else 0) =
      if i = i0 then (if l = l0 then v i0 else 0) else 0 := by
    intro i h
    have h := Finset.mem_range.mp h
    by_cases he : l * n + i = i0 + n * l0
    · rw [if_pos he]
      rw [Nat.add_comm, Nat.mul_comm] at he
      obtain ⟨rfl, rfl⟩ := pos_inj' h hi he
      simp
    · rw [if_neg he]
      split
      · rename_i e1
        subst e1
        split
        · rename_i e2
          subst e2
          exact absurd (by rw [Nat.add_comm, Nat.mul_comm]) he
        · rfl
      · rfl
  show (∑ i ∈ Finset.range n, _) = _
  rw [Finset.sum_congr rfl e, Finset.sum_ite_eq' , if_pos (Finset.mem_range.mpr hi)]

theorem dotRow_single {c : Nat} {row : List (Nat × α)} (h : RowOk c row) (l0 : Nat) (x : α) :
    (row.map fun p => if p.1 = l0 then x * p.2 else 0).sum = x * look row l0 := by
  induction row with
  | nil => simp [look_nil]
  | cons p ps ih =>
    rw [List.map_cons, List.sum_cons, ih h.tail.1, look_cons]
    split
    · rename_i e
      have hn : ∀ v, (l0, v) ∉ ps := by
        intro v hv
        have := h.1
        rw [List.map_cons, List.pairwise_cons] at this
        exact absurd (this.1 l0 (List.mem_map.mpr ⟨_, hv, rfl⟩)) (by omega)
      rw [look_of_not_mem hn, mul_zero, add_zero]
    · rw [zero_add]

omit [CommSemiring α] in
/-- Rows and stored elements, with their positions. -/
theorem multTSSteps_ok (s : Sparse α) (L : List (List (Nat × α))) (hL : HasRows s L) (n : Nat) :
    multTSSteps s.rowStart s.column n s.rows = .ok
      ((List.range s.rows).map fun j => ((L.getD j []).zipIdx (L.take j).flatten.length |>.map fun q =>
        (List.range n).map fun i => (q.1.1 * n + i, j * n + i, q.2)).flatten).flatten := by
  rw [multTSSteps, collect_ok _ (fun j => ((L.getD j []).zipIdx (L.take j).flatten.length |>.map fun q =>
        (List.range n).map fun i => (q.1.1 * n + i, j * n + i, q.2)).flatten) 0 s.rows, ← List.range_eq_range']
  · rfl
  · intro j _ hj
    have hjL : j < L.length := by rw [hL.1]; omega
    have hrow : L[j]? = some (L.getD j []) := by
      rw [List.getD_eq_getElem?_getD, List.getElem?_eq_getElem hjL]; rfl
    obtain ⟨a, ha, hb, hg⟩ := rows_get hL j _ hrow
    have haa : a = (L.take j).flatten.length := by
      rw [hL.2.1, starts_get 0 L j (by omega)] at ha
      simpa using ha.symm
    rw [ha, hb]
    simp only [Res.ofOption_some, Res.ok_bind]
    rw [show a + (L.getD j []).length - a = (L.getD j []).length by omega]
    have hlen : (L.getD j []).length = (((L.getD j []).zipIdx a).map fun q =>
        (List.range n).map fun i => (q.1.1 * n + i, j * n + i, q.2)).length := by simp
    rw [hlen, collect_list]
    · rw [haa]; rfl
    · intro k x hk
      rw [List.getElem?_map, Option.map_eq_some_iff] at hk
      obtain ⟨⟨p, y⟩, hq, rfl⟩ := hk
      rw [List.getElem?_zipIdx, Option.map_eq_some_iff] at hq
      obtain ⟨p', hp', e⟩ := hq
      simp only [Prod.mk.injEq] at e
      obtain ⟨rfl, rfl⟩ := e
      rw [(hg k p' hp').1]
      rfl

/-- C39: what the routine behind mmult(Tensor, Sparse) computes, for a tensor with last dimension rows(s)
and n = product of the others, is the contraction with the last index: only the wrong call of
dimension() prevents the product. -/
theorem c39_tensor_sparse_raw_partial (s : Sparse α) (r c : Nat) (f : Nat → Nat → α)
    (hs : IsCsr s.rows s.cols s.rowStart s.column s.data r c f) (n : Nat) (vec : List α)
    (hvec : vec.length = n * r) :
    ∃ steps out, multTSSteps s.rowStart s.column n r = .ok steps ∧
      multTSRun vec s.data steps (List.replicate (n * c) 0) = .ok out ∧ out.length = n * c ∧
      ∀ i l, i < n → l < c → ∀ g : Nat → α, (∀ j < r, vec[i + n * j]? = some (g j)) →
        out[i + n * l]? = some (∑ j ∈ Finset.range r, g j * f j l) := by
  obtain ⟨L, hL, hlen, hok, hv⟩ := IsCsr_rows hs
  obtain ⟨hr, hc, -, -⟩ := hs
  have hst := multTSSteps_ok s L hL n
  rw [hr] at hst
  have hrow : ∀ j, j < r → L[j]? = some (L.getD j []) := by
    intro j hj
    rw [List.getD_eq_getElem?_getD, List.getElem?_eq_getElem (by omega)]; rfl
  -- the elements of row j
  have hel : ∀ j, j < r → ∀ q ∈ (L.getD j []).zipIdx (L.take j).flatten.length,
      s.data[q.2]? = some q.1.2 ∧ q.1.1 < c := by
    intro j hj q hq
    obtain ⟨a, ha, hb, hg⟩ := rows_get hL j _ (hrow j hj)
    have haa : a = (L.take j).flatten.length := by
      rw [hL.2.1, starts_get 0 L j (by omega)] at ha
      simpa using ha.symm
    obtain ⟨k, hk⟩ := List.mem_iff_getElem?.mp hq
    rw [List.getElem?_zipIdx, Option.map_eq_some_iff] at hk
    obtain ⟨p', hp', e⟩ := hk
    rw [← e]
    refine ⟨?_, (hok _ (List.mem_of_getElem? (hrow j hj))).2 p' (List.mem_of_getElem? hp')⟩
    simp only
    rw [← haa]
    exact (hg k p' hp').2
  generalize hS : ((List.range r).map fun j => ((L.getD j []).zipIdx (L.take j).flatten.length |>.map fun q =>
        (List.range n).map fun i => (q.1.1 * n + i, j * n + i, q.2)).flatten).flatten = steps at hst
  let w : Nat × Nat × Nat → α := fun q => vec.getD q.2.1 0 * s.data.getD q.2.2 0
  obtain ⟨out, e, hl, hval⟩ := multTSRun_ok vec s.data w steps (List.replicate (n * c) 0) (by
    intro q hq
    rw [← hS, List.mem_flatten] at hq
    obtain ⟨l1, hl1, hq⟩ := hq
    obtain ⟨j, hj, rfl⟩ := List.mem_map.mp hl1
    have hj := List.mem_range.mp hj
    obtain ⟨l2, hl2, hq⟩ := List.mem_flatten.mp hq
    obtain ⟨y, hy, rfl⟩ := List.mem_map.mp hl2
    obtain ⟨i, hi, rfl⟩ := List.mem_map.mp hq
    have hi := List.mem_range.mp hi
    obtain ⟨d1, d2⟩ := hel j hj y hy
    have b1 : y.1.1 * n + i < n * c := by rw [Nat.add_comm, Nat.mul_comm]; exact pos_lt' hi d2
    have b2 : j * n + i < vec.length := by rw [hvec, Nat.add_comm, Nat.mul_comm]; exact pos_lt' hi hj
    refine ⟨by rw [List.length_replicate]; exact b1, vec[j * n + i], y.1.2, List.getElem?_eq_getElem b2, d1, ?_⟩
    simp only [w]
    rw [List.getD_eq_getElem?_getD, List.getElem?_eq_getElem b2, List.getD_eq_getElem?_getD, d1]
    rfl)
  rw [List.length_replicate] at hl
  refine ⟨steps, out, hst, e, hl, ?_⟩
  intro i l hi hlc g hg
  rw [hval (i + n * l) 0 (by rw [List.getElem?_replicate, if_pos (pos_lt' hi hlc)]), zero_add]
  congr 1
  rw [← hS, List.map_flatten, sum_flatten, List.map_map, List.map_map]
  show (∑ j ∈ Finset.range r, _) = _
  apply Finset.sum_congr rfl
  intro j hj
  have hj := Finset.mem_range.mp hj
  simp only [Function.comp_apply]
  rw [List.map_flatten, sum_flatten, List.map_map, List.map_map]
  have hin : ∀ y ∈ (L.getD j []).zipIdx (L.take j).flatten.length,
      (((List.range n).map fun i => (y.1.1 * n + i, j * n + i, y.2)).map fun q =>
        if q.1 = i + n * l then w q else 0).sum = if y.1.1 = l then g j * y.1.2 else 0 := by
    intro y hy
    rw [List.map_map]
    have h1 := sum_if_pos n i y.1.1 l (fun i => w (y.1.1 * n + i, j * n + i, y.2)) hi
    rw [show ((fun q : Nat × Nat × Nat => if q.1 = i + n * l then w q else 0) ∘
        fun i => (y.1.1 * n + i, j * n + i, y.2)) = fun i' => if y.1.1 * n + i' = i + n * l then
          w (y.1.1 * n + i', j * n + i', y.2) else 0 from rfl, h1]
    simp only [w]
    rw [List.getD_eq_getElem?_getD, List.getD_eq_getElem?_getD, (hel j hj y hy).1, Nat.add_comm (j * n) i,
      Nat.mul_comm j n, hg j hj]
    rfl
  rw [← hv j l _ (hrow j hj) hlc, ← dotRow_single (hok _ (List.mem_of_getElem? (hrow j hj)))]
  congr 1
  rw [List.map_congr_left (g := fun y : (Nat × α) × Nat => if y.1.1 = l then g j * y.1.2 else 0)
    (by intro y hy; exact hin y hy)]
  rw [show (fun y : (Nat × α) × Nat => if y.1.1 = l then g j * y.1.2 else 0) =
    (fun p : Nat × α => if p.1 = l then g j * p.2 else 0) ∘ Prod.fst from rfl, ← List.map_map,
    List.zipIdx_map_fst]

/-- Cases in which the hypotheses hold. -/
example : mmultST (⟨2, 2, [0, 1, 2], [1, 0], [3, 4]⟩ : Sparse Int) ⟨[2, 2], [1, 2, 3, 4]⟩ =
    .ok ⟨[2, 2], [6, 4, 12, 12]⟩ := by decide
example : (⟨[2, 2], [1, 2, 3, 4]⟩ : Tensor Int).WF := by decide

end Verif.Sparse
