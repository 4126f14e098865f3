import Verif.Lemmas.Matrix
import Mathlib.Data.Complex.Basic
/-
C19-C23 and the rest of C18: contractions and products of matrices.
-/
namespace Verif.Tensor

open Verif Spec

variable {α : Type} [CommSemiring α]

/-- C19: fold(A,i,B,j). `P`, `Q` are the dimensions of A before and after i, and `R`, `S` the ones of B
before and after j. -/
theorem c19_fold (a b : Tensor α) (wfa : a.WF) (wfb : b.WF) (ndx1 ndx2 : Int) (P Q R S : List Nat)
    (L L' : Nat) (hda : a.dims = P ++ L :: Q) (hdb : b.dims = R ++ L' :: S)
    (h1 : norm a.dims.length ndx1 = some P.length)
    (h2 : norm b.dims.length ndx2 = some R.length) :
    (L = L' → L ≠ 0 → ∃ c : Tensor α, fold a ndx1 b ndx2 = .ok c ∧ c.WF ∧
      c.dims = outDims (P ++ Q ++ (R ++ S)) ∧
      ∀ p q r s, InB p P → InB q Q → InB r R → InB s S → ∀ f g : Nat → α,
        (∀ l < L, elem a.dims a.data (p ++ l :: q) = some (f l)) →
        (∀ l < L, elem b.dims b.data (r ++ l :: s) = some (g l)) →
        elem c.dims c.data (outIdx (p ++ q ++ (r ++ s))) =
          some (∑ l ∈ Finset.range L, f l * g l)) ∧
    (L ≠ L' ∨ L = 0 → fold a ndx1 b ndx2 = .abort) := by
  constructor
  · rintro rfl hL
    exact doFold_elem (RingHom.id α) (fun _ => rfl) false a b wfa wfb P Q R S L ndx1 ndx2 hda hdb
      h1 h2 hL
  · intro h
    obtain ⟨dimsa, da⟩ := a
    obtain ⟨dimsb, db⟩ := b
    simp only at hda hdb
    subst hda hdb
    rw [fold, doFold_split _ _ _ _ _ _ _ _ _ _ _ _ h1 h2, if_neg (by tauto)]

/-- C19: positions which do not exist stop the program. -/
theorem c19_fold_positions (a b : Tensor α) (ndx1 ndx2 : Int)
    (h : norm a.dims.length ndx1 = none ∨ norm b.dims.length ndx2 = none) :
    fold a ndx1 b ndx2 = .abort := doFold_norm_none _ _ _ _ _ _ h

omit [CommSemiring α] in
/-- Every position which exists splits the dimensions as required by `c19_fold`. -/
theorem c19_fold_covers (a : Tensor α) (ndx : Int) (n : Nat) (h : norm a.dims.length ndx = some n) :
    ∃ P L Q, a.dims = P ++ L :: Q ∧ norm a.dims.length ndx = some P.length := by
  obtain ⟨P, L, Q, e, hl⟩ := norm_split h
  exact ⟨P, L, Q, e, by rw [h, hl]⟩

/-- C20: foldc(A,i,B,j) = fold(conj(A),i,B,j), two complex tensors. -/
theorem c20_foldc (conj : α →+* α) (hc : ∀ x, conj (conj x) = x) (a b : Tensor α) (wfa : a.WF)
    (wfb : b.WF) (ndx1 ndx2 : Int) :
    foldc conj a ndx1 b ndx2 = (do
      let a' ← unop conj a
      fold a' ndx1 b ndx2) := by
  rw [unop_ok _ a wfa]
  simp only [Res.ok_bind]
  exact doFold_congr conj (RingHom.id α) hc (fun _ => rfl) true false a.dims a.data
    (a.data.map conj) b wfa wfb (by simp) ndx1 ndx2 (by
      intro p
      simp only [if_true, Bool.false_eq_true, if_false, id, List.getElem?_map]
      cases a.data[p]? <;> simp)

/-- C20: foldc of two real tensors: nothing is conjugated. -/
theorem c20_foldc_real (a b : Tensor α) (ndx1 ndx2 : Int) :
    foldcRR a ndx1 b ndx2 = fold a ndx1 b ndx2 := rfl

/-- C20: foldc of a real and a complex tensor. Real numbers are embedded by `emb`, whose values do
not change by conjugation. -/
theorem c20_foldc_real_complex {ρ : Type} (emb : ρ → α) (conj : α →+* α)
    (he : ∀ x, conj (emb x) = emb x) (a : Tensor ρ) (b : Tensor α) (wfa : a.WF) (ndx1 ndx2 : Int) :
    foldcRC emb a ndx1 b ndx2 = (do
      let a' ← unop emb a
      let a'' ← unop conj a'
      fold a'' ndx1 b ndx2) := by
  have wf' : (⟨a.dims, a.data.map emb⟩ : Tensor α).WF := by
    show (a.data.map emb).length = _
    rw [List.length_map]; exact wfa
  rw [unop_ok _ a wfa]
  simp only [Res.ok_bind]
  rw [unop_ok _ _ wf']
  simp only [Res.ok_bind, List.map_map, foldcRC, toComplex]
  congr 2
  apply List.map_congr_left
  intro x _
  exact (he x).symm

/-- C20: foldc of a complex and a real tensor. -/
theorem c20_foldc_complex_real {ρ : Type} (emb : ρ → α) (conj : α →+* α)
    (hc : ∀ x, conj (conj x) = x) (a : Tensor α) (b : Tensor ρ) (wfa : a.WF) (wfb : b.WF)
    (ndx1 ndx2 : Int) :
    foldcCR emb conj a ndx1 b ndx2 = (do
      let a' ← unop conj a
      let b' ← unop emb b
      fold a' ndx1 b' ndx2) := by
  have wf' : (⟨b.dims, b.data.map emb⟩ : Tensor α).WF := by
    show (b.data.map emb).length = _
    rw [List.length_map]; exact wfb
  rw [foldcCR, c20_foldc conj hc a (toComplex emb b) wfa wf', unop_ok _ b wfb]
  rfl

/-- C21: foldin(A,i,B,j) inserts the remaining indices of A at the place of the index j of B; for an
empty contracted index the sum is zero. Missing: two vectors, see `c21_negation_vectors`. -/
theorem c21_foldin_partial (a b : Tensor α) (wfa : a.WF) (wfb : b.WF) (ndx1 ndx2 : Int)
    (P Q R S : List Nat) (L L' : Nat) (hda : a.dims = P ++ L :: Q) (hdb : b.dims = R ++ L' :: S)
    (h1 : norm a.dims.length ndx1 = some P.length)
    (h2 : norm b.dims.length ndx2 = some R.length)
    (hne : ¬ (a.dims.length = 1 ∧ b.dims.length = 1)) :
    (L = L' → ∃ c : Tensor α, foldin a ndx1 b ndx2 = .ok c ∧ c.WF ∧
      c.dims = R ++ (P ++ (Q ++ S)) ∧
      ∀ p q r s, InB p P → InB q Q → InB r R → InB s S → ∀ f g : Nat → α,
        (∀ l < L, elem a.dims a.data (p ++ l :: q) = some (f l)) →
        (∀ l < L, elem b.dims b.data (r ++ l :: s) = some (g l)) →
        elem c.dims c.data (r ++ (p ++ (q ++ s))) = some (∑ l ∈ Finset.range L, f l * g l)) ∧
    (L ≠ L' → foldin a ndx1 b ndx2 = .abort) := by
  constructor
  · rintro rfl
    refine foldin_elem a b wfa wfb P Q R S L ndx1 ndx2 hda hdb h1 h2 ?_
    intro e
    apply hne
    simp only [List.append_eq_nil_iff] at e
    obtain ⟨rfl, rfl, rfl, rfl⟩ := e
    rw [hda, hdb]
    exact ⟨rfl, rfl⟩
  · intro h
    obtain ⟨dimsa, da⟩ := a
    obtain ⟨dimsb, db⟩ := b
    simp only at hda hdb
    subst hda hdb
    rw [foldin, doFoldinInto_split _ _ _ _ _ _ _ _ _ _ _ _ h1 h2, if_neg (by omega)]

/-- C21 is false of the code for two vectors: their foldin writes out of bounds, while fold gives
their scalar product. -/
theorem c21_negation_vectors (u v : List α) (h : u.length = v.length) :
    foldin ⟨[u.length], u⟩ 0 ⟨[v.length], v⟩ 0 = .ub := by
  have h1 : norm (([] : List Nat) ++ u.length :: []).length 0 = some ([] : List Nat).length := by
    simp [norm]
  have h2 : norm (([] : List Nat) ++ v.length :: []).length 0 = some ([] : List Nat).length := by
    simp [norm]
  have := doFoldinInto_split false false [] [] [] [] u.length v.length u v 0 0 h1 h2
  simp only [List.nil_append, h, if_true] at this
  rw [foldin, h]
  exact this

/-- C22: mmult is the product of matrices, and conforming operands never fail. -/
theorem c22_product (a b : Tensor α) (wfa : a.WF) (wfb : b.WF) (m n p : Nat)
    (ha : a.dims = [m, n]) (hb : b.dims = [n, p]) (hn : n ≠ 0) :
    ∃ c : Tensor α, mmult a b = .ok c ∧ c.WF ∧ c.dims = [m, p] ∧
      ∀ i j, i < m → j < p → ∀ f g : Nat → α,
        (∀ l < n, elem a.dims a.data [i, l] = some (f l)) →
        (∀ l < n, elem b.dims b.data [l, j] = some (g l)) →
        elem c.dims c.data [i, j] = some (∑ l ∈ Finset.range n, f l * g l) := by
  obtain ⟨c, e, wf, hd, hel⟩ := (c19_fold a b wfa wfb (-1) 0 [m] [] [] [p] n n ha hb
    (by rw [ha]; simp [norm]) (by rw [hb]; simp [norm])).1 rfl hn
  refine ⟨c, e, wf, hd, ?_⟩
  intro i j hi hj f g hf hg
  have := hel [i] [] [] [j] (by simp [hi]) trivial trivial (by simp [hj]) f g hf hg
  simpa [outIdx] using this

/-- C22: mmult is associative. -/
theorem c22_associative (a b c : Tensor α) (wfa : a.WF) (wfb : b.WF) (wfc : c.WF) (m n p q : Nat)
    (ha : a.dims = [m, n]) (hb : b.dims = [n, p]) (hc : c.dims = [p, q]) (hn : n ≠ 0) (hp : p ≠ 0) :
    ∃ t : Tensor α, (do let ab ← mmult a b; mmult ab c) = .ok t ∧
      (do let bc ← mmult b c; mmult a bc) = .ok t := by
  obtain ⟨f, hf⟩ := exists_isMat a wfa m n ha
  obtain ⟨g, hg⟩ := exists_isMat b wfb n p hb
  obtain ⟨h, hh⟩ := exists_isMat c wfc p q hc
  obtain ⟨ab, e1, h1⟩ := mmult_isMat hf hg hn
  obtain ⟨bc, e2, h2⟩ := mmult_isMat hg hh hp
  obtain ⟨x, e3, h3⟩ := mmult_isMat h1 hh hp
  obtain ⟨y, e4, h4⟩ := mmult_isMat hf h2 hn
  refine ⟨x, by simp [e1, e3], ?_⟩
  rw [e2]
  simp only [Res.ok_bind, e4]
  congr 1
  refine (h3.unique h4 ?_).symm
  intro i j _ _
  simp only [Finset.sum_mul, Finset.mul_sum]
  rw [Finset.sum_comm]
  refine Finset.sum_congr rfl fun l _ => Finset.sum_congr rfl fun k _ => by ring

/-- C22: eye(n) is the identity on both sides. -/
theorem c22_identity (a : Tensor α) (wfa : a.WF) (m n : Nat) (ha : a.dims = [m, n]) :
    (m ≠ 0 → (do let e ← eye m m; mmult e a) = .ok a) ∧
    (n ≠ 0 → (do let e ← eye n n; mmult a e) = .ok a) := by
  obtain ⟨f, hf⟩ := exists_isMat a wfa m n ha
  constructor
  · intro hm
    obtain ⟨e, he, h⟩ := eye_isMat (α := α) m m
    obtain ⟨x, ex, hx⟩ := mmult_isMat h hf hm
    simp only [he, Res.ok_bind, ex]
    congr 1
    refine hx.unique hf ?_
    intro i j hi _
    simp [ite_mul, hi]
  · intro hn
    obtain ⟨e, he, h⟩ := eye_isMat (α := α) n n
    obtain ⟨x, ex, hx⟩ := mmult_isMat hf h hn
    simp only [he, Res.ok_bind, ex]
    congr 1
    refine hx.unique hf ?_
    intro i j _ hj
    simp [mul_ite, hj]

/-- C22: mmult is distributive over + on both sides. -/
theorem c22_distributive (a b c : Tensor α) (wfa : a.WF) (wfb : b.WF) (wfc : c.WF) (m n p : Nat)
    (hn : n ≠ 0) :
    (a.dims = [m, n] → b.dims = [n, p] → c.dims = [n, p] →
      ∃ t : Tensor α, (do let s ← binopTT (· + ·) b c; mmult a s) = .ok t ∧
        (do let x ← mmult a b; let y ← mmult a c; binopTT (· + ·) x y) = .ok t) ∧
    (a.dims = [n, p] → b.dims = [m, n] → c.dims = [m, n] →
      ∃ t : Tensor α, (do let s ← binopTT (· + ·) b c; mmult s a) = .ok t ∧
        (do let x ← mmult b a; let y ← mmult c a; binopTT (· + ·) x y) = .ok t) := by
  constructor
  · intro ha hb hc
    obtain ⟨f, hf⟩ := exists_isMat a wfa m n ha
    obtain ⟨g, hg⟩ := exists_isMat b wfb n p hb
    obtain ⟨h, hh⟩ := exists_isMat c wfc n p hc
    obtain ⟨s, es, hs⟩ := binop_isMat (· + ·) hg hh
    obtain ⟨t, et, ht⟩ := mmult_isMat hf hs hn
    obtain ⟨x, ex, hx⟩ := mmult_isMat hf hg hn
    obtain ⟨y, ey, hy⟩ := mmult_isMat hf hh hn
    obtain ⟨z, ez, hz⟩ := binop_isMat (· + ·) hx hy
    refine ⟨t, by simp [es, et], ?_⟩
    simp only [ex, ey, Res.ok_bind, ez]
    congr 1
    refine hz.unique ht ?_
    intro i j _ _
    simp only [mul_add, Finset.sum_add_distrib]
  · intro ha hb hc
    obtain ⟨f, hf⟩ := exists_isMat a wfa n p ha
    obtain ⟨g, hg⟩ := exists_isMat b wfb m n hb
    obtain ⟨h, hh⟩ := exists_isMat c wfc m n hc
    obtain ⟨s, es, hs⟩ := binop_isMat (· + ·) hg hh
    obtain ⟨t, et, ht⟩ := mmult_isMat hs hf hn
    obtain ⟨x, ex, hx⟩ := mmult_isMat hg hf hn
    obtain ⟨y, ey, hy⟩ := mmult_isMat hh hf hn
    obtain ⟨z, ez, hz⟩ := binop_isMat (· + ·) hx hy
    refine ⟨t, by simp [es, et], ?_⟩
    simp only [ex, ey, Res.ok_bind, ez]
    congr 1
    refine hz.unique ht ?_
    intro i j _ _
    simp only [add_mul, Finset.sum_add_distrib]

/-- C18: transpose reverses products. -/
theorem c18_transpose_product (a b : Tensor α) (wfa : a.WF) (wfb : b.WF) (m n p : Nat)
    (ha : a.dims = [m, n]) (hb : b.dims = [n, p]) (hn : n ≠ 0) :
    ∃ t : Tensor α, (do let ab ← mmult a b; transpose ab) = .ok t ∧
      (do let bt ← transpose b; let at' ← transpose a; mmult bt at') = .ok t := by
  obtain ⟨f, hf⟩ := exists_isMat a wfa m n ha
  obtain ⟨g, hg⟩ := exists_isMat b wfb n p hb
  obtain ⟨ab, e1, h1⟩ := mmult_isMat hf hg hn
  obtain ⟨t, e2, h2⟩ := transpose_isMat h1
  obtain ⟨at', e3, h3⟩ := transpose_isMat hf
  obtain ⟨bt, e4, h4⟩ := transpose_isMat hg
  obtain ⟨s, e5, h5⟩ := mmult_isMat h4 h3 hn
  refine ⟨t, by simp [e1, e2], ?_⟩
  simp only [e3, e4, Res.ok_bind, e5]
  congr 1
  refine h5.unique h2 ?_
  intro i j _ _
  exact Finset.sum_congr rfl fun l _ => mul_comm _ _

/-- C18: adjoint reverses products. -/
theorem c18_adjoint_product (conj : α →+* α) (a b : Tensor α) (wfa : a.WF) (wfb : b.WF) (m n p : Nat)
    (ha : a.dims = [m, n]) (hb : b.dims = [n, p]) (hn : n ≠ 0) :
    ∃ t : Tensor α, (do let ab ← mmult a b; adjoint conj ab) = .ok t ∧
      (do let bt ← adjoint conj b; let at' ← adjoint conj a; mmult bt at') = .ok t := by
  obtain ⟨f, hf⟩ := exists_isMat a wfa m n ha
  obtain ⟨g, hg⟩ := exists_isMat b wfb n p hb
  obtain ⟨ab, e1, h1⟩ := mmult_isMat hf hg hn
  obtain ⟨t, e2, h2⟩ := adjoint_isMat conj h1
  obtain ⟨at', e3, h3⟩ := adjoint_isMat conj hf
  obtain ⟨bt, e4, h4⟩ := adjoint_isMat conj hg
  obtain ⟨s, e5, h5⟩ := mmult_isMat h4 h3 hn
  refine ⟨t, by simp [e1, e2], ?_⟩
  simp only [e3, e4, Res.ok_bind, e5]
  congr 1
  refine h5.unique h2 ?_
  intro i j _ _
  simp only [map_sum, map_mul]
  exact Finset.sum_congr rfl fun l _ => mul_comm _ _

/-- C23: fold_into and foldin_into into a variable different from the arguments. Missing: the output
is one of the arguments, see `c23_negation_alias`. -/
theorem c23_into_partial (st : Nat → Tensor α) (c a b : Nat) (ndx1 ndx2 : Int) (hca : c ≠ a)
    (hcb : c ≠ b) :
    foldInto st c a ndx1 b ndx2 = (do
      let t ← fold (st a) ndx1 (st b) ndx2
      pure (Function.update st c t)) ∧
    foldinInto st c a ndx1 b ndx2 = (do
      let t ← foldin (st a) ndx1 (st b) ndx2
      pure (Function.update st c t)) := by
  have hu : ∀ t : Tensor α, (fun v => if v = c then t else st v) = Function.update st c t := by
    intro t
    funext v
    by_cases h : v = c
    · subst h; simp
    · simp [h]
  constructor
  · simp only [foldInto, fold, doFold, hca, hcb, decide_false, hu]
  · simp only [foldinInto, foldin, hca, hcb, decide_false, hu]

/-- C23 is false of the code when the output is one of the arguments: the elements of the argument
have been discarded when they are read. (Only when the result has no elements this has no effect.) -/
theorem c23_negation_alias (st : Nat → Tensor α) (c a b : Nat) (ndx1 ndx2 : Int) (hca : c = a ∨ c = b)
    (P Q R S : List Nat) (L : Nat) (hda : (st a).dims = P ++ L :: Q) (hdb : (st b).dims = R ++ L :: S)
    (h1 : norm (st a).dims.length ndx1 = some P.length)
    (h2 : norm (st b).dims.length ndx2 = some R.length) (hL : L ≠ 0)
    (hne : prod P * prod Q * prod R * prod S ≠ 0) :
    foldInto st c a ndx1 b ndx2 = .ub := by
  have := doFoldInto_alias (α := α) id false (decide (c = a)) (decide (c = b)) P Q R S L (st a).data
    (st b).data ndx1 ndx2 (hda ▸ h1) (hdb ▸ h2) hL (by simpa using hca) hne
  have ea : (⟨P ++ L :: Q, (st a).data⟩ : Tensor α) = st a := by rw [← hda]
  have eb : (⟨R ++ L :: S, (st b).data⟩ : Tensor α) = st b := by rw [← hdb]
  rw [ea, eb] at this
  simp [foldInto, this]

/-- C23: a case in which fold(A,1,B,0) has a value and fold_into(A,A,1,B,0) does not. -/
theorem c23_negation_witness :
    ∃ (st : Nat → Tensor Int) (t : Tensor Int), (∀ v, (st v).WF) ∧
      fold (st 0) 1 (st 1) 0 = .ok t ∧ foldInto st 0 0 1 1 0 = .ub ∧
      foldInto st 1 0 1 1 0 = .ub ∧ foldinInto st 0 0 1 1 0 = .ub :=
  ⟨fun _ => ⟨[2, 2], [1, 2, 3, 4]⟩, ⟨[2, 2], [7, 10, 15, 22]⟩, fun _ => rfl, by decide, rfl, rfl,
    rfl⟩

section Examples

/-- A 2 x 2 x 3 tensor and a 3 x 2 matrix of complex numbers; index 2 of the first and index 0 of the
second are contracted. -/
private noncomputable def a223 : Tensor ℂ := ⟨[2, 2, 3], List.replicate 12 Complex.I⟩
private noncomputable def b32 : Tensor ℂ := ⟨[3, 2], [1, 2, 3, 4, 5, 6]⟩

example := c19_fold a223 b32 (by simp [a223, WF]) (by simp [b32, WF]) (-1) 0 [2, 2] [] [] [2] 3 3
  rfl rfl (by simp [a223, norm]) (by simp [b32, norm])
example : elem b32.dims b32.data [1, 1] = some 5 := by simp [b32, elem]
example := c20_foldc (starRingEnd ℂ) Complex.conj_conj a223 b32 (by simp [a223, WF])
  (by simp [b32, WF]) (-1) 0
example := c20_foldc_real_complex (fun x : ℝ => (x : ℂ)) (starRingEnd ℂ) Complex.conj_ofReal
example := c20_foldc_complex_real (fun x : ℝ => (x : ℂ)) (starRingEnd ℂ) Complex.conj_conj
example := c21_foldin_partial a223 b32 (by simp [a223, WF]) (by simp [b32, WF]) (-1) 0 [2, 2] [] [] [2]
  3 3 rfl rfl (by simp [a223, norm]) (by simp [b32, norm]) (by simp [a223])

private def m23 : Tensor Int := ⟨[2, 3], [1, 2, 3, 4, 5, 6]⟩
private def m32 : Tensor Int := ⟨[3, 2], [1, 2, 3, 4, 5, 6]⟩

example : mmult m23 m32 = .ok ⟨[2, 2], [22, 28, 49, 64]⟩ := by decide
example : fold m23 0 m32 1 = .ok ⟨[3, 3], [9, 19, 29, 12, 26, 40, 15, 33, 51]⟩ := by decide
example : foldin m23 0 m32 1 = .ok ⟨[3, 3], [9, 12, 15, 19, 26, 33, 29, 40, 51]⟩ := by decide
example : fold m23 0 m23 0 = .ok ⟨[3, 3], [5, 11, 17, 11, 25, 39, 17, 39, 61]⟩ := by decide
example : fold m23 0 m32 0 = .abort ∧ fold (⟨[2, 0], []⟩ : Tensor Int) 1 ⟨[0, 2], []⟩ 0 = .abort := by
  decide
example := c22_associative m23 m32 m23 rfl rfl rfl 2 3 2 3 rfl rfl rfl (by decide) (by decide)
example := (c22_distributive m23 m32 m32 rfl rfl rfl 2 3 2 (by decide)).1 rfl rfl rfl
example := c18_adjoint_product (RingHom.id Int) m23 m32 rfl rfl 2 3 2 rfl rfl (by decide)
example := c23_negation_alias (fun _ => (⟨[2, 2], [1, 2, 3, 4]⟩ : Tensor Int)) 0 0 1 1 0 (Or.inl rfl)
  [2] [] [] [2] 2 rfl rfl rfl rfl (by decide) (by decide)

end Examples

end Verif.Tensor
