import Verif.Props.SparseKron
import Verif.Props.SparseCoord
/-
C36: consistency of sparse matrices.  C62: comparison of sparse matrices.
-/
namespace Verif.Sparse

open Verif Verif.Spec

variable {α : Type}

/-- Expressions with sparse matrices: conversions of dense matrices, matrices of zeros, unit matrices,
elementwise operations (sum, difference, product), functions of the stored elements (negation,
conjugation, products with numbers), Kronecker products and adjoints (transposes with conj = id). -/
inductive Expr (α : Type) where
  | dense (t : Tensor α)
  | zeros (r c : Nat)
  | eye (r c : Nat)
  | binop (op : α → α → α) (a b : Expr α)
  | map (φ : α → α) (a : Expr α)
  | kron (a b : Expr α)
  | kron2 (a b : Expr α)
  | adjoint (conj : α → α) (a : Expr α)

/-- Possible results of the evaluation of an expression by the library. -/
def Expr.Eval [CommSemiring α] [DecidableEq α] : Expr α → Res (Sparse α) → Prop
  | dense t, out => out = ofTensor t
  | zeros r c, out => out = .ok (Sparse.zeros r c)
  | eye r c, out => out = Sparse.eye r c
  | binop op a b, out => ∃ x y, a.Eval x ∧ b.Eval y ∧ out = (do
      let x ← x
      let y ← y
      Sparse.binop op x y)
  | map φ a, out => ∃ x, a.Eval x ∧ out = (do
      let x ← x
      mapData φ x)
  | kron a b, out => ∃ x y, a.Eval x ∧ b.Eval y ∧ out = (do
      let x ← x
      let y ← y
      Sparse.kron x y)
  | kron2 a b, out => ∃ x y, a.Eval x ∧ b.Eval y ∧ out = (do
      let x ← x
      let y ← y
      Sparse.kron2 x y)
  | adjoint conj a, out => ∃ x, a.Eval x ∧
      match x with
      | .ok s => Adjoint conj s out
      | .abort => out = .abort
      | .ub => out = .ub

/-- Mathematical meaning of an expression: the entries of an r x c matrix. -/
inductive Expr.Means [CommSemiring α] : Expr α → Nat → Nat → (Nat → Nat → α) → Prop where
  | dense (t : Tensor α) (r c : Nat) (f : Nat → Nat → α) :
      IsMat t.dims t.data r c f → Means (.dense t) r c f
  | zeros (r c : Nat) : Means (.zeros r c) r c fun _ _ => 0
  | eye (r c : Nat) : Means (.eye r c) r c fun i j => if i = j then 1 else 0
  | binop (op : α → α → α) (a b : Expr α) (r c : Nat) (f g : Nat → Nat → α) :
      op 0 0 = 0 → Means a r c f → Means b r c g →
      Means (.binop op a b) r c fun i j => op (f i j) (g i j)
  | map (φ : α → α) (a : Expr α) (r c : Nat) (f : Nat → Nat → α) :
      φ 0 = 0 → Means a r c f → Means (.map φ a) r c fun i j => φ (f i j)
  | kron (a b : Expr α) (r c r' c' : Nat) (f g : Nat → Nat → α) :
      Means a r c f → Means b r' c' g →
      Means (.kron a b) (r' * r) (c' * c) fun i j => f (i / r') (j / c') * g (i % r') (j % c')
  | kron2 (a b : Expr α) (r c r' c' : Nat) (f g : Nat → Nat → α) :
      Means a r c f → Means b r' c' g →
      Means (.kron2 a b) (r * r') (c * c') fun i j => g (i / r) (j / c) * f (i % r) (j % c)
  | adjoint (conj : α → α) (a : Expr α) (r c : Nat) (f : Nat → Nat → α) :
      conj 0 = 0 → Means a r c f → Means (.adjoint conj a) c r fun i j => conj (f j i)

/-- C36: each expression whose dimensions agree has a result; all its results are sparse matrices with
consistent arrays, and with the entries which the expression means. -/
theorem c36_expressions [CommSemiring α] [DecidableEq α] (e : Expr α) (r c : Nat)
    (f : Nat → Nat → α) (h : e.Means r c f) :
    (∃ out, e.Eval out) ∧ ∀ out, e.Eval out → ∃ s, out = .ok s ∧
      IsCsr s.rows s.cols s.rowStart s.column s.data r c f := by
  induction h with
  | dense t r c f h =>
    refine ⟨⟨_, rfl⟩, ?_⟩
    rintro out rfl
    obtain ⟨s, e, hs, -⟩ := c35_sparse t r c f h
    exact ⟨s, e, hs⟩
  | zeros r c =>
    refine ⟨⟨_, rfl⟩, ?_⟩
    rintro out rfl
    exact ⟨_, rfl, zeros_isCsr r c⟩
  | eye r c =>
    refine ⟨⟨_, rfl⟩, ?_⟩
    rintro out rfl
    obtain ⟨s, e, hs⟩ := c36_eye (α := α) r c
    exact ⟨s, e, hs⟩
  | binop op a b r c f g hop _ _ iha ihb =>
    obtain ⟨⟨oa, ha⟩, ha'⟩ := iha
    obtain ⟨⟨ob, hb⟩, hb'⟩ := ihb
    refine ⟨⟨_, oa, ob, ha, hb, rfl⟩, ?_⟩
    rintro out ⟨x, y, hx, hy, rfl⟩
    obtain ⟨s, rfl, hs⟩ := ha' x hx
    obtain ⟨t, rfl, ht⟩ := hb' y hy
    obtain ⟨u, e, hu, -⟩ := c37_binop op hop s t r c f g hs ht
    exact ⟨u, e, hu⟩
  | map φ a r c f hφ _ iha =>
    obtain ⟨⟨oa, ha⟩, ha'⟩ := iha
    refine ⟨⟨_, oa, ha, rfl⟩, ?_⟩
    rintro out ⟨x, hx, rfl⟩
    obtain ⟨s, rfl, hs⟩ := ha' x hx
    exact c37_map φ hφ s r c f hs
  | kron a b r c r' c' f g _ _ iha ihb =>
    obtain ⟨⟨oa, ha⟩, ha'⟩ := iha
    obtain ⟨⟨ob, hb⟩, hb'⟩ := ihb
    refine ⟨⟨_, oa, ob, ha, hb, rfl⟩, ?_⟩
    rintro out ⟨x, y, hx, hy, rfl⟩
    obtain ⟨s, rfl, hs⟩ := ha' x hx
    obtain ⟨t, rfl, ht⟩ := hb' y hy
    exact c38_kron s t r c r' c' f g hs ht
  | kron2 a b r c r' c' f g _ _ iha ihb =>
    obtain ⟨⟨oa, ha⟩, ha'⟩ := iha
    obtain ⟨⟨ob, hb⟩, hb'⟩ := ihb
    refine ⟨⟨_, oa, ob, ha, hb, rfl⟩, ?_⟩
    rintro out ⟨x, y, hx, hy, rfl⟩
    obtain ⟨s, rfl, hs⟩ := ha' x hx
    obtain ⟨t, rfl, ht⟩ := hb' y hy
    exact c38_kron t s r' c' r c g f ht hs
  | adjoint conj a r c f h0 _ iha =>
    obtain ⟨⟨oa, ha⟩, ha'⟩ := iha
    obtain ⟨s, rfl, hs⟩ := ha' oa ha
    obtain ⟨⟨o, ho⟩, -⟩ := c40_adjoint conj h0 s r c f hs
    refine ⟨⟨o, _, ha, ho⟩, ?_⟩
    rintro out ⟨x, hx, hout⟩
    obtain ⟨s', rfl, hs'⟩ := ha' x hx
    obtain ⟨s2, e, h2, -⟩ := (c40_adjoint conj h0 s' r c f hs').2 out hout
    exact ⟨s2, e, h2⟩

/-- The dense matrices of an expression are matrices, and its elementwise functions keep zero. Dimensions
need not agree. -/
def Expr.Wf [Zero α] : Expr α → Prop
  | dense t => t.WF ∧ ∃ r c, t.dims = [r, c]
  | zeros _ _ => True
  | eye _ _ => True
  | binop op a b => op 0 0 = 0 ∧ a.Wf ∧ b.Wf
  | map φ a => φ 0 = 0 ∧ a.Wf
  | kron a b => a.Wf ∧ b.Wf
  | kron2 a b => a.Wf ∧ b.Wf
  | adjoint conj a => conj 0 = 0 ∧ a.Wf

/-- C36: an expression gives a sparse matrix with consistent arrays, or stops the program, which only
happens if dimensions do not agree; there is no undefined behaviour. -/
theorem c36_invariant [CommSemiring α] [DecidableEq α] (e : Expr α) (wf : e.Wf) (out : Res (Sparse α))
    (h : e.Eval out) :
    (out = .abort ∧ ∀ r c f, ¬ e.Means r c f) ∨
      ∃ s, out = .ok s ∧ ValidCsr s.rows s.cols s.rowStart s.column s.data := by
  have main : out = .abort ∨ ∃ s, out = .ok s ∧ ValidCsr s.rows s.cols s.rowStart s.column s.data := by
    induction e generalizing out with
    | dense t =>
      obtain ⟨wf, r, c, hd⟩ := wf
      obtain ⟨f, hf⟩ := Tensor.exists_isMat t wf r c hd
      obtain ⟨s, e, hs, -⟩ := c35_sparse t r c f hf
      exact Or.inr ⟨s, by rw [h, e], hs.2.2.1⟩
    | zeros r c => exact Or.inr ⟨_, h, (zeros_isCsr r c).2.2.1⟩
    | eye r c =>
      obtain ⟨s, e, hs⟩ := c36_eye (α := α) r c
      exact Or.inr ⟨s, by rw [h, e], hs.2.2.1⟩
    | binop op a b iha ihb =>
      obtain ⟨hop, wa, wb⟩ := wf
      obtain ⟨x, y, hx, hy, rfl⟩ := h
      rcases iha wa x hx with rfl | ⟨s, rfl, hs⟩
      · exact Or.inl rfl
      rcases ihb wb y hy with rfl | ⟨t, rfl, ht⟩
      · exact Or.inl rfl
      simp only [Res.ok_bind]
      obtain ⟨f, hf⟩ := exists_isCsr s hs
      obtain ⟨g, hg⟩ := exists_isCsr t ht
      by_cases hd : s.rows = t.rows ∧ s.cols = t.cols
      · have hg' : IsCsr t.rows t.cols t.rowStart t.column t.data s.rows s.cols g := by
          rw [hd.1, hd.2]; exact hg
        obtain ⟨u, e, hu, -⟩ := c37_binop op hop s t _ _ f g hf hg'
        exact Or.inr ⟨u, e, hu.2.2.1⟩
      · exact Or.inl (c37_mismatch op s t (by omega))
    | map φ a iha =>
      obtain ⟨h0, wa⟩ := wf
      obtain ⟨x, hx, rfl⟩ := h
      rcases iha wa x hx with rfl | ⟨s, rfl, hs⟩
      · exact Or.inl rfl
      obtain ⟨f, hf⟩ := exists_isCsr s hs
      obtain ⟨u, e, hu⟩ := c37_map φ h0 s _ _ f hf
      exact Or.inr ⟨u, e, hu.2.2.1⟩
    | kron a b iha ihb =>
      obtain ⟨x, y, hx, hy, rfl⟩ := h
      rcases iha wf.1 x hx with rfl | ⟨s, rfl, hs⟩
      · exact Or.inl rfl
      rcases ihb wf.2 y hy with rfl | ⟨t, rfl, ht⟩
      · exact Or.inl rfl
      obtain ⟨f, hf⟩ := exists_isCsr s hs
      obtain ⟨g, hg⟩ := exists_isCsr t ht
      obtain ⟨u, e, hu⟩ := c38_kron s t _ _ _ _ f g hf hg
      exact Or.inr ⟨u, e, hu.2.2.1⟩
    | kron2 a b iha ihb =>
      obtain ⟨x, y, hx, hy, rfl⟩ := h
      rcases iha wf.1 x hx with rfl | ⟨s, rfl, hs⟩
      · exact Or.inl rfl
      rcases ihb wf.2 y hy with rfl | ⟨t, rfl, ht⟩
      · exact Or.inl rfl
      obtain ⟨f, hf⟩ := exists_isCsr s hs
      obtain ⟨g, hg⟩ := exists_isCsr t ht
      obtain ⟨u, e, hu⟩ := c38_kron t s _ _ _ _ g f hg hf
      exact Or.inr ⟨u, e, hu.2.2.1⟩
    | adjoint conj a iha =>
      obtain ⟨h0, wa⟩ := wf
      obtain ⟨x, hx, hout⟩ := h
      rcases iha wa x hx with rfl | ⟨s, rfl, hs⟩
      · exact Or.inl hout
      obtain ⟨f, hf⟩ := exists_isCsr s hs
      obtain ⟨u, e, hu, -⟩ := (c40_adjoint conj h0 s _ _ f hf).2 out hout
      exact Or.inr ⟨u, e, hu.2.2.1⟩
  rcases main with rfl | hs
  · refine Or.inl ⟨rfl, ?_⟩
    intro r c f hm
    obtain ⟨s, e, -⟩ := (c36_expressions e r c f hm).2 _ h
    cases e
  · exact Or.inr hs

/-- C36 is false for Sparse(rows, cols, nonzero) with nonzero > 0: the row pointers do not agree with the
number of elements. -/
theorem c36_preallocated (r c n : Nat) (s : Sparse α) (h : Preallocated r c n s) (hr : r ≠ 0) (hc : c ≠ 0)
    (hn : n ≠ 0) : ¬ ValidCsr s.rows s.cols s.rowStart s.column s.data := by
  intro hv
  obtain ⟨h1, -, -, -, h2⟩ := h
  have hlast := hv.last
  rw [h2, List.getLast?_replicate, if_neg (by omega)] at hlast
  rw [safeSize, if_neg (by omega)] at h1
  by_cases ha : n / r ≤ c
  · rw [Res.assert_pos ha] at h1
    simp only [Res.ok_bind, Res.pure_eq, Res.ok.injEq] at h1
    simp only [Option.some.injEq] at hlast
    omega
  · rw [Res.assert_neg ha] at h1
    simp at h1

/-- C36: as a consequence, transposing such a matrix uses memory which is not initialised. -/
theorem c36_preallocated_transpose [Zero α] [DecidableEq α] (r c n : Nat) (s : Sparse α)
    (h : Preallocated r c n s) (hr : r ≠ 0) (hc : c ≠ 0) (hn : n ≠ 0) (out : Res (Sparse α))
    (ho : Transpose s out) : out = .ub := by
  obtain ⟨h1, -, -, -, h2⟩ := h
  have hlen : s.column.length ≠ 0 := by
    rw [safeSize, if_neg (by omega)] at h1
    by_cases ha : n / r ≤ c
    · rw [Res.assert_pos ha] at h1
      simp only [Res.ok_bind, Res.pure_eq, Res.ok.injEq] at h1
      omega
    · rw [Res.assert_neg ha] at h1
      simp at h1
  have hrows : sparseRows s.rowStart s.column = .ub := by
    rw [sparseRows, h2, List.length_replicate, Nat.add_sub_cancel,
      collect_ok _ (fun _ => []) 0 r]
    · rw [Res.ok_bind]
      have : ((List.range' 0 r).map fun _ => ([] : List Nat)).flatten = [] := by
        rw [List.flatten_eq_nil_iff]
        intro l hl
        obtain ⟨_, -, rfl⟩ := List.mem_map.mp hl
        rfl
      rw [this]
      obtain ⟨m, hm⟩ := Nat.exists_eq_succ_of_ne_zero hlen
      rw [hm]
      rfl
    · intro k _ hk
      rw [List.getElem?_replicate, if_pos (by omega), List.getElem?_replicate, if_pos (by omega)]
      rfl
  rw [Transpose, Adjoint, hrows] at ho
  exact ho

/-- C35 for vectors: the constructor reads beyond the end of the dimensions. -/
theorem c35_vector [Zero α] [DecidableEq α] (t : Tensor α) (n : Nat) (h : t.dims = [n]) :
    ofTensor t = .ub := by
  rw [ofTensor, h]

/-- C62: matrices which compare equal are the same. -/
theorem c62_sound [DecidableEq α] (s t : Sparse α) : allEqual s t = true ↔ s = t := by
  cases s; cases t
  simp [allEqual, and_assoc]

/-- C62: comparison of matrices without stored zeros is comparison of their entries. -/
theorem c62_entries_partial [Zero α] [DecidableEq α] (s t : Sparse α)
    (hs : ValidCsr s.rows s.cols s.rowStart s.column s.data)
    (ht : ValidCsr t.rows t.cols t.rowStart t.column t.data)
    (zs : ∀ v ∈ s.data, v ≠ 0) (zt : ∀ v ∈ t.data, v ≠ 0) :
    allEqual s t = true ↔ full s = full t := by
  rw [c62_sound]
  constructor
  · rintro rfl; rfl
  · intro e
    obtain ⟨d, e1, e2⟩ := c35_full_sparse s hs zs
    obtain ⟨d', e1', e2'⟩ := c35_full_sparse t ht zt
    rw [e1, e1'] at e
    cases e
    rw [e2] at e2'
    cases e2'
    rfl

/-- C62 is false if zeros are stored, which products with zero do: 0 * [[1]] and the 1 x 1 zero matrix
have the same entries, but compare as different. -/
theorem c62_stored_zero :
    ∃ s : Sparse Int, mapData (fun x => x * 0) ⟨1, 1, [0, 1], [0], [1]⟩ = .ok s ∧
      full s = full (zeros 1 1 : Sparse Int) ∧ allEqual s (zeros 1 1) = false :=
  ⟨⟨1, 1, [0, 1], [0], [0]⟩, rfl, by decide, by decide⟩

/-- Cases in which the hypotheses hold: (unit matrix + dense)' ⊗ zeros. -/
example : (Expr.kron (.adjoint id (.binop (· + ·) (.eye 1 2) (.dense ⟨[1, 2], [3, 4]⟩))) (.zeros 2 2) :
    Expr Int).Means (2 * 2) (2 * 1) (fun i j => id ((if j / 2 = i / 2 then 1 else 0) +
      if i / 2 = 0 then 3 else 4) * 0) :=
  .kron _ _ _ _ _ _ _ _ (.adjoint _ _ _ _ _ rfl (.binop _ _ _ _ _ _ _ rfl (.eye 1 2)
    (.dense _ 1 2 (fun _ j => if j = 0 then 3 else 4) ⟨rfl, rfl, by
      intro i j hi hj
      have hi : i = 0 := by omega
      have hj : j = 0 ∨ j = 1 := by omega
      subst hi
      rcases hj with rfl | rfl <;> rfl⟩))) (.zeros 2 2)
example : Preallocated 2 2 1 (⟨2, 2, [0, 0, 0], [0], [5]⟩ : Sparse Int) := by
  refine ⟨by decide, rfl, rfl, rfl, rfl⟩

end Verif.Sparse
