import Verif.Lemmas.Fold2
import Verif.Lemmas.Arith
/-
Lemmas for foldin, aliases of the output, and products of matrices.
-/
namespace Verif.Tensor

open Verif Spec

variable {α : Type}

/-- Invalid values are never ignored. -/
theorem writeAll_none (ws : List (Nat × Option α)) (buf : List (Option α))
    (h : ∃ w ∈ ws, w.2 = none) : writeAll buf ws = .ub := by
  induction ws generalizing buf with
  | nil => simp at h
  | cons w ws ih =>
    obtain ⟨p, _ | v⟩ := w
    · rfl
    · rw [writeAll]
      split
      · apply ih
        obtain ⟨w, hw, e⟩ := h
        rcases List.mem_cons.1 hw with rfl | hw
        · simp at e
        · exact ⟨w, hw, e⟩
      · rfl

theorem runWrites_none (n : Nat) (ws : List (Nat × Option α)) (h : ∃ w ∈ ws, w.2 = none) :
    runWrites n ws = .ub := by
  rw [runWrites, writeAll_none _ _ h]; rfl

variable [CommSemiring α]

theorem sumO_none (n : Nat) (f : Nat → Option α) (hn : n ≠ 0) (h : ∀ l < n, f l = none) :
    sumO n f = none := by
  obtain ⟨m, rfl⟩ := Nat.exists_eq_succ_of_ne_zero hn
  rw [Nat.succ_eq_add_one, sumO_succ, h m (by omega)]
  cases sumO m f <;> rfl

omit [CommSemiring α] in
theorem entry_nil (conj : α → α) (op : BlasOp) (off ld i j : Nat) :
    op.entry conj ([] : List α) off ld i j = none := by
  cases op <;> simp [BlasOp.entry]

theorem gemm_none (conj : α → α) (op1 op2 : BlasOp) (m n k : Nat) (a : List α) (offA lda : Nat)
    (b : List α) (offB ldb offC ldc : Nat) (h : a = [] ∨ b = []) (hm : m ≠ 0) (hn : n ≠ 0)
    (hk : k ≠ 0) :
    ∃ w ∈ gemm conj op1 op2 m n k a offA lda b offB ldb offC ldc, w.2 = none := by
  unfold gemm
  by_cases hg : lda < max 1 (if op1 = .N then m else k) ∨ ldb < max 1 (if op2 = .N then k else n) ∨
      ldc < max 1 m
  · rw [if_pos hg]
    exact ⟨(0, none), by simp, rfl⟩
  · rw [if_neg hg]
    refine ⟨_, List.mem_flatMap.2 ⟨0, List.mem_range.2 (by omega), List.mem_map.2
      ⟨0, List.mem_range.2 (by omega), rfl⟩⟩, ?_⟩
    apply sumO_none k _ hk
    intro l _
    rcases h with rfl | rfl
    · simp [entry_nil]
    · simp [entry_nil]

/-- Reading an operand with no initialised elements. -/
theorem foldBody_none (conj : α → α) (dc : Bool) (a b : List α) (N I J K L M : Nat)
    (h : a = [] ∨ b = []) (hI : I ≠ 0) (hJ : J ≠ 0) (hK : K ≠ 0) (hL : L ≠ 0) (hM : M ≠ 0) :
    foldBody conj dc a b N I J K L M = .ub := by
  unfold foldBody
  simp only
  split
  · exact runWrites_none _ _ (gemm_none _ _ _ _ _ _ _ _ _ _ _ _ _ _ h hJ hM hL)
  split
  · exact runWrites_none _ _ (gemm_none _ _ _ _ _ _ _ _ _ _ _ _ _ _ h hJ hK hL)
  split
  · exact runWrites_none _ _ (gemm_none _ _ _ _ _ _ _ _ _ _ _ _ _ _ h hI hM hL)
  split
  · exact runWrites_none _ _ (gemm_none _ _ _ _ _ _ _ _ _ _ _ _ _ _ h hI hK hL)
  rw [runWrites_none]
  · rfl
  · obtain ⟨w, hw, e⟩ := gemm_none conj .N (if dc then .C else .T) I K L a (I * L * 0) I b
      (K * L * 0) K (I * (0 + J * K * 0)) (I * J) h hI hK hL
    exact ⟨w, List.mem_flatMap.2 ⟨0, List.mem_range.2 (by omega), List.mem_flatMap.2
      ⟨0, List.mem_range.2 (by omega), hw⟩⟩, e⟩

theorem doFoldInto_alias (conj : α → α) (dc aA aB : Bool) (P Q R S : List Nat) (L : Nat)
    (da db : List α) (ndx1 ndx2 : Int)
    (h1 : norm (P ++ L :: Q).length ndx1 = some P.length)
    (h2 : norm (R ++ L :: S).length ndx2 = some R.length) (hL : L ≠ 0)
    (h : aA = true ∨ aB = true) (hne : prod P * prod Q * prod R * prod S ≠ 0) :
    doFoldInto conj dc aA aB ⟨P ++ L :: Q, da⟩ ndx1 ⟨R ++ L :: S, db⟩ ndx2 = .ub := by
  have e1 : (P ++ L :: Q)[P.length]? = some L := by simp
  have e2 : (P ++ L :: Q).take P.length = P := by simp
  have e3 : (P ++ L :: Q).drop (P.length + 1) = Q := by
    rw [show P ++ L :: Q = (P ++ [L]) ++ Q by simp, List.drop_left' (by simp)]
  have f1 : (R ++ L :: S)[R.length]? = some L := by simp
  have f2 : (R ++ L :: S).take R.length = R := by simp
  have f3 : (R ++ L :: S).drop (R.length + 1) = S := by
    rw [show R ++ L :: S = (R ++ [L]) ++ S by simp, List.drop_left' (by simp)]
  have ho : (if (P ++ Q ++ (R ++ S)).length = 0 then [1] else P ++ Q ++ (R ++ S)) =
      outDims (P ++ Q ++ (R ++ S)) := by
    simp only [outDims, List.length_eq_zero_iff]
  simp only [doFoldInto, rank, normalizeIndex_eq, h1, h2, Res.ok_bind, Int.toNat_natCast, e1, e2, e3,
    f1, f2, f3, Res.ofOption_some, foldl_mul, Nat.one_mul, Res.assert_bind, ho, outDims_total]
  rw [if_pos hL, if_pos trivial, if_neg hne, foldBody_none]
  · rfl
  · rcases h with rfl | rfl <;> simp
  · rintro e; simp [e] at hne
  · rintro e; simp [e] at hne
  · rintro e; simp [e] at hne
  · exact hL
  · rintro e; simp [e] at hne

/-! ### foldin -/

theorem doFoldinInto_split (aA aB : Bool) (P Q R S : List Nat) (L L' : Nat)
    (da db : List α) (ndx1 ndx2 : Int)
    (h1 : norm (P ++ L :: Q).length ndx1 = some P.length)
    (h2 : norm (R ++ L' :: S).length ndx2 = some R.length) :
    doFoldinInto aA aB ⟨P ++ L :: Q, da⟩ ndx1 ⟨R ++ L' :: S, db⟩ ndx2 =
      if L' = L then
        if R ++ (P ++ (Q ++ S)) = [] then .ub
        else if totalSize (R ++ (P ++ (Q ++ S))) = 0 then .ok ⟨R ++ (P ++ (Q ++ S)), []⟩
        else do
          let c ← runWrites (totalSize (R ++ (P ++ (Q ++ S)))) ((List.range (prod S)).flatMap fun m =>
            (List.range (prod Q)).flatMap fun j =>
              gemm id .N .T (prod R) (prod P) L' (if aB then [] else db) (prod R * L' * m) (prod R)
                (if aA then [] else da) (prod P * L' * j) (prod P)
                (prod R * prod P * (j + prod Q * m)) (prod R))
          pure ⟨R ++ (P ++ (Q ++ S)), c⟩
      else .abort := by
  have e1 : (P ++ L :: Q)[P.length]? = some L := by simp
  have e2 : (P ++ L :: Q).take P.length = P := by simp
  have e3 : (P ++ L :: Q).drop (P.length + 1) = Q := by
    rw [show P ++ L :: Q = (P ++ [L]) ++ Q by simp, List.drop_left' (by simp)]
  have f1 : (R ++ L' :: S)[R.length]? = some L' := by simp
  have f2 : (R ++ L' :: S).take R.length = R := by simp
  have f3 : (R ++ L' :: S).drop (R.length + 1) = S := by
    rw [show R ++ L' :: S = (R ++ [L']) ++ S by simp, List.drop_left' (by simp)]
  simp only [doFoldinInto, rank, normalizeIndex_eq, h1, h2, Res.ok_bind, Int.toNat_natCast, e1, e2,
    e3, f1, f2, f3, Res.ofOption_some, foldl_mul, Nat.one_mul, Res.assert_bind,
    List.length_eq_zero_iff]
  rfl

theorem foldin_norm_none (aA aB : Bool) (a b : Tensor α) (ndx1 ndx2 : Int)
    (h : norm a.dims.length ndx1 = none ∨ norm b.dims.length ndx2 = none) :
    doFoldinInto aA aB a ndx1 b ndx2 = .abort := by
  rcases h with h | h
  · simp [doFoldinInto, rank, normalizeIndex_eq, h]
  · simp only [doFoldinInto, rank, normalizeIndex_eq, h]
    cases norm a.dims.length ndx1 <;> rfl

theorem foldin_ok (P Q R S : List Nat) (L : Nat) (da db : List α) (ndx1 ndx2 : Int)
    (h1 : norm (P ++ L :: Q).length ndx1 = some P.length)
    (h2 : norm (R ++ L :: S).length ndx2 = some R.length)
    (hne : R ++ (P ++ (Q ++ S)) ≠ [])
    (ha : da.length = prod P * L * prod Q) (hb : db.length = prod R * L * prod S) :
    ∃ c, foldin ⟨P ++ L :: Q, da⟩ ndx1 ⟨R ++ L :: S, db⟩ ndx2 = .ok ⟨R ++ (P ++ (Q ++ S)), c⟩ ∧
      c.length = prod R * prod P * prod Q * prod S ∧
      ∀ k i j m, k < prod R → i < prod P → j < prod Q → m < prod S →
        c[k + prod R * (i + prod P * (j + prod Q * m))]? =
          some (∑ l ∈ Finset.range L, ent db (prod R) L k l m * ent da (prod P) L i l j) := by
  have hT : totalSize (R ++ (P ++ (Q ++ S))) = prod R * prod P * prod Q * prod S := by
    rw [totalSize_of_ne hne]; simp only [prod_append]; ring
  rw [foldin, doFoldinInto_split _ _ _ _ _ _ _ _ _ _ _ _ h1 h2, if_pos rfl, if_neg hne, hT]
  by_cases h0 : prod R * prod P * prod Q * prod S = 0
  · rw [if_pos h0]
    refine ⟨[], rfl, by simpa using h0.symm, ?_⟩
    intro i j k m hi hj hk hm
    have := pos_lt hi hj hk hm
    omega
  · rw [if_neg h0]
    have hP : prod P ≠ 0 := by rintro e; simp [e] at h0
    have hQ : prod Q ≠ 0 := by rintro e; simp [e] at h0
    have hR : prod R ≠ 0 := by rintro e; simp [e] at h0
    have hS : prod S ≠ 0 := by rintro e; simp [e] at h0
    generalize prod P = I at *
    generalize prod Q = J at *
    generalize prod R = K at *
    generalize prod S = M at *
    have hmem := fun (j m : Nat) (w : Nat × Option α) => mem_gemm id .N .T
      K I L db (K * L * m) K da (I * L * j) I
      (K * I * (j + J * m)) K (by simp; omega) (by simp; omega) (by omega) w
    obtain ⟨c, e, hl, hv⟩ := runWrites4 K I J M _ rfl
      (fun k i j m => ∑ l ∈ Finset.range L, ent db K L k l m * ent da I L i l j)
      ((List.range M).flatMap fun m => (List.range J).flatMap fun j =>
        gemm id .N .T K I L db (K * L * m) K da (I * L * j) I (K * I * (j + J * m)) K)
      (by
        intro w hw
        simp only [List.mem_flatMap, List.mem_range] at hw
        obtain ⟨m, hm, j, hj, hw⟩ := hw
        rw [hmem] at hw
        obtain ⟨k, hk, i, hi, rfl⟩ := hw
        refine ⟨k, i, j, m, hk, hi, hj, hm, by ring, ?_⟩
        apply sumO_prod
        · intro l hl
          rw [← ent_eq db hb hk hl hm]
          simp only [BlasOp.entry]
          congr 1; ring
        · intro l hl
          rw [← ent_eq da ha hi hl hj]
          simp only [BlasOp.entry]
          congr 1; ring)
      (by
        intro k i j m hk hi hj hm
        refine ⟨_, List.mem_flatMap.2 ⟨m, List.mem_range.2 hm, List.mem_flatMap.2
          ⟨j, List.mem_range.2 hj, (hmem j m _).2 ⟨k, hk, i, hi, rfl⟩⟩⟩, ?_⟩
        ring)
    simp only [Bool.false_eq_true, if_false, e]
    exact ⟨c, rfl, hl, hv⟩

theorem foldin_elem (a b : Tensor α) (wfa : a.WF) (wfb : b.WF)
    (P Q R S : List Nat) (L : Nat) (ndx1 ndx2 : Int) (hda : a.dims = P ++ L :: Q)
    (hdb : b.dims = R ++ L :: S)
    (h1 : norm a.dims.length ndx1 = some P.length)
    (h2 : norm b.dims.length ndx2 = some R.length) (hne : R ++ (P ++ (Q ++ S)) ≠ []) :
    ∃ c : Tensor α, foldin a ndx1 b ndx2 = .ok c ∧ c.WF ∧
      c.dims = R ++ (P ++ (Q ++ S)) ∧
      ∀ p q r s, InB p P → InB q Q → InB r R → InB s S → ∀ f g : Nat → α,
        (∀ l < L, elem a.dims a.data (p ++ l :: q) = some (f l)) →
        (∀ l < L, elem b.dims b.data (r ++ l :: s) = some (g l)) →
        elem c.dims c.data (r ++ (p ++ (q ++ s))) =
          some (∑ l ∈ Finset.range L, f l * g l) := by
  obtain ⟨dimsa, da⟩ := a
  obtain ⟨dimsb, db⟩ := b
  simp only at hda hdb
  subst hda hdb
  have ha : da.length = prod P * L * prod Q := by
    rw [WF.length_eq wfa (by simp)]; simp only [prod_append, prod_cons]; ring
  have hb : db.length = prod R * L * prod S := by
    rw [WF.length_eq wfb (by simp)]; simp only [prod_append, prod_cons]; ring
  obtain ⟨c, e, hl, hv⟩ := foldin_ok P Q R S L da db ndx1 ndx2 h1 h2 hne ha hb
  refine ⟨_, e, ?_, rfl, ?_⟩
  · show c.length = totalSize _
    rw [totalSize_of_ne hne, hl]; simp only [prod_append]; ring
  · intro p q r s hp hq hr hs f g hf hg
    have hbnd : InB (r ++ (p ++ (q ++ s))) (R ++ (P ++ (Q ++ S))) :=
      hr.append (hp.append (hq.append hs))
    have hpos : colPos (R ++ (P ++ (Q ++ S))) (r ++ (p ++ (q ++ s))) =
        colPos R r + prod R * (colPos P p + prod P * (colPos Q q + prod Q * colPos S s)) := by
      rw [colPos_append _ _ hr.length, colPos_append _ _ hp.length, colPos_append _ _ hq.length]
    simp only
    rw [elem, if_pos hbnd, hpos,
      hv _ _ _ _ (colPos_lt hr) (colPos_lt hp) (colPos_lt hq) (colPos_lt hs)]
    congr 1
    apply Finset.sum_congr rfl
    intro l hl
    rw [Finset.mem_range] at hl
    rw [elem_ent P Q L da p q l (f l) hp (hf l hl), elem_ent R S L db r s l (g l) hr (hg l hl)]
    ring

end Verif.Tensor
