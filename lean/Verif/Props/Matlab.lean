import Verif.Lemmas.Matlab
import Verif.Props.PythonData
/-
Properties of the functions of Matlab: C87 (what is written is read by Matlab) and C88 (datasets).
-/
namespace Verif.Mat

open Sdf

/-! Fields -/

theorem field_setfield (d : Data) (n m : List Byte) (v : Arr) :
    field (setfield d n v) m = if n = m then some v else field d m := by
  induction d with
  | nil => simp only [setfield, field]
  | cons e d ih =>
    rw [setfield]
    split
    · rename_i h
      simp only [field, h]
      split <;> rfl
    · rename_i h
      simp only [field, ih]
      by_cases h1 : e.1 = m
      · rw [if_pos h1, if_neg (by rintro rfl; exact h h1), if_pos h1]
      · rw [if_neg h1, if_neg h1]

/-- Concatenation of numbers. -/
theorem cat_numbers {k : Nat} (D : List (Word × Word)) (hD : D.length = k + 1) (x : Word × Word) :
    cat 1 ⟨[k + 1, 1], D⟩ ⟨[1, 1], [x]⟩ = .ok ⟨[k + 2, 1], D ++ [x]⟩ := by
  rw [cat, Sdf.assert_bind_pos (by decide), if_neg (by simp), if_neg (by simp)]
  dsimp only
  rw [Sdf.assert_bind_pos (by simp [pad])]
  simp [pad, size, ← hD]

theorem prod_zero {d : List Nat} (h : 0 ∈ d) : Spec.prod d = 0 := by
  induction d with
  | nil => simp at h
  | cons a d ih =>
    rw [Spec.prod]
    rcases List.mem_cons.1 h with h | h
    · rw [← h, Nat.zero_mul]
    · rw [ih h, Nat.mul_zero]

/-- Concatenation along a new index. -/
theorem cat_stack {d : List Nat} (hd : d ≠ []) (hpos : ¬IsSize [0, 0] d) {k : Nat} (hk : 0 < k)
    (D x : List (Word × Word)) (hD : D.length = Spec.prod d * k) (hx : x.length = Spec.prod d) :
    cat (d.length + 1) ⟨size (d ++ [k]), D⟩ ⟨size d, x⟩ = .ok ⟨size (d ++ [k + 1]), D ++ x⟩ := by
  have hl : 1 ≤ d.length := by
    rcases d with _ | ⟨a, d⟩
    · exact absurd rfl hd
    · simp
  have ha := size_pad (d := d ++ [k]) (n := d.length + 1) (by simp) (by omega)
  have hb := size_pad (d := d) (n := d.length + 1) (by omega) (by omega)
  have hpa : pad (d.length + 1) (d ++ [k]) = d ++ [k] := by simp [pad]
  have hpb : pad (d.length + 1) d = d ++ [1] := by simp [pad]
  have hne : size d ≠ [0, 0] := fun h => hpos (h ▸ size_isSize d)
  have hne' : size (d ++ [k]) ≠ [0, 0] := by
    intro h
    have h0 := (h ▸ size_isSize (d ++ [k])).2.1
    match d with
    | [] => exact hd rfl
    | [n] =>
      have := h0 1
      simp at this
      omega
    | a :: b :: e =>
      have h1 := h0 0
      have h2 := h0 1
      have h3 : ∀ i : Nat, 1 = (e ++ [k]).getD i 1 := fun i => h0 (i + 2)
      simp at h1 h2
      refine hpos ⟨by simp, fun i => ?_, by simp⟩
      match i with
      | 0 => simpa using h1
      | 1 => simpa using h2
      | i + 2 =>
        show 1 = e.getD i 1
        rcases Nat.lt_or_ge i e.length with hi | hi
        · exact (h3 i).trans (List.getD_append _ _ _ _ hi)
        · rw [List.getD_eq_default _ _ hi]
  rw [cat, Sdf.assert_bind_pos (by omega), if_neg hne', if_neg hne]
  dsimp only
  rw [show max (d.length + 1) (max (size (d ++ [k])).length (size d).length) = d.length + 1 by
    rw [max_eq_left]; exact max_le ha.1 hb.1, ha.2, hb.2, hpa, hpb, Nat.add_sub_cancel]
  have hset : ∀ x y : Nat, (d ++ [x]).set d.length y = d ++ [y] := fun x y => by
    rw [List.set_append_right _ _ (le_refl _), Nat.sub_self]
    rfl
  have hget : ∀ x : Nat, (d ++ [x]).getD d.length 1 = x := fun x => by
    rw [List.getD_append_right _ _ _ _ (le_refl _), Nat.sub_self]
    rfl
  rw [hset, hset, hset, hget, hget, Sdf.assert_bind_pos rfl]
  have htake : ∀ x : Nat, (d ++ [x]).take (d.length + 1) = d ++ [x] := fun x => List.take_of_length_le (by simp)
  have hdrop : ∀ x : Nat, (d ++ [x]).drop (d.length + 1) = [] := fun x => List.drop_of_length_le (by simp)
  have hprod : ∀ x : Nat, (d ++ [x]).foldl (· * ·) 1 = Spec.prod d * x := fun x => by
    rw [List.foldl_append]
    show List.foldl (· * ·) 1 d * x = _
    rw [Py.foldl_mul_prod, Nat.one_mul]
  rw [htake, htake, hdrop, hprod, hprod, Nat.mul_one, ← hD, ← hx]
  simp

/-- What several variables with the same name are read as. -/
def expected : List Value → Option Arr
  | [] => none
  | v :: vs =>
    some (match shape v with
      | none => empty
      | some d => asArr (stackDims d (vs.length + 1)) ((v :: vs).flatMap numbers))

theorem not_isSize {d : List Nat} (h : Spec.prod d ≠ 0) : ¬IsSize [0, 0] d := by
  intro hz
  have h0 := hz.2.1 0
  match d with
  | [] => simp at h0
  | a :: d =>
    simp at h0
    exact h (by rw [← h0, Spec.prod, Nat.zero_mul])

theorem numbers_length {v : Value} (hv : Readable v) {d : List Nat} (hd : shape v = some d) :
    (numbers v).length = Spec.prod d ∧ ¬IsSize [0, 0] d ∧ d ≠ [] ∧ d ≠ [0] := by
  have key : ∀ {ε : Type} {t : Tensor ε}, TensorOk t → Sized t →
      t.data.length = Spec.prod t.dims ∧ t.dims ≠ [] ∧ t.dims ≠ [0] := by
    intro ε t h1 h2
    have h3 := dims_ne h1 h2
    have h4 : t.data.length = Spec.prod t.dims := by rw [h1.1, Py.totalSize_prod h3]
    refine ⟨h4, h3, fun h => ?_⟩
    rw [h] at h4
    rcases h2 with h2 | h2
    · exact h2 (List.length_eq_zero_iff.1 h4)
    · rw [h] at h2
      simp at h2
  have one : ¬IsSize [0, 0] [1] := not_isSize (by decide)
  cases v with
  | real t =>
    injection hd with hd
    subst hd
    rw [numbers, List.length_map]
    have := key hv.1 hv.2.1
    exact ⟨this.1, hv.2.2, this.2⟩
  | complex t =>
    injection hd with hd
    subst hd
    have := key hv.1 hv.2.1
    exact ⟨this.1, hv.2.2, this.2⟩
  | reals m => cases hd
  | complexes m => cases hd
  | double x => injection hd with hd; subst hd; exact ⟨rfl, one, by decide, by decide⟩
  | cdouble x => injection hd with hd; subst hd; exact ⟨rfl, one, by decide, by decide⟩
  | int x => injection hd with hd; subst hd; exact ⟨rfl, one, by decide, by decide⟩
  | size x => injection hd with hd; subst hd; exact ⟨rfl, one, by decide, by decide⟩

/-- Tensors with elements can be read. -/
theorem readable_real {t : Tensor Word} (ht : TensorOk t) (hne : t.data ≠ []) : Readable (.real t) := by
  refine ⟨ht, Or.inl hne, not_isSize fun h => ?_⟩
  have := ht.1
  rw [Tensor.WF, Py.totalSize_prod (dims_ne ht (Or.inl hne)), h] at this
  exact hne (List.length_eq_zero_iff.1 this)

theorem flatMap_length {vs : List Value} {d : List Nat} (hv : ∀ v ∈ vs, Readable v ∧ shape v = some d) :
    (vs.flatMap numbers).length = Spec.prod d * vs.length := by
  induction vs with
  | nil => rfl
  | cons v vs ih =>
    have h := hv v (List.mem_cons_self ..)
    rw [List.flatMap_cons, List.length_append, ih fun v h => hv v (List.mem_cons_of_mem _ h),
      (numbers_length h.1 h.2).1, List.length_cons]
    ring

/-- One more variable with a name. -/
theorem cat_expected {v : Value} {vs : List Value} (hv : ∀ u ∈ v :: vs, Readable u)
    (hs : ∀ u ∈ v :: vs, ∀ w ∈ v :: vs, shape u = shape w) {w : Value} (hw : Readable w) (hws : shape w = shape v)
    {old : Arr} (ho : expected (v :: vs) = some old) :
    (do let r ← cat (if 1 < rank w ∨ 1 < (asObj w).dims.getD 0 1 then rank w + 1 else rank w) old (asObj w)
        pure (some r) : Res (Option Arr)) = .ok (expected (v :: vs ++ [w])) := by
  rw [expected] at ho
  injection ho with ho
  rw [List.cons_append, expected]
  cases hd : shape v with
  | none =>
    rw [hd] at ho hws
    rw [rank, asObj, hws]
    dsimp only at ho ⊢
    subst ho
    rw [if_neg (by simp [empty]), cat, Sdf.assert_bind_pos (by decide),
      if_pos (show empty.dims = [0, 0] from rfl)]
    rfl
  | some d =>
    rw [hd] at ho hws
    dsimp only at ho
    have hall : ∀ u ∈ v :: vs, Readable u ∧ shape u = some d := fun u hu =>
      ⟨hv u hu, (hs u hu v (List.mem_cons_self ..)).trans hd⟩
    obtain ⟨n1, n2, n3, n4⟩ := numbers_length hw hws
    have hlen := flatMap_length hall
    subst ho
    rw [rank, asObj, hws]
    dsimp only
    rw [List.length_append, List.length_singleton, ← List.cons_append, List.flatMap_append,
      show List.flatMap numbers [w] = numbers w by simp]
    by_cases h1 : d = [1]
    · subst h1
      rw [if_neg (by simp [asArr, size]), stackDims, if_pos rfl, stackDims, if_pos rfl]
      have hx : ∃ x, numbers w = [x] := List.length_eq_one_iff.1 n1
      obtain ⟨x, hx⟩ := hx
      rw [hx]
      have h := cat_numbers (k := vs.length) ((v :: vs).flatMap numbers) (by rw [hlen]; simp [Spec.prod]) x
      have e1 : asArr [vs.length + 1] ((v :: vs).flatMap numbers) = ⟨[vs.length + 1, 1], (v :: vs).flatMap numbers⟩ := by
        simp [asArr, size]
      have e2 : asArr [1] [x] = ⟨[1, 1], [x]⟩ := by simp [asArr, size]
      have e3 : asArr [vs.length + 1 + 1] ((v :: vs).flatMap numbers ++ [x]) = ⟨[vs.length + 2, 1], (v :: vs).flatMap numbers ++ [x]⟩ := by
        simp [asArr, size]
      rw [e1, e2, e3]
      show (do let r ← cat 1 _ _; pure (some r)) = _
      rw [h]
      rfl
    · have hl : 1 < d.length ∨ 1 < (asArr d (numbers w)).dims.getD 0 1 := by
        match d with
        | [] => exact absurd rfl n3
        | [n] =>
          right
          have : n ≠ 1 := fun h => h1 (by rw [h])
          have : n ≠ 0 := fun h => n4 (by rw [h])
          show 1 < n
          omega
        | a :: b :: l => left; simp
      rw [if_pos hl, stackDims, if_neg h1, stackDims, if_neg h1]
      have := cat_stack n3 n2 (k := vs.length + 1) (by omega) ((v :: vs).flatMap numbers) (numbers w)
        (by rw [hlen]; rfl) n1
      rw [asArr, asArr, this]
      rfl

/-- The first variable with a name. -/
theorem expected_one {w : Value} (hw : Readable w) : expected [w] = some (asObj w) := by
  rw [expected, asObj]
  cases hd : shape w with
  | none => rfl
  | some d =>
    obtain ⟨n1, n2, n3, n4⟩ := numbers_length hw hd
    dsimp only
    rw [List.flatMap_cons, List.flatMap_nil, List.append_nil, stackDims]
    by_cases h1 : d = [1]
    · rw [if_pos h1, h1]; rfl
    · rw [if_neg h1, asArr, asArr]
      congr 2
      refine IsSize.unique (d := d) ?_ (size_isSize d)
      have := size_isSize (d ++ [0 + 1])
      refine ⟨this.1, fun i => ?_, this.2.2⟩
      rw [List.length_nil, this.2.1]
      exact getD_pad (d.length + 1) d i ▸ by simp [pad]

/-- What the struct contains after some variables. -/
def Has (d : Data) (rs : List (Value × List Byte)) : Prop := ∀ n, field d n = expected (named rs n)

/-- Variables with the same name have the same dimensions. -/
def SameShapes (rs : List (Value × List Byte)) : Prop :=
  ∀ r ∈ rs, ∀ r' ∈ rs, r.2 = r'.2 → shape r.1 = shape r'.1

theorem mem_named {rs : List (Value × List Byte)} {n : List Byte} {v : Value} :
    v ∈ named rs n ↔ (v, n) ∈ rs := by
  rw [named, List.mem_map]
  constructor
  · rintro ⟨r, hr, rfl⟩
    rw [List.mem_filter] at hr
    have : r.2 = n := by simpa using hr.2
    rw [← this]
    exact hr.1
  · intro h
    exact ⟨(v, n), List.mem_filter.2 ⟨h, by simp⟩, rfl⟩

theorem named_append (rs rs' : List (Value × List Byte)) (n : List Byte) :
    named (rs ++ rs') n = named rs n ++ named rs' n := by
  rw [named, List.filter_append, List.map_append]
  rfl

theorem store_new {valid : List Byte → Bool} {d : Data} {n : List Byte} {obj : Arr} {l : Nat} (hf : field d n = none)
    (hn : valid n = true) : store valid d n obj l = .ok (setfield d n obj) := by
  rw [store, hf]
  simp only
  rw [Res.pure_eq, Res.ok_bind, Sdf.assert_bind_pos hn]
  rfl

/-- One more variable. -/
theorem store_ok {valid : List Byte → Bool} {d : Data} {rs : List (Value × List Byte)} (h : Has d rs)
    {v : Value} {n : List Byte} (hr : ∀ r ∈ rs ++ [(v, n)], Readable r.1) (hs : SameShapes (rs ++ [(v, n)]))
    (hn : valid n = true) :
    ∃ d', store valid d n (asObj v) (rank v) = .ok d' ∧ Has d' (rs ++ [(v, n)]) := by
  have hv : Readable v := hr (v, n) (by simp)
  have hnn : named [(v, n)] n = [v] := by simp [named]
  have hval : ∃ a, (match field d n with
      | none => pure (asObj v)
      | some old => cat (if 1 < rank v ∨ 1 < (asObj v).dims.getD 0 1 then rank v + 1 else rank v) old (asObj v) : Res Arr)
      = .ok a ∧ expected (named (rs ++ [(v, n)]) n) = some a := by
    rw [named_append, hnn, h n]
    match hvs : named rs n with
    | [] => exact ⟨asObj v, rfl, expected_one hv⟩
    | u :: us =>
      obtain ⟨old, ho⟩ : ∃ old, expected (u :: us) = some old := ⟨_, rfl⟩
      have hmem : ∀ w ∈ u :: us, (w, n) ∈ rs := fun w hw => mem_named.1 (hvs ▸ hw)
      have := cat_expected (v := u) (vs := us) (fun w hw => hr (w, n) (by simp [hmem w hw]))
        (fun w hw w' hw' => hs (w, n) (by simp [hmem w hw]) (w', n) (by simp [hmem w' hw']) rfl) hv
        (hs (v, n) (by simp) (u, n) (by simp [hmem u (by simp)]) rfl) ho
      rw [ho]
      dsimp only
      cases hc : cat (if 1 < rank v ∨ 1 < (asObj v).dims.getD 0 1 then rank v + 1 else rank v) old (asObj v) with
      | ok a =>
        rw [hc] at this
        injection this with this
        exact ⟨a, rfl, this.symm⟩
      | abort => rw [hc] at this; cases this
      | ub => rw [hc] at this; cases this
  obtain ⟨a, ha, he⟩ := hval
  refine ⟨setfield d n a, ?_, fun m => ?_⟩
  · rw [store]
    dsimp only
    revert ha
    cases field d n with
    | none =>
      intro ha
      injection ha with ha
      rw [← ha, Res.pure_eq, Res.ok_bind, Sdf.assert_bind_pos hn]
      rfl
    | some old =>
      intro ha
      dsimp only at ha ⊢
      rw [ha, Res.ok_bind, Sdf.assert_bind_pos hn]
      rfl
  · rw [field_setfield]
    by_cases hm : n = m
    · rw [if_pos hm, ← hm, he]
    · rw [if_neg hm, named_append, h m]
      have : named [(v, n)] m = [] := by simp [named, hm]
      rw [this, List.append_nil]

theorem SameShapes.left {rs rs' : List (Value × List Byte)} (h : SameShapes (rs ++ rs')) : SameShapes rs :=
  fun r hr r' hr' => h r (by simp [hr]) r' (by simp [hr'])

/-- The loop over some variables. -/
theorem loadLoop_append {valid : List Byte → Bool} (depth : Nat) (rs : List (Value × List Byte))
    (hn : ∀ r ∈ rs, ReadableName valid r.2) (ps : List (Value × List Byte))
    (hr : ∀ r ∈ ps ++ rs, Readable r.1) (hs : SameShapes (ps ++ rs)) (rest : List Byte) (d : Data)
    (h : Has d ps) :
    ∃ d', Has d' (ps ++ rs) ∧ ∀ fuel, loadLoop valid (depth + 1) (rs.length + fuel) ⟨dumpAll rs ++ rest, false, 8, true⟩ d
      = loadLoop valid (depth + 1) fuel ⟨rest, false, 8, true⟩ d' := by
  induction rs generalizing d ps with
  | nil => exact ⟨d, by simpa using h, fun fuel => by rw [List.length_nil, Nat.zero_add]; rfl⟩
  | cons r rs ih =>
    obtain ⟨h1, h2, h3, h4⟩ := hn r (List.mem_cons_self ..)
    have hd : dumpAll (r :: rs) = dump r.1 r.2 ++ dumpAll rs := rfl
    have hps : ps ++ r :: rs = ps ++ [r] ++ rs := by simp
    rw [hps] at hr hs
    obtain ⟨d1, e1, g1⟩ := store_ok h (v := r.1) (n := r.2) (fun x hx => hr x (by simp at hx ⊢; tauto)) hs.left h3
    obtain ⟨d2, g2, e2⟩ := ih (fun r h => hn r (List.mem_cons_of_mem _ h)) (ps ++ [r]) hr hs d1 g1
    refine ⟨d2, by rw [hps]; exact g2, fun fuel => ?_⟩
    rw [List.length_cons, show rs.length + 1 + fuel = rs.length + fuel + 1 by omega, hd,
      List.append_assoc, loadLoop, if_neg (by simp), loadRecord_append (hr r (by simp)) h1 h4, Run.ok_bind]
    dsimp only
    rw [if_neg h2, e1, Run.ok_bind, e2]

theorem loadLoop_end (valid : List Byte → Bool) (depth fuel : Nat) (d : Data) (w : Nat) (b : Bool) :
    loadLoop valid depth (fuel + 1) ⟨[], false, w, b⟩ d = .done (.ok d) := by
  rw [loadLoop, if_neg (by simp), loadRecord_end, Run.ok_bind]
  rfl

/-- A file with some variables, and whatever follows. The name of the first one may begin with "sdf". -/
theorem load_append {valid : List Byte → Bool} (depth : Nat) (r : Value × List Byte) (rs : List (Value × List Byte))
    (h1 : NameOk r.2 ∧ r.2 ≠ [] ∧ valid r.2 = true) (hn : ∀ r ∈ rs, ReadableName valid r.2)
    (hr : ∀ x ∈ r :: rs, Readable x.1) (hs : SameShapes (r :: rs)) (w : Nat) (b : Bool) (rest : List Byte) :
    ∃ d', Has d' (r :: rs) ∧ ∀ fuel, load valid (depth + 1) w b (header ++ dumpAll (r :: rs) ++ rest) (rs.length + 1 + fuel)
      = loadLoop valid (depth + 1) fuel ⟨rest, false, 8, true⟩ d' := by
  have hd : header ++ dumpAll (r :: rs) ++ rest = header ++ (dump r.1 r.2 ++ (dumpAll rs ++ rest)) := by
    have : dumpAll (r :: rs) = dump r.1 r.2 ++ dumpAll rs := rfl
    rw [this]
    simp only [List.append_assoc]
  have h0 : Has [] [] := fun n => rfl
  have hps : r :: rs = [] ++ [r] ++ rs := by simp
  rw [hps] at hr hs
  obtain ⟨d1, e1, g1⟩ := store_ok h0 (v := r.1) (n := r.2) (fun x hx => hr x (by simp at hx ⊢; tauto)) hs.left h1.2.2
  obtain ⟨d2, g2, e2⟩ := loadLoop_append depth rs hn ([] ++ [r]) hr hs rest d1 g1
  refine ⟨d2, by simpa using g2, fun fuel => ?_⟩
  rw [load, show rs.length + 1 + fuel = rs.length + fuel + 1 by omega, hd, loadLoop, if_neg (by simp),
    loadRecord_header (hr r (by simp)) h1.1, Run.ok_bind]
  dsimp only
  rw [if_neg h1.2.1, e1, Run.ok_bind, e2]

/-- What is expected, by its elements. -/
theorem expected_elem {vs : List Value} {d : List Nat} (h0 : vs ≠ []) (hv : ∀ v ∈ vs, Readable v ∧ shape v = some d) :
    ∃ a, expected vs = some a ∧ IsSize a.dims (stackDims d vs.length) ∧
      a.data.length = Spec.prod d * vs.length ∧
      ∀ (j : Nat) (v : Value) (idx : List Nat), vs[j]? = some v →
        Spec.elem (d ++ [vs.length]) a.data (idx ++ [j]) = Spec.elem d (numbers v) idx := by
  cases vs with
  | nil => exact absurd rfl h0
  | cons v vs =>
    have hd := (hv v (List.mem_cons_self ..)).2
    refine ⟨asArr (stackDims d (vs.length + 1)) ((v :: vs).flatMap numbers), ?_, size_isSize _,
      flatMap_length hv, fun j u idx hj => ?_⟩
    · rw [expected, hd]
    · have hlt : j < (v :: vs).length := (List.getElem?_eq_some_iff.1 hj).1
      have := Py.elem_stack (shape := d) ((v :: vs).map numbers) (by
        intro l hl
        obtain ⟨x, hx, rfl⟩ := List.mem_map.1 hl
        exact (numbers_length (hv x hx).1 (hv x hx).2).1) (k := j) (l := numbers u)
        (by rw [List.getElem?_map, hj]; rfl) hlt idx
      exact this

theorem loadRecord_only_header (depth long : Nat) (little : Bool) :
    loadRecord depth ⟨header ++ [], false, long, little⟩ = .ok (empty, [], 1, ⟨[], true, 8, true⟩) := by
  have htag : loadTag ⟨header ++ [], false, long, little⟩ = .ok ([], -1, ⟨[], true, 8, true⟩) := by
    rw [loadTag, readName_append (by exact nameField_length _)]
    dsimp only
    rw [skipHeader_header, readName_nil]
    rfl
  rw [loadRecord, htag]
  rfl

/-- What is read from a file. -/
theorem load_has {valid : List Byte → Bool} (depth : Nat) (long : Nat) (little : Bool)
    {rs : List (Value × List Byte)} (hr : ∀ r ∈ rs, Readable r.1 ∧ ReadableName valid r.2) (hs : SameShapes rs) :
    ∃ data, Finishes (load valid (depth + 1) long little (header ++ dumpAll rs)) (.ok data) ∧ Has data rs := by
  cases rs with
  | nil =>
    refine ⟨[], ⟨1, fun n hn => ?_⟩, fun n => rfl⟩
    obtain ⟨k, rfl⟩ : ∃ k, n = k + 1 := ⟨n - 1, by omega⟩
    have h0 : dumpAll [] = [] := rfl
    rw [h0, load, loadLoop, if_neg (by simp), loadRecord_only_header, Run.ok_bind]
    rfl
  | cons r rs =>
    obtain ⟨d, hd, e⟩ := load_append (valid := valid) depth r rs
      (by have := (hr r (List.mem_cons_self ..)).2; exact ⟨this.1, this.2.1, this.2.2.1⟩)
      (fun r h => (hr r (List.mem_cons_of_mem _ h)).2) (fun r h => (hr r h).1) hs long little []
    refine ⟨d, ⟨rs.length + 2, fun n hn => ?_⟩, hd⟩
    obtain ⟨k, rfl⟩ : ∃ k, n = rs.length + 1 + (k + 1) := ⟨n - (rs.length + 2), by omega⟩
    have := e (k + 1)
    rw [List.append_nil, loadLoop_end] at this
    exact this

/-- A struct with what several variables are read as: each field has the variables with its name along a new
last index (along a column, if they are numbers). -/
def IsRead (data : Data) (rs : List (Value × List Byte)) : Prop :=
  ∀ n, (named rs n = [] → field data n = none) ∧
    ∀ d, named rs n ≠ [] → (∀ v ∈ named rs n, shape v = some d) →
      ∃ a, field data n = some a ∧ IsSize a.dims (stackDims d (named rs n).length) ∧
        a.data.length = Spec.prod d * (named rs n).length ∧
        ∀ (j : Nat) (v : Value) (idx : List Nat), (named rs n)[j]? = some v →
          Spec.elem (d ++ [(named rs n).length]) a.data (idx ++ [j]) = Spec.elem d (numbers v) idx

theorem Has.isRead {data : Data} {rs : List (Value × List Byte)} (hh : Has data rs) (hr : ∀ r ∈ rs, Readable r.1) :
    IsRead data rs := by
  refine fun n => ⟨fun h => by rw [hh n, h]; rfl, fun d h1 h2 => ?_⟩
  rw [hh n]
  exact expected_elem h1 fun v hv => ⟨hr (v, n) (mem_named.1 hv), h2 v hv⟩

/-- C87: a file written by OutDataFile, with tensors which have elements or at least two indices and with
variables of the same dimensions if they have the same name, is read by Matlab: each field has the variables
with its name along a new last index (along a column, if they are numbers). Missing: vectors of tensors, of
which nothing is returned (`c87_negation_vector`), variables without a name, with a name which Matlab refuses
or which begins with "sdf", and with different dimensions, vectors without elements and matrices without rows
and columns, see the negations and `c87_zero`; complex vectors without elements. -/
theorem c87_read_partial {valid : List Byte → Bool} {depth : Nat} (hdepth : 1 ≤ depth) (long : Nat) (little : Bool)
    {rs : List (Value × List Byte)} (hr : ∀ r ∈ rs, Readable r.1 ∧ ReadableName valid r.2) (hs : SameShapes rs) :
    ∃ data, Finishes (load valid depth long little (header ++ dumpAll rs)) (.ok data) ∧ IsRead data rs := by
  obtain ⟨depth, rfl⟩ : ∃ k, depth = k + 1 := ⟨depth - 1, by omega⟩
  obtain ⟨data, hf, hh⟩ := load_has depth long little hr hs
  exact ⟨data, hf, hh.isRead fun r h => (hr r h).1⟩

theorem readable_vector {l : List Word} (h0 : l ≠ []) (hl : l.length < 2 ^ 63) :
    Readable (.real ⟨[l.length], l⟩) := by
  refine readable_real ⟨?_, hl, by show 1 < _; omega, ?_⟩ h0
  · show l.length = _
    exact (one_mul _).symm
  · intro d hd
    rw [List.mem_singleton] at hd
    rw [hd]
    exact hl

theorem readableName_a : ReadableName (fun _ => true) [97] :=
  ⟨⟨by decide, by decide⟩, by decide, rfl, by decide⟩

example : ∃ data, Finishes (load (fun _ => true) 1 4 false (header ++ dumpAll
    [(.double 1, [97]), (.real ⟨[2], [5, 6]⟩, [98]), (.double 2, [97]), (.real ⟨[2], [7, 8]⟩, [98])])) (.ok data) ∧
      field data [97] = some ⟨[2, 1], [(1, 0), (2, 0)]⟩ ∧
      field data [98] = some ⟨[2, 2], [(5, 0), (6, 0), (7, 0), (8, 0)]⟩ ∧ field data [100] = none := by
  have hb : ReadableName (fun _ => true) [98] := ⟨⟨by decide, by decide⟩, by decide, rfl, by decide⟩
  obtain ⟨data, hf, hh⟩ := load_has (valid := fun _ => true) 0 4 false
    (rs := [(.double 1, [97]), (.real ⟨[2], [5, 6]⟩, [98]), (.double 2, [97]), (.real ⟨[2], [7, 8]⟩, [98])])
    (by
      simp only [List.forall_mem_cons, List.not_mem_nil, false_imp_iff, implies_true, and_true]
      exact ⟨⟨trivial, readableName_a⟩, ⟨readable_vector (l := [5, 6]) (by decide) (by decide), hb⟩,
        ⟨trivial, readableName_a⟩, readable_vector (l := [7, 8]) (by decide) (by decide), hb⟩)
    (by
      simp [SameShapes, shape])
  exact ⟨data, hf, by rw [hh]; decide, by rw [hh]; decide, by rw [hh]; rfl⟩

/-- Without rows and columns, or a vector without elements. -/
def Zero (d : List Nat) : Prop := d = [0] ∨ IsSize [0, 0] d

/-- A real tensor which is read as `[]`. -/
theorem loadTensor_zero {d : List Nat} (hd : Zero d) (ht : TensorOk (⟨d, []⟩ : Tensor Word)) (r : List Byte) :
    loadTensor false ⟨vecBytes dimC (d.map fun d : Nat => (d : Int)) ++ (vecBytes realC ([] : List Word) ++ r), false, 8, true⟩
      = .ok (empty, d.length, ⟨r, false, 8, true⟩) := by
  rcases hd with rfl | hd
  · rw [loadTensor_bytes ht r]
    rfl
  · have h2 : 2 ≤ d.length := by
      match d with
      | [] => have := hd.2.1 0; simp at this
      | [a] => have := hd.2.1 1; simp at this
      | a :: b :: l => simp
    rw [loadTensor_real ht (Or.inr h2) r]
    show Res.ok (asArr d [], _) = _
    rw [asArr, ← hd.unique (size_isSize d)]
    rfl

/-- A record of such a tensor, the first of a file and after others. -/
theorem loadRecord_zero {d : List Nat} (hd : Zero d) (ht : TensorOk (⟨d, []⟩ : Tensor Word)) {name : List Byte}
    (hn : NameOk name) (depth : Nat) (r : List Byte) :
    (∀ long little, loadRecord depth ⟨header ++ (dump (.real ⟨d, []⟩) name ++ r), false, long, little⟩
      = .ok (empty, name, d.length, ⟨r, false, 8, true⟩)) ∧
    (¬Py.sdf <+: name → loadRecord depth ⟨dump (.real ⟨d, []⟩) name ++ r, false, 8, true⟩
      = .ok (empty, name, d.length, ⟨r, false, 8, true⟩)) := by
  have hb : dump (.real ⟨d, []⟩) name ++ r = tagBytes name 0
      ++ (vecBytes dimC (d.map fun d : Nat => (d : Int)) ++ (vecBytes realC ([] : List Word) ++ r)) := by
    rw [Py.dump_body, List.append_assoc, Py.body, List.append_assoc]
    rfl
  rw [hb]
  exact ⟨fun long little => loadRecord_real _ (loadTag_header hn (by omega) _ _ _) (loadTensor_zero hd ht r),
    fun hs => loadRecord_real _ (loadTag_append hn hs (by omega) _) (loadTensor_zero hd ht r)⟩

/-- C87: a matrix without rows and columns is read as such; so is a vector without elements, which is the
negation of C87: its size in Matlab is 0×1. -/
theorem c87_zero {valid : List Byte → Bool} (depth : Nat) (long : Nat) (little : Bool)
    {d : List Nat} (hd : Zero d) (ht : TensorOk (⟨d, []⟩ : Tensor Word)) {name : List Byte}
    (hn : ReadableName valid name) :
    ∃ data, Finishes (load valid depth long little (header ++ dumpAll [(.real ⟨d, []⟩, name)])) (.ok data) ∧
      field data name = some ⟨[0, 0], []⟩ ∧ (∀ m, m ≠ name → field data m = none) ∧
      (IsSize [0, 0] d ↔ d ≠ [0]) := by
  refine ⟨setfield [] name empty, ⟨2, fun n h => ?_⟩, by rw [field_setfield, if_pos rfl]; rfl, fun m h => ?_, ?_⟩
  · obtain ⟨k, rfl⟩ : ∃ k, n = k + 1 + 1 := ⟨n - 2, by omega⟩
    have e : dumpAll [(.real ⟨d, []⟩, name)] = dump (.real ⟨d, []⟩) name ++ [] := rfl
    rw [load, loadLoop, if_neg (by simp), e, (loadRecord_zero hd ht hn.1 depth []).1, Run.ok_bind]
    dsimp only
    rw [if_neg hn.2.1, store_new rfl hn.2.2.1, Run.ok_bind, loadLoop_end]
  · rw [field_setfield, if_neg (Ne.symm h)]
    rfl
  · constructor
    · rintro h rfl
      have := h.2.1 1
      simp at this
    · exact fun h => hd.resolve_left h

/-- C87, negation: of a matrix without rows and columns and another one with the same name, just one is
returned, without a new last index. -/
theorem c87_negation_zero_same {valid : List Byte → Bool} (depth : Nat) (long : Nat) (little : Bool)
    {d : List Nat} (hd : IsSize [0, 0] d) (ht : TensorOk (⟨d, []⟩ : Tensor Word)) {name : List Byte}
    (hn : ReadableName valid name) :
    ∃ data, Finishes (load valid depth long little (header ++ dumpAll
        [(.real ⟨d, []⟩, name), (.real ⟨d, []⟩, name)])) (.ok data) ∧
      field data name = some ⟨[0, 0], []⟩ ∧ ¬IsSize [0, 0] (stackDims d 2) := by
  have hl : 1 < d.length := by
    match d with
    | [] => have := hd.2.1 0; simp at this
    | [a] => have := hd.2.1 1; simp at this
    | a :: b :: l => simp
  refine ⟨setfield (setfield [] name empty) name empty, ⟨3, fun n h => ?_⟩,
    by rw [field_setfield, if_pos rfl]; rfl, fun h => ?_⟩
  · obtain ⟨k, rfl⟩ : ∃ k, n = k + 1 + 1 + 1 := ⟨n - 3, by omega⟩
    have e : dumpAll [(.real ⟨d, []⟩, name), (.real ⟨d, []⟩, name)]
      = dump (.real ⟨d, []⟩) name ++ (dump (.real ⟨d, []⟩) name ++ []) := rfl
    have hs : store valid (setfield [] name empty) name empty d.length
        = .ok (setfield (setfield [] name empty) name empty) := by
      rw [store, field_setfield, if_pos rfl]
      dsimp only
      rw [if_pos (Or.inl hl), cat, Sdf.assert_bind_pos (by omega), if_pos (show empty.dims = [0, 0] from rfl),
        Res.pure_eq, Res.ok_bind, Sdf.assert_bind_pos hn.2.2.1]
      rfl
    rw [load, loadLoop, if_neg (by simp), e, (loadRecord_zero (Or.inr hd) ht hn.1 depth _).1, Run.ok_bind]
    dsimp only
    rw [if_neg hn.2.1, store_new rfl hn.2.2.1, Run.ok_bind, loadLoop, if_neg (by simp),
      (loadRecord_zero (Or.inr hd) ht hn.1 depth []).2 hn.2.2.2, Run.ok_bind]
    dsimp only
    rw [if_neg hn.2.1, hs, Run.ok_bind, loadLoop_end]
  · rw [stackDims, if_neg (by rintro rfl; simp at hl)] at h
    have := h.2.1 d.length
    rw [List.getD_append_right _ _ _ _ (le_refl _), Nat.sub_self, List.getD_eq_default _ _ (by show 2 ≤ _; omega)] at this
    simp at this

/-- C87, negation: a matrix without rows and columns, or a vector without elements, is lost if another
variable with the same name follows. -/
theorem c87_negation_zero_lost {valid : List Byte → Bool} {depth : Nat} (hdepth : 1 ≤ depth) (long : Nat)
    (little : Bool) {d : List Nat} (hd : Zero d) (ht : TensorOk (⟨d, []⟩ : Tensor Word)) {v : Value}
    (hv : Readable v) {name : List Byte} (hn : ReadableName valid name) :
    ∃ data, Finishes (load valid depth long little (header ++ dumpAll
        [(.real ⟨d, []⟩, name), (v, name)])) (.ok data) ∧ IsRead data [(v, name)] := by
  obtain ⟨depth, rfl⟩ : ∃ k, depth = k + 1 := ⟨depth - 1, by omega⟩
  have h1 : 1 ≤ rank v := by
    rw [rank]
    cases hs : shape v with
    | none => exact le_refl _
    | some d =>
      have := (numbers_length hv hs).2.2.1
      exact List.length_pos_iff.2 this
  have hh : Has (setfield (setfield [] name empty) name (asObj v)) [(v, name)] := by
    intro m
    rw [field_setfield]
    by_cases hm : name = m
    · rw [if_pos hm, ← hm]
      simp only [named, List.filter_cons, decide_true, if_true, List.filter_nil, List.map_cons, List.map_nil]
      exact (expected_one hv).symm
    · rw [if_neg hm, field_setfield, if_neg hm]
      simp [named, hm, field, expected]
  refine ⟨_, ⟨3, fun n h => ?_⟩, hh.isRead (by simpa using hv)⟩
  obtain ⟨k, rfl⟩ : ∃ k, n = k + 1 + 1 + 1 := ⟨n - 3, by omega⟩
  have e : dumpAll [(.real ⟨d, []⟩, name), (v, name)]
    = dump (.real ⟨d, []⟩) name ++ (dump v name ++ []) := rfl
  have hs : store valid (setfield [] name empty) name (asObj v) (rank v)
      = .ok (setfield (setfield [] name empty) name (asObj v)) := by
    rw [store, field_setfield, if_pos rfl]
    dsimp only
    rw [cat, Sdf.assert_bind_pos (by split <;> omega), if_pos (show empty.dims = [0, 0] from rfl),
      Res.pure_eq, Res.ok_bind, Sdf.assert_bind_pos hn.2.2.1]
    rfl
  rw [load, loadLoop, if_neg (by simp), e, (loadRecord_zero hd ht hn.1 (depth + 1) _).1, Run.ok_bind]
  dsimp only
  rw [if_neg hn.2.1, store_new rfl hn.2.2.1, Run.ok_bind, loadLoop, if_neg (by simp),
    loadRecord_append hv hn.1 hn.2.2.2, Run.ok_bind]
  dsimp only
  rw [if_neg hn.2.1, hs, Run.ok_bind, loadLoop_end]

/-- A vector without elements, a matrix without rows and columns, and one without rows. -/
example : Zero [0] ∧ Zero [0, 0, 1] ∧ TensorOk (⟨[0], []⟩ : Tensor Word) ∧
    TensorOk (⟨[0, 0, 1], []⟩ : Tensor Word) ∧ Readable (.real ⟨[0, 3], []⟩) := by
  have h3 : ¬IsSize [0, 0] [0, 3] := fun h => by have := h.2.1 1; simp at this
  refine ⟨Or.inl rfl, Or.inr ⟨by simp, fun i => ?_, by simp⟩, ⟨rfl, by simp, by simp, by simp⟩,
    ⟨rfl, by simp, by simp, by simp⟩, ⟨rfl, by simp, by simp, by simp⟩, Or.inr (by simp), h3⟩
  match i with
  | 0 => rfl
  | 1 => rfl
  | 2 => rfl
  | i + 3 => rfl

/-- C87, negation: of a vector of tensors nothing but its name is returned. -/
theorem c87_negation_vector {valid : List Byte → Bool} {depth : Nat} (hdepth : 1 ≤ depth) (long : Nat) (little : Bool)
    {m : List (Tensor Word)} (hm : Readable (.reals m)) {name : List Byte} (hn : ReadableName valid name) :
    ∃ data, Finishes (load valid depth long little (header ++ dumpAll [(.reals m, name)])) (.ok data) ∧
      field data name = some ⟨[0, 0], []⟩ := by
  obtain ⟨depth, rfl⟩ : ∃ k, depth = k + 1 := ⟨depth - 1, by omega⟩
  obtain ⟨data, hf, hh⟩ := load_has (valid := valid) depth long little (rs := [(.reals m, name)])
    (by simpa using ⟨hm, hn⟩) (by intro r hr r' hr' _; rw [List.mem_singleton] at hr hr'; rw [hr, hr'])
  exact ⟨data, hf, by rw [hh name]; simp [named, expected, shape, empty]⟩

example : Readable (.reals [⟨[2], [1, 2]⟩]) := by
  refine ⟨by decide, fun t ht => ?_⟩
  rw [List.mem_singleton] at ht
  subst ht
  refine ⟨⟨rfl, by decide, by decide, ?_⟩, Or.inl (by decide)⟩
  intro d hd
  simp only [List.mem_cons, List.not_mem_nil, or_false] at hd
  omega

/-- C87, negation: several numbers with the same name are read as the same as a vector with them as
elements. -/
theorem c87_negation_same {valid : List Byte → Bool} {depth : Nat} (hdepth : 1 ≤ depth) (long : Nat) (little : Bool)
    {l : List Word} (h0 : l ≠ []) (hl : l.length < 2 ^ 63) {name : List Byte} (hn : ReadableName valid name) :
    ∃ data data', Finishes (load valid depth long little (header ++ dumpAll [(.real ⟨[l.length], l⟩, name)])) (.ok data) ∧
      Finishes (load valid depth long little (header ++ dumpAll (l.map fun w => (.double w, name)))) (.ok data') ∧
      field data name = field data' name ∧ (field data name).isSome = true := by
  obtain ⟨depth, rfl⟩ : ∃ k, depth = k + 1 := ⟨depth - 1, by omega⟩
  have hv := readable_vector h0 hl
  obtain ⟨data, hf, hh⟩ := load_has (valid := valid) depth long little (rs := [(.real ⟨[l.length], l⟩, name)])
    (by simpa using ⟨hv, hn⟩) (by intro r hr r' hr' _; rw [List.mem_singleton] at hr hr'; rw [hr, hr'])
  obtain ⟨data', hf', hh'⟩ := load_has (valid := valid) depth long little (rs := l.map fun w => (.double w, name))
    (by
      intro r hr
      obtain ⟨w, _, rfl⟩ := List.mem_map.1 hr
      exact ⟨trivial, hn⟩)
    (by
      intro r hr r' hr' _
      obtain ⟨w, _, rfl⟩ := List.mem_map.1 hr
      obtain ⟨w', _, rfl⟩ := List.mem_map.1 hr'
      rfl)
  have hn2 : named (l.map fun w => (Value.double w, name)) name = l.map Value.double := by
    clear hh' hf' hf hh hv h0 hl
    induction l with
    | nil => rfl
    | cons a l ih =>
      rw [List.map_cons, named, List.filter_cons_of_pos (by simp), List.map_cons, List.map_cons, ← ih]
      rfl
  have hn1 : named [(Value.real ⟨[l.length], l⟩, name)] name = [Value.real ⟨[l.length], l⟩] := by simp [named]
  refine ⟨data, data', hf, hf', ?_, by rw [hh name, hn1]; rfl⟩
  rw [hh name, hh' name, hn1, hn2, expected_one hv]
  obtain ⟨a, l, rfl⟩ := List.exists_cons_of_ne_nil h0
  have hfl : (((a :: l).map Value.double).flatMap numbers) = (a :: l).map fun w => (w, (0 : Word)) := by
    rw [List.flatMap_map]
    show List.flatMap (fun w => [(w, (0 : Word))]) (a :: l) = _
    rw [List.flatMap_def]
    clear hn2 hn1 hh' hf' hv hf hh h0 hl
    induction a :: l with
    | nil => rfl
    | cons b k ih => rw [List.map_cons, List.flatten_cons, ih]; rfl
  rw [List.map_cons] at hfl ⊢
  rw [expected, hfl, asObj]
  simp [shape, stackDims, numbers]

/-- C87, negation: a vector of tensors without a name ends the reading, whatever follows it. -/
theorem c87_negation_stop (valid : List Byte → Bool) {depth : Nat} (hdepth : 1 ≤ depth) (long : Nat) (little : Bool)
    {m : List (Tensor Word)} (hm : Readable (.reals m)) (rs : List (Value × List Byte)) :
    Finishes (load valid depth long little (header ++ dumpAll ((.reals m, []) :: rs))) (.ok []) := by
  obtain ⟨depth, rfl⟩ : ∃ k, depth = k + 1 := ⟨depth - 1, by omega⟩
  refine ⟨1, fun n hn => ?_⟩
  obtain ⟨k, rfl⟩ : ∃ k, n = k + 1 := ⟨n - 1, by omega⟩
  have hd : dumpAll ((.reals m, []) :: rs) = dump (.reals m) [] ++ dumpAll rs := rfl
  rw [load, loadLoop, if_neg (by simp), hd, loadRecord_header hm nil_ok.1, Run.ok_bind]
  rfl

/-- C87, negation: a variable, other than the first one, whose name begins with "sdf" is taken for the header:
there is an error unless the fifth character is 4 or 8. -/
theorem c87_negation_sdf {valid : List Byte → Bool} {depth : Nat} (hdepth : 1 ≤ depth) (long : Nat) (little : Bool)
    {r : Value × List Byte} (hr : Readable r.1) (hn : ReadableName valid r.2) {v : Value} {name : List Byte}
    (h1 : NameOk name) (h2 : Py.sdf <+: name) (h4 : name.getD 4 0 ≠ 52) (h8 : name.getD 4 0 ≠ 56)
    (rs : List (Value × List Byte)) :
    Finishes (load valid depth long little (header ++ dumpAll (r :: (v, name) :: rs))) .abort := by
  obtain ⟨depth, rfl⟩ : ∃ k, depth = k + 1 := ⟨depth - 1, by omega⟩
  have hd : header ++ dumpAll (r :: (v, name) :: rs) = header ++ dumpAll [r] ++ (dump v name ++ dumpAll rs) := by
    simp only [dumpAll, List.map_cons, List.map_nil, List.flatten_cons, List.flatten_nil, List.append_assoc,
      List.append_nil]
  obtain ⟨d, _, e⟩ := load_append (valid := valid) depth r [] ⟨hn.1, hn.2.1, hn.2.2.1⟩ (by simp) (by simpa using hr)
    (by intro x hx y hy _; rw [List.mem_singleton] at hx hy; rw [hx, hy]) long little (dump v name ++ dumpAll rs)
  refine ⟨2, fun n hn => ?_⟩
  obtain ⟨k, rfl⟩ : ∃ k, n = 0 + 1 + (k + 1) := ⟨n - 2, by omega⟩
  have e := e (k + 1)
  rw [List.length_nil] at e
  rw [hd, e, loadLoop, if_neg (by simp)]
  have : loadTag ⟨dump v name ++ dumpAll rs, false, 8, true⟩ = .abort := by
    have hne : nameField name ≠ [] := by
      intro h
      have := nameField_length name
      rw [h] at this
      cases this
    obtain ⟨i0, i1, i2⟩ := (isSdf_iff name).2 h2
    rw [Py.dump_body, tagBytes, List.append_assoc, List.append_assoc, loadTag, readName_append (nameField_length name)]
    dsimp only
    rw [skipHeader, if_neg hne, charAt_field h1 (by decide), charAt_field h1 (by decide), charAt_field h1 (by decide),
      charAt_field h1 (by decide), charAt_field h1 (by decide)]
    simp only [Res.ok_bind]
    rw [if_pos ⟨i0, i1, i2⟩]
    have : Res.assert (name.getD 4 0 = 52 ∨ name.getD 4 0 = 56) = .abort := if_neg (by tauto)
    rw [this]
    rfl
  rw [loadRecord, this]
  rfl

example : NameOk [115, 100, 102, 97] ∧ Py.sdf <+: [115, 100, 102, 97] ∧ ([115, 100, 102, 97] : List Byte).getD 4 0 = 0 :=
  ⟨⟨by decide, by decide⟩, by decide, rfl⟩

theorem store_lengths {valid : List Byte → Bool} {l m : List Word} (hl : l ≠ []) (hm : 2 ≤ m.length)
    (h : l.length ≠ m.length) {n : List Byte} :
    store valid (setfield [] n (asObj (.real ⟨[l.length], l⟩))) n (asObj (.real ⟨[m.length], m⟩))
      (rank (.real ⟨[m.length], m⟩)) = .abort := by
  have ho : ∀ {l : List Word}, asObj (.real ⟨[l.length], l⟩) = ⟨[l.length, 1], l.map fun w => (w, 0)⟩ := by
    intro l
    simp [asObj, shape, asArr, size, numbers]
  rw [store, field_setfield, if_pos rfl]
  dsimp only
  rw [ho, ho]
  have hc : cat 2 ⟨[l.length, 1], l.map fun w => (w, 0)⟩ ⟨[m.length, 1], m.map fun w => (w, 0)⟩ = .abort := by
    have h1 : l.length ≠ 0 := fun h => hl (List.length_eq_zero_iff.1 h)
    rw [cat, Sdf.assert_bind_pos (by decide), if_neg (by simp), if_neg (by simp)]
    simp [pad, h, Res.assert]
  rw [if_pos (Or.inr (by show 1 < m.length; omega))]
  show (cat 2 _ _ >>= _) = _
  rw [hc]
  rfl

/-- C87, negation: two vectors with the same name and with different lengths are an error. -/
theorem c87_negation_lengths {valid : List Byte → Bool} {depth : Nat} (hdepth : 1 ≤ depth) (long : Nat) (little : Bool)
    {l m : List Word} (hl : l ≠ []) (hl' : l.length < 2 ^ 63) (hm : 2 ≤ m.length) (hm' : m.length < 2 ^ 63)
    (h : l.length ≠ m.length) {name : List Byte} (hn : ReadableName valid name) (rs : List (Value × List Byte)) :
    Finishes (load valid depth long little (header ++ dumpAll
      ((.real ⟨[l.length], l⟩, name) :: (.real ⟨[m.length], m⟩, name) :: rs))) .abort := by
  obtain ⟨depth, rfl⟩ : ∃ k, depth = k + 1 := ⟨depth - 1, by omega⟩
  have hm0 : m ≠ [] := by rintro rfl; simp at hm
  refine ⟨2, fun n hn' => ?_⟩
  obtain ⟨k, rfl⟩ : ∃ k, n = k + 1 + 1 := ⟨n - 2, by omega⟩
  have hd : ∀ (r : Value × List Byte) rs, dumpAll (r :: rs) = dump r.1 r.2 ++ dumpAll rs := fun _ _ => rfl
  rw [hd, hd, load, loadLoop, if_neg (by simp), loadRecord_header (readable_vector hl hl') hn.1, Run.ok_bind]
  dsimp only
  rw [if_neg hn.2.1, store_new rfl hn.2.2.1, Run.ok_bind, loadLoop, if_neg (by simp),
    loadRecord_append (readable_vector hm0 hm') hn.1 hn.2.2.2, Run.ok_bind]
  dsimp only
  rw [if_neg hn.2.1, store_lengths hl hm h]
  rfl

/-- C87, negation: a name which Matlab refuses for a field is an error. -/
theorem c87_negation_name {valid : List Byte → Bool} {depth : Nat} (hdepth : 1 ≤ depth) (long : Nat) (little : Bool)
    {v : Value} (hv : Readable v) {name : List Byte} (h1 : NameOk name) (h2 : name ≠ []) (h3 : valid name = false)
    (rs : List (Value × List Byte)) :
    Finishes (load valid depth long little (header ++ dumpAll ((v, name) :: rs))) .abort := by
  obtain ⟨depth, rfl⟩ : ∃ k, depth = k + 1 := ⟨depth - 1, by omega⟩
  refine ⟨1, fun n hn => ?_⟩
  obtain ⟨k, rfl⟩ : ∃ k, n = k + 1 := ⟨n - 1, by omega⟩
  have hd : dumpAll ((v, name) :: rs) = dump v name ++ dumpAll rs := rfl
  rw [load, loadLoop, if_neg (by simp), hd, loadRecord_header hv h1, Run.ok_bind]
  dsimp only
  rw [if_neg h2, store]
  show (Run.done (do let obj ← pure _; _) >>= _) = _
  rw [Res.pure_eq, Res.ok_bind, h3]
  rfl

/-- C87, negation: a file which was cut within the elements of a vector is read without an error as one with
fewer elements. -/
theorem c87_negation_cut {valid : List Byte → Bool} {depth : Nat} (hdepth : 1 ≤ depth) (long : Nat) (little : Bool)
    {l m : List Word} (hl : l ≠ []) (hm : m ≠ []) (h : (l ++ m).length < 2 ^ 63) {name : List Byte}
    (hn : ReadableName valid name) :
    ∃ file cut, file ++ cut = header ++ dumpAll [(.real ⟨[(l ++ m).length], l ++ m⟩, name)] ∧ cut.length = 8 * m.length ∧
      Finishes (load valid depth long little file) (.ok [(name, ⟨[l.length, 1], l.map fun w => (w, 0)⟩)]) := by
  obtain ⟨depth, rfl⟩ : ∃ k, depth = k + 1 := ⟨depth - 1, by omega⟩
  have hml : 0 < m.length := List.length_pos_of_ne_nil hm
  refine ⟨header ++ (tagBytes name 0 ++ (vecBytes dimC [((l ++ m).length : Int)] ++
    (wordBytes (BitVec.ofNat 64 (l ++ m).length) ++ (l.map realC.enc).flatten))), (m.map realC.enc).flatten, ?_, ?_,
    ⟨2, fun n hn' => ?_⟩⟩
  · have hd : dumpAll [(.real ⟨[(l ++ m).length], l ++ m⟩, name)] = dump (.real ⟨[(l ++ m).length], l ++ m⟩) name :=
      List.append_nil _
    rw [hd, Py.dump_body]
    show _ = header ++ (tagBytes name 0 ++ (vecBytes dimC [((l ++ m).length : Int)] ++ vecBytes realC (l ++ m)))
    rw [vecBytes.eq_def realC, List.map_append, List.flatten_append]
    simp only [List.append_assoc]
  · rw [flatten_enc_length (fun e _ => realC_good e)]
    exact Nat.mul_comm _ _
  · obtain ⟨k, rfl⟩ : ∃ k, n = k + 1 + 1 := ⟨n - 2, by omega⟩
    have ht : loadTensor false ⟨vecBytes dimC [((l ++ m).length : Int)] ++
        (wordBytes (BitVec.ofNat 64 (l ++ m).length) ++ (l.map realC.enc).flatten), false, 8, true⟩
          = .ok (⟨[l.length, 1], l.map fun w => (w, 0)⟩, 1, ⟨[], true, 8, true⟩) := by
      have hg : ∀ e ∈ [((l ++ m).length : Int)], Py.longC.Good e := by
        intro e he
        rw [List.mem_singleton] at he
        rw [he]
        exact Py.longC_good (by omega) (by omega)
      have hd := readLongs_append hg (wordBytes (BitVec.ofNat 64 (l ++ m).length) ++ (l.map realC.enc).flatten) false
      have he : Py.longC.enc = dimC.enc := rfl
      rw [he] at hd
      have hlen : (l.map realC.enc).flatten.length = l.length * 8 := flatten_enc_length (c := realC) (fun e _ => realC_good e)
      have hf := fread_append (c := realC) (v := l) (by decide) (fun e _ => realC_good e) [] false 8 true
      rw [List.append_nil] at hf
      have hf' : fread (l ++ m).length 8 ⟨(l.map realC.enc).flatten, false, 8, true⟩
          = (l.map realC.enc, ⟨[], true, 8, true⟩) := by
        have hw : realC.width = 8 := rfl
        rw [hw, fread] at hf
        rw [fread]
        have hle : l.length ≤ (l ++ m).length := by rw [List.length_append]; omega
        have e1 : (l.map realC.enc).flatten.take ((l ++ m).length * 8) = (l.map realC.enc).flatten.take (l.length * 8) := by
          rw [List.take_of_length_le (by rw [hlen]; omega), List.take_of_length_le (by rw [hlen])]
        have e2 : (l.map realC.enc).flatten.drop ((l ++ m).length * 8) = [] := by
          rw [List.drop_of_length_le (by rw [hlen]; omega)]
        injection hf with hf1 hf2
        dsimp only
        rw [e1, hf1, e2, hlen, decide_eq_true (by rw [List.length_append]; omega)]
        rfl
      rw [vecBytes.eq_def dimC, List.append_assoc, loadTensor, List.length_singleton, readLong_length (by decide), Res.ok_bind]
      dsimp only
      have hd' : readLongs ((1 : Nat) : Int) ⟨(List.map dimC.enc [((l ++ m).length : Int)]).flatten ++
          (wordBytes (BitVec.ofNat 64 (l ++ m).length) ++ (l.map realC.enc).flatten), false, 8, true⟩ = _ := hd
      rw [hd', Res.ok_bind]
      dsimp only
      rw [readLong_length h, Res.ok_bind]
      simp only [Bool.false_eq_true, if_false, Int.toNat_natCast]
      rw [Sdf.assert_bind_pos (by omega), hf']
      simp only [Res.pure_eq, Res.ok_bind, List.map_map]
      have hmap : (l.map ((fun w => (w, (0 : Word))) ∘ (fun e => wordOf (ordered ⟨(l.map realC.enc).flatten, false, 8, true⟩ e)) ∘ realC.enc))
          = l.map fun w => (w, 0) := by
        apply List.map_congr_left
        intro w _
        show (wordOf (wordBytes w), (0 : Word)) = _
        rw [wordOf_wordBytes]
      rw [hmap, if_neg (by decide), if_neg (by simp), column, if_neg (by simpa using hl), List.length_map]
      rfl
    have hr : loadRecord (depth + 1) ⟨header ++ (tagBytes name 0 ++ (vecBytes dimC [((l ++ m).length : Int)] ++
        (wordBytes (BitVec.ofNat 64 (l ++ m).length) ++ (l.map realC.enc).flatten))), false, long, little⟩
          = .ok (⟨[l.length, 1], l.map fun w => (w, 0)⟩, name, 1, ⟨[], true, 8, true⟩) :=
      loadRecord_real _ (loadTag_header hn.1 (by decide) _ _ _) ht
    rw [load, loadLoop, if_neg (by simp), hr, Run.ok_bind]
    dsimp only
    rw [if_neg hn.2.1, store_new rfl hn.2.2.1, Run.ok_bind, loadLoop]
    rfl

/-! Datasets -/

/-- The loop over some variables of one of the files. -/
theorem oneLoop_append {valid : List Byte → Bool} (depth : Nat) (rs : List (Value × List Byte))
    (hn : ∀ r ∈ rs, ReadableName valid r.2) (ps : List (Value × List Byte))
    (hr : ∀ r ∈ ps ++ rs, Readable r.1) (hs : SameShapes (ps ++ rs)) (rest : List Byte) (g : Globals)
    (ha : ∀ r ∈ rs, r.2 ∉ g.avoid) (h : Has g.data ps) :
    ∃ d', Has d' (ps ++ rs) ∧ ∀ fuel, oneLoop valid (depth + 1) (rs.length + fuel) ⟨dumpAll rs ++ rest, false, 8, true⟩ g
      = oneLoop valid (depth + 1) fuel ⟨rest, false, 8, true⟩ { g with data := d' } := by
  induction rs generalizing g ps with
  | nil => exact ⟨g.data, by simpa using h, fun fuel => by rw [List.length_nil, Nat.zero_add]; rfl⟩
  | cons r rs ih =>
    obtain ⟨h1, h2, h3, h4⟩ := hn r (List.mem_cons_self ..)
    have hd : dumpAll (r :: rs) = dump r.1 r.2 ++ dumpAll rs := rfl
    have hps : ps ++ r :: rs = ps ++ [r] ++ rs := by simp
    rw [hps] at hr hs
    obtain ⟨d1, e1, g1⟩ := store_ok h (v := r.1) (n := r.2) (fun x hx => hr x (by simp at hx ⊢; tauto)) hs.left h3
    obtain ⟨d2, g2, e2⟩ := ih (fun r h => hn r (List.mem_cons_of_mem _ h)) (ps ++ [r]) hr hs { g with data := d1 }
      (fun r h => ha r (List.mem_cons_of_mem _ h)) g1
    refine ⟨d2, by rw [hps]; exact g2, fun fuel => ?_⟩
    rw [List.length_cons, show rs.length + 1 + fuel = rs.length + fuel + 1 by omega, hd,
      List.append_assoc, oneLoop, if_neg (by simp), loadRecord_append (hr r (by simp)) h1 h4, Run.ok_bind]
    dsimp only
    rw [if_neg (ha r (List.mem_cons_self ..)), if_neg h2, storeOrAvoid, e1]
    dsimp only
    rw [Run.ok_bind, e2]

/-- One of the files. -/
theorem one_has {valid : List Byte → Bool} (depth : Nat) (rs : List (Value × List Byte))
    (hn : ∀ r ∈ rs, ReadableName valid r.2) (ps : List (Value × List Byte))
    (hr : ∀ r ∈ ps ++ rs, Readable r.1) (hs : SameShapes (ps ++ rs)) (g : Globals)
    (ha : ∀ r ∈ rs, r.2 ∉ g.avoid) (h : Has g.data ps) (long : Nat) (little : Bool) :
    ∃ d', Has d' (ps ++ rs) ∧ ∀ fuel, rs.length + 1 ≤ fuel →
      oneLoop valid (depth + 1) fuel ⟨header ++ dumpAll rs, false, long, little⟩ g
        = .done (.ok { g with data := d', long := 8, little := true }) := by
  cases rs with
  | nil =>
    refine ⟨g.data, by simpa using h, fun n hn => ?_⟩
    obtain ⟨k, rfl⟩ : ∃ k, n = k + 1 := ⟨n - 1, by simp at hn; omega⟩
    have h0 : dumpAll [] = [] := rfl
    rw [h0, oneLoop, if_neg (by simp), loadRecord_only_header, Run.ok_bind]
    dsimp only
    rw [ite_self]
    rfl
  | cons r rs =>
    obtain ⟨h1, h2, h3, h4⟩ := hn r (List.mem_cons_self ..)
    have hd : dumpAll (r :: rs) = dump r.1 r.2 ++ dumpAll rs := rfl
    have hps : ps ++ r :: rs = ps ++ [r] ++ rs := by simp
    rw [hps] at hr hs
    obtain ⟨d1, e1, g1⟩ := store_ok h (v := r.1) (n := r.2) (fun x hx => hr x (by simp at hx ⊢; tauto)) hs.left h3
    obtain ⟨d2, g2, e2⟩ := oneLoop_append (valid := valid) depth rs (fun r h => hn r (List.mem_cons_of_mem _ h)) (ps ++ [r]) hr hs []
      { g with data := d1 } (fun r h => ha r (List.mem_cons_of_mem _ h)) g1
    refine ⟨d2, by rw [hps]; exact g2, fun n hn' => ?_⟩
    obtain ⟨k, rfl⟩ : ∃ k, n = rs.length + (k + 1) + 1 := ⟨n - (rs.length + 2), by simp at hn'; omega⟩
    have e := e2 (k + 1)
    rw [List.append_nil] at e
    rw [hd, oneLoop, if_neg (by simp), loadRecord_header (hr r (by simp)) h1, Run.ok_bind]
    dsimp only
    rw [if_neg (ha r (List.mem_cons_self ..)), if_neg h2, storeOrAvoid, e1]
    dsimp only
    rw [Run.ok_bind, e, oneLoop, if_neg (by simp), loadRecord_end, Run.ok_bind]
    dsimp only
    rw [ite_self]
    rfl

/-- The variables of the files in a list of names and directories. -/
def allVars (vars : List Byte → List (Value × List Byte)) : List (List Byte × Bool) → List (Value × List Byte)
  | [] => []
  | e :: list => if e.2 then allVars vars list else vars e.1 ++ allVars vars list

theorem files_has {valid : List Byte → Bool} (depth : Nat) {files : List Byte → Option (List Byte)}
    {directory : List Byte} {vars : List Byte → List (Value × List Byte)} (list : List (List Byte × Bool))
    (hf : ∀ e ∈ list, e.2 = false → files (directory ++ 47 :: e.1) = some (header ++ dumpAll (vars e.1)))
    (ps : List (Value × List Byte)) (hn : ∀ r ∈ allVars vars list, ReadableName valid r.2)
    (hr : ∀ r ∈ ps ++ allVars vars list, Readable r.1) (hs : SameShapes (ps ++ allVars vars list)) (g : Globals)
    (ha : ∀ r ∈ allVars vars list, r.2 ∉ g.avoid) (h : Has g.data ps) :
    ∃ g', Has g'.data (ps ++ allVars vars list) ∧ g'.avoid = g.avoid ∧ ∀ fuel, (allVars vars list).length + 1 ≤ fuel →
      filesLoop valid (depth + 1) files directory fuel list g = .done (.ok g') := by
  induction list generalizing g ps with
  | nil => exact ⟨g, by simpa [allVars] using h, rfl, fun _ _ => rfl⟩
  | cons e list ih =>
    have hf' := fun e h => hf e (List.mem_cons_of_mem _ h)
    cases hb : e.2 with
    | true =>
      have hv : allVars vars (e :: list) = allVars vars list := by rw [allVars, hb]; rfl
      rw [hv] at hn hr hs ha ⊢
      obtain ⟨g', h1, h2, h3⟩ := ih hf' ps hn hr hs g ha h
      refine ⟨g', h1, h2, fun fuel hfuel => ?_⟩
      rw [filesLoop, if_pos hb]
      exact h3 fuel hfuel
    | false =>
      have hv : allVars vars (e :: list) = vars e.1 ++ allVars vars list := by rw [allVars, hb]; rfl
      rw [hv] at hn hr hs ha ⊢
      rw [← List.append_assoc] at hr hs ⊢
      obtain ⟨d1, h1, e1⟩ := one_has (valid := valid) depth (vars e.1) (fun r h => hn r (by simp [h])) ps
        (fun r h => hr r (by simp at h ⊢; tauto)) hs.left g (fun r h => ha r (by simp [h])) h g.long g.little
      obtain ⟨g', h2, h3, e2⟩ := ih hf' (ps ++ vars e.1) (fun r h => hn r (by simp [h])) hr hs
        { g with data := d1, long := 8, little := true } (fun r h => ha r (by simp [h])) h1
      refine ⟨g', h2, h3, fun fuel hfuel => ?_⟩
      rw [List.length_append] at hfuel
      rw [filesLoop, if_neg (by simp [hb]), hf e (List.mem_cons_self ..) hb]
      dsimp only
      rw [e1 fuel (by omega), Run.ok_bind, e2 fuel (by omega)]

theorem cutPath_plain {p : List Byte} (h : (47 : Byte) ∉ p) : cutPath p = p := by
  rw [cutPath, if_neg h]

theorem cutPath_slash (p : List Byte) {q : List Byte} (h : (47 : Byte) ∉ q) : cutPath (p ++ 47 :: q) = p := by
  rw [cutPath, if_pos (by simp), List.reverse_append, List.reverse_cons, List.append_assoc,
    List.dropWhile_append_of_pos]
  · simp
  · intro a ha
    rw [List.mem_reverse] at ha
    have : a ≠ 47 := by
      rintro rfl
      exact h ha
    simpa using this

/-- The directory of the files which an argument names: itself, if it has no '/'; otherwise what precedes the
last '/', which may be followed by a pattern. -/
def InDir (directory p : List Byte) : Prop :=
  (directory = p ∧ (47 : Byte) ∉ p) ∨ ∃ q, (47 : Byte) ∉ q ∧ directory = p ++ 47 :: q

/-- C88: a dataset of files written by OutDataFile is read as their variables one after the other, in the order
in which dir() names the files: the same as if they were in one file (C87). Missing: a directory given with a
path without '/' at its end (`c88_negation_path`); names which were avoided before (`c88_negation_avoid`);
variables with the same name and different dimensions (`c88_negation_mismatch`); otherwise as in C87. -/
theorem c88_dataset_partial {valid : List Byte → Bool} {depth : Nat} (hdepth : 1 ≤ depth)
    {dir : List Byte → List (List Byte × Bool)} {files : List Byte → Option (List Byte)}
    {vars : List Byte → List (Value × List Byte)} {directory p : List Byte} (hp : InDir directory p)
    (hf : ∀ e ∈ dir directory, e.2 = false → files (p ++ 47 :: e.1) = some (header ++ dumpAll (vars e.1)))
    (hr : ∀ r ∈ allVars vars (dir directory), Readable r.1 ∧ ReadableName valid r.2)
    (hs : SameShapes (allVars vars (dir directory))) (g : Globals)
    (ha : ∀ r ∈ allVars vars (dir directory), r.2 ∉ g.avoid) :
    ∃ g', Finishes (loadDataset valid depth dir files g directory) (.ok g') ∧
      IsRead g'.data (allVars vars (dir directory)) ∧ g'.avoid = g.avoid := by
  obtain ⟨depth, rfl⟩ : ∃ k, depth = k + 1 := ⟨depth - 1, by omega⟩
  have hc : cutPath directory = p := by
    rcases hp with ⟨rfl, h⟩ | ⟨q, hq, rfl⟩
    · exact cutPath_plain h
    · exact cutPath_slash p hq
  obtain ⟨g', h1, h2, h3⟩ := files_has (valid := valid) depth (directory := p) (dir directory) hf [] (fun r h => (hr r h).2)
    (fun r h => (hr r h).1) hs { g with data := [] } ha (fun n => rfl)
  refine ⟨g', ⟨(allVars vars (dir directory)).length + 1, fun n hn => ?_⟩, Has.isRead h1 (fun r h => (hr r h).1), h2⟩
  rw [loadDataset, hc]
  exact h3 n hn

/-- The hypotheses can be met: "d/" with the files "f" and "g", each with the number "a". -/
example : ∃ (dir : List Byte → List (List Byte × Bool)) (files : List Byte → Option (List Byte))
    (vars : List Byte → List (Value × List Byte)) (p : List Byte), InDir [100, 47] p ∧
    (∀ e ∈ dir [100, 47], e.2 = false → files (p ++ 47 :: e.1) = some (header ++ dumpAll (vars e.1))) ∧
    allVars vars (dir [100, 47]) = [(.double 1, [97]), (.double 1, [97])] ∧
    (∀ r ∈ allVars vars (dir [100, 47]), Readable r.1 ∧ ReadableName (fun _ => true) r.2) ∧
    SameShapes (allVars vars (dir [100, 47])) := by
  have hv : allVars (fun _ => [(Value.double 1, [97])]) [([46], true), ([102], false), ([103], false)]
      = [(.double 1, [97]), (.double 1, [97])] := rfl
  refine ⟨fun _ => [([46], true), ([102], false), ([103], false)],
    fun _ => some (header ++ dumpAll [(.double 1, [97])]), fun _ => [(.double 1, [97])], [100],
    Or.inr ⟨[], by simp, rfl⟩, fun _ _ _ => rfl, hv, ?_, ?_⟩
  · rw [hv]
    simp only [List.forall_mem_cons, List.not_mem_nil, false_imp_iff, implies_true, and_true]
    exact ⟨⟨trivial, readableName_a⟩, trivial, readableName_a⟩
  · rw [hv]
    simp [SameShapes]

/-- C88, negation: if the argument is the path of a directory, without '/' at its end, then its files are looked
for in the directory which contains it. -/
theorem c88_negation_path (valid : List Byte → Bool) (depth : Nat)
    {dir : List Byte → List (List Byte × Bool)} {files : List Byte → Option (List Byte)}
    {p q : List Byte} (hq : (47 : Byte) ∉ q) {name : List Byte} {list : List (List Byte × Bool)}
    (hl : dir (p ++ 47 :: q) = (name, false) :: list) (hf : files (p ++ 47 :: name) = none) (g : Globals) :
    Finishes (loadDataset valid depth dir files g (p ++ 47 :: q)) .abort := by
  refine ⟨0, fun n _ => ?_⟩
  rw [loadDataset, cutPath_slash p hq, hl, filesLoop, if_neg (by simp), hf]

/-- The directory "d/e" with the file "f". -/
example : ∃ (dir : List Byte → List (List Byte × Bool)) (files : List Byte → Option (List Byte)),
    dir ([100] ++ 47 :: [101]) = [([102], false)] ∧ files ([100, 47, 101] ++ 47 :: [102]) = some header ∧
      files ([100] ++ 47 :: [102]) = none :=
  ⟨fun _ => [([102], false)], fun f => if f = [100, 47, 101, 47, 102] then some header else none, rfl, rfl, rfl⟩

theorem field_filter (d : Data) (n m : List Byte) (h : m ≠ n) : field (d.filter fun e => e.1 ≠ n) m = field d m := by
  induction d with
  | nil => rfl
  | cons e d ih =>
    by_cases he : e.1 = n
    · rw [List.filter_cons_of_neg (by simpa using he), ih, field, if_neg (by rw [he]; exact h.symm)]
    · rw [List.filter_cons_of_pos (by simpa using he), field, field, ih]

theorem field_filter_same (d : Data) (n : List Byte) : field (d.filter fun e => e.1 ≠ n) n = none := by
  induction d with
  | nil => rfl
  | cons e d ih =>
    by_cases he : e.1 = n
    · rw [List.filter_cons_of_neg (by simpa using he), ih]
    · rw [List.filter_cons_of_pos (by simpa using he), field, if_neg he, ih]

theorem store_setfield {valid : List Byte → Bool} {d d' : Data} {name : List Byte} {obj : Arr} {l : Nat}
    (h : store valid d name obj l = .ok d') : ∃ a, d' = setfield d name a := by
  have key : ∀ r : Res Arr, (do let obj ← r; Res.assert (valid name = true); pure (setfield d name obj)) = .ok d' →
      ∃ a, d' = setfield d name a := by
    intro r hr
    cases r with
    | ok a =>
      rw [Res.ok_bind] at hr
      by_cases hv : valid name = true
      · rw [Sdf.assert_bind_pos hv] at hr
        injection hr with hr
        exact ⟨a, hr.symm⟩
      · rw [Res.assert, if_neg hv] at hr
        cases hr
    | abort => cases hr
    | ub => cases hr
  rw [store] at h
  dsimp only at h
  revert h
  cases field d name with
  | none => exact key _
  | some old => exact key _

theorem storeOrAvoid_other {valid : List Byte → Bool} {g g' : Globals} {name : List Byte} {obj : Arr} {l : Nat}
    (h : storeOrAvoid valid g name obj l = .ok g') {n : List Byte} (hn : n ≠ name) (ha : n ∈ g.avoid) :
    n ∈ g'.avoid ∧ field g'.data n = field g.data n := by
  rw [storeOrAvoid] at h
  cases hs : store valid g.data name obj l with
  | ok d =>
    rw [hs] at h
    injection h with h
    subst h
    refine ⟨ha, ?_⟩
    have := store_setfield hs
    obtain ⟨a, rfl⟩ := this
    rw [field_setfield, if_neg hn.symm]
  | ub => rw [hs] at h; cases h
  | abort =>
    rw [hs] at h
    dsimp only at h
    rw [rmfield] at h
    by_cases hf : (field g.data name).isSome = true
    · rw [Sdf.assert_bind_pos hf] at h
      injection h with h
      subst h
      exact ⟨by simp [ha], field_filter _ _ _ hn⟩
    · rw [Res.assert, if_neg hf] at h
      cases h

theorem oneLoop_avoid {valid : List Byte → Bool} {depth : Nat} {n : List Byte} (fuel : Nat) (s : In) (g g' : Globals)
    (h : oneLoop valid depth fuel s g = .done (.ok g')) (ha : n ∈ g.avoid) :
    n ∈ g'.avoid ∧ field g'.data n = field g.data n := by
  induction fuel generalizing s g with
  | zero => cases h
  | succ fuel ih =>
    rw [oneLoop] at h
    split at h
    · injection h with h
      injection h with h
      subst h
      exact ⟨ha, rfl⟩
    · cases hl : loadRecord depth s with
      | abort => rw [hl] at h; cases h
      | ub => rw [hl] at h; cases h
      | ok r =>
        obtain ⟨obj, name, l, s'⟩ := r
        rw [hl, Run.ok_bind] at h
        dsimp only at h
        have skip : (if obj.data = [] then pure { g with long := s'.long, little := s'.little }
            else oneLoop valid depth fuel s' g) = .done (.ok g') →
              n ∈ g'.avoid ∧ field g'.data n = field g.data n := by
          intro h
          split at h
          · injection h with h
            injection h with h
            subst h
            exact ⟨ha, rfl⟩
          · exact ih _ _ h ha
        by_cases hname : name ∈ g.avoid
        · rw [if_pos hname, if_pos rfl] at h
          exact skip h
        · rw [if_neg hname] at h
          by_cases hne : name = []
          · rw [if_pos hne] at h
            exact skip h
          · rw [if_neg hne] at h
            cases hst : storeOrAvoid valid g name obj l with
            | abort => rw [hst] at h; cases h
            | ub => rw [hst] at h; cases h
            | ok g1 =>
              rw [hst, Run.ok_bind] at h
              obtain ⟨h1, h2⟩ := storeOrAvoid_other hst (n := n) (by rintro rfl; exact hname ha) ha
              obtain ⟨h3, h4⟩ := ih _ _ h h1
              exact ⟨h3, h4.trans h2⟩

theorem filesLoop_avoid {valid : List Byte → Bool} {depth : Nat} {files : List Byte → Option (List Byte)}
    {directory n : List Byte} (fuel : Nat) (list : List (List Byte × Bool)) (g g' : Globals)
    (h : filesLoop valid depth files directory fuel list g = .done (.ok g')) (ha : n ∈ g.avoid) :
    n ∈ g'.avoid ∧ field g'.data n = field g.data n := by
  induction list generalizing g with
  | nil =>
    injection h with h
    injection h with h
    subst h
    exact ⟨ha, rfl⟩
  | cons e list ih =>
    rw [filesLoop] at h
    split at h
    · exact ih _ h ha
    · split at h
      · cases h
      · rename_i f hf
        cases hl : oneLoop valid depth fuel ⟨f, false, g.long, g.little⟩ g with
        | out => rw [hl] at h; cases h
        | done r =>
          cases r with
          | abort => rw [hl] at h; cases h
          | ub => rw [hl] at h; cases h
          | ok g1 =>
            rw [hl, Run.ok_bind] at h
            obtain ⟨h1, h2⟩ := oneLoop_avoid _ _ _ _ hl ha
            obtain ⟨h3, h4⟩ := ih _ h h1
            exact ⟨h3, h4.trans h2⟩

/-- C88, negation: a name which was avoided once is avoided in all datasets which are read later, whatever is in
their files. -/
theorem c88_negation_avoid {valid : List Byte → Bool} {depth : Nat} {dir : List Byte → List (List Byte × Bool)}
    {files : List Byte → Option (List Byte)} {directory n : List Byte} {g g' : Globals} (ha : n ∈ g.avoid)
    (h : Finishes (loadDataset valid depth dir files g directory) (.ok g')) :
    field g'.data n = none ∧ n ∈ g'.avoid := by
  obtain ⟨N, h⟩ := h
  have := filesLoop_avoid _ _ _ _ (h N (le_refl _)) ha
  exact ⟨this.2, this.1⟩

/-- C88, negation: two vectors with the same name and with different lengths are left out, without an error, and
their name is avoided from then on. -/
theorem c88_negation_mismatch {valid : List Byte → Bool} {depth : Nat} (hdepth : 1 ≤ depth)
    {dir : List Byte → List (List Byte × Bool)} {files : List Byte → Option (List Byte)}
    {directory p : List Byte} (hp : InDir directory p) {name : List Byte} {l m : List Word} (hl : l ≠ [])
    (hl' : l.length < 2 ^ 63) (hm : 2 ≤ m.length) (hm' : m.length < 2 ^ 63) (h : l.length ≠ m.length)
    {n : List Byte} (hn : ReadableName valid n) (hd : dir directory = [(name, false)])
    (hf : files (p ++ 47 :: name) = some (header ++ dumpAll [(.real ⟨[l.length], l⟩, n), (.real ⟨[m.length], m⟩, n)]))
    {g : Globals} (ha : n ∉ g.avoid) :
    ∃ g', Finishes (loadDataset valid depth dir files g directory) (.ok g') ∧ field g'.data n = none ∧ n ∈ g'.avoid := by
  obtain ⟨depth, rfl⟩ : ∃ k, depth = k + 1 := ⟨depth - 1, by omega⟩
  have hc : cutPath directory = p := by
    rcases hp with ⟨rfl, h⟩ | ⟨q, hq, rfl⟩
    · exact cutPath_plain h
    · exact cutPath_slash p hq
  have hm0 : m ≠ [] := by rintro rfl; simp at hm
  refine ⟨⟨[], g.avoid ++ [n], 8, true⟩, ⟨3, fun k hk => ?_⟩, rfl, by simp⟩
  obtain ⟨k, rfl⟩ : ∃ j, k = j + 1 + 1 + 1 := ⟨k - 3, by omega⟩
  have hda : ∀ (r : Value × List Byte) rs, dumpAll (r :: rs) = dump r.1 r.2 ++ dumpAll rs := fun _ _ => rfl
  have h0 : dumpAll [] = [] := rfl
  rw [loadDataset, hc, hd, filesLoop, if_neg (by simp), hf]
  dsimp only
  rw [hda, hda, oneLoop, if_neg (by simp), loadRecord_header (readable_vector hl hl') hn.1, Run.ok_bind]
  dsimp only
  rw [if_neg ha, if_neg hn.2.1, storeOrAvoid, store_new rfl hn.2.2.1]
  dsimp only
  rw [Run.ok_bind, oneLoop, if_neg (by simp), loadRecord_append (readable_vector hm0 hm') hn.1 hn.2.2.2, Run.ok_bind]
  dsimp only
  rw [if_neg ha, if_neg hn.2.1, storeOrAvoid]
  dsimp only
  have hst : store valid (setfield [] n (asObj (.real ⟨[l.length], l⟩))) n (asObj (.real ⟨[m.length], m⟩))
      (rank (.real ⟨[m.length], m⟩)) = .abort := store_lengths hl hm h
  rw [hst]
  dsimp only
  have hrm : rmfield (setfield [] n (asObj (.real ⟨[l.length], l⟩))) n = .ok [] := by
    rw [rmfield, field_setfield, if_pos rfl]
    simp [setfield, Res.assert]
  rw [hrm, Res.ok_bind, Res.pure_eq, Run.ok_bind, h0, oneLoop, if_neg (by simp), loadRecord_end, Run.ok_bind]
  dsimp only
  rw [ite_self]
  rfl

end Verif.Mat
