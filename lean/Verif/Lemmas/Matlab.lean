import Verif.Model.Matlab
import Verif.Spec.Matlab
import Verif.Props.Python
import Mathlib.Data.List.GetD
/-
Lemmas on the functions of Matlab which read data files.
-/
namespace Verif.Mat

open Sdf

/-! Reading bytes -/

section Vec

variable {ε : Type} {c : Codec ε} {v : List ε}

theorem fread_append (hw : 0 < c.width) (hv : ∀ e ∈ v, c.Good e) (r : List Byte) (e : Bool) (g : Nat) (b : Bool) :
    fread v.length c.width ⟨(v.map c.enc).flatten ++ r, e, g, b⟩ = (v.map c.enc, ⟨r, e, g, b⟩) := by
  have hfl := flatten_enc_length hv
  have h1 : ((v.map c.enc).flatten ++ r).take (v.length * c.width) = (v.map c.enc).flatten := by
    rw [← hfl, List.take_left]
  have h2 : ((v.map c.enc).flatten ++ r).drop (v.length * c.width) = r := by
    rw [← hfl, List.drop_left]
  have hk : (v.length * c.width + (c.width - 1)) / c.width = v.length := by
    rw [Nat.mul_comm, Nat.mul_add_div hw, Nat.div_eq_of_lt (by omega), Nat.add_zero]
  rw [fread]
  simp only [h1, h2, hfl, hk]
  refine Prod.ext ?_ ?_
  · apply List.ext_getElem (by simp)
    intro k h1 h2
    simp at h1
    simp only [List.getElem_map, List.getElem_range]
    rw [flatten_chunk hv h1, (hv _ (List.getElem_mem h1)).1, Nat.sub_self, List.replicate_zero, List.append_nil]
  · have : decide (((v.map c.enc).flatten ++ r).length < v.length * c.width) = false := by
      rw [List.length_append, hfl]; simp
    simp only [this, Bool.or_false]

end Vec

theorem fread_nil (n w : Nat) (hn : 0 < n * w) (e : Bool) (g : Nat) (b : Bool) :
    fread n w ⟨[], e, g, b⟩ = ([], ⟨[], true, g, b⟩) := by
  rw [fread]
  have h0 : (w - 1) / w = 0 := by
    rcases Nat.eq_zero_or_pos w with h | h
    · simp [h] at hn
    · exact Nat.div_eq_of_lt (by omega)
  simp only [List.take_nil, List.drop_nil, List.length_nil, Nat.zero_add, h0, List.range_zero, List.map_nil,
    decide_eq_true hn, Bool.or_true]

/-- Characters. -/
def charC : Codec Byte := ⟨1, fun b => [b], fun l => l.headD 0⟩

theorem flatten_chars (l : List Byte) : (l.map charC.enc).flatten = l := by
  induction l with
  | nil => rfl
  | cons a l ih => rw [List.map_cons, List.flatten_cons, ih]; rfl

theorem readName_append {l : List Byte} (hl : l.length = 64) (r : List Byte) (e : Bool) (g : Nat) (b : Bool) :
    readName ⟨l ++ r, e, g, b⟩ = (l, ⟨r, e, g, b⟩) := by
  have := fread_append (c := charC) (v := l) (by decide) (fun _ _ => ⟨rfl, rfl⟩) r e g b
  rw [flatten_chars, hl] at this
  rw [readName]
  have h1 : charC.width = 1 := rfl
  rw [h1] at this
  rw [this]
  simp only [flatten_chars]

theorem readName_nil (e : Bool) (g : Nat) (b : Bool) : readName ⟨[], e, g, b⟩ = ([], ⟨[], true, g, b⟩) := by
  rw [readName, fread_nil 64 1 (by decide)]
  rfl

theorem decode_longs {v : List Int} (hv : ∀ e ∈ v, Py.longC.Good e) (r : List Byte) (e : Bool) :
    ((v.map Py.longC.enc).map fun l => Py.longOf (ordered ⟨r, e, 8, true⟩ l)) = v := by
  induction v with
  | nil => rfl
  | cons i v ih =>
    rw [List.map_cons, List.map_cons, ih fun e h => hv e (List.mem_cons_of_mem _ h)]
    have h := (hv i (List.mem_cons_self ..)).2
    rw [ordered, if_pos rfl]
    exact congrArg (· :: v) h

theorem readLongs_append {v : List Int} (hv : ∀ e ∈ v, Py.longC.Good e) (r : List Byte) (e : Bool) :
    readLongs v.length ⟨(v.map Py.longC.enc).flatten ++ r, e, 8, true⟩ = .ok (v, ⟨r, e, 8, true⟩) := by
  have h1 : fread v.length 8 ⟨(v.map Py.longC.enc).flatten ++ r, e, 8, true⟩ = (v.map Py.longC.enc, ⟨r, e, 8, true⟩) :=
    fread_append (c := Py.longC) (v := v) (by decide) hv r e 8 true
  have h2 := decode_longs hv ((v.map Py.longC.enc).flatten ++ r) e
  rw [readLongs, Sdf.assert_bind_pos (by omega), Int.toNat_natCast]
  dsimp only
  rw [h1]
  dsimp only
  rw [h2]
  rfl

theorem readLong_append {i : Int} (h1 : -2 ^ 63 ≤ i) (h2 : i < 2 ^ 63) (r : List Byte) (e : Bool) :
    readLong ⟨wordBytes (BitVec.ofInt 64 i) ++ r, e, 8, true⟩ = .ok (i, ⟨r, e, 8, true⟩) := by
  have h := readLongs_append (v := [i])
    (fun e he => by rw [List.mem_singleton] at he; rw [he]; exact Py.longC_good h1 h2) r e
  simp only [Py.longC, List.map_cons, List.map_nil, List.flatten_cons, List.flatten_nil, List.append_nil,
    List.length_singleton, Nat.cast_one] at h
  rw [readLong]
  rw [h, Res.ok_bind]
  rfl

theorem readLong_length {n : Nat} (h : n < 2 ^ 63) (r : List Byte) (e : Bool) :
    readLong ⟨wordBytes (BitVec.ofNat 64 n) ++ r, e, 8, true⟩ = .ok (n, ⟨r, e, 8, true⟩) := by
  have := readLong_append (i := n) (by omega) (by omega) r e
  rwa [BitVec.ofInt_natCast] at this

/-! Sizes -/

theorem dropWhile_rev (l : List Nat) :
    ∃ k, l = (l.reverse.dropWhile (· = 1)).reverse ++ List.replicate k 1 := by
  have h := List.takeWhile_append_dropWhile (p := fun x : Nat => decide (x = 1)) (l := l.reverse)
  refine ⟨(l.reverse.takeWhile (· = 1)).length, ?_⟩
  have h1 : l.reverse.takeWhile (· = 1) = List.replicate (l.reverse.takeWhile (· = 1)).length 1 := by
    rw [List.eq_replicate_iff]
    refine ⟨rfl, fun b hb => ?_⟩
    simpa using List.mem_takeWhile_imp hb
  have h2 := congrArg List.reverse h
  rw [List.reverse_append, List.reverse_reverse, h1, List.reverse_replicate] at h2
  exact h2.symm

/-- The size completed with ones. -/
theorem size_pad {d : List Nat} {n : Nat} (h1 : d.length ≤ n) (h2 : 2 ≤ n) :
    (size d).length ≤ n ∧ pad n (size d) = pad n d := by
  match d with
  | [] =>
    obtain ⟨m, rfl⟩ : ∃ m, n = m + 2 := ⟨n - 2, by omega⟩
    exact ⟨by simp [size], by simp [size, pad, List.replicate_succ]⟩
  | [a] =>
    obtain ⟨m, rfl⟩ : ∃ m, n = m + 2 := ⟨n - 2, by omega⟩
    refine ⟨by simp [size], ?_⟩
    simp [size, pad, List.replicate_succ]
  | a :: b :: l =>
    obtain ⟨k, hk⟩ := dropWhile_rev l
    have hs : size (a :: b :: l) = a :: b :: (l.reverse.dropWhile (· = 1)).reverse := by simp [size]
    generalize (l.reverse.dropWhile (· = 1)).reverse = m at hk hs
    rw [hs]
    subst hk
    simp at h1
    refine ⟨by simp; omega, ?_⟩
    simp only [pad, List.cons_append, List.length_cons, List.append_assoc, List.length_append, List.length_replicate]
    rw [List.replicate_append_replicate]
    congr 4
    omega

theorem getD_pad (n : Nat) (d : List Nat) (i : Nat) : (pad n d).getD i 1 = d.getD i 1 := by
  rw [pad]
  rcases Nat.lt_or_ge i d.length with h | h
  · rw [List.getD_append _ _ _ _ h]
  · rw [List.getD_append_right _ _ _ _ h, List.getD_eq_default d _ h]
    rcases Nat.lt_or_ge (i - d.length) (n - d.length) with h' | h'
    · rw [List.getD_eq_getElem _ _ (by simpa using h')]
      simp
    · rw [List.getD_eq_default _ _ (by simpa using h')]

/-- `size` is as specified. -/
theorem size_isSize (d : List Nat) : IsSize (size d) d := by
  refine ⟨by simp [size], fun i => ?_, fun h => ?_⟩
  · have := size_pad (d := d) (n := d.length + 2) (by omega) (by omega)
    rw [← getD_pad (d.length + 2), this.2, getD_pad]
  · rw [size] at h ⊢
    intro hc
    simp only [List.length_cons] at h
    generalize hm : (d.drop 2).reverse.dropWhile (· = 1) = m at h hc
    have hne : m ≠ [] := by
      rintro rfl
      simp at h
    rw [List.getLast?_cons, List.getLast?_cons, List.getLast?_reverse] at hc
    cases m with
    | nil => exact hne rfl
    | cons x xs =>
      simp at hc
      have := List.dropWhile_get_zero_not (p := fun x : Nat => decide (x = 1)) (l := (d.drop 2).reverse)
        (by rw [hm]; simp)
      simp [hm, hc] at this

/-- The size is the only one. -/
theorem IsSize.unique {s t d : List Nat} (hs : IsSize s d) (ht : IsSize t d) : s = t := by
  have key : ∀ {s t : List Nat}, IsSize s d → IsSize t d → s.length ≤ t.length := by
    intro s t hs ht
    by_contra hc
    rw [not_le] at hc
    have h2 : 2 < s.length := lt_of_le_of_lt ht.1 hc
    apply hs.2.2 h2
    have h3 := hs.2.1 (s.length - 1)
    rw [← ht.2.1, List.getD_eq_default t _ (by omega), List.getD_eq_getElem _ _ (by omega)] at h3
    rw [List.getLast?_eq_getElem?, List.getElem?_eq_getElem (by omega), h3]
  have hl := le_antisymm (key hs ht) (key ht hs)
  apply List.ext_getElem hl
  intro i h1 h2
  have := (hs.2.1 i).trans (ht.2.1 i).symm
  rwa [List.getD_eq_getElem _ _ h1, List.getD_eq_getElem _ _ h2] at this

/-! Tensors -/

theorem pairs_ok (l : List (Word × Word)) : pairs (l.flatMap fun z => [z.1, z.2]) = .ok l := by
  induction l with
  | nil => rfl
  | cons z l ih =>
    rw [List.flatMap_cons]
    rw [List.cons_append, List.cons_append, List.nil_append, pairs, ih]
    rfl

theorem flatten_cplx (l : List (Word × Word)) :
    (l.map cplxC.enc).flatten = ((l.flatMap fun z => [z.1, z.2]).map realC.enc).flatten := by
  induction l with
  | nil => rfl
  | cons z l ih =>
    rw [List.map_cons, List.flatten_cons, ih, List.flatMap_cons]
    simp [cplxC, realC]

/-- What a tensor is read as. -/
def asArr (d : List Nat) (l : List (Word × Word)) : Arr := ⟨size d, l⟩

theorem dims_ne {ε : Type} {t : Tensor ε} (ht : TensorOk t) (hne : Sized t) : t.dims ≠ [] := by
  intro h
  rcases hne with hne | hne
  · have := ht.1
    rw [Tensor.WF, h] at this
    exact hne (List.length_eq_zero_iff.1 this)
  · rw [h] at hne
    simp at hne

/-- The end of loadTensor. -/
theorem finish {ε : Type} {t : Tensor ε} (ht : TensorOk t) (hne : Sized t) (l : List (Word × Word))
    (hl : l.length = t.data.length) (cplx : Bool) (s : In) :
    (if 1 < (t.dims.length : Int) then do
        let u ← reshape l (t.dims.map fun d : Nat => (d : Int))
        pure (u, (t.dims.map fun d : Nat => (d : Int)).length, s)
      else if cplx = true ∧ l = [] then .ub
      else pure (column l, (t.dims.map fun d : Nat => (d : Int)).length, s) : Res (Arr × Nat × In))
      = .ok (asArr t.dims l, t.dims.length, s) := by
  have hd := dims_ne ht hne
  have hn : t.dims.foldl (· * ·) 1 = l.length := by
    rw [Py.foldl_mul_prod, Nat.one_mul, hl, ht.1, Py.totalSize_prod hd]
  split
  · rename_i h
    rw [reshape, Sdf.assert_bind_pos (by rw [List.length_map]; omega), Sdf.assert_bind_pos (by
      intro d hd
      obtain ⟨x, _, rfl⟩ := List.mem_map.1 hd
      omega)]
    simp only
    rw [Py.toNat_ofNat, Sdf.assert_bind_pos hn, List.length_map]
    rfl
  · rename_i h
    have hl0 : l ≠ [] := by
      rcases hne with hne | hne
      · exact fun h => hne (List.length_eq_zero_iff.1 (by rw [← hl, h]; rfl))
      · omega
    rw [if_neg (by tauto), List.length_map, column, if_neg hl0]
    match hd' : t.dims with
    | [] => exact absurd hd' hd
    | [n] =>
      rw [hd'] at hn
      simp at hn
      rw [asArr, hn]
      rfl
    | a :: b :: r => rw [hd'] at h; simp at h

/-- What was read of a real tensor before it gets its size. -/
theorem loadTensor_bytes {t : Tensor Word} (ht : TensorOk t) (r : List Byte) :
    loadTensor false ⟨vecBytes dimC (t.dims.map fun d : Nat => (d : Int)) ++ (vecBytes realC t.data ++ r), false, 8, true⟩
      = (if 1 < (t.dims.length : Int) then do
          let u ← reshape (t.data.map fun w => (w, 0)) (t.dims.map fun d : Nat => (d : Int))
          pure (u, (t.dims.map fun d : Nat => (d : Int)).length, ⟨r, false, 8, true⟩)
        else if false = true ∧ (t.data.map fun w => (w, (0 : Word))) = [] then .ub
        else pure (column (t.data.map fun w => (w, 0)), (t.dims.map fun d : Nat => (d : Int)).length,
          ⟨r, false, 8, true⟩)) := by
  have hd := readLongs_append (Py.dims_long ht) (vecBytes realC t.data ++ r) false
  rw [List.length_map] at hd
  have he : Py.longC.enc = dimC.enc := rfl
  rw [he] at hd
  have hf := fread_append (c := realC) (v := t.data) (by decide) (fun e _ => realC_good e) r false 8 true
  rw [vecBytes.eq_def dimC, List.length_map, List.append_assoc, loadTensor, readLong_length ht.2.2.1, Res.ok_bind]
  simp only
  rw [hd, Res.ok_bind]
  simp only
  rw [vecBytes, List.append_assoc, readLong_length ht.2.1, Res.ok_bind]
  simp only [Bool.false_eq_true, if_false, Int.toNat_natCast]
  rw [Sdf.assert_bind_pos (by omega)]
  have h8 : realC.width = 8 := rfl
  rw [h8] at hf
  rw [hf]
  simp only [Res.pure_eq, Res.ok_bind, List.map_map]
  have hm : (t.data.map ((fun w => (w, (0 : Word))) ∘ (fun e => wordOf (ordered ⟨(t.data.map realC.enc).flatten ++ r, false, 8, true⟩ e)) ∘ realC.enc))
      = t.data.map fun w => (w, 0) := by
    apply List.map_congr_left
    intro w _
    show (wordOf (wordBytes w), (0 : Word)) = _
    rw [wordOf_wordBytes]
  rw [hm]
  simp

theorem loadTensor_real {t : Tensor Word} (ht : TensorOk t) (hne : Sized t) (r : List Byte) :
    loadTensor false ⟨vecBytes dimC (t.dims.map fun d : Nat => (d : Int)) ++ (vecBytes realC t.data ++ r), false, 8, true⟩
      = .ok (asArr t.dims (t.data.map fun w => (w, 0)), t.dims.length, ⟨r, false, 8, true⟩) :=
  (loadTensor_bytes ht r).trans (finish ht hne _ (List.length_map _) false _)

theorem loadTensor_complex {t : Tensor (Word × Word)} (ht : TensorOk t) (hne : Sized t) (r : List Byte) :
    loadTensor true ⟨vecBytes dimC (t.dims.map fun d : Nat => (d : Int)) ++ (vecBytes cplxC t.data ++ r), false, 8, true⟩
      = .ok (asArr t.dims t.data, t.dims.length, ⟨r, false, 8, true⟩) := by
  have hd := readLongs_append (Py.dims_long ht) (vecBytes cplxC t.data ++ r) false
  rw [List.length_map] at hd
  have he : Py.longC.enc = dimC.enc := rfl
  rw [he] at hd
  have hf := fread_append (c := realC) (v := t.data.flatMap fun z => [z.1, z.2]) (by decide)
    (fun e _ => realC_good e) r false 8 true
  rw [← flatten_cplx] at hf
  have hlen : (t.data.flatMap fun z => [z.1, z.2]).length = 2 * t.data.length := by
    induction t.data with
    | nil => rfl
    | cons z l ih => rw [List.flatMap_cons, List.length_append, ih, List.length_cons]; simp; omega
  rw [hlen] at hf
  rw [vecBytes.eq_def dimC, List.length_map, List.append_assoc, loadTensor, readLong_length ht.2.2.1, Res.ok_bind]
  simp only
  rw [hd, Res.ok_bind]
  simp only
  rw [vecBytes, List.append_assoc, readLong_length ht.2.1, Res.ok_bind]
  simp only [if_true, Int.toNat_natCast]
  rw [Sdf.assert_bind_pos (by omega)]
  have h8 : realC.width = 8 := rfl
  rw [h8] at hf
  rw [hf]
  simp only [List.map_map]
  have hm : ((t.data.flatMap fun z => [z.1, z.2]).map ((fun e => wordOf (ordered ⟨(t.data.map cplxC.enc).flatten ++ r, false, 8, true⟩ e)) ∘ realC.enc))
      = t.data.flatMap fun z => [z.1, z.2] := by
    conv_rhs => rw [← List.map_id (t.data.flatMap fun z => [z.1, z.2])]
    apply List.map_congr_left
    intro w _
    exact wordOf_wordBytes w
  rw [hm, pairs_ok, Res.ok_bind]
  have := finish ht hne t.data rfl true ⟨r, false, 8, true⟩
  simpa using this

/-! Names and tags -/

theorem filter_field {name : List Byte} (hn : NameOk name) : (nameField name).filter (· ≠ 0) = name := by
  rw [nameField_eq, stored_ok hn, List.filter_append, List.filter_eq_self.2 (by simpa using hn.2)]
  rw [List.filter_eq_nil_iff.2 (by simp), List.append_nil]

theorem charAt_field {name : List Byte} (hn : NameOk name) {i : Nat} (hi : i < 64) :
    charAt (nameField name) i = .ok (name.getD i 0) := by
  rw [charAt, nameField_eq, stored_ok hn, List.getElem?_append]
  split
  · rename_i h
    split at h
    · rename_i h'
      rw [List.getElem?_eq_getElem h'] at h
      injection h with h
      rw [List.getD_eq_getElem _ _ h', h]
    · rename_i h'
      rw [List.getElem?_replicate] at h
      split at h
      · injection h with h
        rw [List.getD_eq_default _ _ (by omega), h]
      · cases h
  · rename_i h
    split at h
    · rename_i h'
      rw [List.getElem?_eq_getElem h'] at h
      cases h
    · rename_i h'
      rw [List.getElem?_replicate] at h
      split at h
      · cases h
      · have := hn.1; omega

theorem isSdf_iff (name : List Byte) :
    (name.getD 0 0 = 115 ∧ name.getD 1 0 = 100 ∧ name.getD 2 0 = 102) ↔ Py.sdf <+: name := by
  match name with
  | [] => simp [Py.sdf]
  | [a] => simp [Py.sdf]
  | [a, b] => simp [Py.sdf]
  | a :: b :: c :: l => simp [Py.sdf, eq_comm]

/-- A name which is not the header. -/
theorem skipHeader_name {name : List Byte} (hn : NameOk name) (hs : ¬Py.sdf <+: name) (s : In) :
    skipHeader (nameField name) s = .ok (nameField name, s) := by
  have hne : nameField name ≠ [] := by
    intro h
    have := nameField_length name
    rw [h] at this
    cases this
  rw [skipHeader, if_neg hne, charAt_field hn (by decide), charAt_field hn (by decide), charAt_field hn (by decide)]
  simp only [Res.ok_bind]
  rw [if_neg (by rw [isSdf_iff]; exact hs)]
  rfl

theorem readLongs_one {tag : Int} (ht : 0 ≤ tag ∧ tag < 4) (r : List Byte) :
    readLongs 1 ⟨wordBytes (BitVec.ofInt 64 tag) ++ r, false, 8, true⟩ = .ok ([tag], ⟨r, false, 8, true⟩) := by
  have h := readLongs_append (v := [tag])
    (fun e he => by rw [List.mem_singleton] at he; rw [he]; exact Py.longC_good (by omega) (by omega)) r false
  simpa only [Py.longC, List.map_cons, List.map_nil, List.flatten_cons, List.flatten_nil, List.append_nil,
    List.length_singleton, Nat.cast_one] using h

/-- The tag of a record. -/
theorem loadTag_append {name : List Byte} (hn : NameOk name) (hs : ¬Py.sdf <+: name) {tag : Int}
    (ht : 0 ≤ tag ∧ tag < 4) (r : List Byte) :
    loadTag ⟨tagBytes name tag ++ r, false, 8, true⟩ = .ok (name, tag, ⟨r, false, 8, true⟩) := by
  rw [tagBytes, List.append_assoc, loadTag, readName_append (nameField_length name)]
  simp only
  rw [skipHeader_name hn hs, Res.ok_bind]
  simp only [Bool.false_eq_true, if_false]
  rw [readLongs_one ht, Res.ok_bind, filter_field hn]
  rfl

theorem header_ok : NameOk [115, 100, 102, 4 + 48, 8 + 48, 1 + 48] := by
  refine ⟨by decide, by decide⟩

/-- The header. -/
theorem skipHeader_header (r : List Byte) (e : Bool) (w : Nat) (b : Bool) :
    skipHeader header ⟨r, e, w, b⟩ = .ok (readName ⟨r, e, 8, true⟩) := by
  have hne : header ≠ [] := by
    intro h
    have := nameField_length [115, 100, 102, 4 + 48, 8 + 48, 1 + 48]
    rw [← header, h] at this
    cases this
  rw [skipHeader, if_neg hne, header, charAt_field header_ok (by decide), charAt_field header_ok (by decide),
    charAt_field header_ok (by decide), charAt_field header_ok (by decide), charAt_field header_ok (by decide)]
  rfl

/-- The header and the tag of the first record. -/
theorem loadTag_header {name : List Byte} (hn : NameOk name) {tag : Int} (ht : 0 ≤ tag ∧ tag < 4) (w : Nat)
    (b : Bool) (r : List Byte) :
    loadTag ⟨header ++ (tagBytes name tag ++ r), false, w, b⟩ = .ok (name, tag, ⟨r, false, 8, true⟩) := by
  rw [tagBytes, List.append_assoc, loadTag, readName_append (by exact nameField_length _)]
  simp only
  rw [skipHeader_header, Res.ok_bind, readName_append (nameField_length name)]
  simp only [Bool.false_eq_true, if_false]
  rw [readLongs_one ht, Res.ok_bind, filter_field hn]
  rfl

/-- The end of the file. -/
theorem loadTag_end (w : Nat) (b : Bool) : loadTag ⟨[], false, w, b⟩ = .ok ([], -1, ⟨[], true, w, b⟩) := by
  rw [loadTag, readName_nil]
  simp only
  rw [skipHeader, if_pos rfl]
  rfl

/-! Records -/

/-- What a variable is read as. -/
def asObj (v : Value) : Arr :=
  match shape v with
  | some d => asArr d (numbers v)
  | none => empty

/-- The length of `dims`. -/
def rank (v : Value) : Nat :=
  match shape v with
  | some d => d.length
  | none => 1

theorem loadRecord_real {s s' s'' : In} {name : List Byte} {t : Arr} {l : Nat} (depth : Nat)
    (h : loadTag s = .ok (name, 0, s')) (ht : loadTensor false s' = .ok (t, l, s'')) :
    loadRecord depth s = .ok (t, name, l, s'') := by
  rw [loadRecord, h, Res.ok_bind]
  simp only
  rw [if_neg (by decide), if_pos trivial, ht]
  rfl

theorem loadRecord_complex {s s' s'' : In} {name : List Byte} {t : Arr} {l : Nat} (depth : Nat)
    (h : loadTag s = .ok (name, 1, s')) (ht : loadTensor true s' = .ok (t, l, s'')) :
    loadRecord depth s = .ok (t, name, l, s'') := by
  rw [loadRecord, h, Res.ok_bind]
  simp only
  rw [if_neg (by decide), if_neg (by decide), if_pos trivial, ht]
  rfl

theorem loadRecord_mp {s s' s'' s3 : In} {name : List Byte} {tag : Int} (htag : tag = 2 ∨ tag = 3)
    {depth : Nat} {l : Int} (h : loadTag s = .ok (name, tag, s')) (hl : readLong s' = .ok (l, s''))
    (hs : skipRecords (loadRecord depth) l.toNat s'' = .ok s3) :
    loadRecord (depth + 1) s = .ok (empty, name, 1, s3) := by
  rw [loadRecord, h, Res.ok_bind]
  simp only
  rw [if_neg (by omega), if_neg (by omega), if_neg (by omega), if_pos htag, hl, Res.ok_bind]
  simp only
  rw [hs]
  rfl

theorem nil_ok : NameOk [] ∧ ¬Py.sdf <+: [] := ⟨by simp [NameOk], by simp [Py.sdf]⟩

theorem skip_reals (m : List (Tensor Word)) (hm : ∀ t ∈ m, TensorOk t ∧ Sized t) (depth : Nat) (r : List Byte) :
    skipRecords (loadRecord depth) m.length
        ⟨(m.map fun t => dumpTensor realC 0 t []).flatten ++ r, false, 8, true⟩
      = .ok ⟨r, false, 8, true⟩ := by
  induction m with
  | nil => rfl
  | cons t m ih =>
    have h := hm t (List.mem_cons_self ..)
    rw [List.length_cons, List.map_cons, List.flatten_cons, List.append_assoc, skipRecords,
      dumpTensor, List.append_assoc, List.append_assoc,
      loadRecord_real depth (loadTag_append nil_ok.1 nil_ok.2 (by omega) _) (loadTensor_real h.1 h.2 _), Res.ok_bind]
    exact ih fun t h => hm t (List.mem_cons_of_mem _ h)

theorem skip_complexes (m : List (Tensor (Word × Word))) (hm : ∀ t ∈ m, TensorOk t ∧ Sized t)
    (depth : Nat) (r : List Byte) :
    skipRecords (loadRecord depth) m.length
        ⟨(m.map fun t => dumpTensor cplxC 1 t []).flatten ++ r, false, 8, true⟩
      = .ok ⟨r, false, 8, true⟩ := by
  induction m with
  | nil => rfl
  | cons t m ih =>
    have h := hm t (List.mem_cons_self ..)
    rw [List.length_cons, List.map_cons, List.flatten_cons, List.append_assoc, skipRecords,
      dumpTensor, List.append_assoc, List.append_assoc,
      loadRecord_complex depth (loadTag_append nil_ok.1 nil_ok.2 (by omega) _) (loadTensor_complex h.1 h.2 _), Res.ok_bind]
    exact ih fun t h => hm t (List.mem_cons_of_mem _ h)

/-- A record after its tag. -/
theorem loadRecord_body {v : Value} (hv : Readable v) {s : In} {name r : List Byte}
    (h : loadTag s = .ok (name, v.kind.tag, ⟨Py.body v ++ r, false, 8, true⟩)) (depth : Nat) :
    loadRecord (depth + 1) s = .ok (asObj v, name, rank v, ⟨r, false, 8, true⟩) := by
  have one : ∀ (x : Word), loadTensor false
      ⟨vecBytes dimC [1] ++ vecBytes realC [x] ++ r, false, 8, true⟩
        = .ok (asArr [1] [(x, 0)], 1, ⟨r, false, 8, true⟩) := by
    intro x
    rw [List.append_assoc]
    exact loadTensor_real (t := ⟨[1], [x]⟩) (one_ok x) (Or.inl (by simp)) r
  cases v with
  | real t =>
    rw [Py.body, List.append_assoc] at h
    exact loadRecord_real _ h (loadTensor_real hv.1 hv.2.1 r)
  | complex t =>
    rw [Py.body, List.append_assoc] at h
    exact loadRecord_complex _ h (loadTensor_complex hv.1 hv.2.1 r)
  | reals m =>
    rw [Py.body, List.append_assoc] at h
    exact loadRecord_mp (Or.inl rfl) h (readLong_length hv.1 _ _)
      (by rw [Int.toNat_natCast]; exact skip_reals m hv.2 depth r)
  | complexes m =>
    rw [Py.body, List.append_assoc] at h
    exact loadRecord_mp (Or.inr rfl) h (readLong_length hv.1 _ _)
      (by rw [Int.toNat_natCast]; exact skip_complexes m hv.2 depth r)
  | double x => exact loadRecord_real _ h (one x)
  | cdouble x =>
    rw [Py.body, List.append_assoc] at h
    exact loadRecord_complex _ h (loadTensor_complex (t := ⟨[1], [x]⟩) (one_ok x) (Or.inl (by simp)) r)
  | int x => exact loadRecord_real _ h (one _)
  | size x => exact loadRecord_real _ h (one _)

theorem loadRecord_append {v : Value} (hv : Readable v) {name : List Byte} (hn : NameOk name)
    (hs : ¬Py.sdf <+: name) (r : List Byte) (depth : Nat) :
    loadRecord (depth + 1) ⟨dump v name ++ r, false, 8, true⟩
      = .ok (asObj v, name, rank v, ⟨r, false, 8, true⟩) := by
  refine loadRecord_body hv ?_ depth
  rw [Py.dump_body, List.append_assoc]
  exact loadTag_append hn hs (Py.tag_bounds _) _

theorem loadRecord_header {v : Value} (hv : Readable v) {name : List Byte} (hn : NameOk name) (r : List Byte)
    (w : Nat) (b : Bool) (depth : Nat) :
    loadRecord (depth + 1) ⟨header ++ (dump v name ++ r), false, w, b⟩
      = .ok (asObj v, name, rank v, ⟨r, false, 8, true⟩) := by
  refine loadRecord_body hv ?_ depth
  rw [Py.dump_body, List.append_assoc]
  exact loadTag_header hn (Py.tag_bounds _) _ _ _

theorem loadRecord_end (depth : Nat) (w : Nat) (b : Bool) :
    loadRecord depth ⟨[], false, w, b⟩ = .ok (empty, [], 1, ⟨[], true, w, b⟩) := by
  rw [loadRecord, loadTag_end]
  rfl

end Verif.Mat
