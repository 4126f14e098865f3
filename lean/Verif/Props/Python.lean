import Verif.Spec.Python
import Verif.Lemmas.Utf8
import Verif.Props.DataFile
import Verif.Lemmas.Index
/-
Properties of the Python module: C79 (what is written is read by Python) and C80 (datasets).
-/
namespace Verif.Py

open Sdf

/-! Reading bytes -/

theorem read_append (l r : List Byte) {n : Nat} (hn : l.length = n) (w : Nat) (b : Bool) :
    read n ⟨l ++ r, w, b⟩ = (l, ⟨r, w, b⟩) := by
  subst hn
  simp [read]

section Vec

variable {ε : Type} {c : Codec ε} {v : List ε}

/-- An array of which only the first `j` bytes are in the file. -/
theorem readArray_short (hv : ∀ e ∈ v, c.Good e) {j : Nat} (hj : j < v.length * c.width) (w : Nat) :
    readArray c.width c.dec v.length ⟨(v.map c.enc).flatten.take j, w, false⟩
      = .ok ((List.range v.length).map fun k =>
          if (k + 1) * c.width ≤ j then v[k]? else none, ⟨[], w, false⟩) := by
  have hfl := flatten_enc_length hv
  have htk : ((v.map c.enc).flatten.take j).length = j := by rw [List.length_take, hfl]; omega
  have hall : ((v.map c.enc).flatten.take j).take (v.length * c.width)
      = (v.map c.enc).flatten.take j := List.take_of_length_le (by omega)
  have hdrop : ((v.map c.enc).flatten.take j).drop (v.length * c.width) = [] :=
    List.drop_of_length_le (by omega)
  rw [readArray, assert_bind_pos (by omega), assert_bind_pos rfl]
  simp only [readInto, Int.toNat_natCast, hall, hdrop, Res.pure_eq]
  congr 2
  apply List.map_congr_left
  intro k hk
  rw [List.mem_range] at hk
  rw [htk, chunk_short hv hk (by omega)]
  simp [hk]

theorem readArray_append (hv : ∀ e ∈ v, c.Good e) (r : List Byte) (w : Nat) :
    readArray c.width c.dec v.length ⟨(v.map c.enc).flatten ++ r, w, false⟩
      = .ok (v.map some, ⟨r, w, false⟩) := by
  have hfl := flatten_enc_length hv
  rw [readArray, assert_bind_pos (by omega), assert_bind_pos rfl]
  have hr : readInto (v.length * c.width) ⟨(v.map c.enc).flatten ++ r, w, false⟩
      = ((v.map c.enc).flatten.map some, ⟨r, w, false⟩) := by
    rw [readInto]
    simp only
    rw [← hfl, List.take_left, List.drop_left, List.length_append,
      show (v.map c.enc).flatten.length - ((v.map c.enc).flatten.length + r.length) = 0 by omega,
      List.replicate_zero, List.append_nil]
  simp only [Int.toNat_natCast, hr, Res.pure_eq]
  congr 2
  apply List.ext_getElem (by simp)
  intro k h1 h2
  simp at h1
  simp only [List.getElem_map, List.getElem_range]
  have := chunk_short hv h1 (j := v.length * c.width) (le_refl _)
  rw [if_pos (Nat.mul_le_mul_right _ h1), Nat.sub_self, List.replicate_zero, List.append_nil,
    ← hfl, List.take_length] at this
  exact this

end Vec

/-- The codec of `long_type`. -/
theorem longOf_wordBytes {i : Int} (h1 : -2 ^ 63 ≤ i) (h2 : i < 2 ^ 63) :
    longOf (wordBytes (BitVec.ofInt 64 i)) = i := by
  have h : bytesNat (wordBytes (BitVec.ofInt 64 i)) = (BitVec.ofInt 64 i).toNat := by
    rw [wordBytes, bytesNat_natBytes]
    exact Nat.mod_eq_of_lt (by have := (BitVec.ofInt 64 i).isLt; norm_num; omega)
  rw [longOf, wordBytes_length, h]
  have := toInt_ofInt h1 h2
  rw [BitVec.toInt_eq_toNat_bmod] at this
  norm_num at this ⊢
  exact this

/-- Numbers of type `long` as Python reads them. -/
def longC : Codec Int := ⟨8, fun i => wordBytes (BitVec.ofInt 64 i), longOf⟩

theorem longC_good {i : Int} (h1 : -2 ^ 63 ≤ i) (h2 : i < 2 ^ 63) : longC.Good i :=
  ⟨wordBytes_length _, longOf_wordBytes h1 h2⟩

theorem readLong_append {i : Int} (h1 : -2 ^ 63 ≤ i) (h2 : i < 2 ^ 63) (r : List Byte) :
    readLong ⟨wordBytes (BitVec.ofInt 64 i) ++ r, 8, false⟩ = .ok (i, ⟨r, 8, false⟩) := by
  have h := readArray_append (c := longC) (v := [i])
    (fun e he => by rw [List.mem_singleton] at he; rw [he]; exact longC_good h1 h2) r 8
  simp only [longC, List.map_cons, List.map_nil, List.flatten_cons, List.flatten_nil, List.append_nil,
    List.length_singleton, Nat.cast_one] at h
  rw [readLong]
  simp only
  rw [h, Res.ok_bind]
  rfl

theorem readLong_length {n : Nat} (h : n < 2 ^ 63) (r : List Byte) :
    readLong ⟨wordBytes (BitVec.ofNat 64 n) ++ r, 8, false⟩ = .ok (n, ⟨r, 8, false⟩) := by
  have := readLong_append (i := n) (by omega) (by omega) r
  rwa [BitVec.ofInt_natCast] at this

/-- Less bytes than those of an integer. -/
theorem readLong_short {s : In} (h : s.rest.length < s.long) (hs : s.swap = false) :
    readLong s = .ub := by
  rw [readLong, readArray, assert_bind_pos (by omega), assert_bind_pos hs]
  simp only [readInto, Res.pure_eq, Res.ok_bind]
  have : allSome (List.take s.long (List.drop (0 * s.long) (List.map some (List.take (Int.toNat 1 * s.long) s.rest)
      ++ List.replicate (Int.toNat 1 * s.long - s.rest.length) none))) = none := by
    rw [Nat.zero_mul, List.drop_zero, Int.toNat_one, Nat.one_mul,
      List.take_of_length_le (by simp; omega)]
    apply allSome_none
    apply List.mem_append_right
    rw [List.mem_replicate]
    exact ⟨by omega, rfl⟩
  have h1 : List.range (Int.toNat 1) = [0] := rfl
  simp only [h1, List.map_cons, this]
  rfl

/-! Tensors -/

theorem foldl_mul_prod (l : List Nat) (a : Nat) : l.foldl (· * ·) a = a * Spec.prod l := by
  induction l generalizing a with
  | nil => simp [Spec.prod]
  | cons d l ih => rw [List.foldl_cons, ih, Spec.prod, Nat.mul_assoc]

theorem totalSize_prod {d : List Nat} (h : d ≠ []) : Tensor.totalSize d = Spec.prod d := by
  rw [Tensor.totalSize, if_pos (by simpa using h), foldl_mul_prod, Nat.one_mul]

theorem toNat_ofNat (d : List Nat) : (d.map fun x : Nat => (x : Int)).map Int.toNat = d := by
  rw [List.map_map]
  conv_rhs => rw [← List.map_id d]
  exact List.map_congr_left fun x _ => Int.toNat_natCast x

theorem ndarray_ok {ε : Type} {maxdims width : Nat} {t : Tensor ε} (h : Holds maxdims width t)
    (data : List (Option ε)) (hd : data.length = t.data.length) :
    ndarray maxdims width (t.dims.map fun d : Nat => (d : Int)) data = .ok ⟨t.dims, data⟩ := by
  obtain ⟨ht, hne, hmax, hsz⟩ := h
  have hneg : (t.dims.map fun d : Nat => (d : Int)) ≠ [-1] := by
    intro hc
    match hdims : t.dims with
    | [] => exact hne hdims
    | d :: l =>
      rw [hdims, List.map_cons, List.cons.injEq] at hc
      omega
  have hn : t.dims.foldl (· * ·) 1 = data.length := by
    rw [foldl_mul_prod, Nat.one_mul, hd, ht.1, totalSize_prod hne]
  rw [ndarray, assert_bind_pos (by simpa using hmax), if_neg hneg]
  simp only
  rw [assert_bind_pos (by
    intro d hd
    obtain ⟨x, _, rfl⟩ := List.mem_map.1 hd
    omega), toNat_ofNat, assert_bind_pos (by rw [foldl_mul_prod, Nat.one_mul]; exact hsz), hn,
    assert_bind_pos (le_refl _), List.take_length]
  rfl

section Tens

variable {ε : Type} {c : Codec ε} {t : Tensor ε} {maxdims : Nat}

theorem dims_long (ht : TensorOk t) :
    ∀ e ∈ t.dims.map (fun d : Nat => (d : Int)), longC.Good e := by
  intro e he
  obtain ⟨d, hd, rfl⟩ := List.mem_map.1 he
  have := ht.2.2.2 d hd
  exact longC_good (by omega) (by omega)

/-- The part of load_tensor before the elements. -/
theorem loadTensor_head (ht : TensorOk t) (r : List Byte) :
    loadTensor maxdims c ⟨vecBytes dimC (t.dims.map fun d : Nat => (d : Int))
        ++ (wordBytes (BitVec.ofNat 64 t.data.length) ++ r), 8, false⟩
      = (do
        let (data, s) ← readArray c.width c.dec t.data.length ⟨r, 8, false⟩
        let t ← ndarray maxdims c.width (t.dims.map fun d : Nat => (d : Int)) data
        pure (t, s)) := by
  have hd := readArray_append (dims_long ht)
    (wordBytes (BitVec.ofNat 64 t.data.length) ++ r) 8
  rw [List.length_map] at hd
  have he : longC.enc = dimC.enc := rfl
  rw [he] at hd
  simp only [longC] at hd
  rw [vecBytes, List.length_map, List.append_assoc, loadTensor, readLong_length ht.2.2.1, Res.ok_bind]
  simp only
  rw [hd, Res.ok_bind]
  simp only
  rw [readLong_length ht.2.1, Res.ok_bind]
  simp only [allSome_map_some]

theorem loadTensor_append (hc : ∀ e, c.Good e) (h : Holds maxdims c.width t) (r : List Byte) :
    loadTensor maxdims c ⟨vecBytes dimC (t.dims.map fun d : Nat => (d : Int))
        ++ (vecBytes c t.data ++ r), 8, false⟩
      = .ok (asArr t, ⟨r, 8, false⟩) := by
  rw [vecBytes.eq_def c, List.append_assoc, loadTensor_head h.1,
    readArray_append (fun e _ => hc e), Res.ok_bind]
  simp only
  rw [ndarray_ok h _ (List.length_map ..)]
  rfl

end Tens

/-! Names and tags -/

theorem isSdf_field {name : List Byte} (hn : NameOk name) :
    isSdf (nameField name) = .ok (decide (sdf <+: name)) := by
  rw [nameField_eq, stored_ok hn]
  have hl := hn.1
  obtain ⟨k, hk⟩ : ∃ k, 64 - name.length = k + 1 := ⟨63 - name.length, by omega⟩
  rw [hk, List.replicate_succ]
  generalize List.replicate k (0 : Byte) = z
  match name with
  | [] => rfl
  | [a] => by_cases ha : a = 115#8 <;> simp [isSdf, byteAt, ha, sdf]
  | [a, b] =>
    by_cases ha : a = 115#8 <;> by_cases hb : b = 100#8 <;> simp [isSdf, byteAt, ha, hb, sdf]
  | a :: b :: d :: l =>
    by_cases ha : a = 115#8 <;> by_cases hb : b = 100#8 <;> by_cases hd : d = 102#8 <;>
      simp [isSdf, byteAt, ha, hb, hd, sdf, eq_comm]

theorem takeWhile_field {name : List Byte} (hn : NameOk name) :
    (nameField name).takeWhile (· ≠ 0) = name := by
  rw [nameField_eq, stored_ok hn, List.takeWhile_append_of_pos (by simpa using hn.2)]
  have : List.takeWhile (fun b : Byte => decide (b ≠ 0)) (List.replicate (64 - name.length) 0) = [] := by
    cases 64 - name.length with
    | zero => rfl
    | succ k => simp [List.replicate_succ]
  rw [this, List.append_nil]

/-- The tag of a record. -/
theorem loadTag_append {name : List Byte} (hn : ReadableName name) {tag : Int}
    (ht : 0 ≤ tag ∧ tag < 4) (r : List Byte) :
    loadTag ⟨tagBytes name tag ++ r, 8, false⟩ = .ok (name, tag, ⟨r, 8, false⟩) := by
  rw [tagBytes, List.append_assoc, loadTag]
  simp only [read_append _ _ (nameField_length name)]
  rw [if_neg (by rw [nameField_length]; omega), skipHeader, isSdf_field hn.1,
    decide_eq_false hn.2.2]
  simp only [Res.ok_bind, Res.pure_eq, Bool.false_eq_true, if_false]
  rw [takeWhile_field hn.1, assert_bind_pos ((utf8_iff _).2 hn.2.1), readLong_append (by omega) (by omega), Res.ok_bind]

/-- The header and the tag of the first record. -/
theorem loadTag_header {name : List Byte} (hn : NameOk name) (hu : IsUtf8 name) {tag : Int}
    (ht : 0 ≤ tag ∧ tag < 4) (w : Nat) (b : Bool) (r : List Byte) :
    loadTag ⟨header ++ (tagBytes name tag ++ r), w, b⟩ = .ok (name, tag, ⟨r, 8, false⟩) := by
  rw [tagBytes, List.append_assoc, loadTag]
  simp only [read_append _ _ (nameField_length _), header]
  rw [if_neg (by rw [nameField_length]; omega), skipHeader]
  have h : isSdf (nameField [115, 100, 102, 4 + 48, 8 + 48, 1 + 48]) = .ok true := by decide +kernel
  have h4 : byteAt (nameField [115, 100, 102, 4 + 48, 8 + 48, 1 + 48]) 4 = .ok 56 := by decide +kernel
  have h5 : byteAt (nameField [115, 100, 102, 4 + 48, 8 + 48, 1 + 48]) 5 = .ok 49 := by decide +kernel
  rw [h, Res.ok_bind, if_pos rfl, h4, Res.ok_bind, assert_bind_pos (Or.inr rfl), h5, Res.ok_bind]
  simp only [Res.ok_bind, Res.pure_eq]
  rw [if_neg (by decide)]
  have hd : decide ((49 : Byte) ≠ 49) = false := by decide
  rw [hd, read_append _ _ (nameField_length _)]
  simp only
  rw [takeWhile_field hn, assert_bind_pos ((utf8_iff _).2 hu), readLong_append (by omega) (by omega), Res.ok_bind]

/-! Records -/

/-- What follows the tag of a variable. -/
def body : Value → List Byte
  | .real t => vecBytes dimC (t.dims.map fun d : Nat => (d : Int)) ++ vecBytes realC t.data
  | .complex t => vecBytes dimC (t.dims.map fun d : Nat => (d : Int)) ++ vecBytes cplxC t.data
  | .reals m => wordBytes (BitVec.ofNat 64 m.length) ++ (m.map fun t => dumpTensor realC 0 t []).flatten
  | .complexes m =>
    wordBytes (BitVec.ofNat 64 m.length) ++ (m.map fun t => dumpTensor cplxC 1 t []).flatten
  | .double v => vecBytes dimC [1] ++ vecBytes realC [v]
  | .cdouble v => vecBytes dimC [1] ++ vecBytes cplxC [v]
  | .int v => vecBytes dimC [1] ++ vecBytes realC [doubleBits v]
  | .size v => vecBytes dimC [1] ++ vecBytes realC [doubleBits v]

theorem dump_body (v : Value) (name : List Byte) : dump v name = tagBytes name v.kind.tag ++ body v := by
  cases v <;> simp only [dump, dumpTensor, dumpTensors, List.append_assoc, body, Value.kind, Kind.tag] <;>
    rfl

theorem tag_bounds (k : Kind) : 0 ≤ k.tag ∧ k.tag < 4 := by cases k <;> simp [Kind.tag]

theorem readableName_nil : ReadableName [] := ⟨by simp [NameOk], (utf8_iff _).1 rfl, by simp [sdf]⟩

theorem one_holds {ε : Type} {maxdims : Nat} (hm : 1 ≤ maxdims) {w : Nat} (hw : w ≤ 16) (v : ε) :
    Holds maxdims w (⟨[1], [v]⟩ : Tensor ε) :=
  ⟨one_ok v, by simp, by simpa using hm, by simp [Spec.prod]; omega⟩

section Rec

variable {maxdims : Nat}

theorem loadRecord_real {s s' : In} {name : List Byte} {t : Arr Word} (depth : Nat) {s'' : In}
    (h : loadTag s = .ok (name, 0, s')) (ht : loadTensor maxdims realC s' = .ok (t, s'')) :
    loadRecord maxdims depth s = .ok (.real t, name, s'') := by
  rw [loadRecord, h, Res.ok_bind]
  simp only
  rw [if_neg (by decide), if_pos trivial, ht]
  rfl

theorem loadRecord_complex {s s' : In} {name : List Byte} {t : Arr (Word × Word)} (depth : Nat)
    {s'' : In} (h : loadTag s = .ok (name, 1, s'))
    (ht : loadTensor maxdims cplxC s' = .ok (t, s'')) :
    loadRecord maxdims depth s = .ok (.complex t, name, s'') := by
  rw [loadRecord, h, Res.ok_bind]
  simp only
  rw [if_neg (by decide), if_neg (by decide), if_pos trivial, ht]
  rfl

theorem loadRecord_mp {s s' s'' s3 : In} {name : List Byte} {tag : Int} (htag : tag = 2 ∨ tag = 3)
    {depth : Nat} {l : Int} (h : loadTag s = .ok (name, tag, s'))
    (hl : readLong s' = .ok (l, s''))
    (hs : skipRecords (loadRecord maxdims depth) l.toNat s'' = .ok s3) :
    loadRecord maxdims (depth + 1) s = .ok (.list, name, s3) := by
  rw [loadRecord, h, Res.ok_bind]
  simp only
  rw [if_neg (by omega), if_neg (by omega), if_neg (by omega), if_pos htag, hl, Res.ok_bind]
  simp only
  rw [hs]
  rfl

theorem skip_reals (m : List (Tensor Word)) (hm : ∀ t ∈ m, Holds maxdims 8 t) (depth : Nat)
    (r : List Byte) :
    skipRecords (loadRecord maxdims depth) m.length
        ⟨(m.map fun t => dumpTensor realC 0 t []).flatten ++ r, 8, false⟩
      = .ok ⟨r, 8, false⟩ := by
  induction m with
  | nil => rfl
  | cons t m ih =>
    rw [List.length_cons, List.map_cons, List.flatten_cons, List.append_assoc, skipRecords,
      dumpTensor, List.append_assoc, List.append_assoc,
      loadRecord_real depth (loadTag_append readableName_nil (by omega) _)
        (loadTensor_append realC_good (hm t (List.mem_cons_self ..)) _), Res.ok_bind]
    exact ih fun t h => hm t (List.mem_cons_of_mem _ h)

theorem skip_complexes (m : List (Tensor (Word × Word))) (hm : ∀ t ∈ m, Holds maxdims 16 t)
    (depth : Nat) (r : List Byte) :
    skipRecords (loadRecord maxdims depth) m.length
        ⟨(m.map fun t => dumpTensor cplxC 1 t []).flatten ++ r, 8, false⟩
      = .ok ⟨r, 8, false⟩ := by
  induction m with
  | nil => rfl
  | cons t m ih =>
    rw [List.length_cons, List.map_cons, List.flatten_cons, List.append_assoc, skipRecords,
      dumpTensor, List.append_assoc, List.append_assoc,
      loadRecord_complex depth (loadTag_append readableName_nil (by omega) _)
        (loadTensor_append cplxC_good (hm t (List.mem_cons_self ..)) _), Res.ok_bind]
    exact ih fun t h => hm t (List.mem_cons_of_mem _ h)

/-- A record after its tag. -/
theorem loadRecord_body (hmax : 1 ≤ maxdims) {v : Value} (hv : Readable maxdims v) {s : In}
    {name r : List Byte} (h : loadTag s = .ok (name, v.kind.tag, ⟨body v ++ r, 8, false⟩))
    (depth : Nat) : loadRecord maxdims (depth + 1) s = .ok (asObj v, name, ⟨r, 8, false⟩) := by
  have one : ∀ (x : Word), loadTensor maxdims realC
      ⟨vecBytes dimC [1] ++ vecBytes realC [x] ++ r, 8, false⟩
        = .ok (⟨[1], [some x]⟩, ⟨r, 8, false⟩) := by
    intro x
    rw [List.append_assoc]
    exact loadTensor_append realC_good (one_holds hmax (by decide) x) r
  cases v with
  | real t =>
    rw [body, List.append_assoc] at h
    exact loadRecord_real _ h (loadTensor_append realC_good hv r)
  | complex t =>
    rw [body, List.append_assoc] at h
    exact loadRecord_complex _ h (loadTensor_append cplxC_good hv r)
  | reals m =>
    rw [body, List.append_assoc] at h
    exact loadRecord_mp (Or.inl rfl) h (readLong_length hv.1 _)
      (by rw [Int.toNat_natCast]; exact skip_reals m hv.2 depth r)
  | complexes m =>
    rw [body, List.append_assoc] at h
    exact loadRecord_mp (Or.inr rfl) h (readLong_length hv.1 _)
      (by rw [Int.toNat_natCast]; exact skip_complexes m hv.2 depth r)
  | double x => exact loadRecord_real _ h (one x)
  | cdouble x =>
    rw [body, List.append_assoc] at h
    exact loadRecord_complex _ h
      (loadTensor_append cplxC_good (one_holds hmax (by decide) x) r)
  | int x => exact loadRecord_real _ h (one _)
  | size x => exact loadRecord_real _ h (one _)

theorem loadRecord_append (hmax : 1 ≤ maxdims) {v : Value} (hv : Readable maxdims v)
    {name : List Byte} (hn : ReadableName name) (r : List Byte) (depth : Nat) :
    loadRecord maxdims (depth + 1) ⟨dump v name ++ r, 8, false⟩
      = .ok (asObj v, name, ⟨r, 8, false⟩) := by
  refine loadRecord_body hmax hv ?_ depth
  rw [dump_body, List.append_assoc]
  exact loadTag_append hn (tag_bounds _) _

end Rec

/-! Files -/

/-- The dictionary after some variables. -/
def after (d : Dict) (rs : List (Value × List Byte)) : Dict :=
  rs.foldl (fun d r => insert d r.2 (asObj r.1)) d

theorem loadLoop_append {maxdims : Nat} (hmax : 1 ≤ maxdims) (depth : Nat)
    (rs : List (Value × List Byte))
    (hrs : ∀ r ∈ rs, Readable maxdims r.1 ∧ ReadableName r.2 ∧ r.2 ≠ []) (rest : List Byte)
    (fuel : Nat) (d : Dict) :
    loadLoop maxdims (depth + 1) (rs.length + fuel) ⟨dumpAll rs ++ rest, 8, false⟩ d
      = loadLoop maxdims (depth + 1) fuel ⟨rest, 8, false⟩ (after d rs) := by
  induction rs generalizing d with
  | nil => rw [List.length_nil, Nat.zero_add]; rfl
  | cons r rs ih =>
    obtain ⟨h1, h2, h3⟩ := hrs r (List.mem_cons_self ..)
    have hd : dumpAll (r :: rs) = dump r.1 r.2 ++ dumpAll rs := rfl
    rw [List.length_cons, show rs.length + 1 + fuel = rs.length + fuel + 1 by omega, hd,
      List.append_assoc, loadLoop, loadRecord_append hmax h1 h2, Run.ok_bind]
    simp only
    rw [if_pos (by simpa using h3)]
    exact ih (fun r h => hrs r (List.mem_cons_of_mem _ h)) _

/-- A file with some variables, and whatever follows. The name of the first one may begin with
"sdf". -/
theorem load_append {maxdims : Nat} (hmax : 1 ≤ maxdims) (depth : Nat)
    (r : Value × List Byte) (rs : List (Value × List Byte))
    (hr : Readable maxdims r.1 ∧ NameOk r.2 ∧ IsUtf8 r.2 ∧ r.2 ≠ [])
    (hrs : ∀ r ∈ rs, Readable maxdims r.1 ∧ ReadableName r.2 ∧ r.2 ≠ []) (rest : List Byte)
    (fuel : Nat) :
    load maxdims (depth + 1) (header ++ dumpAll (r :: rs) ++ rest) (rs.length + 1 + fuel)
      = loadLoop maxdims (depth + 1) fuel ⟨rest, 8, false⟩ (after [] (r :: rs)) := by
  have hd : header ++ dumpAll (r :: rs) ++ rest
      = header ++ (tagBytes r.2 r.1.kind.tag ++ (body r.1 ++ (dumpAll rs ++ rest))) := by
    have : dumpAll (r :: rs) = dump r.1 r.2 ++ dumpAll rs := rfl
    rw [this, dump_body]
    simp only [List.append_assoc]
  rw [load, show rs.length + 1 + fuel = rs.length + fuel + 1 by omega, hd, loadLoop,
    loadRecord_body hmax hr.1 (loadTag_header hr.2.1 hr.2.2.1 (tag_bounds _) _ _ _) depth,
    Run.ok_bind]
  simp only
  rw [if_pos (by simpa using hr.2.2.2), loadLoop_append hmax depth rs hrs]
  rfl

theorem loadLoop_end (maxdims depth fuel : Nat) (d : Dict) (w : Nat) (b : Bool) :
    loadLoop maxdims depth (fuel + 1) ⟨[], w, b⟩ d = .done (.ok d) := by
  have : loadTag ⟨[], w, b⟩ = .ok ([], -1, ⟨[], w, b⟩) := rfl
  rw [loadLoop, loadRecord, this]
  rfl

theorem lookup_insert (d : Dict) (n m : List Byte) (v : Obj) :
    lookup (insert d n v) m = if n = m then some v else lookup d m := by
  induction d with
  | nil => simp only [insert, lookup]
  | cons e d ih =>
    rw [insert]
    split
    · rename_i h
      simp only [lookup, h]
      split <;> rfl
    · rename_i h
      simp only [lookup, ih]
      by_cases h1 : e.1 = m
      · rw [if_pos h1, if_neg (by rintro rfl; exact h h1), if_pos h1]
      · rw [if_neg h1, if_neg h1]

theorem lookup_after (d : Dict) (rs : List (Value × List Byte)) (m : List Byte) :
    lookup (after d rs) m = ((lastNamed rs m).map asObj).or (lookup d m) := by
  induction rs generalizing d with
  | nil => rfl
  | cons r rs ih =>
    have : after d (r :: rs) = after (insert d r.2 (asObj r.1)) rs := rfl
    rw [this, ih, lookup_insert, lastNamed]
    cases lastNamed rs m with
    | some v => rfl
    | none =>
      by_cases h : r.2 = m
      · simp [h]
      · simp [h]

/-- C79: a file with variables which Python can hold, written by OutDataFile, is read by Python: the
dictionary has, for each name, the last variable with that name. Missing: vectors of tensors, whose
elements are not returned (`c79_negation_vector`), variables which have the name of a later one, files
without variables, and variables without a name, with names which begin with "sdf" or which are not
UTF-8, and tensors without indices, see the negations. -/
theorem c79_read_partial {maxdims depth : Nat} (hmax : 1 ≤ maxdims) (hdepth : 1 ≤ depth)
    {rs : List (Value × List Byte)} (hne : rs ≠ [])
    (hrs : ∀ r ∈ rs, Readable maxdims r.1 ∧ ReadableName r.2 ∧ r.2 ≠ []) :
    ∃ d, Finishes (load maxdims depth (header ++ dumpAll rs)) (.ok d) ∧
      ∀ name, lookup d name = (lastNamed rs name).map asObj := by
  obtain ⟨depth, rfl⟩ : ∃ k, depth = k + 1 := ⟨depth - 1, by omega⟩
  cases rs with
  | nil => exact absurd rfl hne
  | cons r rs =>
    refine ⟨after [] (r :: rs), ⟨rs.length + 2, fun n hn => ?_⟩, fun name => ?_⟩
    · obtain ⟨h1, h2, h3⟩ := hrs r (List.mem_cons_self ..)
      obtain ⟨k, rfl⟩ : ∃ k, n = rs.length + 1 + (k + 1) := ⟨n - (rs.length + 2), by omega⟩
      have := load_append hmax depth r rs ⟨h1, h2.1, h2.2.1, h3⟩
        (fun r h => hrs r (List.mem_cons_of_mem _ h)) [] (k + 1)
      rw [List.append_nil] at this
      rw [this, loadLoop_end]
    · rw [lookup_after]
      cases (lastNamed (r :: rs) name).map asObj <;> rfl

/-! Every file -/

theorem bind_eq_ok {α β : Type} {x : Res α} {f : α → Res β} {b : β} :
    (x >>= f) = .ok b ↔ ∃ a, x = .ok a ∧ f a = .ok b := by
  cases x with
  | ok a => simp
  | abort => simp
  | ub => simp

theorem readArray_rest {ε : Type} {width : Nat} {dec : List Byte → ε} {n : Int} {s s' : In}
    {l : List (Option ε)} (h : readArray width dec n s = .ok (l, s')) :
    s'.rest.length ≤ s.rest.length := by
  rw [readArray] at h
  obtain ⟨_, _, h⟩ := bind_eq_ok.1 h
  obtain ⟨_, _, h⟩ := bind_eq_ok.1 h
  simp only [readInto, Res.pure_eq, Res.ok.injEq, Prod.mk.injEq] at h
  rw [← h.2]
  simp only [List.length_drop]
  omega

theorem readLong_rest {s s' : In} {v : Int} (h : readLong s = .ok (v, s')) :
    s'.rest.length ≤ s.rest.length := by
  rw [readLong] at h
  obtain ⟨⟨l, s1⟩, h1, h⟩ := bind_eq_ok.1 h
  obtain ⟨_, _, h⟩ := bind_eq_ok.1 h
  simp only [Res.pure_eq, Res.ok.injEq, Prod.mk.injEq] at h
  rw [← h.2]
  exact readArray_rest h1

theorem loadTensor_rest {ε : Type} {maxdims : Nat} {c : Codec ε} {s s' : In} {t : Arr ε}
    (h : loadTensor maxdims c s = .ok (t, s')) : s'.rest.length ≤ s.rest.length := by
  rw [loadTensor] at h
  obtain ⟨⟨_, s1⟩, h1, h⟩ := bind_eq_ok.1 h
  obtain ⟨⟨dims, s2⟩, h2, h⟩ := bind_eq_ok.1 h
  obtain ⟨⟨_, s3⟩, h3, h⟩ := bind_eq_ok.1 h
  obtain ⟨⟨_, s4⟩, h4, h⟩ := bind_eq_ok.1 h
  have e1 := readLong_rest h1
  have e2 := readArray_rest h2
  have e3 := readLong_rest h3
  have e4 := readArray_rest h4
  simp only at h e1 e2 e3 e4
  cases ha : allSome dims with
  | none => rw [ha] at h; simp at h
  | some d =>
    rw [ha] at h
    obtain ⟨_, _, h⟩ := bind_eq_ok.1 h
    simp only [Res.pure_eq, Res.ok.injEq, Prod.mk.injEq] at h
    rw [← h.2]
    omega

theorem skipHeader_rest {name name' : List Byte} {s s' : In}
    (h : skipHeader name s = .ok (name', s')) : s'.rest.length ≤ s.rest.length := by
  rw [skipHeader] at h
  obtain ⟨b, _, h⟩ := bind_eq_ok.1 h
  cases b with
  | false =>
    simp only [Bool.false_eq_true, if_false, Res.pure_eq, Res.ok.injEq, Prod.mk.injEq] at h
    rw [h.2]
  | true =>
    simp only [if_true] at h
    obtain ⟨_, _, h⟩ := bind_eq_ok.1 h
    obtain ⟨_, _, h⟩ := bind_eq_ok.1 h
    obtain ⟨_, _, h⟩ := bind_eq_ok.1 h
    simp only [read, Res.pure_eq, Res.ok.injEq, Prod.mk.injEq] at h
    rw [← h.2]
    simp only [List.length_drop]
    omega

theorem loadTag_rest {s s' : In} {name : List Byte} {code : Int}
    (h : loadTag s = .ok (name, code, s')) :
    s'.rest.length ≤ s.rest.length ∧ (name ≠ [] → s'.rest.length < s.rest.length) := by
  rw [loadTag] at h
  simp only at h
  by_cases h0 : (s.rest.take 64).length = 0
  · have h0' : (read 64 s).1.length = 0 := h0
    rw [if_pos h0'] at h
    simp only [read] at h
    simp only [Res.pure_eq, Res.ok.injEq, Prod.mk.injEq] at h
    refine ⟨?_, fun hn => absurd h.1.symm hn⟩
    rw [← h.2.2]
    simp only [List.length_drop]
    omega
  · have h0' : ¬(read 64 s).1.length = 0 := h0
    rw [if_neg h0'] at h
    simp only [read] at h
    obtain ⟨⟨_, s1⟩, h1, h⟩ := bind_eq_ok.1 h
    obtain ⟨_, _, h⟩ := bind_eq_ok.1 h
    obtain ⟨⟨_, s2⟩, h2, h⟩ := bind_eq_ok.1 h
    simp only [Res.pure_eq, Res.ok.injEq, Prod.mk.injEq] at h
    have e1 := skipHeader_rest h1
    have e2 := readLong_rest h2
    simp only [List.length_drop, List.length_take] at e1 e2 h0
    rw [← h.2.2]
    omega

theorem skipRecords_rest {f : In → Res (Obj × List Byte × In)}
    (hf : ∀ s v name s', f s = .ok (v, name, s') → s'.rest.length ≤ s.rest.length) (k : Nat)
    {s s' : In} (h : skipRecords f k s = .ok s') : s'.rest.length ≤ s.rest.length := by
  induction k generalizing s with
  | zero => rw [skipRecords, Res.ok.injEq] at h; rw [h]
  | succ k ih =>
    rw [skipRecords] at h
    obtain ⟨⟨v, name, s1⟩, h1, h⟩ := bind_eq_ok.1 h
    have := hf _ _ _ _ h1
    have := ih h
    omega

theorem loadRecord_rest {maxdims : Nat} (depth : Nat) {s s' : In} {v : Obj} {name : List Byte}
    (h : loadRecord maxdims depth s = .ok (v, name, s')) :
    s'.rest.length ≤ s.rest.length ∧ (name ≠ [] → s'.rest.length < s.rest.length) := by
  induction depth generalizing s s' v name with
  | zero =>
    rw [loadRecord] at h
    obtain ⟨⟨n, code, s1⟩, h1, h⟩ := bind_eq_ok.1 h
    have e1 := loadTag_rest h1
    simp only at h
    split at h
    · simp only [Res.pure_eq, Res.ok.injEq, Prod.mk.injEq] at h
      rw [← h.2.2]
      exact ⟨e1.1, fun hn => absurd h.2.1.symm hn⟩
    split at h
    · obtain ⟨⟨t, s2⟩, h2, h⟩ := bind_eq_ok.1 h
      have e2 := loadTensor_rest h2
      simp only [Res.pure_eq, Res.ok.injEq, Prod.mk.injEq] at h
      rw [← h.2.2, ← h.2.1]
      exact ⟨by omega, fun hn => by have := e1.2 hn; omega⟩
    split at h
    · obtain ⟨⟨t, s2⟩, h2, h⟩ := bind_eq_ok.1 h
      have e2 := loadTensor_rest h2
      simp only [Res.pure_eq, Res.ok.injEq, Prod.mk.injEq] at h
      rw [← h.2.2, ← h.2.1]
      exact ⟨by omega, fun hn => by have := e1.2 hn; omega⟩
    split at h <;> simp at h
  | succ depth ih =>
    rw [loadRecord] at h
    obtain ⟨⟨n, code, s1⟩, h1, h⟩ := bind_eq_ok.1 h
    have e1 := loadTag_rest h1
    simp only at h
    split at h
    · simp only [Res.pure_eq, Res.ok.injEq, Prod.mk.injEq] at h
      rw [← h.2.2]
      exact ⟨e1.1, fun hn => absurd h.2.1.symm hn⟩
    split at h
    · obtain ⟨⟨t, s2⟩, h2, h⟩ := bind_eq_ok.1 h
      have e2 := loadTensor_rest h2
      simp only [Res.pure_eq, Res.ok.injEq, Prod.mk.injEq] at h
      rw [← h.2.2, ← h.2.1]
      exact ⟨by omega, fun hn => by have := e1.2 hn; omega⟩
    split at h
    · obtain ⟨⟨t, s2⟩, h2, h⟩ := bind_eq_ok.1 h
      have e2 := loadTensor_rest h2
      simp only [Res.pure_eq, Res.ok.injEq, Prod.mk.injEq] at h
      rw [← h.2.2, ← h.2.1]
      exact ⟨by omega, fun hn => by have := e1.2 hn; omega⟩
    split at h
    · obtain ⟨⟨l, s2⟩, h2, h⟩ := bind_eq_ok.1 h
      obtain ⟨s3, h3, h⟩ := bind_eq_ok.1 h
      have e2 := readLong_rest h2
      have e3 := skipRecords_rest (fun s v name s' hh => (ih hh).1) _ h3
      simp only at e3
      simp only [Res.pure_eq, Res.ok.injEq, Prod.mk.injEq] at h
      rw [← h.2.2, ← h.2.1]
      exact ⟨by omega, fun hn => by have := e1.2 hn; omega⟩
    · simp at h

/-- C79: the reading of a file ends, whatever is in it. -/
theorem c79_ends (maxdims depth : Nat) (file : List Byte) :
    ∃ r, Finishes (load maxdims depth file) r := by
  have : ∀ n (s : In) (d : Dict), s.rest.length ≤ n →
      ∃ r, ∀ fuel, n + 1 ≤ fuel → loadLoop maxdims depth fuel s d = .done r := by
    intro n
    induction n with
    | zero =>
      rintro ⟨rest, w, b⟩ d h
      obtain rfl : rest = [] := by simpa using h
      refine ⟨.ok d, fun fuel hf => ?_⟩
      obtain ⟨k, rfl⟩ : ∃ k, fuel = k + 1 := ⟨fuel - 1, by omega⟩
      exact loadLoop_end ..
    | succ n ih =>
      intro s d h
      cases hr : loadRecord maxdims depth s with
      | abort =>
        refine ⟨.abort, fun fuel hf => ?_⟩
        obtain ⟨k, rfl⟩ : ∃ k, fuel = k + 1 := ⟨fuel - 1, by omega⟩
        rw [loadLoop, hr]; rfl
      | ub =>
        refine ⟨.ub, fun fuel hf => ?_⟩
        obtain ⟨k, rfl⟩ : ∃ k, fuel = k + 1 := ⟨fuel - 1, by omega⟩
        rw [loadLoop, hr]; rfl
      | ok x =>
        obtain ⟨v, name, s'⟩ := x
        by_cases hn : name = []
        · refine ⟨.ok d, fun fuel hf => ?_⟩
          obtain ⟨k, rfl⟩ : ∃ k, fuel = k + 1 := ⟨fuel - 1, by omega⟩
          rw [loadLoop, hr, Run.ok_bind]
          simp only
          rw [if_neg (by simp [hn])]
          rfl
        · have := (loadRecord_rest depth hr).2 hn
          obtain ⟨r, hr'⟩ := ih s' (insert d name v) (by omega)
          refine ⟨r, fun fuel hf => ?_⟩
          obtain ⟨k, rfl⟩ : ∃ k, fuel = k + 1 := ⟨fuel - 1, by omega⟩
          rw [loadLoop, hr, Run.ok_bind]
          simp only
          rw [if_pos (by simpa using hn)]
          exact hr' k (by omega)
  obtain ⟨r, hr⟩ := this file.length ⟨file, 4, false⟩ [] (le_refl _)
  exact ⟨r, _, hr⟩

/-! What is not read -/

/-- The result of the loop after a list of variables. -/
theorem load_finishes {maxdims depth : Nat} (hmax : 1 ≤ maxdims)
    {rs : List (Value × List Byte)} (hne : rs ≠ [])
    (hrs : ∀ r ∈ rs, Readable maxdims r.1 ∧ ReadableName r.2 ∧ r.2 ≠ []) {rest : List Byte}
    {x : Res Dict}
    (h : Finishes (fun fuel => loadLoop maxdims (depth + 1) fuel ⟨rest, 8, false⟩ (after [] rs)) x) :
    Finishes (load maxdims (depth + 1) (header ++ dumpAll rs ++ rest)) x := by
  obtain ⟨N, hN⟩ := h
  cases rs with
  | nil => exact absurd rfl hne
  | cons r rs =>
    obtain ⟨h1, h2, h3⟩ := hrs r (List.mem_cons_self ..)
    refine ⟨rs.length + 1 + N, fun n hn => ?_⟩
    obtain ⟨k, rfl⟩ : ∃ k, n = rs.length + 1 + k := ⟨n - (rs.length + 1), by omega⟩
    rw [load_append hmax depth r rs ⟨h1, h2.1, h2.2.1, h3⟩
      (fun r h => hrs r (List.mem_cons_of_mem _ h)) rest k]
    exact hN k (by omega)

theorem loop_of_abort {maxdims depth : Nat} {s : In} {d : Dict}
    (h : loadRecord maxdims depth s = .abort) :
    Finishes (fun fuel => loadLoop maxdims depth fuel s d) .abort := by
  refine ⟨1, fun n hn => ?_⟩
  obtain ⟨k, rfl⟩ : ∃ k, n = k + 1 := ⟨n - 1, by omega⟩
  simp only [loadLoop, h]
  rfl

/-- C79 does not hold for variables without a name (which is the default of `dump`): the reading ends
there, without notice, and the variables that follow are not read. -/
theorem c79_negation_no_name {maxdims depth : Nat} (hmax : 1 ≤ maxdims) (hdepth : 1 ≤ depth)
    {rs : List (Value × List Byte)} (hne : rs ≠ [])
    (hrs : ∀ r ∈ rs, Readable maxdims r.1 ∧ ReadableName r.2 ∧ r.2 ≠ [])
    {v : Value} (hv : Readable maxdims v) (rest : List Byte) :
    ∃ d, Finishes (load maxdims depth (header ++ dumpAll rs ++ (dump v [] ++ rest))) (.ok d) ∧
      ∀ name, lookup d name = (lastNamed rs name).map asObj := by
  obtain ⟨depth, rfl⟩ : ∃ k, depth = k + 1 := ⟨depth - 1, by omega⟩
  refine ⟨after [] rs, load_finishes hmax hne hrs ⟨1, fun n hn => ?_⟩, fun name => ?_⟩
  · obtain ⟨k, rfl⟩ : ∃ k, n = k + 1 := ⟨n - 1, by omega⟩
    simp only
    rw [loadLoop, loadRecord_append hmax hv readableName_nil, Run.ok_bind]
    rfl
  · rw [lookup_after]
    cases (lastNamed rs name).map asObj <;> rfl

/-- C79 does not hold for vectors of tensors: whatever their elements are, the result is the same. -/
theorem c79_negation_vector {maxdims depth : Nat} (hmax : 1 ≤ maxdims) (hdepth : 1 ≤ depth)
    {v w : Value} (hv : v.kind = .reals ∨ v.kind = .complexes)
    (hw : w.kind = .reals ∨ w.kind = .complexes) (hv' : Readable maxdims v)
    (hw' : Readable maxdims w) {name : List Byte} (hn : ReadableName name) (hne : name ≠ []) :
    ∃ d, Finishes (load maxdims depth (header ++ dump v name)) (.ok d) ∧
      Finishes (load maxdims depth (header ++ dump w name)) (.ok d) := by
  obtain ⟨depth, rfl⟩ : ∃ k, depth = k + 1 := ⟨depth - 1, by omega⟩
  have key : ∀ v : Value, (v.kind = .reals ∨ v.kind = .complexes) → Readable maxdims v →
      Finishes (load maxdims (depth + 1) (header ++ dump v name)) (.ok [(name, .list)]) := by
    intro v hv hr
    have h := load_finishes (depth := depth) hmax (rs := [(v, name)]) (by simp)
      (by intro r h; rw [List.mem_singleton] at h; rw [h]; exact ⟨hr, hn, hne⟩) (rest := [])
      (x := .ok (after [] [(v, name)]))
      ⟨1, fun n hn => by
        obtain ⟨k, rfl⟩ : ∃ k, n = k + 1 := ⟨n - 1, by omega⟩
        exact loadLoop_end ..⟩
    have e : after [] [(v, name)] = [(name, .list)] := by
      cases v <;> simp [Value.kind] at hv <;> rfl
    have e2 : header ++ dumpAll [(v, name)] ++ [] = header ++ dump v name := by
      rw [List.append_nil, dumpAll]
      simp
    rw [e, e2] at h
    exact h
  exact ⟨_, key v hv hv', key w hw hw'⟩

/-- C79 does not hold for variables with the same name: only the last one is read, while the library
itself reads both. -/
theorem c79_negation_same_name {maxdims depth : Nat} (hmax : 1 ≤ maxdims) (hdepth : 1 ≤ depth)
    {v w : Value} (hv : Readable maxdims v) (hw : Readable maxdims w) {name : List Byte}
    (hn : ReadableName name) (hne : name ≠ []) (hd : asObj v ≠ asObj w) :
    ∃ d, Finishes (load maxdims depth (header ++ dumpAll [(v, name), (w, name)])) (.ok d) ∧
      ∀ n, lookup d n ≠ some (asObj v) := by
  obtain ⟨d, h1, h2⟩ := c79_read_partial hmax hdepth (rs := [(v, name), (w, name)]) (by simp)
    (by
      intro r h
      rcases List.mem_cons.1 h with rfl | h
      · exact ⟨hv, hn, hne⟩
      · rw [List.mem_singleton] at h; rw [h]; exact ⟨hw, hn, hne⟩)
  refine ⟨d, h1, fun n => ?_⟩
  rw [h2]
  simp only [lastNamed, Option.none_or]
  by_cases h : name = n
  · simpa [h] using fun hc => hd hc.symm
  · simp [h]

theorem loadRecord_abort {maxdims depth : Nat} {s : In} (h : loadTag s = .abort) :
    loadRecord maxdims depth s = .abort := by
  cases depth <;> rw [loadRecord, h] <;> rfl

/-- C79 does not hold for names which are not UTF-8: an exception. -/
theorem c79_negation_utf8 {maxdims depth : Nat} (hmax : 1 ≤ maxdims) (hdepth : 1 ≤ depth)
    {rs : List (Value × List Byte)} (hne : rs ≠ [])
    (hrs : ∀ r ∈ rs, Readable maxdims r.1 ∧ ReadableName r.2 ∧ r.2 ≠ [])
    (v : Value) {name : List Byte} (hn : NameOk name) (hu : ¬ IsUtf8 name) (hs : ¬sdf <+: name)
    (rest : List Byte) :
    Finishes (load maxdims depth (header ++ dumpAll rs ++ (dump v name ++ rest))) .abort := by
  obtain ⟨depth, rfl⟩ : ∃ k, depth = k + 1 := ⟨depth - 1, by omega⟩
  refine load_finishes hmax hne hrs (loop_of_abort (loadRecord_abort ?_))
  rw [dump_body, tagBytes, List.append_assoc, List.append_assoc, loadTag]
  simp only [read_append _ _ (nameField_length name)]
  rw [if_neg (by rw [nameField_length]; omega), skipHeader, isSdf_field hn, decide_eq_false hs]
  simp only [Res.ok_bind, Res.pure_eq, Bool.false_eq_true, if_false]
  rw [takeWhile_field hn, assert_bind_neg (by simp [(not_utf8_iff _).2 hu])]

theorem byteAt_field {name : List Byte} (hn : NameOk name) {i : Nat} (hi : i < 64) :
    byteAt (nameField name) i = .ok (name.getD i 0) := by
  rw [byteAt, nameField_eq, stored_ok hn]
  have := hn.1
  by_cases h : i < name.length
  · rw [List.getElem?_append_left h, List.getElem?_eq_getElem h]
    simp [h]
  · rw [List.getElem?_append_right (by omega), List.getElem?_replicate, if_pos (by omega)]
    simp [List.getElem?_eq_none (by omega : name.length ≤ i)]

/-- C79 does not hold for names which begin with "sdf": such a record is taken for the header, and
unless the fifth character is 4 or 8 there is an exception. -/
theorem c79_negation_sdf {maxdims depth : Nat} (hmax : 1 ≤ maxdims) (hdepth : 1 ≤ depth)
    {rs : List (Value × List Byte)} (hne : rs ≠ [])
    (hrs : ∀ r ∈ rs, Readable maxdims r.1 ∧ ReadableName r.2 ∧ r.2 ≠ [])
    (v : Value) {name : List Byte} (hn : NameOk name) (hs : sdf <+: name)
    (h4 : name.getD 4 0 ≠ 52 ∧ name.getD 4 0 ≠ 56) (rest : List Byte) :
    Finishes (load maxdims depth (header ++ dumpAll rs ++ (dump v name ++ rest))) .abort := by
  obtain ⟨depth, rfl⟩ : ∃ k, depth = k + 1 := ⟨depth - 1, by omega⟩
  refine load_finishes hmax hne hrs (loop_of_abort (loadRecord_abort ?_))
  rw [dump_body, tagBytes, List.append_assoc, List.append_assoc, loadTag]
  simp only [read_append _ _ (nameField_length name)]
  rw [if_neg (by rw [nameField_length]; omega), skipHeader, isSdf_field hn, decide_eq_true hs,
    Res.ok_bind, if_pos rfl, byteAt_field hn (by omega), Res.ok_bind,
    assert_bind_neg (by rintro (h | h); exacts [h4.1 h, h4.2 h])]
  rfl

/-- C79 does not hold for tensors without indices: an exception. -/
theorem c79_negation_rank {maxdims depth : Nat} (hmax : 1 ≤ maxdims) (hdepth : 1 ≤ depth)
    {rs : List (Value × List Byte)} (hne : rs ≠ [])
    (hrs : ∀ r ∈ rs, Readable maxdims r.1 ∧ ReadableName r.2 ∧ r.2 ≠ [])
    {name : List Byte} (hn : ReadableName name) (rest : List Byte) :
    Finishes (load maxdims depth (header ++ dumpAll rs ++ (dump (.real ⟨[], []⟩) name ++ rest)))
      .abort := by
  obtain ⟨depth, rfl⟩ : ∃ k, depth = k + 1 := ⟨depth - 1, by omega⟩
  refine load_finishes hmax hne hrs (loop_of_abort ?_)
  have hok : TensorOk (⟨[], []⟩ : Tensor Word) := ⟨rfl, by simp, by simp, by simp⟩
  have ht := loadTensor_head (maxdims := maxdims) (c := realC) hok rest
  have h0 := readArray_append (c := realC) (v := []) (by simp) rest 8
  simp only [List.map_nil, List.flatten_nil, List.nil_append, List.length_nil] at ht h0
  rw [h0, Res.ok_bind] at ht
  have hnd : ndarray maxdims realC.width [] ([] : List (Option Word)) = .abort := by
    rw [ndarray, assert_bind_pos (by simp), if_neg (by simp)]
    simp only
    rw [assert_bind_pos (by simp), assert_bind_pos (by simp [realC]), assert_bind_neg (by simp)]
  simp only [hnd, Res.abort_bind] at ht
  have hb : dump (.real ⟨[], []⟩) name ++ rest = tagBytes name 0 ++ (vecBytes dimC []
      ++ (wordBytes (BitVec.ofNat 64 0) ++ rest)) := by
    rw [dump_body, body]
    simp only [List.append_assoc, List.map_nil]
    rw [vecBytes.eq_def realC]
    simp [Value.kind, Kind.tag]
  rw [hb, loadRecord, loadTag_append hn (by omega), Res.ok_bind]
  simp only
  rw [if_neg (by decide), if_pos trivial, ht]
  rfl

/-- C79 does not hold for a file without variables: what is done depends on memory which was not
initialised. -/
theorem c79_negation_no_variables (maxdims depth : Nat) : Finishes (load maxdims depth header) .ub := by
  have ht : loadTag ⟨header, 4, false⟩ = .ub := by decide +kernel
  refine ⟨1, fun n hn => ?_⟩
  obtain ⟨k, rfl⟩ : ∃ k, n = k + 1 := ⟨n - 1, by omega⟩
  rw [load, loadLoop]
  have : loadRecord maxdims depth ⟨header, 4, false⟩ = .ub := by
    cases depth <;> rw [loadRecord, ht] <;> rfl
  rw [this]
  rfl

/-- C79 does not hold for files of machines with the other order of bytes, which the module is meant
to read: an exception, whatever is in the file. -/
theorem c79_negation_order (maxdims depth : Nat) (i l : Byte) (hi : i ≠ 0) (hl : l = 52 ∨ l = 56)
    (rest : List Byte) :
    Finishes (load maxdims depth (nameField [115, 100, 102, i, l, 48] ++ rest)) .abort := by
  refine loop_of_abort (loadRecord_abort ?_)
  have hlen := nameField_length [115, 100, 102, i, l, 48]
  have hn : NameOk [115, 100, 102, i, l, 48] := by
    refine ⟨by simp, ?_⟩
    intro b hb
    simp only [List.mem_cons, List.not_mem_nil, or_false] at hb
    rcases hb with rfl | rfl | rfl | rfl | rfl | rfl
    · decide
    · decide
    · decide
    · exact hi
    · rcases hl with rfl | rfl <;> decide
    · decide
  rw [loadTag]
  simp only [read_append _ _ hlen]
  rw [if_neg (by omega), skipHeader, isSdf_field hn, decide_eq_true (by exact ⟨[i, l, 48], rfl⟩),
    Res.ok_bind, if_pos rfl, byteAt_field hn (by omega), Res.ok_bind, byteAt_field hn (by omega)]
  simp only [List.getD_cons_succ, List.getD_cons_zero]
  rw [assert_bind_pos hl]
  simp only [Res.ok_bind, Res.pure_eq, read]
  rw [Res.assert_bind]
  split
  · rw [readLong, readArray, assert_bind_pos (by omega), assert_bind_neg (by simp)]
    rfl
  · rfl

/-- C79 does not hold for a file which ends among the elements of a tensor: the elements which are
not in the file are whatever was in memory. -/
theorem c79_negation_truncated {maxdims : Nat} (depth : Nat) {t : Tensor Word}
    (ht : Holds maxdims 8 t) {name : List Byte} (hn : ReadableName name) (hne : name ≠ []) {j : Nat}
    (hj : j < 8 * t.data.length) :
    Finishes (load maxdims depth
        (header ++ (dump (.real t) name).take (headSize t.dims.length + j)))
      (.ok [(name, .real ⟨t.dims, (List.range t.data.length).map fun k =>
          if 8 * (k + 1) ≤ j then t.data[k]? else none⟩)]) := by
  have hdl := vecBytes_length (dims_good ht.1)
  rw [List.length_map] at hdl
  have hw : dimC.width = 8 := rfl
  rw [hw] at hdl
  have htl : (tagBytes name 0 ++ vecBytes dimC (t.dims.map fun d : Nat => (d : Int))
      ++ wordBytes (BitVec.ofNat 64 t.data.length)).length = headSize t.dims.length := by
    rw [List.length_append, List.length_append, tagBytes, List.length_append, nameField_length,
      wordBytes_length, hdl, wordBytes_length, headSize]
    omega
  have hcut : (dump (.real t) name).take (headSize t.dims.length + j)
      = tagBytes name 0 ++ (vecBytes dimC (t.dims.map fun d : Nat => (d : Int))
          ++ (wordBytes (BitVec.ofNat 64 t.data.length)
            ++ (t.data.map realC.enc).flatten.take j)) := by
    rw [dump, dumpTensor, vecBytes.eq_def realC, ← List.append_assoc, List.take_append, htl,
      List.take_of_length_le (by omega), Nat.add_sub_cancel_left]
    simp only [List.append_assoc]
  have hrd := readArray_short (c := realC) (v := t.data) (fun e _ => realC_good e)
    (by simp only [realC]; omega : j < t.data.length * realC.width) 8
  have hlt := loadTensor_head (maxdims := maxdims) (c := realC) ht.1
    ((t.data.map realC.enc).flatten.take j)
  rw [hrd, Res.ok_bind] at hlt
  simp only at hlt
  rw [ndarray_ok (width := realC.width) ht _ (by simp), Res.ok_bind] at hlt
  refine ⟨2, fun n hn2 => ?_⟩
  obtain ⟨k, rfl⟩ : ∃ k, n = k + 1 + 1 := ⟨n - 2, by omega⟩
  rw [load, loadLoop, hcut,
    loadRecord_real depth (loadTag_header hn.1 hn.2.1 (by omega) _ _ _) hlt, Run.ok_bind]
  simp only
  rw [if_pos (by simpa using hne), loadLoop_end]
  simp only [insert, realC, Nat.mul_comm 8]
  rfl

theorem loadTag_cut : ∀ j < 65, loadTag ⟨header.take j, 4, false⟩ =
    if j = 0 then .ok ([], -1, ⟨[], 4, false⟩) else if j < 6 then .abort else .ub := by
  decide +kernel

/-- C79 does not hold for files which end within the header, of 64 bytes: the empty one is a dictionary
without variables, as one that ends well; up to five bytes, an exception; from there on, the number
which follows is not in the file and what is done depends on memory. -/
theorem c79_negation_header (maxdims depth : Nat) {j : Nat} (hj : j ≤ 64) :
    Finishes (load maxdims depth (header.take j)) (if j = 0 then .ok [] else if j < 6 then .abort else .ub) := by
  refine ⟨1, fun n hn => ?_⟩
  obtain ⟨k, rfl⟩ : ∃ k, n = k + 1 := ⟨n - 1, by omega⟩
  have h := loadTag_cut j (by omega)
  rw [load, loadLoop]
  have hr : loadRecord maxdims depth ⟨header.take j, 4, false⟩ =
      if j = 0 then .ok (.list, [], ⟨[], 4, false⟩) else if j < 6 then .abort else .ub := by
    by_cases h0 : j = 0
    · rw [if_pos h0] at h ⊢
      cases depth <;> rw [loadRecord, h] <;> rfl
    · rw [if_neg h0] at h ⊢
      by_cases h6 : j < 6
      · rw [if_pos h6] at h ⊢
        cases depth <;> rw [loadRecord, h] <;> rfl
      · rw [if_neg h6] at h ⊢
        cases depth <;> rw [loadRecord, h] <;> rfl
  rw [hr]
  by_cases h0 : j = 0
  · rw [if_pos h0, if_pos h0]
    rfl
  · rw [if_neg h0, if_neg h0]
    by_cases h6 : j < 6
    · rw [if_pos h6, if_pos h6]
      rfl
    · rw [if_neg h6, if_neg h6]
      rfl

/-! The hypotheses can be met. -/

example : Readable 32 (.real ⟨[2, 1], [5, 6]⟩) ∧ ReadableName [97, 206, 177] ∧ 1 ≤ 32 :=
  ⟨⟨⟨rfl, by simp, by simp, by simp⟩, by simp, by simp, by decide⟩,
    ⟨by simp [NameOk], (utf8_iff _).1 (by decide +kernel), by decide⟩, by omega⟩
example : Readable 32 (.real ⟨[0, 3], []⟩) :=
  ⟨⟨rfl, by simp, by simp, by simp⟩, by simp, by simp, by decide⟩
example : load 32 10 (header ++ dumpAll [(.int 3, [97]), (.real ⟨[2], [5, 6]⟩, [98])]) 5
    = .done (.ok [([97], .real ⟨[1], [some (doubleBits 3)]⟩),
        ([98], .real ⟨[2], [some 5, some 6]⟩)]) := by
  have : loadRecord 32 10 ⟨header ++ dumpAll [(.int 3, [97]), (.real ⟨[2], [5, 6]⟩, [98])], 4, false⟩
      = .ok (.real ⟨[1], [some (doubleBits 3)]⟩, [97],
        ⟨dumpAll [(.real ⟨[2], [5, 6]⟩, [98])], 8, false⟩) := by decide +kernel
  rw [load, loadLoop, this]
  have : loadRecord 32 10 ⟨dumpAll [(.real ⟨[2], [5, 6]⟩, [98])], 8, false⟩
      = .ok (.real ⟨[2], [some 5, some 6]⟩, [98], ⟨[], 8, false⟩) := by decide +kernel
  simp only [Run.ok_bind, loadLoop, this]
  rfl
example : Readable 32 (.reals [⟨[1], [7]⟩]) ∧ Readable 32 (.complexes []) := by
  refine ⟨⟨by simp, ?_⟩, by simp [Readable]⟩
  intro t ht
  rw [List.mem_singleton] at ht
  rw [ht]
  exact ⟨one_ok _, by simp, by simp, by decide⟩
example : NameOk [233] ∧ ¬ IsUtf8 [233] ∧ ¬sdf <+: [233] :=
  ⟨by simp [NameOk], (not_utf8_iff _).1 (by decide +kernel), by decide⟩
example : NameOk (sdf ++ [97]) ∧ sdf <+: sdf ++ [97] ∧ (sdf ++ [97]).getD 4 0 ≠ 52 ∧
    (sdf ++ [97]).getD 4 0 ≠ 56 :=
  ⟨by simp [NameOk, sdf], by decide, by decide, by decide⟩
example : asObj (.int 1) ≠ asObj (.int 2) := by decide +kernel
example : Holds 32 8 (⟨[2], [5, 6]⟩ : Tensor Word) ∧ 8 < 8 * 2 :=
  ⟨⟨⟨rfl, by simp, by simp, by simp⟩, by simp, by simp, by decide⟩, by omega⟩

end Verif.Py
