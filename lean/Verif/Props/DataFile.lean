import Verif.Lemmas.DataFile
/-
Properties of data files: C42 (what is written is read back), C46 (integers) and C47 (truncated
files).
-/
namespace Verif.Sdf

/-- Numbers are stored as tensors with one element. -/
theorem one_ok {ε : Type} (v : ε) : TensorOk (⟨[1], [v]⟩ : Tensor ε) :=
  ⟨rfl, by simp, by simp, by simp⟩

theorem loadScalar_append {ε : Type} {c : Codec ε} (hc : ∀ e, c.Good e) {t : Tensor ε}
    (ht : TensorOk t) (name name' r : List Byte) {tag tag' : Int} (hg : 0 ≤ tag ∧ tag < 4)
    (hg' : 0 ≤ tag' ∧ tag' < 4) :
    loadScalar c tag' name' ⟨dumpTensor c tag t name ++ r, false⟩
      = if (name' = [] ∨ name' = stored name) ∧ tag' = tag then
          match t.data with
          | [] => .ub
          | [v] => .ok (v, ⟨r, false⟩)
          | _ => .abort
        else .abort := by
  rw [loadScalar, loadTensor_append hc ht _ _ _ hg hg']
  split
  · simp only [Res.ok_bind, sameT]
    rcases t.data with _ | ⟨v, _ | ⟨w, l⟩⟩
    · rfl
    · rfl
    · rw [assert_bind_neg (by simp)]
  · rfl

/-- The integer conversions of the library. -/
theorem castInt_doubleBits {v : Int} (h : -2 ^ 31 ≤ v ∧ v < 2 ^ 31) :
    castInt (doubleBits v) = .ok v := by
  rw [castInt, truncBits_doubleBits (by omega), toDouble_small (by omega), Res.ofOption_some,
    Res.ok_bind, if_pos h]

theorem castSize_doubleBits {v : Nat} (h : v < 2 ^ 64) :
    castSize (doubleBits v) = if natToDouble v < 2 ^ 64 then .ok (natToDouble v) else .ub := by
  have hd : toDouble (v : Int) = (natToDouble v : Int) := by
    rw [toDouble, if_neg (by omega), Int.natAbs_natCast]
  rw [castSize, truncBits_doubleBits (by omega), Res.ofOption_some, Res.ok_bind, hd]
  by_cases hh : natToDouble v < 2 ^ 64
  · rw [if_pos hh, if_pos (by omega), Int.toNat_natCast]
  · rw [if_neg hh, if_neg (by omega)]

/-- C42: a variable which was dumped with a name, then loaded with that name or without a name, is
the one which was written, whatever follows in the file. -/
theorem c42_record {v : Value} (hv : ValueOk v) {name name' : List Byte} (hn : NameOk name)
    (hn' : name' = [] ∨ name' = name) (r : List Byte) :
    load v.kind name' ⟨dump v name ++ r, false⟩ = .ok (same v, ⟨r, false⟩) := by
  have hs : name' = [] ∨ name' = stored name := by rwa [stored_ok hn]
  cases v with
  | real t =>
    simp only [load, dump, Value.kind]
    rw [loadTensor_append realC_good hv _ _ _ (by omega) (by omega), if_pos ⟨hs, rfl⟩]; rfl
  | complex t =>
    simp only [load, dump, Value.kind]
    rw [loadTensor_append cplxC_good hv _ _ _ (by omega) (by omega), if_pos ⟨hs, rfl⟩]; rfl
  | reals m =>
    simp only [load, dump, Value.kind]
    rw [loadTensors_append realC_good hv.2 hv.1 _ _ (by omega) (by omega) (by omega),
      if_pos ⟨hs, rfl⟩]; rfl
  | complexes m =>
    simp only [load, dump, Value.kind]
    rw [loadTensors_append cplxC_good hv.2 hv.1 _ _ (by omega) (by omega) (by omega),
      if_pos ⟨hs, rfl⟩]; rfl
  | double x =>
    simp only [load, dump, Value.kind]
    rw [loadScalar_append realC_good (one_ok x) _ _ _ (by omega) (by omega), if_pos ⟨hs, rfl⟩]; rfl
  | cdouble x =>
    simp only [load, dump, Value.kind]
    rw [loadScalar_append cplxC_good (one_ok x) _ _ _ (by omega) (by omega), if_pos ⟨hs, rfl⟩]; rfl
  | int x =>
    simp only [load, dump, Value.kind]
    rw [loadScalar_append realC_good (one_ok _) _ _ _ (by omega) (by omega), if_pos ⟨hs, rfl⟩]
    simp only [Res.ok_bind]
    rw [castInt_doubleBits hv]; rfl
  | size x =>
    have hv' : x ≤ 2 ^ 53 := hv
    simp only [load, dump, Value.kind]
    rw [loadScalar_append realC_good (one_ok _) _ _ _ (by omega) (by omega), if_pos ⟨hs, rfl⟩]
    simp only [Res.ok_bind]
    rw [castSize_doubleBits (by omega), natToDouble_small hv', if_pos (by omega)]; rfl

/-- The header which was written is accepted. -/
theorem readHeader_append (r : List Byte) : readHeader ⟨header ++ r, false⟩ = .ok ⟨r, false⟩ := by
  rw [readHeader, header, readName_append]
  rfl

/-- C42: any sequence of variables dumped to a new file is read back in the same order with the same
names, and nothing is left in the file but what was added to it. Missing: `size_t` values above 2^53,
see C46. -/
theorem c42_round_trip_partial (rs : List (Value × List Byte))
    (hrs : ∀ r ∈ rs, ValueOk r.1 ∧ NameOk r.2) (rest : List Byte) :
    (openIn (some (header ++ dumpAll rs ++ rest)) >>= loadAll (rs.map fun r => (r.1.kind, r.2)))
      = .ok (rs.map fun r => same r.1, ⟨rest, false⟩) := by
  rw [openIn]
  simp only [Option.getD_some, Option.isNone_some]
  rw [List.append_assoc, readHeader_append, Res.ok_bind]
  induction rs with
  | nil => rfl
  | cons r rs ih =>
    have h := hrs r (List.mem_cons_self ..)
    rw [List.map_cons, loadAll, dumpAll, List.map_cons, List.flatten_cons, List.append_assoc,
      c42_record h.1 h.2 (Or.inr rfl), Res.ok_bind]
    simp only
    have ih' := ih fun r h => hrs r (List.mem_cons_of_mem _ h)
    rw [dumpAll] at ih'
    rw [ih']
    rfl

/-- C42: loading with another (non-empty) name, or a variable of another type, stops the program.
Missing: tensors and numbers are not told apart by their tags, see the next two theorems. -/
theorem c42_mismatch_partial (v : Value) {name name' : List Byte} (hn : NameOk name)
    (k : Kind) (h : name' ≠ [] ∧ name' ≠ name ∨ k.tag ≠ v.kind.tag) (r : List Byte) :
    load k name' ⟨dump v name ++ r, false⟩ = .abort := by
  obtain ⟨x, hx⟩ : ∃ x, dump v name ++ r = tagBytes name v.kind.tag ++ x := by
    cases v <;> simp only [dump, dumpTensor, dumpTensors, List.append_assoc, Value.kind, Kind.tag] <;>
      exact ⟨_, rfl⟩
  have hkt : ∀ k : Kind, 0 ≤ k.tag ∧ k.tag < 4 := by intro k; cases k <;> simp [Kind.tag]
  have hread : readTag name' k.tag ⟨dump v name ++ r, false⟩ = .abort := by
    rw [hx, readTag_append _ _ _ (hkt _) (hkt _), stored_ok hn, if_neg]
    rintro ⟨h1, h2⟩
    rcases h with h | h
    · rcases h1 with h1 | h1
      · exact h.1 h1
      · exact h.2 h1
    · exact h h2
  cases k <;> simp only [load, loadScalar, loadTensor, loadTensors, Kind.tag] at hread ⊢ <;>
    rw [hread] <;> rfl

/-- C42: a tensor can be loaded as a number only when it has one element; otherwise the program
stops if there are more elements. -/
theorem c42_tensor_as_number {t : Tensor Word} (ht : TensorOk t) (h : 1 < t.data.length)
    {name : List Byte} (hn : NameOk name) {k : Kind} (hk : k = .double ∨ k = .int ∨ k = .size)
    (r : List Byte) :
    load k name ⟨dump (.real t) name ++ r, false⟩ = .abort := by
  have hs : loadScalar realC 0 name ⟨dump (.real t) name ++ r, false⟩ = .abort := by
    rw [dump, loadScalar_append realC_good ht _ _ _ (by omega) (by omega), stored_ok hn,
      if_pos ⟨Or.inr rfl, rfl⟩]
    match hd : t.data, h with
    | _ :: _ :: _, _ => rfl
  rcases hk with rfl | rfl | rfl <;> simp only [load] <;> rw [hs] <;> rfl

/-- C42 does not hold for numbers loaded from empty tensors: the element which does not exist is
read. -/
theorem c42_empty_as_number {t : Tensor Word} (ht : TensorOk t) (h : t.data = [])
    {name : List Byte} (hn : NameOk name) {k : Kind} (hk : k = .double ∨ k = .int ∨ k = .size)
    (r : List Byte) :
    load k name ⟨dump (.real t) name ++ r, false⟩ = .ub := by
  have hs : loadScalar realC 0 name ⟨dump (.real t) name ++ r, false⟩ = .ub := by
    rw [dump, loadScalar_append realC_good ht _ _ _ (by omega) (by omega), stored_ok hn,
      if_pos ⟨Or.inr rfl, rfl⟩, h]
  rcases hk with rfl | rfl | rfl <;> simp only [load] <;> rw [hs] <;> rfl

/-- C42 does not hold for other names: a variable whose name has more than 63 characters cannot be
loaded with that name. -/
theorem c42_long_name (v : Value) {name : List Byte} (h : 63 < name.length)
    (r : List Byte) : load v.kind name ⟨dump v name ++ r, false⟩ = .abort := by
  have hd : dump v name = dump v (stored name) := by
    have h1 : nameField name = nameField (stored name) := by
      have : stored (stored name) = stored name :=
        stored_ok ⟨stored_length name, stored_ne name⟩
      rw [nameField_eq, nameField_eq (stored name), this]
    cases v <;> simp only [dump, dumpTensor, dumpTensors, tagBytes, h1]
  rw [hd]
  have := stored_length name
  refine c42_mismatch_partial v ⟨stored_length name, stored_ne name⟩ _ (Or.inl ⟨?_, ?_⟩) r
  · rintro rfl; simp at h
  · intro hc; rw [← hc] at this; omega

example : ValueOk (.real ⟨[2, 1], [0, 0]⟩) ∧ NameOk [97] :=
  ⟨by simp [ValueOk, TensorOk, Tensor.WF, Tensor.totalSize], by simp [NameOk]⟩
example : (openIn (some (header ++ dumpAll [(.int 3, [97]), (.real ⟨[2], [5, 6]⟩, [98])])) >>=
    loadAll [(.int, [97]), (.real, [98])])
    = .ok ([.int 3, .real ⟨[2], [some 5, some 6]⟩], ⟨[], false⟩) := by decide +kernel
example : (openIn (some (header ++ dumpAll [(.int 3, [97])])) >>= loadAll [(.complex, [97])])
    = .abort := by decide +kernel

/-- C46: an `int` is recovered. -/
theorem c46_int {v : Int} (hv : -2 ^ 31 ≤ v ∧ v < 2 ^ 31) {name : List Byte} (hn : NameOk name)
    (r : List Byte) :
    load .int name ⟨dump (.int v) name ++ r, false⟩ = .ok (.int v, ⟨r, false⟩) :=
  c42_record (v := .int v) hv hn (Or.inr rfl) r

/-- C46: what is recovered of a `size_t` is the nearest double precision number, if it is a
`size_t`. -/
theorem c46_size {v : Nat} (hv : v < 2 ^ 64) {name : List Byte} (hn : NameOk name) (r : List Byte) :
    load .size name ⟨dump (.size v) name ++ r, false⟩
      = if natToDouble v < 2 ^ 64 then .ok (.size (natToDouble v), ⟨r, false⟩) else .ub := by
  simp only [load, dump]
  rw [loadScalar_append realC_good (one_ok _) _ _ _ (by omega) (by omega), stored_ok hn,
    if_pos ⟨Or.inr rfl, rfl⟩]
  simp only [Res.ok_bind]
  rw [castSize_doubleBits hv]
  split <;> rfl

/-- C46: `size_t` values are recovered up to 2^53. Missing: larger values, for which it does not
hold in general. -/
theorem c46_size_partial {v : Nat} (hv : v ≤ 2 ^ 53) {name : List Byte} (hn : NameOk name)
    (r : List Byte) :
    load .size name ⟨dump (.size v) name ++ r, false⟩ = .ok (.size v, ⟨r, false⟩) :=
  c42_record (v := .size v) hv hn (Or.inr rfl) r

/-- C46 does not hold for 2^53 + 1, which is recovered as 2^53. -/
theorem c46_not_exact {name : List Byte} (hn : NameOk name) (r : List Byte) :
    load .size name ⟨dump (.size (2 ^ 53 + 1)) name ++ r, false⟩
      = .ok (.size (2 ^ 53), ⟨r, false⟩) := by
  have h : natToDouble (2 ^ 53 + 1) = 2 ^ 53 := by decide
  rw [c46_size (by norm_num) hn, h, if_pos (by norm_num)]

/-- C46 does not hold for 2^64 - 1 (that is `(size_t)-1`), which is rounded to a number that cannot be
converted back. -/
theorem c46_undefined {name : List Byte} (hn : NameOk name) (r : List Byte) :
    load .size name ⟨dump (.size (2 ^ 64 - 1)) name ++ r, false⟩ = .ub := by
  have h : natToDouble (2 ^ 64 - 1) = 2 ^ 64 := by decide
  rw [c46_size (by norm_num) hn, h, if_neg (by norm_num)]

example : NameOk [110] := by simp [NameOk]

/-! C47 -/

theorem readTag_short {l : List Byte} (h : l.length < 72) (name : List Byte) (tag : Int) :
    (readTag name tag ⟨l, false⟩).isOk = false := by
  rw [readTag, readName]
  rcases Nat.lt_or_ge l.length 64 with h1 | h1
  · rw [readRaw_short _ h1]
    simp only
    cases cString (l.map some ++ List.replicate (64 - l.length) none) with
    | ub => rfl
    | abort => rfl
    | ok n =>
      simp only [Res.ok_bind, Res.pure_eq]
      rw [Res.assert_bind]
      split
      · rw [readWord_fail]; rfl
      · rfl
  · have e : readRaw 64 ⟨l, false⟩ = ((l.take 64).map some, ⟨l.drop 64, false⟩) := by
      rw [readRaw, if_neg (by simp), if_pos (by simpa using h1)]
    rw [e]
    simp only
    cases cString ((l.take 64).map some) with
    | ub => rfl
    | abort => rfl
    | ok n =>
      simp only [Res.ok_bind, Res.pure_eq]
      rw [Res.assert_bind]
      split
      · rw [readWord_short (by rw [List.length_drop]; omega)]; rfl
      · rfl

section Cut

variable {ε : Type} {c : Codec ε} {t : Tensor ε}

theorem vecBytes_length {v : List ε} (hv : ∀ e ∈ v, c.Good e) :
    (vecBytes c v).length = 8 + v.length * c.width := by
  rw [vecBytes, List.length_append, wordBytes_length, flatten_enc_length hv]

theorem dumpTensor_length (hc : ∀ e, c.Good e) (ht : TensorOk t) (name : List Byte) (tag : Int) :
    (dumpTensor c tag t name).length = headSize t.dims.length + t.data.length * c.width := by
  rw [dumpTensor, List.length_append, List.length_append, tagBytes, List.length_append,
    nameField_length, wordBytes_length, vecBytes_length (dims_good ht),
    vecBytes_length fun e _ => hc e, List.length_map, headSize]
  simp only [dimC]
  ring

/-- A record of a tensor which ends before its elements. -/
theorem loadTensor_cut_head (ht : TensorOk t) (name name' : List Byte)
    {tag tag' : Int} (hg : 0 ≤ tag ∧ tag < 4) (hg' : 0 ≤ tag' ∧ tag' < 4) {j : Nat}
    (hj : j < headSize t.dims.length) :
    (loadTensor c tag' name' ⟨(dumpTensor c tag t name).take j, false⟩).isOk = false := by
  have htl : (tagBytes name tag).length = 72 := by
    rw [tagBytes, List.length_append, nameField_length, wordBytes_length]
  have hdl := vecBytes_length (dims_good ht)
  rw [List.length_map] at hdl
  have hw : dimC.width = 8 := rfl
  rw [hw] at hdl
  rw [headSize] at hj
  rw [loadTensor]
  rcases Nat.lt_or_ge j 72 with h1 | h1
  · have := readTag_short (l := (dumpTensor c tag t name).take j)
      (by rw [List.length_take]; omega) name' tag'
    cases hr : readTag name' tag' ⟨(dumpTensor c tag t name).take j, false⟩ with
    | ub => rfl
    | abort => rfl
    | ok s => rw [hr] at this; simp [Res.isOk] at this
  · have hcut : (dumpTensor c tag t name).take j
        = tagBytes name tag ++ (vecBytes dimC (t.dims.map fun d : Nat => (d : Int))
            ++ vecBytes c t.data).take (j - 72) := by
      rw [dumpTensor, List.append_assoc, List.take_append, htl,
        List.take_of_length_le (by omega)]
    rw [hcut, readTag_append _ _ _ hg hg']
    split
    · rw [Res.ok_bind]
      rcases Nat.lt_or_ge (j - 72) (8 + t.dims.length * 8) with h2 | h2
      · have hc2 : (vecBytes dimC (t.dims.map fun d : Nat => (d : Int))
            ++ vecBytes c t.data).take (j - 72)
            = (vecBytes dimC (t.dims.map fun d : Nat => (d : Int))).take (j - 72) := by
          rw [List.take_append, hdl, show j - 72 - (8 + t.dims.length * 8) = 0 by omega,
            List.take_zero, List.append_nil]
        rw [hc2]
        rcases Nat.lt_or_ge (j - 72) 8 with h3 | h3
        · rw [loadVector, readWord_short (by rw [List.length_take]; omega)]; rfl
        · rw [vecBytes, List.take_append, wordBytes_length,
            List.take_of_length_le (by rw [wordBytes_length]; omega),
            loadVector_short (dims_good ht) (by simpa using ht.2.2.1)
              (by rw [List.length_map, hw]; omega), Res.ok_bind]
          simp only
          rw [loadVector, readWord_fail]
          rfl
      · have hc2 : (vecBytes dimC (t.dims.map fun d : Nat => (d : Int))
            ++ vecBytes c t.data).take (j - 72)
            = vecBytes dimC (t.dims.map fun d : Nat => (d : Int))
              ++ (vecBytes c t.data).take (j - 72 - (8 + t.dims.length * 8)) := by
          rw [List.take_append, hdl, List.take_of_length_le (by omega)]
        rw [hc2, loadVector_append (dims_good ht) (by simpa using ht.2.2.1), Res.ok_bind]
        simp only
        rw [loadVector, readWord_short (by rw [List.length_take]; omega)]
        rfl
    · rfl

/-- A record of a tensor which ends among its elements. -/
theorem loadTensor_cut_data (hc : ∀ e, c.Good e) (ht : TensorOk t) (name name' : List Byte)
    {tag : Int} (hg : 0 ≤ tag ∧ tag < 4) (hn : name' = [] ∨ name' = stored name)
    {j : Nat} (hj : j < t.data.length * c.width) :
    loadTensor c tag name'
        ⟨(dumpTensor c tag t name).take (headSize t.dims.length + j), false⟩
      = .ok (⟨t.dims.map fun d : Nat => (d : Int), (List.range t.data.length).map fun k =>
          if (k + 1) * c.width ≤ j then t.data[k]? else none⟩, ⟨[], true⟩) := by
  have hdl := vecBytes_length (dims_good ht)
  rw [List.length_map] at hdl
  have hw : dimC.width = 8 := rfl
  rw [hw] at hdl
  have htl : (tagBytes name tag ++ vecBytes dimC (t.dims.map fun d : Nat => (d : Int))
      ++ wordBytes (BitVec.ofNat 64 t.data.length)).length = headSize t.dims.length := by
    rw [List.length_append, List.length_append, tagBytes, List.length_append, nameField_length,
      wordBytes_length, hdl, wordBytes_length, headSize]
    omega
  have hcut : (dumpTensor c tag t name).take (headSize t.dims.length + j)
      = tagBytes name tag ++ (vecBytes dimC (t.dims.map fun d : Nat => (d : Int))
          ++ (wordBytes (BitVec.ofNat 64 t.data.length)
            ++ (t.data.map c.enc).flatten.take j)) := by
    rw [dumpTensor, vecBytes.eq_def c, ← List.append_assoc, List.take_append, htl,
      List.take_of_length_le (by omega), Nat.add_sub_cancel_left]
    simp only [List.append_assoc]
  rw [hcut, loadTensor, readTag_append _ _ _ hg hg, if_pos ⟨hn, rfl⟩, Res.ok_bind,
    loadVector_append (dims_good ht) (by simpa using ht.2.2.1), Res.ok_bind]
  simp only
  rw [loadVector_short (fun e _ => hc e) ht.2.1 hj, Res.ok_bind]
  simp only [allSome_map_some]
  rw [assert_bind_pos (by
    rw [totalSizeI_ofNat, List.length_map, List.length_range]; exact_mod_cast ht.1.symm)]
  rfl

end Cut

/-- C47 does not hold: a file which ends among the elements of a tensor is loaded without complaint;
the elements which are not in the file have whatever was in memory. -/
theorem c47_made_up {t : Tensor Word} (ht : TensorOk t) {name : List Byte} (hn : NameOk name)
    {j : Nat} (hj : j < 8 * t.data.length) :
    load .real name
        ⟨(dump (.real t) name).take (headSize t.dims.length + j), false⟩
      = .ok (.real ⟨t.dims.map fun d : Nat => (d : Int), (List.range t.data.length).map fun k =>
          if 8 * (k + 1) ≤ j then t.data[k]? else none⟩, ⟨[], true⟩) := by
  simp only [load, dump]
  rw [loadTensor_cut_data realC_good ht _ _ (by omega) (Or.inr (stored_ok hn).symm)
    (by simp only [realC]; omega)]
  simp only [realC, Nat.mul_comm]
  rfl

/-- C47 for complex tensors. -/
theorem c47_made_up_complex {t : Tensor (Word × Word)} (ht : TensorOk t) {name : List Byte}
    (hn : NameOk name) {j : Nat} (hj : j < 16 * t.data.length) :
    load .complex name
        ⟨(dump (.complex t) name).take (headSize t.dims.length + j), false⟩
      = .ok (.complex ⟨t.dims.map fun d : Nat => (d : Int), (List.range t.data.length).map fun k =>
          if 16 * (k + 1) ≤ j then t.data[k]? else none⟩, ⟨[], true⟩) := by
  simp only [load, dump]
  rw [loadTensor_cut_data cplxC_good ht _ _ (by omega) (Or.inr (stored_ok hn).symm)
    (by simp only [cplxC]; omega)]
  simp only [cplxC, Nat.mul_comm]
  rfl

/-- C47 does not hold: reading one variable more than there are in the file uses memory which was
not initialised. -/
theorem c47_end_of_file (k : Kind) (name : List Byte) : load k name ⟨[], false⟩ = .ub := by
  have h : ∀ tag, readTag name tag ⟨[], false⟩ = .ub := by
    intro tag
    rw [readTag, readName, readRaw_short _ (by simp)]
    rfl
  cases k <;> simp only [load, loadScalar, loadTensor, loadTensors, h] <;> rfl

/-- C47 does not hold: the same for every variable read after a short read. -/
theorem c47_after_short_read (k : Kind) (name rest : List Byte) : load k name ⟨rest, true⟩ = .ub := by
  cases k <;> simp only [load, loadScalar, loadTensor, loadTensors, readTag_fail] <;> rfl

/-- C47 does not hold: a file which does not exist, or is empty, is not detected either. -/
theorem c47_no_file : openIn none = .ub ∧ openIn (some []) = .ub := by
  constructor <;> rfl

/-- C47, what does hold: a file which ends before the elements of a tensor never yields a tensor.
Missing: that the program stops (uninitialised memory is used instead) and files which end among the
elements. -/
theorem c47_head_partial {t : Tensor Word} (ht : TensorOk t) (name name' : List Byte) {j : Nat}
    (hj : j < headSize t.dims.length) :
    (load .real name' ⟨(dump (.real t) name).take j, false⟩).isOk = false := by
  have := loadTensor_cut_head (c := realC) ht name name' (tag := 0) (tag' := 0) (by omega) (by omega) hj
  simp only [load, dump]
  cases hr : loadTensor realC 0 name' ⟨(dumpTensor realC 0 t name).take j, false⟩ with
  | ub => rfl
  | abort => rfl
  | ok s => rw [hr] at this; simp [Res.isOk] at this

/-- C47, what does hold: a number is never made up, wherever the file ends. Missing: that the program
stops (uninitialised memory is used instead). -/
theorem c47_number_partial {v : Value} (hv : v.kind = .double ∨ v.kind = .int ∨ v.kind = .size)
    {name : List Byte} (hn : NameOk name) {j : Nat} (hj : j < (dump v name).length) :
    (load v.kind name ⟨(dump v name).take j, false⟩).isOk = false := by
  obtain ⟨w, hw⟩ : ∃ w, dump v name = dumpTensor realC 0 ⟨[1], [w]⟩ name := by
    cases v <;> simp [Value.kind] at hv <;> exact ⟨_, rfl⟩
  have hs : (loadScalar realC 0 name ⟨(dump v name).take j, false⟩).isOk = false := by
    rw [hw] at hj ⊢
    rw [loadScalar]
    rcases Nat.lt_or_ge j (headSize 1) with h1 | h1
    · have := loadTensor_cut_head (c := realC) (one_ok w) name name (tag := 0) (tag' := 0)
        (by omega) (by omega) (j := j) h1
      cases hr : loadTensor realC 0 name ⟨(dumpTensor realC 0 ⟨[1], [w]⟩ name).take j, false⟩ with
      | ub => rfl
      | abort => rfl
      | ok s => rw [hr] at this; simp [Res.isOk] at this
    · rw [dumpTensor_length realC_good (one_ok w)] at hj
      have hj' : j - headSize 1 < 8 := by
        simp [realC] at hj; omega
      have := loadTensor_cut_data realC_good (one_ok w) name name (tag := 0) (by omega)
        (Or.inr (stored_ok hn).symm) (j := j - headSize 1) (by simp [realC]; exact hj')
      simp only [List.length_cons, List.length_nil, Nat.zero_add] at this
      rw [show headSize 1 + (j - headSize 1) = j by omega] at this
      rw [this, Res.ok_bind]
      simp [realC, show ¬8 ≤ j - headSize 1 by omega, Res.isOk, Res.assert_bind]
  cases v <;> simp [Value.kind] at hv
  all_goals
    simp only [load, Value.kind]
    generalize loadScalar realC 0 name _ = x at hs
    cases x with
    | ub => rfl
    | abort => rfl
    | ok s => simp [Res.isOk] at hs

/-- C47, what does hold: variables which are complete in the file are read correctly, wherever the
file ends (or whatever follows). -/
theorem c47_complete_partial (rs : List (Value × List Byte))
    (hrs : ∀ r ∈ rs, ValueOk r.1 ∧ NameOk r.2) {l : List Byte} (hl : header ++ dumpAll rs <+: l) :
    ∃ s, (openIn (some l) >>= loadAll (rs.map fun r => (r.1.kind, r.2)))
      = .ok (rs.map fun r => same r.1, s) := by
  obtain ⟨rest, rfl⟩ := hl
  exact ⟨_, c42_round_trip_partial rs hrs rest⟩

example : TensorOk (⟨[2], [5, 6]⟩ : Tensor Word) ∧ NameOk [97] ∧ 8 < 8 * 2 :=
  ⟨⟨rfl, by simp, by simp, by simp⟩, by simp [NameOk], by omega⟩
example : load .real [97] ⟨(dump (.real ⟨[2], [5, 6]⟩) [97]).take (headSize 1 + 8), false⟩
    = .ok (.real ⟨[2], [some 5, none]⟩, ⟨[], true⟩) := by decide +kernel
example : 3 < headSize 1 ∧ 3 < (dump (.int 7) [97]).length := by decide +kernel

end Verif.Sdf
