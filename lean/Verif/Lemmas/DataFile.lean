import Verif.Spec.DataFile
import Mathlib.Data.List.TakeWhile
/-
Lemmas about the encoding of data files.
-/
namespace Verif.Sdf

theorem assert_bind_pos {p : Prop} [Decidable p] {β : Type} {f : PUnit → Res β} (h : p) :
    (Res.assert p >>= f) = f ⟨⟩ := by
  rw [Res.assert_bind, if_pos h]

theorem assert_bind_neg {p : Prop} [Decidable p] {β : Type} {f : PUnit → Res β} (h : ¬p) :
    (Res.assert p >>= f) = .abort := by
  rw [Res.assert_bind, if_neg h]

theorem allSome_map_some {β : Type} (l : List β) : allSome (l.map some) = some l := by
  induction l with
  | nil => rfl
  | cons a l ih => simp [allSome, ih]

theorem allSome_none {β : Type} {l : List (Option β)} (h : none ∈ l) : allSome l = none := by
  induction l with
  | nil => simp at h
  | cons a l ih =>
    cases a with
    | none => rfl
    | some a => simp at h; simp [allSome, ih h]

theorem readRaw_append (l r : List Byte) {n : Nat} (hn : l.length = n) :
    readRaw n ⟨l ++ r, false⟩ = (l.map some, ⟨r, false⟩) := by
  subst hn
  simp [readRaw]

theorem readRaw_short (l : List Byte) {n : Nat} (hn : l.length < n) :
    readRaw n ⟨l, false⟩ = (l.map some ++ List.replicate (n - l.length) none, ⟨[], true⟩) := by
  rw [readRaw, if_neg (by simp), if_neg (by simpa using hn)]

theorem readRaw_fail (l : List Byte) (n : Nat) :
    readRaw n ⟨l, true⟩ = (List.replicate n none, ⟨l, true⟩) := by
  simp [readRaw]

theorem readWord_append (w : Word) (r : List Byte) :
    readWord ⟨wordBytes w ++ r, false⟩ = .ok (w, ⟨r, false⟩) := by
  rw [readWord, readRaw_append _ _ (wordBytes_length w), allSome_map_some]
  simp only [wordOf_wordBytes]

theorem readWord_short {l : List Byte} (h : l.length < 8) : readWord ⟨l, false⟩ = .ub := by
  rw [readWord, readRaw_short _ h]
  simp only
  rw [allSome_none]
  apply List.mem_append_right
  rw [List.mem_replicate]
  exact ⟨by omega, rfl⟩

theorem readWord_fail (l : List Byte) : readWord ⟨l, true⟩ = .ub := by
  rw [readWord, readRaw_fail]
  rfl

/-- The name which is found in the file when `name` is written. -/
def stored (name : List Byte) : List Byte := (name.take 63).takeWhile (· ≠ 0)

theorem stored_ok {name : List Byte} (h : NameOk name) : stored name = name := by
  rw [stored, List.take_of_length_le h.1]
  exact List.takeWhile_eq_self_iff.2 fun b hb => by simpa using h.2 b hb

theorem stored_length (name : List Byte) : (stored name).length ≤ 63 := by
  refine le_trans (List.takeWhile_prefix _).length_le ?_
  simp

theorem stored_ne (name : List Byte) : ∀ b ∈ stored name, b ≠ 0 := by
  intro b hb
  have := List.mem_takeWhile_imp hb
  simpa using this

theorem nameField_eq (name : List Byte) :
    nameField name = stored name ++ List.replicate (64 - (stored name).length) 0 := by
  have : name.take (min 63 name.length) = name.take 63 := by
    rcases Nat.le_total 63 name.length with h | h
    · rw [min_eq_left h]
    · rw [min_eq_right h, List.take_length, List.take_of_length_le h]
  simp only [nameField, this, stored]

theorem nameField_length (name : List Byte) : (nameField name).length = 64 := by
  have := stored_length name
  rw [nameField_eq, List.length_append, List.length_replicate]
  omega

theorem cString_append (l : List Byte) (h : ∀ b ∈ l, b ≠ 0) (r : List (Option Byte)) :
    cString (l.map some ++ some 0 :: r) = .ok l := by
  induction l with
  | nil => simp [cString]
  | cons b l ih =>
    have hb := h b (List.mem_cons_self ..)
    rw [List.map_cons, List.cons_append, cString, if_neg hb,
      ih fun b hb => h b (List.mem_cons_of_mem _ hb)]
    rfl

theorem readName_append (name r : List Byte) :
    readName ⟨nameField name ++ r, false⟩ = .ok (stored name, ⟨r, false⟩) := by
  rw [readName, readRaw_append _ _ (nameField_length name), nameField_eq]
  obtain ⟨k, hk⟩ : ∃ k, 64 - (stored name).length = k + 1 :=
    ⟨63 - (stored name).length, by have := stored_length name; omega⟩
  rw [hk, List.replicate_succ, List.map_append, List.map_cons,
    cString_append _ (stored_ne name)]
  rfl

theorem readName_fail (l : List Byte) : readName ⟨l, true⟩ = .ub := by
  rw [readName, readRaw_fail]
  rfl

theorem readTag_fail (name : List Byte) (tag : Int) (l : List Byte) :
    readTag name tag ⟨l, true⟩ = .ub := by
  rw [readTag, readName_fail]
  rfl

theorem toInt_ofInt {i : Int} (h1 : -2 ^ 63 ≤ i) (h2 : i < 2 ^ 63) :
    (BitVec.ofInt 64 i).toInt = i := by
  rw [BitVec.toInt_ofInt]
  rw [Int.bmod_eq_of_le] <;> norm_num <;> omega

/-- Reading a tag which was written. -/
theorem readTag_append (name name' r : List Byte) {tag tag' : Int}
    (ht : 0 ≤ tag ∧ tag < 4) (ht' : 0 ≤ tag' ∧ tag' < 4) :
    readTag name' tag' ⟨tagBytes name tag ++ r, false⟩
      = if (name' = [] ∨ name' = stored name) ∧ tag' = tag then .ok ⟨r, false⟩ else .abort := by
  rw [tagBytes, List.append_assoc, readTag, readName_append, Res.ok_bind]
  simp only
  by_cases hn : name' = [] ∨ name' = stored name
  · rw [assert_bind_pos (by tauto), readWord_append, Res.ok_bind]
    simp only [toInt_ofInt (show -2 ^ 63 ≤ tag by omega) (show tag < 2 ^ 63 by omega)]
    by_cases h : tag = tag'
    · rw [if_pos h, if_pos ⟨hn, h.symm⟩]; rfl
    · rw [if_neg h, if_neg fun hc => h hc.2.symm]
      simp only [tagToName, if_pos ht, if_pos ht', Res.ok_bind]
  · rw [assert_bind_neg (by tauto), if_neg fun hc => hn hc.1]

/-- The stored form of an element can be read. -/
def Codec.Good {ε : Type} (c : Codec ε) (e : ε) : Prop :=
  (c.enc e).length = c.width ∧ c.dec (c.enc e) = e

theorem realC_good (w : Word) : realC.Good w := ⟨wordBytes_length w, wordOf_wordBytes w⟩

theorem cplxC_good (z : Word × Word) : cplxC.Good z := by
  refine ⟨by simp [cplxC, wordBytes_length], ?_⟩
  simp only [cplxC]
  rw [List.take_append_of_le_length (by simp [wordBytes_length]),
    List.take_of_length_le (by simp [wordBytes_length]),
    List.drop_append_of_le_length (by simp [wordBytes_length]),
    List.drop_of_length_le (by simp [wordBytes_length]), List.nil_append, wordOf_wordBytes,
    wordOf_wordBytes]

theorem dimC_good {i : Int} (h1 : -2 ^ 63 ≤ i) (h2 : i < 2 ^ 63) : dimC.Good i := by
  refine ⟨by simp [dimC, wordBytes_length], ?_⟩
  simp only [dimC, wordOf_wordBytes, toInt_ofInt h1 h2]

section Vec

variable {ε : Type} {c : Codec ε} {v : List ε}

theorem flatten_enc_length (hv : ∀ e ∈ v, c.Good e) :
    (v.map c.enc).flatten.length = v.length * c.width := by
  induction v with
  | nil => simp
  | cons e v ih =>
    rw [List.map_cons, List.flatten_cons, List.length_append, ih fun e h => hv e (List.mem_cons_of_mem _ h),
      (hv e (List.mem_cons_self ..)).1, List.length_cons]
    ring

theorem flatten_chunk (hv : ∀ e ∈ v, c.Good e) {k : Nat} (hk : k < v.length) :
    ((v.map c.enc).flatten.drop (k * c.width)).take c.width = c.enc v[k] := by
  induction v generalizing k with
  | nil => simp at hk
  | cons e v ih =>
    have he := (hv e (List.mem_cons_self ..)).1
    rw [List.map_cons, List.flatten_cons]
    cases k with
    | zero =>
      rw [Nat.zero_mul, List.drop_zero, List.take_append_of_le_length (by omega),
        List.take_of_length_le (by omega)]
      rfl
    | succ k =>
      rw [show (k + 1) * c.width = (c.enc e).length + k * c.width by rw [he]; ring,
        List.drop_append, List.getElem_cons_succ]
      rw [List.drop_of_length_le (by omega), List.nil_append, Nat.add_sub_cancel_left]
      exact ih (fun e h => hv e (List.mem_cons_of_mem _ h)) _

/-- What becomes of a buffer of which only the first `j` bytes were read. -/
theorem chunk_short (hv : ∀ e ∈ v, c.Good e) {j : Nat} {k : Nat} (hk : k < v.length)
    (hj : j ≤ v.length * c.width) :
    (allSome ((((v.map c.enc).flatten.take j).map some
        ++ List.replicate (v.length * c.width - j) none |>.drop (k * c.width)).take c.width)).map c.dec
      = if (k + 1) * c.width ≤ j then some v[k] else none := by
  have hl := flatten_enc_length hv
  have hkw : (k + 1) * c.width ≤ v.length * c.width := Nat.mul_le_mul_right _ hk
  have hkw' : (k + 1) * c.width = k * c.width + c.width := by ring
  have hlen : (((v.map c.enc).flatten.take j).map (some : Byte → Option Byte)).length = j := by
    rw [List.length_map, List.length_take, hl]; omega
  split
  · rename_i h
    rw [List.drop_append_of_le_length (by omega), List.take_append_of_le_length (by
      rw [List.length_drop]; omega), ← List.map_drop, ← List.map_take, allSome_map_some,
      Option.map_some, List.drop_take, List.take_take, min_eq_left (by omega),
      flatten_chunk hv hk, (hv _ (List.getElem_mem hk)).2]
  · rename_i h
    rw [allSome_none, Option.map_none]
    have hw : 0 < c.width := by
      rcases Nat.eq_zero_or_pos c.width with h0 | h0
      · rw [h0] at h; omega
      · exact h0
    apply List.mem_of_getElem? (i := c.width - 1)
    rw [List.getElem?_take_of_lt (by omega), List.getElem?_drop, List.getElem?_append_right (by omega),
      List.getElem?_replicate, hlen, if_pos (by omega)]

theorem loadVector_short (hv : ∀ e ∈ v, c.Good e) (hl : v.length < 2 ^ 63) {j : Nat}
    (hj : j < v.length * c.width) :
    loadVector c ⟨wordBytes (BitVec.ofNat 64 v.length) ++ (v.map c.enc).flatten.take j, false⟩
      = .ok ((List.range v.length).map fun k =>
          if (k + 1) * c.width ≤ j then v[k]? else none, ⟨[], true⟩) := by
  have hn : (BitVec.ofNat 64 v.length).toNat = v.length := by
    rw [BitVec.toNat_ofNat]; omega
  have hfl := flatten_enc_length hv
  have htk : ((v.map c.enc).flatten.take j).length = j := by rw [List.length_take, hfl]; omega
  rw [loadVector, readWord_append, Res.ok_bind]
  simp only [hn]
  rw [assert_bind_pos hl, readRaw_short _ (by omega)]
  simp only [Res.pure_eq, htk]
  congr 2
  apply List.map_congr_left
  intro k hk
  rw [List.mem_range] at hk
  rw [chunk_short hv hk (by omega)]
  simp [hk]

theorem loadVector_append (hv : ∀ e ∈ v, c.Good e) (hl : v.length < 2 ^ 63) (r : List Byte) :
    loadVector c ⟨vecBytes c v ++ r, false⟩ = .ok (v.map some, ⟨r, false⟩) := by
  have hn : (BitVec.ofNat 64 v.length).toNat = v.length := by
    rw [BitVec.toNat_ofNat]; omega
  have hfl := flatten_enc_length hv
  rw [vecBytes, List.append_assoc, loadVector, readWord_append, Res.ok_bind]
  simp only [hn]
  rw [assert_bind_pos hl, readRaw_append _ _ hfl]
  simp only [Res.pure_eq]
  congr 2
  apply List.ext_getElem (by simp)
  intro k h1 h2
  simp at h1
  simp only [List.getElem_map, List.getElem_range]
  have := chunk_short hv h1 (j := v.length * c.width) (le_refl _)
  rw [if_pos (Nat.mul_le_mul_right _ h1), Nat.sub_self, List.replicate_zero, List.append_nil,
    ← hfl, List.take_length] at this
  exact this

end Vec

theorem totalSizeI_ofNat (d : List Nat) :
    Tensor.totalSizeI (d.map fun x : Nat => (x : Int)) = Tensor.totalSize d := by
  rw [Tensor.totalSizeI, Tensor.totalSize, List.length_map]
  split
  · have : ∀ (l : List Nat) (a : Nat),
        (l.map fun x : Nat => (x : Int)).foldl (fun (aux : Option Int) x =>
          aux.bind fun a => if x < 0 then none else some (a * x)) (some (a : Int))
          = some ((l.foldl (· * ·) a : Nat) : Int) := by
      intro l
      induction l with
      | nil => intro a; rfl
      | cons x l ih =>
        intro a
        rw [List.map_cons, List.foldl_cons, List.foldl_cons, Option.bind_some,
          if_neg (by omega), ← ih (a * x)]
        push_cast
        rfl
    have h := this d 1
    rw [Nat.cast_one] at h
    rw [h]; rfl
  · rfl

section Tens

variable {ε : Type} {c : Codec ε} {t : Tensor ε}

theorem dims_good (ht : TensorOk t) :
    ∀ e ∈ t.dims.map (fun d : Nat => (d : Int)), dimC.Good e := by
  intro e he
  obtain ⟨d, hd, rfl⟩ := List.mem_map.1 he
  have := ht.2.2.2 d hd
  exact dimC_good (by omega) (by omega)

theorem loadTensor_append (hc : ∀ e, c.Good e) (ht : TensorOk t) (name name' r : List Byte)
    {tag tag' : Int} (hg : 0 ≤ tag ∧ tag < 4) (hg' : 0 ≤ tag' ∧ tag' < 4) :
    loadTensor c tag' name' ⟨dumpTensor c tag t name ++ r, false⟩
      = if (name' = [] ∨ name' = stored name) ∧ tag' = tag then .ok (sameT t, ⟨r, false⟩)
        else .abort := by
  rw [dumpTensor, List.append_assoc, List.append_assoc, loadTensor,
    readTag_append name name' _ hg hg']
  split
  · rw [Res.ok_bind, loadVector_append (dims_good ht) (by simpa using ht.2.2.1), Res.ok_bind]
    simp only
    rw [loadVector_append (fun e _ => hc e) ht.2.1, Res.ok_bind]
    simp only [allSome_map_some]
    rw [assert_bind_pos (by rw [totalSizeI_ofNat, List.length_map]; exact_mod_cast ht.1.symm)]
    rfl
  · rfl

theorem loadMany_append (hc : ∀ e, c.Good e) {m : List (Tensor ε)} (hm : ∀ t ∈ m, TensorOk t)
    {tag1 : Int} (hg : 0 ≤ tag1 ∧ tag1 < 4) (r : List Byte) :
    loadMany c tag1 m.length ⟨(m.map fun t => dumpTensor c tag1 t []).flatten ++ r, false⟩
      = .ok (m.map sameT, ⟨r, false⟩) := by
  induction m with
  | nil => rfl
  | cons t m ih =>
    rw [List.length_cons, List.map_cons, List.flatten_cons, List.append_assoc, loadMany,
      loadTensor_append hc (hm t (List.mem_cons_self ..)) _ _ _ hg hg, if_pos ⟨Or.inl rfl, rfl⟩,
      Res.ok_bind]
    simp only
    rw [ih fun t h => hm t (List.mem_cons_of_mem _ h)]
    rfl

theorem loadTensors_append (hc : ∀ e, c.Good e) {m : List (Tensor ε)} (hm : ∀ t ∈ m, TensorOk t)
    (hl : m.length < 2 ^ 63) (name name' : List Byte) {tag tag' tag1 : Int}
    (hg : 0 ≤ tag ∧ tag < 4) (hg' : 0 ≤ tag' ∧ tag' < 4) (hg1 : 0 ≤ tag1 ∧ tag1 < 4)
    (r : List Byte) :
    loadTensors c tag' tag1 name' ⟨dumpTensors c tag tag1 m name ++ r, false⟩
      = if (name' = [] ∨ name' = stored name) ∧ tag' = tag then .ok (m.map sameT, ⟨r, false⟩)
        else .abort := by
  have hn : (BitVec.ofNat 64 m.length).toNat = m.length := by
    rw [BitVec.toNat_ofNat]; omega
  rw [dumpTensors, List.append_assoc, List.append_assoc, loadTensors,
    readTag_append name name' _ hg hg']
  split
  · rw [Res.ok_bind, readWord_append, Res.ok_bind]
    simp only [hn]
    rw [assert_bind_pos hl, loadMany_append hc hm hg1]
  · rfl

end Tens

end Verif.Sdf
