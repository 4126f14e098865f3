import Verif.Spec.Machines
import Verif.Lemmas.DataFile
/-
Properties of data files of different machines: C120.
-/
namespace Verif.SdfM

open Verif Sdf

theorem put_length (m : Machine) (k n : Nat) : (put m k n).length = k := by
  rw [put]; split <;> simp [natBytes_length]

theorem get_put {W R : Machine} (hb : W.big = R.big) (k n : Nat) : get R (put W k n) = n % 256 ^ k := by
  rw [get, put, hb]
  split
  · rw [List.reverse_reverse, bytesNat_natBytes]
  · rw [bytesNat_natBytes]

theorem readNum_append {W R : Machine} (hb : W.big = R.big) (k n : Nat) (r : List Byte) :
    readNum R k ⟨put W k n ++ r, false⟩ = .ok (n % 256 ^ k, ⟨r, false⟩) := by
  rw [readNum, readRaw_append _ _ (put_length W k n), allSome_map_some]
  simp only [get_put hb]

theorem signed_small {k n : Nat} (h : 2 * n < 256 ^ k) : signed k n = n := by rw [signed, if_pos h]

theorem pow_ge {k : Nat} (h : 1 ≤ k) : 256 ≤ 256 ^ k := by
  calc 256 = 256 ^ 1 := by norm_num
    _ ≤ 256 ^ k := Nat.pow_le_pow_right (by norm_num) h

/-- Reading a tag. -/
theorem readTag_append {W R : Machine} (hb : W.big = R.big) (hl : W.long = R.long) (h1 : 1 ≤ R.long)
    (name name' r : List Byte) {g g' : Nat} (hg : g < 4) (hg' : g' < 4) :
    readTag R name' g' ⟨tagBytes W name g ++ r, false⟩
      = if (name' = [] ∨ name' = stored name) ∧ g' = g then .ok ⟨r, false⟩ else .abort := by
  have hp := pow_ge h1
  rw [tagBytes, List.append_assoc, readTag, readName_append, Res.ok_bind]
  simp only
  by_cases hn : name' = [] ∨ name' = stored name
  · rw [assert_bind_pos (by tauto), hl, readNum_append hb, Res.ok_bind]
    simp only
    rw [Nat.mod_eq_of_lt (by omega), signed_small (by omega)]
    by_cases h : g' = g
    · rw [if_pos (by rw [h]), if_pos ⟨hn, h⟩]; rfl
    · rw [if_neg (by omega), if_neg fun hc => h hc.2]
      simp only [tagToName]
      rw [if_pos (by omega), Res.ok_bind, if_pos (by omega), Res.ok_bind]
  · rw [assert_bind_neg (by tauto), if_neg fun hc => hn hc.1]

/-- A number of a buffer which is in it. -/
theorem number_eq (m : Machine) (k : Nat) (buf : List Byte) {j : Nat} (h : j * k + k ≤ buf.length) :
    number m k (buf.map some) j = some (get m ((buf.drop (j * k)).take k)) := by
  have e : (List.range k).map (fun b => ((buf.map some)[j * k + b]?).join)
      = ((buf.drop (j * k)).take k).map some := by
    apply List.ext_getElem?
    intro b
    by_cases hb : b < k
    · have hl : j * k + b < buf.length := by omega
      rw [List.getElem?_map, List.getElem?_range hb, List.getElem?_map, List.getElem?_take, if_pos hb, List.getElem?_drop,
        List.getElem?_eq_getElem hl, Option.map_some, List.getElem?_map, List.getElem?_eq_getElem hl]
      rfl
    · rw [List.getElem?_eq_none (by simp; omega), List.getElem?_eq_none (by simp; omega)]
  rw [number, e, allSome_map_some]
  rfl

/-- The numbers of a buffer which has been filled. -/
theorem numbers_eq {W R : Machine} (hb : W.big = R.big) (k : Nat) (v : List Nat) (hv : ∀ n ∈ v, n < 256 ^ k) :
    (List.range v.length).map (number R k ((v.map (put W k)).flatten.map some)) = v.map some := by
  have hg : ∀ e ∈ v, Codec.Good (⟨k, put W k, get R⟩ : Codec Nat) e := fun e he =>
    ⟨put_length W k e, by simp only [get_put hb]; exact Nat.mod_eq_of_lt (hv e he)⟩
  apply List.ext_getElem?
  intro j
  by_cases hj : j < v.length
  · rw [List.getElem?_map, List.getElem?_range hj, List.getElem?_map, List.getElem?_eq_getElem hj]
    have hl := flatten_enc_length hg
    simp only at hl
    have hc := flatten_chunk hg hj
    simp only at hc
    simp only [Option.map_some, Option.some.injEq]
    have hle : j * k + k ≤ v.length * k := by
      calc j * k + k = (j + 1) * k := by ring
        _ ≤ v.length * k := Nat.mul_le_mul_right _ hj
    rw [number_eq _ _ _ (by rw [hl]; exact hle), hc, get_put hb,
      Nat.mod_eq_of_lt (hv _ (List.getElem_mem hj))]
  · rw [List.getElem?_eq_none (by simp; omega), List.getElem?_eq_none (by simp; omega)]

/-- Reading the numbers of a tensor. -/
theorem loadVector_append {W R : Machine} (ha : Agree W R) (hR : R.Ok) {k p n : Nat} (hp : 1 ≤ p) (hk : 1 ≤ k)
    {v : List Nat} (hn : v.length = n * p) (hv : ∀ x ∈ v, x < 256 ^ k) (hm : k * v.length ≤ R.memory)
    (r : List Byte) :
    loadVector R k p ⟨vecBytes W k p v ++ r, false⟩ = .ok (v.map some, ⟨r, false⟩) := by
  obtain ⟨-, hl, hb, hs⟩ := ha
  obtain ⟨-, -, hl1, -, hs1, hmem⟩ := hR
  have hdiv : v.length / p = n := by rw [hn]; exact Nat.mul_div_cancel _ hp
  have hbytes : n * (p * k) = k * v.length := by rw [hn]; ring
  have hnm : n ≤ n * (p * k) := Nat.le_mul_of_pos_right _ (Nat.mul_pos hp hk)
  have hls : R.long = R.size := by rw [hs, hl]
  have hlen : (v.map (put W k)).flatten.length = k * v.length := by
    have : ∀ l : List Nat, (l.map (put W k)).flatten.length = k * l.length := by
      intro l
      induction l with
      | nil => simp
      | cons a l ih => rw [List.map_cons, List.flatten_cons, List.length_append, ih, put_length, List.length_cons]; ring
    exact this v
  rw [loadVector, vecBytes, List.append_assoc, hdiv, ← hs, readNum_append hb, Res.ok_bind]
  simp only
  have e1 : n % 256 ^ R.size = n := Nat.mod_eq_of_lt (by omega)
  have e2 : n * (p * k) % 256 ^ R.size = n * (p * k) := Nat.mod_eq_of_lt (by omega)
  rw [hls, e1, e1, signed_small (by omega), e2, Int.toNat_natCast, hbytes,
    assert_bind_pos ⟨by omega, hm⟩, if_neg (by omega), if_neg (by omega), readRaw_append _ _ hlen]
  simp only [Res.pure_eq]
  rw [← hn, numbers_eq hb k v hv]

theorem parts_pos (c : Bool) : 1 ≤ parts c := by cases c <;> simp [parts]
theorem tag_lt (c : Bool) : tag c < 4 ∧ vtag c < 4 := by cases c <;> simp [tag, vtag]

/-- Reading a tensor. -/
theorem loadTensor_append {W R : Machine} (ha : Agree W R) (hR : R.Ok) {c : Bool} {t : Tensor Word}
    (ht : TensorOk R c t) {name name' : List Byte} (hn : name' = [] ∨ name' = stored name) (r : List Byte) :
    loadTensor R c name' ⟨dumpTensor W c t name ++ r, false⟩ = .ok (sameT t, ⟨r, false⟩) := by
  obtain ⟨h1, h2, h3, h4⟩ := ht
  have hlong := hR.2.2.1
  rw [dumpTensor, List.append_assoc, List.append_assoc, loadTensor,
    readTag_append ha.2.2.1 ha.2.1 hlong _ _ _ (tag_lt c).1 (tag_lt c).1, if_pos ⟨hn, rfl⟩, Res.ok_bind]
  rw [ha.2.1, loadVector_append ha hR (n := t.dims.length) le_rfl hlong (by omega)
    (fun d hd => by have := h4 d hd; omega) h3, Res.ok_bind]
  simp only
  rw [loadVector_append ha hR (n := Tensor.totalSize t.dims) (parts_pos c) (by norm_num)
    (by rw [List.length_map, h1, Nat.mul_comm])
    (by
      intro x hx
      obtain ⟨w, -, rfl⟩ := List.mem_map.1 hx
      have := w.isLt
      have e : (256 : Nat) ^ 8 = 2 ^ 64 := by norm_num
      rw [e]; exact this) (by rwa [List.length_map]), Res.ok_bind]
  simp only [allSome_map_some]
  have hd : t.dims.map (signed R.long) = t.dims.map fun d : Nat => (d : Int) :=
    List.map_congr_left fun d hd => signed_small (h4 d hd)
  have hlen : ((t.data.map BitVec.toNat).map some).length / parts c = Tensor.totalSize t.dims := by
    rw [List.length_map, List.length_map, h1]; exact Nat.mul_div_cancel_left _ (parts_pos c)
  rw [hd, hlen, assert_bind_pos (totalSizeI_ofNat _)]
  simp only [Res.pure_eq, sameT, List.map_map]
  congr 4
  funext w
  simp

theorem loadMany_append {W R : Machine} (ha : Agree W R) (hR : R.Ok) {c : Bool} {v : List (Tensor Word)}
    (hv : ∀ t ∈ v, TensorOk R c t) (r : List Byte) :
    loadMany R c v.length ⟨(v.map fun t => dumpTensor W c t []).flatten ++ r, false⟩
      = .ok (v.map sameT, ⟨r, false⟩) := by
  induction v with
  | nil => rfl
  | cons t v ih =>
    rw [List.map_cons, List.flatten_cons, List.append_assoc, List.length_cons, loadMany,
      loadTensor_append ha hR (hv t (List.mem_cons_self ..)) (Or.inl rfl), Res.ok_bind]
    simp only
    rw [ih fun t h => hv t (List.mem_cons_of_mem _ h)]
    rfl

/-- C120: a variable is read as it was written, on another machine which agrees with the first. Vectors of tensors need
also the same size of `size_t` for writing. -/
theorem c120_record {W R : Machine} (ha : Agree W R) (hR : R.Ok) {v : Value} (hv : ValueOk R v)
    (hsz : v.kind.many → W.size = R.size) {name name' : List Byte} (hn : NameOk name)
    (hn' : name' = [] ∨ name' = name) (r : List Byte) :
    load R v.kind name' ⟨dump W v name ++ r, false⟩ = .ok (same v, ⟨r, false⟩) := by
  have hs : name' = [] ∨ name' = stored name := by rwa [stored_ok hn]
  cases v with
  | one c t =>
    simp only [load, dump, Value.kind]
    rw [loadTensor_append ha hR hv hs]; rfl
  | many c v =>
    have hsz := hsz rfl
    have hm := hR.2.2.2.2.2
    have hvl := hv.1
    simp only [load, dump, Value.kind]
    rw [loadTensors, dumpTensors, List.append_assoc, List.append_assoc,
      readTag_append ha.2.2.1 ha.2.1 hR.2.2.1 _ _ _ (tag_lt c).2 (tag_lt c).2, if_pos ⟨hs, rfl⟩, Res.ok_bind, hsz,
      readNum_append ha.2.2.1, Res.ok_bind]
    simp only
    rw [Nat.mod_eq_of_lt (by omega), assert_bind_pos hvl, loadMany_append ha hR hv.2]
    rfl

theorem digit {n : Nat} (h : n ≤ 9) : (BitVec.ofNat 8 (n + 48)).toInt - 48 = n := by
  have : ∀ n : Fin 10, (BitVec.ofNat 8 (n.1 + 48)).toInt - 48 = n.1 := by decide
  exact this ⟨n, by omega⟩

theorem digit_ne {n : Nat} (h : n ≤ 9) : BitVec.ofNat 8 (n + 48) ≠ 0 := by
  have : ∀ n : Fin 10, BitVec.ofNat 8 (n.1 + 48) ≠ 0 := by decide
  exact this ⟨n, by omega⟩

/-- C120: a file is accepted exactly if the sizes of int and long and the order of bytes of the machine which wrote
it are those of the machine which reads it. -/
theorem c120_header {W : Machine} (hW : W.Ok) (R : Machine) (rest : List Byte) :
    openIn R (header W ++ rest)
      = if W.int = R.int ∧ W.long = R.long ∧ W.big = R.big then .ok ⟨rest, false⟩ else .abort := by
  obtain ⟨-, hi, -, hl, -⟩ := hW
  have hst : stored [115, 100, 102, BitVec.ofNat 8 (W.int + 48), BitVec.ofNat 8 (W.long + 48), if W.big then 48 else 49]
      = [115, 100, 102, BitVec.ofNat 8 (W.int + 48), BitVec.ofNat 8 (W.long + 48), if W.big then 48 else 49] := by
    apply stored_ok
    refine ⟨by simp, ?_⟩
    intro b hb
    simp only [List.mem_cons, List.not_mem_nil, or_false] at hb
    rcases hb with rfl | rfl | rfl | rfl | rfl | rfl
    · decide
    · decide
    · decide
    · exact digit_ne hi
    · exact digit_ne hl
    · split <;> decide
  have hb : ((if W.big then 48 else 49 : Byte).toInt - 48 = if R.big then 0 else 1) ↔ W.big = R.big := by
    cases W.big <;> cases R.big <;> decide
  rw [openIn, readHeader, header, readName_append, hst, Res.ok_bind]
  simp only [charAt, List.length_cons, List.length_nil, Nat.reduceAdd, Nat.reduceLT, if_true, List.getElem?_cons_zero,
    List.getElem?_cons_succ, Res.ofOption_some, Res.ok_bind]
  rw [assert_bind_pos trivial, assert_bind_pos trivial, assert_bind_pos trivial, digit hi, digit hl, Res.assert_bind]
  simp only [hb, Nat.cast_inj]
  rfl

/-- C120: variables written to a file on one machine are read on another which agrees with it. Missing: machines
on which `size_t` and `long` differ. -/
theorem c120_round_trip_partial {W R : Machine} (ha : Agree W R) (hW : W.Ok) (hR : R.Ok)
    (rs : List (Value × List Byte)) (hrs : ∀ r ∈ rs, ValueOk R r.1 ∧ NameOk r.2 ∧ (r.1.kind.many → W.size = R.size))
    (rest : List Byte) :
    (openIn R (header W ++ dumpAll W rs ++ rest) >>= loadAll R (rs.map fun r => (r.1.kind, r.2)))
      = .ok (rs.map fun r => same r.1, ⟨rest, false⟩) := by
  rw [List.append_assoc, c120_header hW, if_pos ⟨ha.1, ha.2.1, ha.2.2.1⟩, Res.ok_bind]
  induction rs with
  | nil => rfl
  | cons r rs ih =>
    have h := hrs r (List.mem_cons_self ..)
    rw [List.map_cons, loadAll, dumpAll, List.map_cons, List.flatten_cons, List.append_assoc,
      c120_record ha hR h.1 h.2.2 h.2.1 (Or.inr rfl), Res.ok_bind]
    simp only
    have ih' := ih fun r h => hrs r (List.mem_cons_of_mem _ h)
    rw [dumpAll] at ih'
    rw [ih']
    rfl

/-- C120: loading with another (non-empty) name or as another type stops the program. -/
theorem c120_mismatch {W R : Machine} (hb : W.big = R.big) (hl : W.long = R.long) (h1 : 1 ≤ R.long) (v : Value)
    {name name' : List Byte} (hn : NameOk name) {k : Kind} (h : name' ≠ [] ∧ name' ≠ name ∨ k ≠ v.kind) (r : List Byte) :
    load R k name' ⟨dump W v name ++ r, false⟩ = .abort := by
  obtain ⟨g, x, hx, hg, hgk⟩ : ∃ g x, dump W v name ++ r = tagBytes W name g ++ x ∧ g < 4 ∧
      g = if v.kind.many then vtag v.kind.cplx else tag v.kind.cplx := by
    cases v with
    | one c t =>
      exact ⟨tag c, _, by simp only [dump, dumpTensor, List.append_assoc]; rfl, (tag_lt c).1, by simp [Value.kind]⟩
    | many c v =>
      exact ⟨vtag c, _, by simp only [dump, dumpTensors, List.append_assoc]; rfl, (tag_lt c).2, by simp [Value.kind]⟩
  have hread : ∀ g', g' < 4 → g' = (if k.many then vtag k.cplx else tag k.cplx) →
      readTag R name' g' ⟨dump W v name ++ r, false⟩ = .abort := by
    intro g' hg' hgk'
    rw [hx, readTag_append hb hl h1 _ _ _ hg hg', stored_ok hn, if_neg]
    rintro ⟨h2, h3⟩
    rcases h with h | h
    · rcases h2 with h2 | h2
      · exact h.1 h2
      · exact h.2 h2
    · apply h
      rw [hgk', hgk] at h3
      generalize v.kind = kv at h3
      obtain ⟨a, b⟩ := k
      obtain ⟨c, d⟩ := kv
      cases a <;> cases b <;> cases c <;> cases d <;> simp [vtag, tag] at h3 ⊢
  obtain ⟨a, c⟩ := k
  cases a with
  | true =>
    rw [load, loadTensors, hread (vtag c) (tag_lt c).2 (by simp)]; rfl
  | false =>
    rw [load, loadTensor, hread (tag c) (tag_lt c).1 (by simp)]; rfl

/-- C120: files of machines with the other order of bytes are refused. -/
theorem c120_order {W R : Machine} (hW : W.Ok) (h : W.big ≠ R.big) (rest : List Byte) :
    openIn R (header W ++ rest) = .abort := by
  rw [c120_header hW, if_neg fun hc => h hc.2.2]

/-- C120: a length which is negative as `index` stops the program, whatever follows. -/
theorem c120_negative_length (m : Machine) {n : Nat} (hn : n < 256 ^ m.size)
    (h : 256 ^ m.long ≤ 2 * (n % 256 ^ m.long)) (k p : Nat) (r : List Byte) :
    loadVector m k p ⟨put m m.size n ++ r, false⟩ = .abort := by
  have hlt : n % 256 ^ m.long < 256 ^ m.long := Nat.mod_lt _ (by positivity)
  rw [loadVector, readNum_append rfl, Res.ok_bind]
  simp only
  rw [Nat.mod_eq_of_lt hn, signed, if_neg (by omega), assert_bind_neg]
  intro hc
  have h1 := hc.1
  have h2 : ((n % 256 ^ m.long : Nat) : Int) < ((256 ^ m.long : Nat) : Int) := by exact_mod_cast hlt
  push_cast at h1 h2
  omega

example : 256 ^ (linux64 100).long ≤ 2 * ((256 ^ 8 - 1) % 256 ^ (linux64 100).long) := by simp [linux64]

/-- C120: on 64-bit Linux these are the bytes of C42. -/
theorem c120_linux (memory : Nat) (t : Tensor Word) (name : List Byte) :
    dumpTensor (linux64 memory) false t name = Sdf.dump (.real t) name ∧ header (linux64 memory) = Sdf.header := by
  have hp : ∀ n, put (linux64 memory) 8 n = wordBytes (BitVec.ofNat 64 n) := by
    intro n
    rw [put, if_neg (by simp [linux64]), wordBytes, BitVec.toNat_ofNat]
    have : ∀ (k a b : Nat), a % 256 ^ k = b % 256 ^ k → natBytes k a = natBytes k b := by
      intro k
      induction k with
      | zero => intros; rfl
      | succ k ih =>
        intro a b h
        rw [natBytes, natBytes]
        have h0 : a % 256 = b % 256 := by
          have := congrArg (· % 256) h
          simpa [pow_succ, Nat.mod_mod_of_dvd] using this
        have h1 : a / 256 % 256 ^ k = b / 256 % 256 ^ k := by
          have := congrArg (· / 256) h
          simp only [pow_succ'] at this
          rwa [Nat.mod_mul_right_div_self, Nat.mod_mul_right_div_self] at this
        rw [ih _ _ h1]
        congr 1
        apply BitVec.eq_of_toNat_eq
        rw [BitVec.toNat_ofNat, BitVec.toNat_ofNat]
        exact h0
    apply this
    have e : (256 : Nat) ^ 8 = 2 ^ 64 := by norm_num
    rw [e, Nat.mod_mod]
  constructor
  · simp only [dumpTensor, Sdf.dump, Sdf.dumpTensor, tagBytes, Sdf.tagBytes, vecBytes, Sdf.vecBytes, parts,
      Bool.false_eq_true, if_false, Nat.div_one, List.map_map, List.length_map]
    have hl : (linux64 memory).long = 8 := rfl
    rw [hl]
    simp only [hp]
    congr 3
    · congr 2
      funext d
      simp only [Function.comp, dimC, hp]
      congr 1
  · rfl

theorem bytesNat_append (a b : List Byte) : bytesNat (a ++ b) = bytesNat a + 256 ^ a.length * bytesNat b := by
  induction a with
  | nil => simp [bytesNat]
  | cons x a ih => rw [List.cons_append, bytesNat, bytesNat, ih, List.length_cons, pow_succ']; ring

/-- C120 does not hold on 64-bit Windows: loading a tensor with elements, whatever machine with the same header wrote it
(among them itself), reads as many bytes as the length and the first dimension say together, past the end of the
dimensions. (Up to 2^29 for the first dimension; from 2^30 on the number of bytes wraps around.) -/
theorem c120_negation_windows {W R : Machine} (hWl : W.long = 4) (hW : W.big = false) (hl : R.long = 4) (hs : R.size = 8)
    (hR : R.big = false) {c : Bool} {t : Tensor Word} (ht : TensorOk R c t) (hd : t.data ≠ []) (hr : t.dims.length < 2 ^ 31)
    (hd0 : t.dims.headD 0 < 2 ^ 29) {name : List Byte} (hn : NameOk name) (r : List Byte) :
    loadTensor R c name ⟨dumpTensor W c t name ++ r, false⟩ = .ub := by
  obtain ⟨h1, h2, h3, h4⟩ := ht
  cases hdims : t.dims with
  | nil =>
    rw [hdims] at h1
    have : t.data.length = 0 := by rw [h1]; simp [Tensor.totalSize]
    exact absurd (List.length_eq_zero_iff.1 this) hd
  | cons d ds =>
    have hN : 1 ≤ t.data.length := List.length_pos_iff.2 hd
    rw [hdims] at h3 hr hd0
    rw [List.headD_cons] at hd0
    rw [hl] at h3
    have hnum : get R (put W 4 (ds.length + 1) ++ put W 4 d) = ds.length + 1 + 2 ^ 32 * d := by
      have e4 : (256 : Nat) ^ 4 = 2 ^ 32 := by norm_num
      rw [List.length_cons] at hr
      rw [get, put, put, hR, hW, if_neg (by simp), if_neg (by simp), if_neg (by simp), bytesNat_append, natBytes_length,
        bytesNat_natBytes, bytesNat_natBytes, e4, Nat.mod_eq_of_lt (by omega), Nat.mod_eq_of_lt (by omega)]
    rw [dumpTensor, List.append_assoc, List.append_assoc, loadTensor,
      readTag_append (by rw [hW, hR]) (by rw [hWl, hl]) (by omega) _ _ _ (tag_lt c).1 (tag_lt c).1,
      if_pos ⟨Or.inr (stored_ok hn).symm, rfl⟩, Res.ok_bind]
    have hvec : ∀ x, loadVector R R.long 1 ⟨vecBytes W W.long 1 t.dims ++ (vecBytes W 8 (parts c) x ++ r), false⟩ = .ub ∨
        x.length = 0 := by
      intro x
      by_cases hx : x.length = 0
      · exact .inr hx
      left
      obtain ⟨rest, hrest⟩ : ∃ rest, rest = ((ds.map (put W 4)).flatten ++ (vecBytes W 8 (parts c) x ++ r)) := ⟨_, rfl⟩
      have hlen : 4 * (ds.length + 1) < rest.length := by
        have hfl : ∀ (k : Nat) (l : List Nat), (l.map (put W k)).flatten.length = k * l.length := by
          intro k l
          induction l with
          | nil => simp
          | cons a l ih => rw [List.map_cons, List.flatten_cons, List.length_append, ih, put_length, List.length_cons]; ring
        rw [hrest, vecBytes, List.length_append, List.length_append, List.length_append, hfl, hfl, put_length, hWl]
        omega
      have hbytes : vecBytes W W.long 1 t.dims ++ (vecBytes W 8 (parts c) x ++ r)
          = (put W 4 (ds.length + 1) ++ put W 4 d) ++ rest := by
        rw [hrest, vecBytes, hdims, hWl, Nat.div_one, List.length_cons, List.map_cons, List.flatten_cons]
        simp only [List.append_assoc]
      rw [hbytes, loadVector, readNum, hs, readRaw_append _ _ (by rw [List.length_append, put_length, put_length]),
        allSome_map_some]
      simp only [hnum, Res.ok_bind]
      have e4 : (256 : Nat) ^ 4 = 2 ^ 32 := by norm_num
      have e8 : (256 : Nat) ^ 8 = 2 ^ 64 := by norm_num
      rw [List.length_cons] at hr h3
      have hsg : signed R.long ((ds.length + 1 + 2 ^ 32 * d) % 256 ^ R.long) = ((ds.length + 1 : Nat) : Int) := by
        rw [hl, e4, Nat.add_mul_mod_self_left, Nat.mod_eq_of_lt (by omega)]
        exact signed_small (by rw [e4]; omega)
      rw [hsg, Int.toNat_natCast, hl, e8, assert_bind_pos ⟨by omega, by omega⟩]
      have hd1 : 1 ≤ d := by
        by_contra hc
        have hz : d = 0 := by omega
        rw [hdims, hz] at h1
        have hz : ∀ l : List Nat, l.foldl (· * ·) 0 = 0 := by
          intro l
          induction l with
          | nil => rfl
          | cons a l ih => rw [List.foldl_cons, Nat.zero_mul, ih]
        rw [Tensor.totalSize, if_pos (by simp), List.foldl_cons, Nat.mul_zero, hz] at h1
        omega
      rw [Nat.mod_eq_of_lt (by omega), if_neg (by omega)]
      simp only [Bool.false_eq_true, if_false]
      rw [if_pos (by omega)]
    rcases hvec (t.data.map BitVec.toNat) with h | h
    · rw [h]; rfl
    · rw [List.length_map] at h; omega

/-- C120: a tensor of 64-bit Windows is read as it was written by a 32-bit machine, but not by the machine which wrote it. -/
theorem c120_windows_32 {mw mr : Nat} (hmw : 2 * mw < 256 ^ 8) (hmr : 2 * mr < 256 ^ 4) {c : Bool} {t : Tensor Word}
    (ht : TensorOk (linux32 mr) c t) (ht' : TensorOk (windows64 mw) c t) (hd : t.data ≠ [])
    (hd0 : t.dims.headD 0 < 2 ^ 29) {name : List Byte} (hn : NameOk name) :
    (openIn (linux32 mr) (header (windows64 mw) ++ dump (windows64 mw) (.one c t) name) >>=
        load (linux32 mr) ⟨false, c⟩ name) = .ok (.one (sameT t), ⟨[], false⟩) ∧
      (openIn (windows64 mw) (header (windows64 mw) ++ dump (windows64 mw) (.one c t) name) >>=
        load (windows64 mw) ⟨false, c⟩ name) = .ub := by
  have hW : (windows64 mw).Ok := by refine ⟨?_, ?_, ?_, ?_, ?_, hmw⟩ <;> simp [windows64]
  have hR : (linux32 mr).Ok := by refine ⟨?_, ?_, ?_, ?_, ?_, hmr⟩ <;> simp [linux32]
  constructor
  · rw [c120_header hW, if_pos ⟨rfl, rfl, rfl⟩, Res.ok_bind]
    have := c120_record (W := windows64 mw) (R := linux32 mr) ⟨rfl, rfl, rfl, rfl⟩ hR (v := .one c t) ht
      (by simp [Value.kind]) hn (Or.inr rfl) []
    rwa [List.append_nil] at this
  · rw [c120_header hW, if_pos ⟨rfl, rfl, rfl⟩, Res.ok_bind]
    have hr : t.dims.length < 2 ^ 31 := by
      have h3 : 4 * t.dims.length ≤ mr := ht.2.2.1
      have e4 : (256 : Nat) ^ 4 = 2 ^ 32 := by norm_num
      omega
    have := c120_negation_windows (W := windows64 mw) (R := windows64 mw) rfl rfl rfl rfl rfl ht' hd hr hd0 hn []
    rw [List.append_nil] at this
    simp only [load, dump]
    rw [this]; rfl

example : Agree (linux64 (2 ^ 40)) (linux64 (2 ^ 36)) ∧ Agree (s390x (2 ^ 40)) (s390x (2 ^ 40)) ∧
    Agree (windows64 (2 ^ 40)) (linux32 (2 ^ 30)) ∧ ¬ Agree (windows64 (2 ^ 40)) (windows64 (2 ^ 40)) := by
  simp [Agree, linux64, s390x, windows64, linux32]
example : (linux64 (2 ^ 40)).Ok ∧ (linux32 (2 ^ 30)).Ok ∧ (windows64 (2 ^ 40)).Ok ∧ (s390x (2 ^ 40)).Ok := by
  simp [Machine.Ok, linux64, linux32, windows64, s390x]
example : ValueOk (linux32 100) (.one true ⟨[1, 2], [0, 0, 0, 0]⟩) ∧ NameOk [97] := by
  simp [ValueOk, TensorOk, NameOk, linux32, parts, Tensor.totalSize]
example : (s390x 100).big ≠ (linux64 100).big := by decide
example : TensorOk (linux32 100) false ⟨[2], [5, 6]⟩ ∧ TensorOk (windows64 100) false ⟨[2], [5, 6]⟩ := by
  simp [TensorOk, linux32, windows64, parts, Tensor.totalSize]
example : dumpTensor (s390x 100) false ⟨[1], [5]⟩ [] = nameField [] ++ [0, 0, 0, 0, 0, 0, 0, 0] ++
    [0, 0, 0, 0, 0, 0, 0, 1] ++ [0, 0, 0, 0, 0, 0, 0, 1] ++ [0, 0, 0, 0, 0, 0, 0, 1] ++ [0, 0, 0, 0, 0, 0, 0, 5] := by
  decide +kernel

end Verif.SdfM
