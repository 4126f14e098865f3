import Verif.Model.Arpack
import Verif.Model.ElemRef
import Verif.Props.Machines
import Verif.Props.Matlab
import Verif.Props.FileOps
import Verif.Props.View
/-
Cases which the other theorems of C15, C43, C44, C74, C87, C99 and C120 leave open: start vectors which are too short, pointers which were
never set, integers of other machines in Matlab, and lengths beyond half of the memory.
-/
namespace Verif

/-- C74: set_start_vector succeeds just for vectors with at least as many elements as the problem has, of which it uses the first
ones. If there are fewer, memory which is not part of the vector is read. -/
theorem Arpack.c74_start_vector {α β : Type} (o : Arpack.Obj α β) (v : List α) (h : o.status.code < Arpack.Status.running.code) :
    (o.args.n ≤ v.length → ∃ o', Arpack.setStartVector o v = .ok o' ∧ o'.work.resid <+: v ∧ o'.work.resid.length = o.args.n ∧
      o'.work.info ≠ 0) ∧
    (v.length < o.args.n → Arpack.setStartVector o v = .ub) := by
  constructor
  · intro hn
    refine ⟨_, by rw [Arpack.setStartVector, if_neg (by omega), if_neg (by omega)], List.take_prefix _ _, ?_, ?_⟩
    · simpa using hn
    · simp
  · intro hn
    rw [Arpack.setStartVector, if_neg (by omega), if_pos hn]

/-- C99: the use of a pointer or a reference which was never set is not defined, whatever the program did with vectors before. -/
theorem ElemRef.c99_negation_unset {α : Type} (ext : List (RefCount.Cells α)) (os : List (RefCount.Op α)) (r : Nat) (v : α)
    (s : ElemRef.St α) (l : List (RefCount.Out α)) (h : ElemRef.run (ElemRef.init ext) (os.map .op) = .ok (s, l)) :
    ElemRef.step s (.get r) = .ub ∧ ElemRef.step s (.set r v) = .ub := by
  have key : ∀ (os : List (RefCount.Op α)) (s s' : ElemRef.St α) (l : List (RefCount.Out α)),
      ElemRef.run s (os.map .op) = .ok (s', l) → s'.refs = s.refs := by
    intro os
    induction os with
    | nil =>
      intro s s' l h
      rw [List.map_nil, ElemRef.run] at h
      cases h
      rfl
    | cons o os ih =>
      intro s s' l h
      rw [List.map_cons, ElemRef.run, ElemRef.step] at h
      cases h1 : RefCount.step s.mem o with
      | ok x =>
        rw [h1] at h
        simp only [Res.ok_bind, Res.pure_eq] at h
        cases h2 : ElemRef.run ⟨x.1, s.refs⟩ (os.map .op) with
        | ok y =>
          rw [h2] at h
          simp only [Res.ok_bind] at h
          cases h
          exact ih ⟨x.1, s.refs⟩ _ _ h2
        | abort => rw [h2] at h; cases h
        | ub => rw [h2] at h; cases h
      | abort => rw [h1] at h; cases h
      | ub => rw [h1] at h; cases h
  have hr : s.refs r = none := by rw [key os _ s l h]; rfl
  constructor
  · rw [ElemRef.step, hr]; rfl
  · rw [ElemRef.step, hr]; rfl

/-- C120: a length for which the number of bytes is half of the addresses or more has no meaning, since the number becomes
negative, even if the vector has been obtained. -/
theorem SdfM.c120_negation_half (m : SdfM.Machine) {n : Nat} (hn : n < 256 ^ m.size) (k p : Nat)
    (hi : 2 * (n % 256 ^ m.long) < 256 ^ m.long) (hm : n % 256 ^ m.long * (p * k) ≤ m.memory)
    (h : 256 ^ m.size ≤ 2 * (n * (p * k) % 256 ^ m.size)) (r : List Byte) :
    SdfM.loadVector m k p ⟨SdfM.put m m.size n ++ r, false⟩ = .ub := by
  rw [SdfM.loadVector, SdfM.readNum_append rfl, Res.ok_bind]
  simp only
  rw [Nat.mod_eq_of_lt hn, SdfM.signed_small hi, Verif.Sdf.assert_bind_pos ⟨by omega, by rw [Int.toNat_natCast]; exact hm⟩, if_pos h]

example : (2 ^ 60 : Nat) < 256 ^ 8 ∧ 2 * (2 ^ 60 % 256 ^ 4) < 256 ^ 4 ∧ 256 ^ 8 ≤ 2 * (2 ^ 60 * (1 * 8) % 256 ^ 8) := by norm_num

/-- C87: Matlab reads the integers of files from machines with integers of any size and with both orders of bytes. -/
theorem Mat.c87_longs (m : SdfM.Machine) (h1 : 1 ≤ m.long) (ns : List Int)
    (hns : ∀ n ∈ ns, -(256 ^ m.long : Int) ≤ 2 * n ∧ 2 * n < 256 ^ m.long) (r : List Byte) :
    Mat.readLongs ns.length ⟨(ns.map fun n => SdfM.put m m.long (n % 256 ^ m.long).toNat).flatten ++ r, false, m.long, !m.big⟩ =
      .ok (ns, ⟨r, false, m.long, !m.big⟩) := by
  have hg : ∀ n ∈ ns, (⟨m.long, fun n : Int => SdfM.put m m.long (n % 256 ^ m.long).toNat,
      fun l => Py.longOf (if m.big then l.reverse else l)⟩ : Sdf.Codec Int).Good n := by
    intro n hn
    obtain ⟨a, b⟩ := hns n hn
    have hP : (0 : Int) < 256 ^ m.long := by positivity
    have hev : ∃ q : Int, (256 ^ m.long : Int) = 2 * q := by
      obtain ⟨j, hj⟩ : ∃ j, m.long = j + 1 := ⟨m.long - 1, by omega⟩
      exact ⟨128 * 256 ^ j, by rw [hj, pow_succ]; ring⟩
    have hlen : (SdfM.put m m.long (n % 256 ^ m.long).toNat).length = m.long := SdfM.put_length m _ _
    refine ⟨hlen, ?_⟩
    show Py.longOf (if m.big then _ else _) = n
    have hb : bytesNat (if m.big then (SdfM.put m m.long (n % 256 ^ m.long).toNat).reverse
        else SdfM.put m m.long (n % 256 ^ m.long).toNat) = (n % 256 ^ m.long).toNat := by
      have h0 := Int.emod_nonneg n hP.ne'
      have h2 := Int.emod_lt_of_pos n hP
      have := SdfM.get_put (W := m) (R := m) rfl m.long (n % 256 ^ m.long).toNat
      rw [SdfM.get] at this
      rw [this, Nat.mod_eq_of_lt]
      have h3 : (((n % 256 ^ m.long).toNat : Nat) : Int) < ((256 ^ m.long : Nat) : Int) := by
        rw [Int.toNat_of_nonneg h0]; push_cast; exact h2
      exact_mod_cast h3
    have hl : (if m.big then (SdfM.put m m.long (n % 256 ^ m.long).toNat).reverse
        else SdfM.put m m.long (n % 256 ^ m.long).toNat).length = m.long := by
      split <;> simp [hlen]
    rw [Py.longOf, hb, hl, Int.toNat_of_nonneg (Int.emod_nonneg n hP.ne')]
    have hc : ((256 ^ m.long : Nat) : Int) = 256 ^ m.long := by push_cast; rfl
    have := Int.emod_bmod (x := n) (n := 256 ^ m.long)
    rw [hc] at this
    rw [this]
    obtain ⟨q, hq⟩ := hev
    apply Int.bmod_eq_of_le_mul_two <;> rw [hc] <;> omega
  have hf := Mat.fread_append (c := ⟨m.long, fun n : Int => SdfM.put m m.long (n % 256 ^ m.long).toNat,
    fun l => Py.longOf (if m.big then l.reverse else l)⟩) (by exact h1) hg r false m.long (!m.big)
  rw [Mat.readLongs, Sdf.assert_bind_pos (by omega)]
  simp only [Int.toNat_natCast]
  rw [hf]
  simp only [List.map_map, Res.pure_eq]
  have : ns.map ((fun e => Py.longOf (Mat.ordered ⟨(ns.map fun n => SdfM.put m m.long (n % 256 ^ m.long).toNat).flatten ++ r,
      false, m.long, !m.big⟩ e)) ∘ fun n => SdfM.put m m.long (n % 256 ^ m.long).toNat) = ns := by
    conv_rhs => rw [← List.map_id ns]
    apply List.map_congr_left
    intro n hn
    have := (hg n hn).2
    simp only [Function.comp, Mat.ordered, id]
    cases hb : m.big <;> simpa [hb] using this
  rw [this]

example : ∀ n ∈ [(-1 : Int), 7, 2147483647], -(256 ^ 4 : Int) ≤ 2 * n ∧ 2 * n < 256 ^ 4 := by decide

example : ∃ o : Arpack.Obj Nat Int, Arpack.construct true (fun _ => 7) 6 3 2 = .ok o ∧
    o.status.code < Arpack.Status.running.code := ⟨_, rfl, by decide⟩

example : ∃ (s : ElemRef.St Nat) (l : List (RefCount.Out Nat)),
    ElemRef.run (ElemRef.init []) ([RefCount.Op.newSize 1].map .op) = .ok (s, l) := ⟨_, _, rfl⟩

/-- The bytes of a string. -/
def Sdf.bytesOf (s : String) : Sdf.Path := s.toUTF8.data.toList.map UInt8.toBitVec

theorem Sdf.bytesOf_append (s t : String) : Sdf.bytesOf (s ++ t) = Sdf.bytesOf s ++ Sdf.bytesOf t := by
  simp [Sdf.bytesOf]

/-- C43: a file of the user whose name ends in ".lck" is lost when the file without the ending is written in the
shared mode. -/
theorem Sdf.c43_lock_name (s : String) (rs : List (Sdf.Value × List Byte)) (fs : Sdf.Files) :
    Sdf.runSession .shared (Sdf.bytesOf s) rs fs (Sdf.bytesOf (s ++ ".lck")) = none := by
  have h : Sdf.bytesOf (s ++ ".lck") = Sdf.lockPath (Sdf.bytesOf s) := by
    rw [Sdf.bytesOf_append, Sdf.lockPath]
    congr 1
  rw [Sdf.c43_shared, h, Sdf.Files.set_get]

/-- C44: a file of the user whose name ends in ".tmp" is lost when the file without the ending is written in the
paranoid mode. -/
theorem Sdf.c44_tmp_name (s : String) (rs : List (Sdf.Value × List Byte)) (fs : Sdf.Files) :
    Sdf.runSession .paranoid (Sdf.bytesOf s) rs fs (Sdf.bytesOf (s ++ ".tmp")) = none := by
  have h : Sdf.bytesOf (s ++ ".tmp") = Sdf.tmpPath (Sdf.bytesOf s) := by
    rw [Sdf.bytesOf_append, Sdf.tmpPath]
    congr 1
  rw [Sdf.c44_finished, h, Sdf.Files.set_get]

open Mat Sdf in
/-- C87, negation: of a vector of tensors and a tensor with the same name, Matlab returns just the tensor, in whichever order they
were written. -/
theorem Mat.c87_negation_list_same {valid : List Byte → Bool} {depth : Nat} (hdepth : 1 ≤ depth) (long : Nat) (little : Bool)
    {m : List (Tensor Word)} (hm : Mat.Readable (.reals m)) {v : Value} (hv : Mat.Readable v) {d : List Nat} (hd : shape v = some d)
    {name : List Byte} (hn : Mat.ReadableName valid name) :
    (∃ data, Finishes (load valid depth long little (header ++ dumpAll [(.reals m, name), (v, name)])) (.ok data) ∧
      ∃ a, field data name = some a ∧ IsSize a.dims d ∧ a.data = numbers v) ∧
    ∃ data, Finishes (load valid depth long little (header ++ dumpAll [(v, name), (.reals m, name)])) (.ok data) ∧
      ∃ a, field data name = some a ∧ IsSize a.dims d ∧ a.data = numbers v := by
  obtain ⟨depth, rfl⟩ : ∃ k, depth = k + 1 := ⟨depth - 1, by omega⟩
  obtain ⟨-, h0, hne, -⟩ := Mat.numbers_length hv hd
  have hx : asObj v = asArr d (numbers v) := by rw [asObj, hd]
  have hr : 0 < Mat.rank v := by
    rw [Mat.rank, hd]
    exact List.length_pos_of_ne_nil hne
  have hdim : (asObj v).dims ≠ [0, 0] := by
    rw [hx]
    intro e
    have e' : Mat.size d = [0, 0] := e
    exact h0 (e' ▸ Mat.size_isSize d)
  have hl : asObj (.reals m) = Mat.empty := rfl
  have hd2 : ∀ (r : Value × List Byte) rs, dumpAll (r :: rs) = dump r.1 r.2 ++ dumpAll rs := fun _ _ => rfl
  have fin : ∃ a, some (asObj v) = some a ∧ IsSize a.dims d ∧ a.data = numbers v :=
    ⟨_, rfl, by rw [hx]; exact Mat.size_isSize d, by rw [hx]; rfl⟩
  constructor
  · refine ⟨setfield (setfield [] name Mat.empty) name (asObj v), ⟨3, fun n hn' => ?_⟩, ?_⟩
    · obtain ⟨k, rfl⟩ : ∃ k, n = k + 1 + 1 + 1 := ⟨n - 3, by omega⟩
      rw [hd2, hd2, load, loadLoop, if_neg (by simp), Mat.loadRecord_header hm hn.1, Run.ok_bind]
      dsimp only
      rw [if_neg hn.2.1, Mat.store_new rfl hn.2.2.1, Run.ok_bind, loadLoop, if_neg (by simp),
        Mat.loadRecord_append hv hn.1 hn.2.2.2, Run.ok_bind]
      dsimp only
      have hs : store valid (setfield [] name (asObj (.reals m))) name (asObj v) (Mat.rank v) =
          .ok (setfield (setfield [] name Mat.empty) name (asObj v)) := by
        rw [store, Mat.field_setfield, if_pos rfl]
        dsimp only
        rw [cat, Sdf.assert_bind_pos (by split <;> omega), if_pos (by rw [hl]; rfl)]
        rw [Res.pure_eq, Res.ok_bind, Sdf.assert_bind_pos hn.2.2.1]
        rfl
      rw [if_neg hn.2.1, hs, Run.ok_bind]
      show loadLoop _ _ _ ⟨dumpAll [], _, _, _⟩ _ = _
      exact Mat.loadLoop_end ..
    · rw [Mat.field_setfield, if_pos rfl]
      exact fin
  · refine ⟨setfield (setfield [] name (asObj v)) name (asObj v), ⟨3, fun n hn' => ?_⟩, ?_⟩
    · obtain ⟨k, rfl⟩ : ∃ k, n = k + 1 + 1 + 1 := ⟨n - 3, by omega⟩
      rw [hd2, hd2, load, loadLoop, if_neg (by simp), Mat.loadRecord_header hv hn.1, Run.ok_bind]
      dsimp only
      rw [if_neg hn.2.1, Mat.store_new rfl hn.2.2.1, Run.ok_bind, loadLoop, if_neg (by simp),
        Mat.loadRecord_append hm hn.1 hn.2.2.2, Run.ok_bind]
      dsimp only
      have hs : store valid (setfield [] name (asObj v)) name (asObj (.reals m)) (Mat.rank (.reals m)) =
          .ok (setfield (setfield [] name (asObj v)) name (asObj v)) := by
        rw [store, Mat.field_setfield, if_pos rfl]
        dsimp only
        have h1 : Mat.rank (.reals m) = 1 := rfl
        have hpos : 0 < if 1 < Mat.rank (.reals m) ∨ 1 < Mat.empty.dims.getD 0 1 then Mat.rank (.reals m) + 1
            else Mat.rank (.reals m) := by
          rw [h1]
          split <;> omega
        rw [hl, cat, Sdf.assert_bind_pos hpos, if_neg hdim, if_pos (show Mat.empty.dims = [0, 0] from rfl)]
        rw [Res.pure_eq, Res.ok_bind, Sdf.assert_bind_pos hn.2.2.1]
        rfl
      rw [if_neg hn.2.1, hs, Run.ok_bind]
      show loadLoop _ _ _ ⟨dumpAll [], _, _, _⟩ _ = _
      exact Mat.loadLoop_end ..
    · rw [Mat.field_setfield, if_pos rfl]
      exact fin
open Mat Sdf in
theorem Mat.pairs_odd : ∀ ws : List Word, ws.length % 2 = 1 → Mat.pairs ws = .abort
  | [], h => by simp at h
  | [_], _ => rfl
  | a :: b :: l, h => by
    rw [Mat.pairs, Mat.pairs_odd l (by simp at h; omega)]
    rfl

open Mat Sdf in
/-- C87, negation: a file which was cut within an element of a complex vector, after its real part, is an error. -/
theorem Mat.c87_negation_cut_complex {valid : List Byte → Bool} {depth : Nat} (hdepth : 1 ≤ depth) (long : Nat) (little : Bool)
    {l m : List (Word × Word)} {x y : Word} (h : (l ++ (x, y) :: m).length < 2 ^ 63) {name : List Byte}
    (hn : Mat.ReadableName valid name) :
    ∃ file cut, file ++ cut = header ++ dumpAll [(.complex ⟨[(l ++ (x, y) :: m).length], l ++ (x, y) :: m⟩, name)] ∧
      cut.length = 16 * m.length + 8 ∧ Finishes (load valid depth long little file) .abort := by
  obtain ⟨depth, rfl⟩ : ∃ k, depth = k + 1 := ⟨depth - 1, by omega⟩
  set t := l ++ (x, y) :: m with ht
  set ws := (l.flatMap fun z => [z.1, z.2]) ++ [x] with hws
  have hcl : ∀ l : List (Word × Word), (l.map cplxC.enc).flatten = ((l.flatMap fun z => [z.1, z.2]).map realC.enc).flatten := by
    intro l
    induction l with
    | nil => rfl
    | cons z l ih =>
      rw [List.map_cons, List.flatten_cons, ih]
      rw [List.flatMap_cons, List.map_append, List.flatten_append]
      congr 1
  have hlen2 : ∀ l : List (Word × Word), (l.flatMap fun z => [z.1, z.2]).length = 2 * l.length := by
    intro l
    induction l with
    | nil => rfl
    | cons z l ih =>
      rw [List.flatMap_cons, List.length_append, ih, List.length_cons]
      simp
      omega
  have hwl : ws.length = 2 * l.length + 1 := by rw [hws, List.length_append, hlen2]; rfl
  have htl : t.length = l.length + m.length + 1 := by rw [ht]; simp; omega
  refine ⟨header ++ (tagBytes name 1 ++ (vecBytes dimC [(t.length : Int)] ++
    (wordBytes (BitVec.ofNat 64 t.length) ++ (ws.map realC.enc).flatten))),
    wordBytes y ++ (m.map cplxC.enc).flatten, ?_, ?_, ⟨1, fun n hn' => ?_⟩⟩
  · have hd : dumpAll [(.complex ⟨[t.length], t⟩, name)] = dump (.complex ⟨[t.length], t⟩) name := List.append_nil _
    rw [hd, Py.dump_body]
    show _ = header ++ (tagBytes name 1 ++ (vecBytes dimC [(t.length : Int)] ++ vecBytes cplxC t))
    rw [vecBytes.eq_def cplxC, hws, List.map_append, List.flatten_append, ← hcl, ht, List.map_append, List.flatten_append]
    show _ = header ++ (tagBytes name 1 ++ (_ ++ (_ ++ ((l.map cplxC.enc).flatten ++ (wordBytes x ++ wordBytes y ++ (m.map cplxC.enc).flatten)))))
    have hx : (List.map realC.enc [x]).flatten = wordBytes x := List.append_nil _
    rw [hx]
    simp only [List.append_assoc]
  · rw [List.length_append, flatten_enc_length (fun e _ => cplxC_good e)]
    have : (wordBytes y).length = 8 := (realC_good y).1
    rw [this]
    show 8 + m.length * 16 = _
    omega
  · obtain ⟨k, rfl⟩ : ∃ k, n = k + 1 := ⟨n - 1, by omega⟩
    have ht : loadTensor true ⟨vecBytes dimC [(t.length : Int)] ++
        (wordBytes (BitVec.ofNat 64 t.length) ++ (ws.map realC.enc).flatten), false, 8, true⟩ = .abort := by
      have hg : ∀ e ∈ [(t.length : Int)], Py.longC.Good e := by
        intro e he
        rw [List.mem_singleton] at he
        rw [he]
        exact Py.longC_good (by omega) (by omega)
      have hd := readLongs_append hg (wordBytes (BitVec.ofNat 64 t.length) ++ (ws.map realC.enc).flatten) false
      have he : Py.longC.enc = dimC.enc := rfl
      rw [he] at hd
      have hlen : (ws.map realC.enc).flatten.length = ws.length * 8 := flatten_enc_length (c := realC) (fun e _ => realC_good e)
      have hf := Mat.fread_append (c := realC) (v := ws) (by decide) (fun e _ => realC_good e) [] false 8 true
      rw [List.append_nil] at hf
      have hf' : fread (2 * t.length) 8 ⟨(ws.map realC.enc).flatten, false, 8, true⟩
          = (ws.map realC.enc, ⟨[], true, 8, true⟩) := by
        have hw : realC.width = 8 := rfl
        rw [hw, fread] at hf
        rw [fread]
        have e1 : (ws.map realC.enc).flatten.take (2 * t.length * 8) = (ws.map realC.enc).flatten.take (ws.length * 8) := by
          rw [List.take_of_length_le (by rw [hlen]; omega), List.take_of_length_le (by rw [hlen])]
        have e2 : (ws.map realC.enc).flatten.drop (2 * t.length * 8) = [] := by
          rw [List.drop_of_length_le (by rw [hlen]; omega)]
        injection hf with hf1 hf2
        dsimp only
        rw [e1, hf1, e2, hlen, decide_eq_true (by omega)]
        rfl
      rw [vecBytes.eq_def dimC, List.append_assoc, Mat.loadTensor, List.length_singleton, readLong_length (by decide), Res.ok_bind]
      dsimp only
      have hd' : readLongs ((1 : Nat) : Int) ⟨(List.map dimC.enc [(t.length : Int)]).flatten ++
          (wordBytes (BitVec.ofNat 64 t.length) ++ (ws.map realC.enc).flatten), false, 8, true⟩ = _ := hd
      rw [hd', Res.ok_bind]
      dsimp only
      rw [readLong_length h, Res.ok_bind]
      simp only [if_true, Int.toNat_natCast]
      rw [Sdf.assert_bind_pos (by omega), hf']
      simp only
      rw [Mat.pairs_odd _ (by simp; omega)]
      rfl
    rw [load, loadLoop, if_neg (by simp), Mat.loadRecord, Mat.loadTag_header hn.1 (by decide), Res.ok_bind]
    simp only
    rw [if_neg (by decide), if_neg (by decide), if_pos trivial, ht]
    rfl

open View in
/-- C15 is false: lists of indices and ranges with a step of a rank 3 tensor whose second dimension is zero divide by zero. -/
theorem View.c15_negation_division_list {α : Type} (t : Tensor α) (d1 d3 : Nat) (hd : t.dims = [d1, 0, d3]) :
    (∀ l : List Int, l ≠ [] → (∀ x ∈ l, x ≤ d3) → Finishes (fun n => slice n t [.all, .all, .list l]) .ub) ∧
    ∀ a b s : Int, b < d3 → s ≠ 0 → Finishes (fun n => slice n t [.all, .all, .step a b s]) .ub := by
  constructor
  · intro l hl hb
    refine ⟨0, fun n _ => ?_⟩
    have hm : mkView t [.all, .all, .list l] = .ub := by
      simp [mkView, Spec.new, hd, Res.assert_bind, setLimits, Leaf.setLimit, sizes, Leaf.size,
        build, mkProduct, Range.setFactor, Leaf.setFactor, Leaf.factor, Leaf.limit]
      rw [if_pos hb]
      simp [hl]
    simp [slice, hm]
  · intro a b s hb hs
    refine ⟨0, fun n _ => ?_⟩
    have hm : mkView t [.all, .all, .step a b s] = .ub := by
      simp [mkView, Spec.new, hd, Res.assert_bind, setLimits, Leaf.setLimit, hb, hs, sizes, Leaf.size,
        build, mkProduct, Range.setFactor, Leaf.setFactor, Leaf.factor, Leaf.limit]
    simp [slice, hm]

end Verif
