import Verif.Props.Convert
import Verif.Props.CFloatLaws
/-
C139 in doubles: scalar products and sums of real tensors converted to complex.
-/
namespace Verif.Convert

open Verif Verif.Spec Verif.Tensor Verif.Fl Rounding

/-- to_complex of a double, numbers.h:56-58; tensor_to_complex.cc:25-33 does this to every element. -/
noncomputable def ofFl (x : Fl) : CFl := ⟨x, 0⟩

variable [Rounding]

theorem rnd_add_ne_zero {x y : ℝ} (hx : IsDouble x) (hy : IsDouble y) (h : x + y ≠ 0) : rnd (x + y) ≠ 0 := by
  intro e
  have hp : (0 : ℝ) < 2 ^ 1024 := by positivity
  have ht : IsTarget ((2 : ℝ) ^ 1024) := Or.inr (abs_of_pos hp)
  by_cases hl : |x + y| < 2 ^ 1024
  · have h1 := rnd_add hx hy hl
    rw [e, zero_sub, abs_neg] at h1
    have h2 : (2 : ℝ) ^ (-53 : ℤ) < 1 := zpow_lt_one_of_neg₀ (by norm_num) (by norm_num)
    have h3 := abs_pos.2 h
    have := mul_lt_mul_of_pos_right h2 h3
    rw [one_mul] at this
    exact absurd h1 (not_le.2 this)
  · rw [not_lt, le_abs] at hl
    rcases hl with hl | hl
    · have := rnd_mono hl
      rw [rnd_exact ht, e] at this
      exact absurd this (not_le.2 hp)
    · have := rnd_mono (show x + y ≤ -2 ^ 1024 from le_neg.1 hl)
      rw [rnd_exact ht.neg, e] at this
      exact absurd this (not_le.2 (neg_lt_zero.2 hp))

theorem round_ne_nzero {v : ℝ} (h : rnd v ≠ 0) : Fl.round v ≠ nzero := by
  unfold Fl.round
  rw [if_neg h]
  split_ifs <;> simp

/-- A sum is -0 only if both terms are. -/
theorem add_ne_nzero {a b : Fl} (wa : a.WF) (wb : b.WF) (h : a ≠ nzero) : a + b ≠ nzero := by
  have key : a.Finite → b.Finite → IsDouble a.val → IsDouble b.val → a + b ≠ nzero := by
    intro fa fb da db
    rw [add_def fa fb (.inl h)]
    split_ifs with h0
    · simp
    · exact round_ne_nzero (rnd_add_ne_zero da db h0)
  cases a with
  | nan => exact fun e => by cases b <;> cases e
  | pinf => exact fun e => by cases b <;> cases e
  | ninf => exact fun e => by cases b <;> cases e
  | nzero => exact absurd rfl h
  | fin x => cases b with
    | nan => exact fun e => by cases e
    | pinf => exact fun e => by cases e
    | ninf => exact fun e => by cases e
    | nzero => exact key wa trivial wa isDouble_zero
    | fin y => exact key wa wb wa wb

theorem zero_times {x z : Fl} (hx : x.Finite) (hz : z = 0 ∨ z = nzero) : x * z = 0 ∨ x * z = nzero := by
  have h0 : z.val = 0 := by rcases hz with rfl | rfl <;> rfl
  have h1 : z ≠ nan ∧ z.isInf = false := by rcases hz with rfl | rfl <;> exact ⟨(fun e => (by cases e)), rfl⟩
  have h2 : x ≠ nan ∧ x.isInf = false := by
    cases x <;> first | exact hx.elim | exact ⟨by simp, rfl⟩
  show mul x z = 0 ∨ mul x z = nzero
  unfold mul
  rw [if_neg (by simp [h1.1, h2.1]), if_neg (by simp [h1.2, h2.2]), if_pos (by rw [h0, mul_zero]), zeroS]
  split_ifs
  · exact .inr rfl
  · exact .inl rfl

theorem mul_ne_nan {x y : Fl} (hx : x.Finite) (hy : y.Finite) : x * y ≠ nan := by
  have h1 : y ≠ nan ∧ y.isInf = false := by
    cases y <;> first | exact hy.elim | exact ⟨by simp, rfl⟩
  have h2 : x ≠ nan ∧ x.isInf = false := by
    cases x <;> first | exact hx.elim | exact ⟨by simp, rfl⟩
  show mul x y ≠ nan
  unfold mul
  rw [if_neg (by simp [h1.1, h2.1]), if_neg (by simp [h1.2, h2.2])]
  split_ifs
  · rw [zeroS]; split_ifs <;> simp
  · exact round_ne_nan _

theorem zero_add_zeros {a b : Fl} (ha : a = 0 ∨ a = nzero) (hb : b = 0 ∨ b = nzero) :
    a + b = 0 ∨ a + b = nzero := by
  have h1 : ∀ w : Fl, w.WF → w + 0 = if w = nzero then 0 else w := fun w hw => add_zero' hw
  have w0 : (0 : Fl).WF := isDouble_zero
  have wn : (nzero : Fl).WF := trivial
  rcases hb with rfl | rfl
  · rcases ha with rfl | rfl
    · left; rw [h1 _ w0, if_neg (fun e => by cases e)]
    · left; rw [h1 _ wn, if_pos rfl]
  · rw [add_nzero (by rcases ha with rfl | rfl <;> first | exact w0 | exact wn)]
    exact ha

/-- One more term of a sum that is not -0: the products of real numbers and of the same as complex numbers. -/
theorem term [Recover] {s x y z : Fl} (ws : s.WF) (hs : s ≠ nzero) (hx : x.Finite) (hy : y.Finite)
    (hz : z = 0 ∨ z = nzero) : (⟨s, 0⟩ : CFl) + ofFl x * ⟨y, z⟩ = ⟨s + x * y, 0⟩ := by
  have w0 : (0 : Fl).WF := isDouble_zero
  have f0 : (0 : Fl).Finite := isDouble_zero
  have wxy : (x * y).WF := mul_wf
  have hre : CFl.mulRe (ofFl x) ⟨y, z⟩ = if x * y = nzero ∧ 0 * z = nzero then 0 else x * y := by
    show x * y + -(0 * z) = _
    rcases zero_times f0 hz with e | e
    · rw [e, show -(0 : Fl) = nzero from if_pos rfl, add_nzero wxy, if_neg (fun h => by cases h.2)]
    · rw [e, show -(nzero : Fl) = 0 from rfl, add_zero' wxy]
      simp
  have him : CFl.mulIm (ofFl x) ⟨y, z⟩ = 0 ∨ CFl.mulIm (ofFl x) ⟨y, z⟩ = nzero := by
    show x * z + 0 * y = 0 ∨ x * z + 0 * y = nzero
    refine zero_add_zeros (zero_times hx hz) ?_
    rw [mul_comm' 0 y]
    exact zero_times hy (.inl rfl)
  have hn : CFl.mulIm (ofFl x) ⟨y, z⟩ ≠ nan := by
    rcases him with e | e <;> rw [e] <;> exact fun h => by cases h
  have hm : ofFl x * ⟨y, z⟩ = (⟨CFl.mulRe (ofFl x) ⟨y, z⟩, CFl.mulIm (ofFl x) ⟨y, z⟩⟩ : CFl) := if_neg (fun h => hn h.2)
  rw [hm]
  show (⟨s + CFl.mulRe (ofFl x) ⟨y, z⟩, 0 + CFl.mulIm (ofFl x) ⟨y, z⟩⟩ : CFl) = _
  congr 1
  · rw [hre]
    split_ifs with h
    · rw [h.1, add_nzero ws, add_zero' ws, if_neg hs]
    · rfl
  · rcases him with e | e <;> rw [e]
    · rw [add_zero' w0, if_neg (fun e => by cases e)]
    · rw [add_nzero w0]

/-- C139: the scalar product of real tensors of finite numbers converted to complex is the one of the real tensors, to the
last bit and with imaginary part +0, with overflow or without. -/
theorem c139_double_scprod [Recover] (a b : Tensor Fl) (wfa : a.WF) (wfb : b.WF)
    (ha : ∀ x ∈ a.data, x.Finite) (hb : ∀ x ∈ b.data, x.Finite) :
    (do let a' ← unop ofFl a; let b' ← unop ofFl b; scprod CFl.conj a' b') =
      (do let c ← scprod id a b; pure (ofFl c)) := by
  rw [unop_conv ofFl wfa, unop_conv ofFl wfb, Res.ok_bind, Res.ok_bind]
  by_cases hl : b.data.length < a.data.length
  · rw [c33_scprod_out_of_bounds id a b hl, c33_scprod_out_of_bounds CFl.conj (conv ofFl a) (conv ofFl b)
      (by simpa [conv] using hl)]
    rfl
  · rw [not_lt] at hl
    rw [scprod_list id a b hl, scprod_list CFl.conj (conv ofFl a) (conv ofFl b) (by simpa [conv] using hl), Res.ok_bind]
    have key : ∀ (l m : List Fl) (s : Fl), (∀ x ∈ l, x.Finite) → (∀ x ∈ m, x.Finite) → s.WF → s ≠ nzero →
        (List.zipWith (fun x y => x * CFl.conj y) (l.map ofFl) (m.map ofFl)).foldl (· + ·) (ofFl s) =
          ofFl ((List.zipWith (fun x y => x * id y) l m).foldl (· + ·) s) := by
      intro l
      induction l with
      | nil => intro m s _ _ _ _; rfl
      | cons x l ih =>
        intro m s hl hm ws hs
        cases m with
        | nil => rfl
        | cons y m =>
          have hx := hl x (by simp)
          have hy := hm y (by simp)
          have e : ofFl s + ofFl x * CFl.conj (ofFl y) = ofFl (s + x * y) :=
            term ws hs hx hy (.inr (if_pos rfl))
          simp only [List.map_cons, List.zipWith_cons_cons, List.foldl_cons, e]
          exact ih m _ (fun w h => hl w (by simp [h])) (fun w h => hm w (by simp [h])) (Fl.add_wf ws mul_wf)
            (add_ne_nzero ws (mul_wf) hs)
    exact congrArg Res.ok (key a.data b.data 0 ha hb isDouble_zero (fun e => by cases e))

/-- Numbers as in the theorem. -/
example : ∃ a : Tensor Fl, a.WF ∧ a.data ≠ [] ∧ ∀ x ∈ a.data, x.Finite :=
  ⟨⟨[2], [nzero, 1]⟩, rfl, by simp, by
    intro x hx
    simp only [List.mem_cons, List.not_mem_nil, or_false] at hx
    rcases hx with rfl | rfl
    · trivial
    · exact (by simpa using isDouble_int (n := 1) (by norm_num) : IsDouble (1 : ℝ))⟩

/-- C139: not if an element is infinite: the imaginary part is NaN. -/
theorem c139_negation_double_scprod [Recover] :
    ∃ a b : Tensor Fl, a.WF ∧ b.WF ∧ scprod id a b = .ok pinf ∧
      (do let a' ← unop ofFl a; let b' ← unop ofFl b; scprod CFl.conj a' b') = .ok ⟨pinf, nan⟩ := by
  have h1 : (pinf : Fl) * 1 = pinf := by
    show mul pinf (fin 1) = _
    simp [mul, isInf, Fl.val, infS, Fl.neg]
  have h2 : (0 : Fl) * nzero = nzero := by
    show mul (fin 0) nzero = _
    simp [mul, isInf, Fl.val, zeroS, Fl.neg]
  have h3 : (pinf : Fl) * nzero = nan := by
    show mul pinf nzero = _
    simp [mul, isInf, Fl.val]
  have hn : -(0 : Fl) = nzero := if_pos rfl
  have hre : CFl.mulRe (ofFl pinf) (CFl.conj (ofFl 1)) = pinf := by
    show pinf * 1 + -(0 * -0) = pinf
    rw [hn, h1, h2]; rfl
  have him : CFl.mulIm (ofFl pinf) (CFl.conj (ofFl 1)) = nan := by
    show pinf * -0 + 0 * 1 = nan
    rw [hn, h3]; rfl
  have hm : ofFl pinf * CFl.conj (ofFl 1) = ⟨pinf, nan⟩ := by
    refine (if_neg (fun h => ?_)).trans (by rw [hre, him])
    rw [hre] at h
    cases h.1
  have wf : ∀ x : Fl, (⟨[1], [x]⟩ : Tensor Fl).WF := fun x => rfl
  refine ⟨⟨[1], [pinf]⟩, ⟨[1], [1]⟩, wf _, wf _, ?_, ?_⟩
  · rw [scprod_list id _ _ (by simp)]
    show Res.ok (0 + pinf * 1) = _
    rw [h1]; rfl
  · rw [unop_conv ofFl (wf _), unop_conv ofFl (wf _), Res.ok_bind, Res.ok_bind, scprod_list CFl.conj _ _ (by simp [conv])]
    show Res.ok (0 + ofFl pinf * CFl.conj (ofFl 1)) = _
    rw [hm]; rfl

/-- C139: the sum of the elements. -/
theorem c139_double_sum (a : Tensor Fl) (wfa : a.WF) :
    (do let a' ← unop ofFl a; pure (sumAll a')) = (pure (ofFl (sumAll a)) : Res CFl) := by
  rw [unop_conv ofFl wfa, Res.ok_bind]
  refine congrArg Res.ok ?_
  have key : ∀ (l : List Fl) (s : Fl), (l.map ofFl).foldl (· + ·) (ofFl s) = ofFl (l.foldl (· + ·) s) := by
    intro l
    induction l with
    | nil => intro s; rfl
    | cons x l ih =>
      intro s
      have e : ofFl s + ofFl x = ofFl (s + x) := by
        show (⟨s + x, 0 + 0⟩ : CFl) = ⟨s + x, 0⟩
        rw [add_zero' (show (0 : Fl).WF from isDouble_zero), if_neg (fun e => by cases e)]
      rw [List.map_cons, List.foldl_cons, List.foldl_cons, e]
      exact ih _
  exact key a.data 0

omit [Rounding] in
/-- C139: real(to_complex(a)) is a, with the sign of zeros, and imag(to_complex(a)) has the elements +0. -/
theorem c139_double_parts (a : Tensor Fl) (wfa : a.WF) :
    (do let a' ← unop ofFl a; unop CFl.re a') = .ok a ∧
    ∃ z : Tensor Fl, (do let a' ← unop ofFl a; unop CFl.im a') = .ok z ∧ z.dims = a.dims ∧
      z.data.length = a.data.length ∧ ∀ x ∈ z.data, x = 0 := by
  rw [unop_conv ofFl wfa, Res.ok_bind, Res.ok_bind, unop_conv CFl.re (conv_wf wfa), unop_conv CFl.im (conv_wf wfa)]
  refine ⟨?_, _, rfl, rfl, by simp [conv], ?_⟩
  · refine congrArg Res.ok ?_
    show (⟨a.dims, (a.data.map ofFl).map CFl.re⟩ : Tensor Fl) = a
    rw [List.map_map, show CFl.re ∘ ofFl = id from rfl, List.map_id]
  · intro x hx
    obtain ⟨y, hy, rfl⟩ := List.mem_map.1 hx
    obtain ⟨w, -, rfl⟩ := List.mem_map.1 hy
    rfl

theorem ofFl_add (x y : Fl) : ofFl (x + y) = ofFl x + ofFl y := by
  show (⟨x + y, 0⟩ : CFl) = ⟨x + y, 0 + 0⟩
  rw [add_zero' (show (0 : Fl).WF from isDouble_zero), if_neg (fun e => by cases e)]

theorem ofFl_mul [Recover] {x y : Fl} (hx : x.Finite) (hy : y.Finite) :
    (ofFl x * ofFl y).re = x * y ∧ ((ofFl x * ofFl y).im = 0 ∨ (ofFl x * ofFl y).im = nzero) := by
  have f0 : (0 : Fl).Finite := isDouble_zero
  have him : CFl.mulIm (ofFl x) (ofFl y) = 0 ∨ CFl.mulIm (ofFl x) (ofFl y) = nzero := by
    show x * 0 + 0 * y = 0 ∨ x * 0 + 0 * y = nzero
    refine zero_add_zeros (zero_times hx (.inl rfl)) ?_
    rw [mul_comm' 0 y]
    exact zero_times hy (.inl rfl)
  have h00 : (0 : Fl) * 0 = 0 := by
    show mul (fin 0) (fin 0) = fin 0
    simp [mul, isInf, Fl.val, zeroS, Fl.neg]
  have hre : CFl.mulRe (ofFl x) (ofFl y) = x * y := by
    show x * y + -(0 * 0) = _
    rw [h00, show -(0 : Fl) = nzero from if_pos rfl, add_nzero mul_wf]
  have hn : CFl.mulIm (ofFl x) (ofFl y) ≠ nan := by
    rcases him with e | e <;> rw [e] <;> exact fun h => by cases h
  have hm : ofFl x * ofFl y = (⟨CFl.mulRe (ofFl x) (ofFl y), CFl.mulIm (ofFl x) (ofFl y)⟩ : CFl) := if_neg (fun h => hn h.2)
  rw [hm]
  exact ⟨hre, him⟩

/-- C139: sums of tensors as complex ones are the sums of the real ones, to the last bit, also of infinities and NaN. -/
theorem c139_double_add (a b : Tensor Fl) (wfa : a.WF) (wfb : b.WF) :
    (do let a' ← unop ofFl a; let b' ← unop ofFl b; binopTT (· + ·) a' b') = (do let c ← binopTT (· + ·) a b; unop ofFl c) :=
  c139_operators ofFl (· + ·) (· + ·) ofFl_add a b wfa wfb

/-- C139: the product of real tensors of finite numbers as complex ones has the real product as real part, to the last bit,
and the imaginary part is zero. -/
theorem c139_double_mul [Recover] (a b : Tensor Fl) (wfa : a.WF) (hl : a.data.length = b.data.length) (wfb : b.WF)
    (ha : ∀ x ∈ a.data, x.Finite) (hb : ∀ x ∈ b.data, x.Finite) :
    ∃ (c : Tensor Fl) (z : Tensor CFl), binopTT (· * ·) a b = .ok c ∧
      (do let a' ← unop ofFl a; let b' ← unop ofFl b; binopTT (· * ·) a' b') = .ok z ∧
      unop CFl.re z = .ok c ∧ ∀ w ∈ z.data, w.im = 0 ∨ w.im = nzero := by
  have hz : (⟨a.dims, List.zipWith (· * ·) (a.data.map ofFl) (b.data.map ofFl)⟩ : Tensor CFl).WF := by
    show (List.zipWith _ _ _).length = totalSize a.dims
    rw [List.length_zipWith, List.length_map, List.length_map, ← hl, min_self]; exact wfa
  refine ⟨⟨a.dims, List.zipWith (· * ·) a.data b.data⟩,
    ⟨a.dims, List.zipWith (· * ·) (a.data.map ofFl) (b.data.map ofFl)⟩, binopTT_ok _ a b wfa hl, ?_, ?_, ?_⟩
  · rw [unop_conv ofFl wfa, unop_conv ofFl wfb, Res.ok_bind, Res.ok_bind,
      binopTT_ok _ (conv ofFl a) (conv ofFl b) (conv_wf wfa) (by simpa [conv] using hl)]
    rfl
  · rw [unop_conv CFl.re hz]
    refine congrArg Res.ok ?_
    show (⟨a.dims, (List.zipWith (· * ·) (a.data.map ofFl) (b.data.map ofFl)).map CFl.re⟩ : Tensor Fl) = _
    congr 1
    apply List.ext_getElem (by simp)
    intro n h1 h2
    simp only [List.length_zipWith] at h2
    simp only [List.getElem_map, List.getElem_zipWith]
    exact (ofFl_mul (ha _ (List.getElem_mem (by omega))) (hb _ (List.getElem_mem (by omega)))).1
  · intro w hw
    obtain ⟨n, hn, rfl⟩ := List.getElem_of_mem hw
    simp only [List.length_zipWith, List.length_map] at hn
    simp only [List.getElem_map, List.getElem_zipWith]
    exact (ofFl_mul (ha _ (List.getElem_mem (by omega))) (hb _ (List.getElem_mem (by omega)))).2

/-- C139: the imaginary part of a product may be -0, so the product is not the converted one. -/
theorem c139_negation_double_mul [Recover] :
    ∃ a b : Tensor Fl, a.WF ∧ b.WF ∧ (∀ x ∈ a.data, x.Finite) ∧ (∀ x ∈ b.data, x.Finite) ∧
      (do let a' ← unop ofFl a; let b' ← unop ofFl b; binopTT (· * ·) a' b') ≠
        (do let c ← binopTT (· * ·) a b; unop ofFl c) := by
  have wf : ∀ x : Fl, (⟨[1], [x]⟩ : Tensor Fl).WF := fun x => rfl
  have fz : ∀ x ∈ (⟨[1], [nzero]⟩ : Tensor Fl).data, x.Finite := by simp [Fl.Finite]
  refine ⟨⟨[1], [nzero]⟩, ⟨[1], [nzero]⟩, wf _, wf _, fz, fz, ?_⟩
  have h0 : (nzero : Fl) * 0 = nzero := by
    show mul nzero (fin 0) = _
    simp [mul, isInf, Fl.val, zeroS, Fl.neg]
  have h1 : (0 : Fl) * nzero = nzero := by rw [mul_comm']; exact h0
  have him : CFl.mulIm (ofFl nzero) (ofFl nzero) = nzero := by
    show nzero * 0 + 0 * nzero = nzero
    rw [h0, h1]; rfl
  have hm : (ofFl nzero * ofFl nzero).im = nzero := by
    have hm : ofFl nzero * ofFl nzero = (⟨CFl.mulRe (ofFl nzero) (ofFl nzero), CFl.mulIm (ofFl nzero) (ofFl nzero)⟩ : CFl) :=
      if_neg (fun h => by rw [him] at h; cases h.2)
    rw [hm]; exact him
  rw [unop_conv ofFl (wf _), Res.ok_bind, Res.ok_bind, binopTT_ok _ (conv ofFl _) (conv ofFl _) (conv_wf (wf _)) rfl,
    binopTT_ok _ _ _ (wf _) rfl, Res.ok_bind]
  change _ ≠ unop ofFl ⟨[1], [nzero * nzero]⟩
  rw [unop_conv ofFl (wf _)]
  intro e
  have e : ([ofFl nzero * ofFl nzero] : List CFl) = [ofFl (nzero * nzero)] := congrArg Tensor.data (Res.ok.inj e)
  have e := congrArg CFl.im (List.cons.inj e).1
  rw [hm] at e
  cases e

end Verif.Convert
