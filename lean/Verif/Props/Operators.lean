import Verif.Spec.Operators
import Verif.Props.Arith
import Verif.Props.Parts
import Mathlib.Analysis.SpecialFunctions.Pow.Real
/-
C126: the operators and functions for all combinations of real and complex operands.
-/
namespace Verif.Ops

open Verif Spec

variable {α β γ : Type}

/-- The outcome of an operation which gives a tensor `out` with dimensions `d`, with complex elements
or not, whose elements are `val`. -/
def Good (d : List Nat) (complex : Bool) (val : List Nat → ℂ → Prop) (r : Option (Res Arg)) : Prop :=
  ∃ out, r = some (.ok out) ∧ out.isTensor = true ∧ out.Fits d ∧ out.isComplex = complex ∧
    ∀ idx w, val idx w → out.at idx = some w

theorem good_rt {d : List Nat} {val : List Nat → ℂ → Prop} {R : Res (Tensor ℝ)} (t : Tensor ℝ)
    (hR : R = .ok t) (wf : t.WF) (hd : t.dims = d)
    (h : ∀ idx w, val idx w → (elem t.dims t.data idx).map Complex.ofReal = some w) :
    Good d false val (some (.rt <$> R)) := by
  subst hR
  exact ⟨.rt t, rfl, rfl, ⟨wf, hd⟩, rfl, h⟩

theorem good_ct {d : List Nat} {val : List Nat → ℂ → Prop} {R : Res (Tensor Z)} (t : Tensor Z)
    (hR : R = .ok t) (wf : t.WF) (hd : t.dims = d)
    (h : ∀ idx w, val idx w → (elem t.dims t.data idx).map (fun z => (⟨z.1, z.2⟩ : ℂ)) = some w) :
    Good d true val (some (.ct <$> R)) := by
  subst hR
  exact ⟨.ct t, rfl, rfl, ⟨wf, hd⟩, rfl, h⟩

theorem wf_zip {f : α → β → γ} {a : Tensor α} {b : Tensor β} (wfa : a.WF) (wfb : b.WF)
    (h : a.dims = b.dims) : (⟨a.dims, List.zipWith f a.data b.data⟩ : Tensor γ).WF := by
  have h1 : a.data.length = Tensor.totalSize a.dims := wfa
  have h2 : b.data.length = Tensor.totalSize b.dims := wfb
  show (List.zipWith f a.data b.data).length = Tensor.totalSize a.dims
  rw [List.length_zipWith, h1, h2, h, min_self]

theorem wf_map {f : α → γ} {a : Tensor α} (wfa : a.WF) : (⟨a.dims, a.data.map f⟩ : Tensor γ).WF := by
  show (a.data.map f).length = _
  rw [List.length_map]; exact wfa

theorem at_zip {f : α → β → γ} {ea : α → ℂ} {eb : β → ℂ} {ec : γ → ℂ} {op : ℂ → ℂ → ℂ}
    (hf : ∀ x y, ec (f x y) = op (ea x) (eb y)) {a : Tensor α} {b : Tensor β} (h : a.dims = b.dims)
    {idx : List Nat} {w : ℂ}
    (hw : ∃ u v, (elem a.dims a.data idx).map ea = some u ∧ (elem b.dims b.data idx).map eb = some v ∧
      w = op u v) :
    (elem a.dims (List.zipWith f a.data b.data) idx).map ec = some w := by
  obtain ⟨u, v, h1, h2, rfl⟩ := hw
  obtain ⟨x, hx, rfl⟩ := Option.map_eq_some_iff.1 h1
  obtain ⟨y, hy, rfl⟩ := Option.map_eq_some_iff.1 h2
  rw [← h] at hy
  rw [Tensor.elem_zipWith f a.dims a.data b.data idx x y hx hy, Option.map_some, hf]

theorem at_map {f : α → γ} {ea : α → ℂ} {ec : γ → ℂ} {op : ℂ → ℂ} (hf : ∀ x, ec (f x) = op (ea x))
    {a : Tensor α} {idx : List Nat} {w : ℂ}
    (hw : ∃ u, (elem a.dims a.data idx).map ea = some u ∧ w = op u) :
    (elem a.dims (a.data.map f) idx).map ec = some w := by
  obtain ⟨u, h1, rfl⟩ := hw
  obtain ⟨x, hx, rfl⟩ := Option.map_eq_some_iff.1 h1
  rw [Tensor.elem_map, hx, Option.map_some, Option.map_some, hf]

section Complex

theorem mk_real (x : ℝ) : (⟨x, 0⟩ : ℂ) = (x : ℂ) := rfl

theorem addZZ_on (a b : Z) : (⟨(addZZ a b).1, (addZZ a b).2⟩ : ℂ) = ⟨a.1, a.2⟩ + ⟨b.1, b.2⟩ := rfl
theorem addZD_on (a : Z) (b : ℝ) : (⟨(addZD a b).1, (addZD a b).2⟩ : ℂ) = ⟨a.1, a.2⟩ + (b : ℂ) := by
  apply Complex.ext <;> simp [addZD]
theorem addDZ_on (a : ℝ) (b : Z) : (⟨(addDZ a b).1, (addDZ a b).2⟩ : ℂ) = (a : ℂ) + ⟨b.1, b.2⟩ := by
  apply Complex.ext <;> simp [addDZ]
theorem subZZ_on (a b : Z) : (⟨(subZZ a b).1, (subZZ a b).2⟩ : ℂ) = ⟨a.1, a.2⟩ - ⟨b.1, b.2⟩ := by
  apply Complex.ext <;> simp [subZZ]
theorem subZD_on (a : Z) (b : ℝ) : (⟨(subZD a b).1, (subZD a b).2⟩ : ℂ) = ⟨a.1, a.2⟩ - (b : ℂ) := by
  apply Complex.ext <;> simp [subZD]
theorem subDZ_on (a : ℝ) (b : Z) : (⟨(subDZ a b).1, (subDZ a b).2⟩ : ℂ) = (a : ℂ) - ⟨b.1, b.2⟩ := by
  apply Complex.ext <;> simp [subDZ]
theorem mulZZ_on (a b : Z) : (⟨(mulZZ a b).1, (mulZZ a b).2⟩ : ℂ) = ⟨a.1, a.2⟩ * ⟨b.1, b.2⟩ := by
  apply Complex.ext <;> simp [mulZZ]
theorem mulZD_on (a : Z) (b : ℝ) : (⟨(mulZD a b).1, (mulZD a b).2⟩ : ℂ) = ⟨a.1, a.2⟩ * (b : ℂ) := by
  apply Complex.ext <;> simp [mulZD]
theorem mulDZ_on (a : ℝ) (b : Z) : (⟨(mulDZ a b).1, (mulDZ a b).2⟩ : ℂ) = (a : ℂ) * ⟨b.1, b.2⟩ := by
  apply Complex.ext <;> simp [mulDZ]
theorem divZZ_on (a b : Z) : (⟨(divZZ a b).1, (divZZ a b).2⟩ : ℂ) = ⟨a.1, a.2⟩ / ⟨b.1, b.2⟩ := by
  apply Complex.ext <;> simp [divZZ, Complex.div_re, Complex.div_im, Complex.normSq_apply] <;> ring
theorem divZD_on (a : Z) (b : ℝ) : (⟨(divZD a b).1, (divZD a b).2⟩ : ℂ) = ⟨a.1, a.2⟩ / (b : ℂ) := by
  apply Complex.ext <;> simp [divZD]
theorem divDZ_on (a : ℝ) (b : Z) : (⟨(divDZ a b).1, (divDZ a b).2⟩ : ℂ) = (a : ℂ) / ⟨b.1, b.2⟩ :=
  divZZ_on (a, 0) b
theorem negZ_on (a : Z) : (⟨(negZ a).1, (negZ a).2⟩ : ℂ) = -⟨a.1, a.2⟩ := by
  apply Complex.ext <;> simp [negZ]

end Complex

/-- What x OP y has to be at `idx`. -/
def Val (op : Op) (x y : Arg) (idx : List Nat) (w : ℂ) : Prop :=
  ∃ u v, x.at idx = some u ∧ y.at idx = some v ∧ w = op.on u v

theorem binary_good (op : Op) (x y : Arg) (d : List Nat) (hx : x.Fits d) (hy : y.Fits d)
    (ht : x.isTensor = true ∨ y.isTensor = true) :
    Good d (x.isComplex || y.isComplex) (Val op x y) (binary op x y) := by
  have tt : ∀ {α β γ : Type} (f : α → β → γ) {a : Tensor α} {b : Tensor β}, a.WF ∧ a.dims = d →
      b.WF ∧ b.dims = d → Tensor.binopTT f a b = .ok ⟨a.dims, List.zipWith f a.data b.data⟩ := by
    intro α β γ f a b ha hb
    have h1 : a.data.length = Tensor.totalSize a.dims := ha.1
    have h2 : b.data.length = Tensor.totalSize b.dims := hb.1
    exact Tensor.binopTT_ok f a b ha.1 (by rw [h1, h2, ha.2, hb.2])
  have mm : ∀ {α β γ : Type} (f : α → β → γ) {a : Tensor α} {b : Tensor β}, a.WF ∧ a.dims = d →
      b.WF ∧ b.dims = d → Tensor.binopMixed f a b = .ok ⟨a.dims, List.zipWith f a.data b.data⟩ :=
    fun f _ _ ha hb => Tensor.binopMixed_ok f _ _ ha.1 hb.1 (ha.2.trans hb.2.symm)
  cases x with
  | rt a =>
    cases y with
    | rt b =>
      have e : a.dims = b.dims := hx.2.trans hy.2.symm
      cases op
      · exact good_rt _ (tt _ hx hy) (wf_zip hx.1 hy.1 e) hx.2 fun _ _ h =>
          at_zip (op := Op.on .add) (fun x y => Complex.ofReal_add x y) e h
      · exact good_rt _ (tt _ hx hy) (wf_zip hx.1 hy.1 e) hx.2 fun _ _ h =>
          at_zip (op := Op.on .sub) (fun x y => Complex.ofReal_sub x y) e h
      · exact good_rt _ (tt _ hx hy) (wf_zip hx.1 hy.1 e) hx.2 fun _ _ h =>
          at_zip (op := Op.on .mul) (fun x y => Complex.ofReal_mul x y) e h
      · exact good_rt _ (tt _ hx hy) (wf_zip hx.1 hy.1 e) hx.2 fun _ _ h =>
          at_zip (op := Op.on .div) (fun x y => Complex.ofReal_div x y) e h
    | ct b =>
      have e : a.dims = b.dims := hx.2.trans hy.2.symm
      cases op
      · exact good_ct _ (mm _ hx hy) (wf_zip hx.1 hy.1 e) hx.2 fun _ _ h =>
          at_zip (op := Op.on .add) addDZ_on e h
      · exact good_ct _ (mm _ hx hy) (wf_zip hx.1 hy.1 e) hx.2 fun _ _ h =>
          at_zip (op := Op.on .sub) subDZ_on e h
      · exact good_ct _ (mm _ hx hy) (wf_zip hx.1 hy.1 e) hx.2 fun _ _ h =>
          at_zip (op := Op.on .mul) mulDZ_on e h
      · exact good_ct _ (mm _ hx hy) (wf_zip hx.1 hy.1 e) hx.2 fun _ _ h =>
          at_zip (op := Op.on .div) divDZ_on e h
    | rn b =>
      have k : ∀ {op : Op} {idx w}, Val op (.rt a) (.rn b) idx w → ∃ u,
          (elem a.dims a.data idx).map Complex.ofReal = some u ∧ w = op.on u b := by
        rintro op idx w ⟨u, v, h1, h2, rfl⟩
        cases h2; exact ⟨u, h1, rfl⟩
      cases op
      · exact good_rt _ (Tensor.unop_ok _ a hx.1) (wf_map hx.1) hx.2 fun _ _ h =>
          at_map (op := fun u => Op.on .add u b) (fun x => Complex.ofReal_add x b) (k h)
      · exact good_rt _ (Tensor.unop_ok _ a hx.1) (wf_map hx.1) hx.2 fun _ _ h =>
          at_map (op := fun u => Op.on .sub u b) (fun x => Complex.ofReal_sub x b) (k h)
      · exact good_rt _ (Tensor.unop_ok _ a hx.1) (wf_map hx.1) hx.2 fun _ _ h =>
          at_map (op := fun u => Op.on .mul u b) (fun x => Complex.ofReal_mul x b) (k h)
      · exact good_rt _ (Tensor.unop_ok _ a hx.1) (wf_map hx.1) hx.2 fun _ _ h =>
          at_map (op := fun u => Op.on .div u b) (fun x => Complex.ofReal_div x b) (k h)
    | cn b =>
      have k : ∀ {op : Op} {idx w}, Val op (.rt a) (.cn b) idx w → ∃ u,
          (elem a.dims a.data idx).map Complex.ofReal = some u ∧ w = op.on u ⟨b.1, b.2⟩ := by
        rintro op idx w ⟨u, v, h1, h2, rfl⟩
        cases h2; exact ⟨u, h1, rfl⟩
      cases op
      · exact good_ct _ (Tensor.unop_ok _ a hx.1) (wf_map hx.1) hx.2 fun _ _ h =>
          at_map (op := fun u => Op.on .add u ⟨b.1, b.2⟩) (fun x => addDZ_on x b) (k h)
      · exact good_ct _ (Tensor.unop_ok _ a hx.1) (wf_map hx.1) hx.2 fun _ _ h =>
          at_map (op := fun u => Op.on .sub u ⟨b.1, b.2⟩) (fun x => subDZ_on x b) (k h)
      · exact good_ct _ (Tensor.unop_ok _ a hx.1) (wf_map hx.1) hx.2 fun _ _ h =>
          at_map (op := fun u => Op.on .mul u ⟨b.1, b.2⟩) (fun x => mulDZ_on x b) (k h)
      · exact good_ct _ (Tensor.unop_ok _ a hx.1) (wf_map hx.1) hx.2 fun _ _ h =>
          at_map (op := fun u => Op.on .div u ⟨b.1, b.2⟩) (fun x => divDZ_on x b) (k h)
  | ct a =>
    cases y with
    | rt b =>
      have e : a.dims = b.dims := hx.2.trans hy.2.symm
      cases op
      · exact good_ct _ (mm _ hx hy) (wf_zip hx.1 hy.1 e) hx.2 fun _ _ h =>
          at_zip (op := Op.on .add) addZD_on e h
      · exact good_ct _ (mm _ hx hy) (wf_zip hx.1 hy.1 e) hx.2 fun _ _ h =>
          at_zip (op := Op.on .sub) subZD_on e h
      · exact good_ct _ (mm _ hx hy) (wf_zip hx.1 hy.1 e) hx.2 fun _ _ h =>
          at_zip (op := Op.on .mul) mulZD_on e h
      · exact good_ct _ (mm _ hx hy) (wf_zip hx.1 hy.1 e) hx.2 fun _ _ h =>
          at_zip (op := Op.on .div) divZD_on e h
    | ct b =>
      have e : a.dims = b.dims := hx.2.trans hy.2.symm
      cases op
      · exact good_ct _ (tt _ hx hy) (wf_zip hx.1 hy.1 e) hx.2 fun _ _ h =>
          at_zip (op := Op.on .add) addZZ_on e h
      · exact good_ct _ (tt _ hx hy) (wf_zip hx.1 hy.1 e) hx.2 fun _ _ h =>
          at_zip (op := Op.on .sub) subZZ_on e h
      · exact good_ct _ (tt _ hx hy) (wf_zip hx.1 hy.1 e) hx.2 fun _ _ h =>
          at_zip (op := Op.on .mul) mulZZ_on e h
      · exact good_ct _ (tt _ hx hy) (wf_zip hx.1 hy.1 e) hx.2 fun _ _ h =>
          at_zip (op := Op.on .div) divZZ_on e h
    | rn b =>
      have k : ∀ {op : Op} {idx w}, Val op (.ct a) (.rn b) idx w → ∃ u,
          (elem a.dims a.data idx).map (fun z => (⟨z.1, z.2⟩ : ℂ)) = some u ∧ w = op.on u b := by
        rintro op idx w ⟨u, v, h1, h2, rfl⟩
        cases h2; exact ⟨u, h1, rfl⟩
      cases op
      · exact good_ct _ (Tensor.unop_ok _ a hx.1) (wf_map hx.1) hx.2 fun _ _ h =>
          at_map (op := fun u => Op.on .add u b) (fun x => addZD_on x b) (k h)
      · exact good_ct _ (Tensor.unop_ok _ a hx.1) (wf_map hx.1) hx.2 fun _ _ h =>
          at_map (op := fun u => Op.on .sub u b) (fun x => subZD_on x b) (k h)
      · exact good_ct _ (Tensor.unop_ok _ a hx.1) (wf_map hx.1) hx.2 fun _ _ h =>
          at_map (op := fun u => Op.on .mul u b) (fun x => mulZD_on x b) (k h)
      · exact good_ct _ (Tensor.unop_ok _ a hx.1) (wf_map hx.1) hx.2 fun _ _ h =>
          at_map (op := fun u => Op.on .div u b) (fun x => divZD_on x b) (k h)
    | cn b =>
      have k : ∀ {op : Op} {idx w}, Val op (.ct a) (.cn b) idx w → ∃ u,
          (elem a.dims a.data idx).map (fun z => (⟨z.1, z.2⟩ : ℂ)) = some u ∧
            w = op.on u ⟨b.1, b.2⟩ := by
        rintro op idx w ⟨u, v, h1, h2, rfl⟩
        cases h2; exact ⟨u, h1, rfl⟩
      cases op
      · exact good_ct _ (Tensor.unop_ok _ a hx.1) (wf_map hx.1) hx.2 fun _ _ h =>
          at_map (op := fun u => Op.on .add u ⟨b.1, b.2⟩) (fun x => addZZ_on x b) (k h)
      · exact good_ct _ (Tensor.unop_ok _ a hx.1) (wf_map hx.1) hx.2 fun _ _ h =>
          at_map (op := fun u => Op.on .sub u ⟨b.1, b.2⟩) (fun x => subZZ_on x b) (k h)
      · exact good_ct _ (Tensor.unop_ok _ a hx.1) (wf_map hx.1) hx.2 fun _ _ h =>
          at_map (op := fun u => Op.on .mul u ⟨b.1, b.2⟩) (fun x => mulZZ_on x b) (k h)
      · exact good_ct _ (Tensor.unop_ok _ a hx.1) (wf_map hx.1) hx.2 fun _ _ h =>
          at_map (op := fun u => Op.on .div u ⟨b.1, b.2⟩) (fun x => divZZ_on x b) (k h)
  | rn a =>
    cases y with
    | rt b =>
      have k : ∀ {op : Op} {idx w}, Val op (.rn a) (.rt b) idx w → ∃ u,
          (elem b.dims b.data idx).map Complex.ofReal = some u ∧ w = op.on a u := by
        rintro op idx w ⟨u, v, h1, h2, rfl⟩
        cases h1; exact ⟨v, h2, rfl⟩
      cases op
      · exact good_rt _ (Tensor.unop_ok _ b hy.1) (wf_map hy.1) hy.2 fun _ _ h =>
          at_map (op := fun u => Op.on .add a u) (fun x => Complex.ofReal_add a x) (k h)
      · exact good_rt _ (Tensor.unop_ok _ b hy.1) (wf_map hy.1) hy.2 fun _ _ h =>
          at_map (op := fun u => Op.on .sub a u) (fun x => Complex.ofReal_sub a x) (k h)
      · exact good_rt _ (Tensor.unop_ok _ b hy.1) (wf_map hy.1) hy.2 fun _ _ h =>
          at_map (op := fun u => Op.on .mul a u) (fun x => Complex.ofReal_mul a x) (k h)
      · exact good_rt _ (Tensor.unop_ok _ b hy.1) (wf_map hy.1) hy.2 fun _ _ h =>
          at_map (op := fun u => Op.on .div a u) (fun x => Complex.ofReal_div a x) (k h)
    | ct b =>
      have k : ∀ {op : Op} {idx w}, Val op (.rn a) (.ct b) idx w → ∃ u,
          (elem b.dims b.data idx).map (fun z => (⟨z.1, z.2⟩ : ℂ)) = some u ∧ w = op.on a u := by
        rintro op idx w ⟨u, v, h1, h2, rfl⟩
        cases h1; exact ⟨v, h2, rfl⟩
      cases op
      · exact good_ct _ (Tensor.unop_ok _ b hy.1) (wf_map hy.1) hy.2 fun _ _ h =>
          at_map (op := fun u => Op.on .add a u) (fun x => (addZD_on x a).trans (add_comm _ _)) (k h)
      · exact good_ct _ (Tensor.unop_ok _ b hy.1) (wf_map hy.1) hy.2 fun _ _ h =>
          at_map (op := fun u => Op.on .sub a u) (fun x => subDZ_on a x) (k h)
      · exact good_ct _ (Tensor.unop_ok _ b hy.1) (wf_map hy.1) hy.2 fun _ _ h =>
          at_map (op := fun u => Op.on .mul a u) (fun x => (mulZD_on x a).trans (mul_comm _ _)) (k h)
      · exact good_ct _ (Tensor.unop_ok _ b hy.1) (wf_map hy.1) hy.2 fun _ _ h =>
          at_map (op := fun u => Op.on .div a u) (fun x => divDZ_on a x) (k h)
    | rn b => simp [Arg.isTensor] at ht
    | cn b => simp [Arg.isTensor] at ht
  | cn a =>
    cases y with
    | rt b =>
      have k : ∀ {op : Op} {idx w}, Val op (.cn a) (.rt b) idx w → ∃ u,
          (elem b.dims b.data idx).map Complex.ofReal = some u ∧ w = op.on ⟨a.1, a.2⟩ u := by
        rintro op idx w ⟨u, v, h1, h2, rfl⟩
        cases h1; exact ⟨v, h2, rfl⟩
      cases op
      · exact good_ct _ (Tensor.unop_ok _ b hy.1) (wf_map hy.1) hy.2 fun _ _ h =>
          at_map (op := fun u => Op.on .add ⟨a.1, a.2⟩ u)
            (fun x => (addDZ_on x a).trans (add_comm _ _)) (k h)
      · exact good_ct _ (Tensor.unop_ok _ b hy.1) (wf_map hy.1) hy.2 fun _ _ h =>
          at_map (op := fun u => Op.on .sub ⟨a.1, a.2⟩ u) (fun x => subZD_on a x) (k h)
      · exact good_ct _ (Tensor.unop_ok _ b hy.1) (wf_map hy.1) hy.2 fun _ _ h =>
          at_map (op := fun u => Op.on .mul ⟨a.1, a.2⟩ u)
            (fun x => (mulDZ_on x a).trans (mul_comm _ _)) (k h)
      · exact good_ct _ (Tensor.unop_ok _ b hy.1) (wf_map hy.1) hy.2 fun _ _ h =>
          at_map (op := fun u => Op.on .div ⟨a.1, a.2⟩ u) (fun x => divZD_on a x) (k h)
    | ct b =>
      have k : ∀ {op : Op} {idx w}, Val op (.cn a) (.ct b) idx w → ∃ u,
          (elem b.dims b.data idx).map (fun z => (⟨z.1, z.2⟩ : ℂ)) = some u ∧
            w = op.on ⟨a.1, a.2⟩ u := by
        rintro op idx w ⟨u, v, h1, h2, rfl⟩
        cases h1; exact ⟨v, h2, rfl⟩
      cases op
      · exact good_ct _ (Tensor.unop_ok _ b hy.1) (wf_map hy.1) hy.2 fun _ _ h =>
          at_map (op := fun u => Op.on .add ⟨a.1, a.2⟩ u) (fun x => addZZ_on a x) (k h)
      · exact good_ct _ (Tensor.unop_ok _ b hy.1) (wf_map hy.1) hy.2 fun _ _ h =>
          at_map (op := fun u => Op.on .sub ⟨a.1, a.2⟩ u) (fun x => subZZ_on a x) (k h)
      · exact good_ct _ (Tensor.unop_ok _ b hy.1) (wf_map hy.1) hy.2 fun _ _ h =>
          at_map (op := fun u => Op.on .mul ⟨a.1, a.2⟩ u) (fun x => mulZZ_on a x) (k h)
      · exact good_ct _ (Tensor.unop_ok _ b hy.1) (wf_map hy.1) hy.2 fun _ _ h =>
          at_map (op := fun u => Op.on .div ⟨a.1, a.2⟩ u) (fun x => divZZ_on a x) (k h)
    | rn b => simp [Arg.isTensor] at ht
    | cn b => simp [Arg.isTensor] at ht

/-- C126: x + y, x - y, x * y and x / y, with at least one tensor, all tensors of the same dimensions
and real or complex elements and numbers in any combination, is the tensor of these dimensions with
the sums, differences, products and quotients, of the elements on the left and on the right. The
result is complex if an operand is. (Quotients are meant where the divisor is not zero.) -/
theorem c126_binary (op : Op) (x y : Arg) (d : List Nat) (hx : x.Fits d) (hy : y.Fits d)
    (ht : x.isTensor = true ∨ y.isTensor = true)
    (_hdiv : op = .div → ∀ idx v, y.at idx = some v → v ≠ 0) :
    ∃ out, binary op x y = some (.ok out) ∧ out.isTensor = true ∧ out.Fits d ∧
      out.isComplex = (x.isComplex || y.isComplex) ∧
      ∀ idx u v, x.at idx = some u → y.at idx = some v → out.at idx = some (op.on u v) := by
  obtain ⟨out, h1, h2, h3, h4, h5⟩ := binary_good op x y d hx hy ht
  exact ⟨out, h1, h2, h3, h4, fun idx u v hu hv => h5 idx _ ⟨u, v, hu, hv, rfl⟩⟩

/-- C126: two tensors of different total size stop the program, with all operators and types. -/
theorem c126_sizes (op : Op) (x y : Arg) (d d' : List Nat) (hx : x.Fits d) (hy : y.Fits d')
    (h1 : x.isTensor = true) (h2 : y.isTensor = true) (hd : Tensor.totalSize d ≠ Tensor.totalSize d') :
    binary op x y = some .abort := by
  have key : ∀ {α β γ : Type} (f : α → β → γ) {a : Tensor α} {b : Tensor β}, a.WF ∧ a.dims = d →
      b.WF ∧ b.dims = d' →
      Tensor.binopTT f a b = .abort ∧ Tensor.binopMixed f a b = .abort := by
    rintro α β γ f a b ⟨wa, ea⟩ ⟨wb, eb⟩
    refine (Tensor.c32_tensor_tensor f a b wa wb).2 ?_
    have q1 : a.data.length = Tensor.totalSize a.dims := wa
    have q2 : b.data.length = Tensor.totalSize b.dims := wb
    rw [q1, q2, ea, eb]; exact hd
  cases x <;> first | (simp [Arg.isTensor] at h1; done) | skip
  all_goals cases y <;> first | (simp [Arg.isTensor] at h2; done) | skip
  all_goals
    cases op <;>
    simp only [binary, add, sub, mul, div, (key _ hx hy).1, (key _ hx hy).2] <;> rfl

/-- C126: a real and a complex tensor of different dimensions stop the program, also if the total
size is the same. -/
theorem c126_mixed_dimensions (op : Op) (a : Tensor ℝ) (b : Tensor Z) (h : a.dims ≠ b.dims) :
    binary op (.rt a) (.ct b) = some .abort ∧ binary op (.ct b) (.rt a) = some .abort := by
  cases op <;>
    simp only [binary, add, sub, mul, div, Tensor.c32_mixed_dimensions _ a b h,
      Tensor.c32_mixed_dimensions _ b a h.symm] <;> exact ⟨rfl, rfl⟩

/-- C126: there is an operator for all operands which are not both numbers. -/
theorem c126_declared (op : Op) (x y : Arg) :
    (binary op x y).isSome = (x.isTensor || y.isTensor) := by
  cases op <;> cases x <;> cases y <;> rfl

theorem assignLoop_ok (f : α → β → α) (b : List β) (pre suf : List α) (pre' suf' : List β)
    (hp : pre'.length = pre.length) (hs : suf'.length = suf.length) (hb : b = pre' ++ suf') :
    assignLoop f b (pre ++ suf) pre.length suf.length = .ok (pre ++ List.zipWith f suf suf') := by
  induction suf generalizing pre pre' suf' with
  | nil =>
    cases suf' with
    | nil => simp [assignLoop]
    | cons => simp at hs
  | cons x xs ih =>
    cases suf' with
    | nil => simp at hs
    | cons y ys =>
      have h1 : (pre ++ x :: xs)[pre.length]? = some x := by simp
      have h2 : b[pre.length]? = some y := by rw [hb, ← hp]; simp
      have h3 : (pre ++ x :: xs).set pre.length (f x y) = (pre ++ [f x y]) ++ xs := by simp
      have := ih (pre ++ [f x y]) (pre' ++ [y]) ys (by simp [hp]) (by simpa using hs) (by simp [hb])
      rw [List.length_append, List.length_singleton] at this
      simp only [List.length_cons, assignLoop, h1, h2, h3, Res.ofOption_some, Res.ok_bind, this]
      simp

theorem assignMixed_eq (f : α → β → α) {a : Tensor α} {b : Tensor β} (ha : a.WF) (hb : b.WF)
    (h : a.dims = b.dims) : assignMixed f a b = Tensor.binopMixed f a b := by
  have h1 : a.data.length = Tensor.totalSize a.dims := ha
  have h2 : b.data.length = Tensor.totalSize b.dims := hb
  have := assignLoop_ok f b.data [] a.data [] b.data rfl (by rw [h1, h2, h]) rfl
  rw [List.nil_append, List.length_nil, List.nil_append] at this
  rw [Tensor.binopMixed_ok f a b ha hb h, assignMixed, Res.assert_pos h, Res.ok_bind, Tensor.size, this]
  rfl

theorem assignTT_eq (f : α → α → α) {a b : Tensor α} (same : Bool) (ha : a.WF) (hb : b.WF)
    (h : a.dims = b.dims) (hs : same = true → a = b) :
    assignTT f a same b = Tensor.binopTT f a b := by
  have h1 : a.data.length = Tensor.totalSize a.dims := ha
  have h2 : b.data.length = Tensor.totalSize b.dims := hb
  rw [← Tensor.c32_inplace f a b same ha hs, assignTT, Tensor.inplaceTT, Res.assert_pos h,
    Res.assert_pos (show a.size = b.size by rw [Tensor.size, Tensor.size, h1, h2, h])]

theorem assignN_eq (f : α → β → α) {a : Tensor α} (ha : a.WF) (v : β) :
    assignN f a v = Tensor.unop (fun x => f x v) a := by
  have := assignLoop_ok (fun x (_ : Unit) => f x v) (List.replicate a.size ()) [] a.data []
    (List.replicate a.size ()) rfl (by simp [Tensor.size]) rfl
  rw [List.nil_append, List.length_nil, List.nil_append] at this
  rw [Tensor.unop_ok _ a ha, assignN]
  rw [show a.data.length = a.size from rfl] at this
  rw [this, Res.ok_bind]
  have e : ∀ l : List α, List.zipWith (fun x (_ : Unit) => f x v) l (List.replicate l.length ()) =
      l.map fun x => f x v := by
    intro l
    induction l with
    | nil => rfl
    | cons x xs ih => simp only [List.length_cons, List.replicate_succ, List.zipWith_cons_cons, ih, List.map_cons]
  rw [show a.size = a.data.length from rfl, e]
  rfl

/-- C126: x += y, x -= y, x *= y and x /= y leave in x the value of the operator without `=`, for a
tensor x and all operands y of the same dimensions and all numbers which are not elements of x, except
for a real x and a complex y, for which there is none. -/
theorem c126_assign (op : Op) (x y : Arg) (same : Bool) (d : List Nat) (hx : x.Fits d) (hy : y.Fits d)
    (ht : x.isTensor = true) (hs : same = true → x = y) :
    assign op x same y =
      if y.isComplex = true ∧ x.isComplex = false then none else binary op x y := by
  cases x with
  | rt a =>
    cases y with
    | rt b =>
      have e : a.dims = b.dims := hx.2.trans hy.2.symm
      have hs' : same = true → a = b := fun h => by injection hs h
      cases op
      · show some (Arg.rt <$> _) = _
        rw [Tensor.c32_inplace _ a b same hx.1 hs']; rfl
      · show some (Arg.rt <$> _) = _
        rw [Tensor.c32_inplace _ a b same hx.1 hs']; rfl
      · show some (Arg.rt <$> _) = _
        rw [assignTT_eq _ same hx.1 hy.1 e hs']; rfl
      · show some (Arg.rt <$> _) = _
        rw [assignTT_eq _ same hx.1 hy.1 e hs']; rfl
    | ct b => cases op <;> rfl
    | rn b => cases op <;> (show some (Arg.rt <$> _) = _; rw [assignN_eq _ hx.1]; rfl)
    | cn b => cases op <;> rfl
  | ct a =>
    cases y with
    | rt b =>
      have e : a.dims = b.dims := hx.2.trans hy.2.symm
      cases op <;> (show some (Arg.ct <$> _) = _; rw [assignMixed_eq _ hx.1 hy.1 e]; rfl)
    | ct b =>
      have e : a.dims = b.dims := hx.2.trans hy.2.symm
      have hs' : same = true → a = b := fun h => by injection hs h
      cases op
      · show some (Arg.ct <$> _) = _
        rw [Tensor.c32_inplace _ a b same hx.1 hs']; rfl
      · show some (Arg.ct <$> _) = _
        rw [Tensor.c32_inplace _ a b same hx.1 hs']; rfl
      · show some (Arg.ct <$> _) = _
        rw [assignTT_eq _ same hx.1 hy.1 e hs']; rfl
      · show some (Arg.ct <$> _) = _
        rw [assignTT_eq _ same hx.1 hy.1 e hs']; rfl
    | rn b => cases op <;> (show some (Arg.ct <$> _) = _; rw [assignN_eq _ hx.1]; rfl)
    | cn b => cases op <;> (show some (Arg.ct <$> _) = _; rw [assignN_eq _ hx.1]; rfl)
  | rn a => simp [Arg.isTensor] at ht
  | cn a => simp [Arg.isTensor] at ht

/-- C126: x OP= y with tensors of different total size stops the program. -/
theorem c126_assign_sizes (op : Op) (x y : Arg) (same : Bool) (d d' : List Nat) (hx : x.Fits d)
    (hy : y.Fits d') (h1 : x.isTensor = true) (h2 : y.isTensor = true)
    (hc : x.isComplex = true ∨ y.isComplex = false)
    (hd : Tensor.totalSize d ≠ Tensor.totalSize d') : assign op x same y = some .abort := by
  have key : ∀ {α β : Type} {a : Tensor α} {b : Tensor β}, a.WF ∧ a.dims = d → b.WF ∧ b.dims = d' →
      a.data.length ≠ b.data.length ∧ a.dims ≠ b.dims := by
    rintro α β a b ⟨wa, ea⟩ ⟨wb, eb⟩
    have q1 : a.data.length = Tensor.totalSize a.dims := wa
    have q2 : b.data.length = Tensor.totalSize b.dims := wb
    refine ⟨by rw [q1, q2, ea, eb]; exact hd, fun h => hd ?_⟩
    rw [← ea, ← eb, h]
  cases x <;> first | (simp [Arg.isTensor] at h1; done) | skip
  all_goals cases y <;> first | (simp [Arg.isTensor] at h2; done) | skip
  all_goals first | (simp [Arg.isComplex] at hc; done) | skip
  all_goals
    have k := key hx hy
    cases op <;>
    simp only [assign, Tensor.inplaceTT, assignTT, assignMixed, Tensor.size, Res.assert_bind, k.1, k.2,
      if_false] <;> rfl

/-- C126: -x has the elements of x with the opposite sign. -/
theorem c126_minus (x : Arg) (d : List Nat) (hx : x.Fits d) (ht : x.isTensor = true) :
    ∃ out, neg x = some (.ok out) ∧ out.isTensor = true ∧ out.Fits d ∧ out.isComplex = x.isComplex ∧
      ∀ idx u, x.at idx = some u → out.at idx = some (-u) := by
  have h : Good d x.isComplex (fun idx w => ∃ u, x.at idx = some u ∧ w = -u) (neg x) := by
    cases x with
    | rt a =>
      exact good_rt _ (Tensor.unop_ok _ a hx.1) (wf_map hx.1) hx.2 fun _ _ h =>
        at_map (op := fun u => -u) (fun x => Complex.ofReal_neg x) h
    | ct a =>
      exact good_ct _ (Tensor.unop_ok _ a hx.1) (wf_map hx.1) hx.2 fun _ _ h =>
        at_map (op := fun u => -u) negZ_on h
    | rn a => simp [Arg.isTensor] at ht
    | cn a => simp [Arg.isTensor] at ht
  obtain ⟨out, h1, h2, h3, h4, h5⟩ := h
  exact ⟨out, h1, h2, h3, h4, fun idx u hu => h5 idx _ ⟨u, hu, rfl⟩⟩

theorem onZ_on (f : ℂ → ℂ) (z : Z) : (⟨(onZ f z).1, (onZ f z).2⟩ : ℂ) = f ⟨z.1, z.2⟩ := rfl

theorem at_map' {f : α → γ} {ea : α → ℂ} {ec : γ → ℂ} {op : ℂ → ℂ} {a : Tensor α}
    (hf : ∀ idx x, elem a.dims a.data idx = some x → ec (f x) = op (ea x))
    {idx : List Nat} {w : ℂ} (hw : ∃ u, (elem a.dims a.data idx).map ea = some u ∧ w = op u) :
    (elem a.dims (a.data.map f) idx).map ec = some w := by
  obtain ⟨u, h1, rfl⟩ := hw
  obtain ⟨x, hx, rfl⟩ := Option.map_eq_some_iff.1 h1
  rw [Tensor.elem_map, hx, Option.map_some, Option.map_some, hf idx x hx]

theorem sqrt_on (u : ℂ) : u ^ (1 / 2 : ℂ) = Fun.on .sqrt u := by
  by_cases h : u = 0
  · subst h; simp [Fun.on]
  · rw [Fun.on, if_neg h, Complex.cpow_def_of_ne_zero h]; congr 1; ring

theorem sqrt_on_real (x : ℝ) (h : 0 ≤ x) : (Real.sqrt x : ℂ) = Fun.on .sqrt (x : ℂ) := by
  rw [← sqrt_on, Real.sqrt_eq_rpow, Complex.ofReal_cpow h]
  norm_num

theorem tanh_on (u : ℂ) : Complex.tanh u = Fun.on .tanh u := by
  have e : ∀ a b : ℂ, a / 2 / (b / 2) = a / b := fun a b => div_div_div_cancel_right₀ two_ne_zero a b
  exact e _ _

/-- C126: abs, cos, cosh, exp, log, sin, sinh, sqrt, tan and tanh of a real or complex tensor have the
function of each element, where it has a value. They are real for real tensors, and abs always. -/
theorem c126_functions (f : Fun) (x : Arg) (d : List Nat) (hx : x.Fits d) (ht : x.isTensor = true)
    (hdom : ∀ idx u, x.at idx = some u → f.Dom x.isComplex u) :
    ∃ out, func f x = some (.ok out) ∧ out.isTensor = true ∧ out.Fits d ∧
      out.isComplex = (x.isComplex && f != .abs) ∧
      ∀ idx u, x.at idx = some u → out.at idx = some (f.on u) := by
  have h : Good d (x.isComplex && f != .abs) (fun idx w => ∃ u, x.at idx = some u ∧ w = f.on u)
      (func f x) := by
    cases x with
    | rt a =>
      have hd : ∀ idx x, elem a.dims a.data idx = some x → f.Dom false (x : ℂ) := fun idx x h =>
        hdom idx x (by show Option.map _ _ = _; rw [h]; rfl)
      have run : ∀ (g : ℝ → ℝ), func f (.rt a) = some (.rt <$> Tensor.unop g a) →
          (∀ idx x, elem a.dims a.data idx = some x → (g x : ℂ) = f.on (x : ℂ)) →
          Good d false (fun idx w => ∃ u, (Arg.rt a).at idx = some u ∧ w = f.on u)
            (func f (.rt a)) := by
        intro g e hg
        rw [e]
        exact good_rt _ (Tensor.unop_ok _ a hx.1) (wf_map hx.1) hx.2 fun _ _ h =>
          at_map' (op := f.on) hg h
      cases f
      · refine run _ rfl fun idx x _ => ?_
        simp [Fun.on]
      · exact run _ rfl fun idx x _ => Complex.ofReal_cos x
      · exact run _ rfl fun idx x _ => Complex.ofReal_cosh x
      · exact run _ rfl fun idx x _ => Complex.ofReal_exp x
      · exact run _ rfl fun idx x h => Complex.ofReal_log (le_of_lt (hd idx x h))
      · exact run _ rfl fun idx x _ => Complex.ofReal_sin x
      · exact run _ rfl fun idx x _ => Complex.ofReal_sinh x
      · exact run _ rfl fun idx x h => sqrt_on_real x (hd idx x h)
      · exact run _ rfl fun idx x _ => Complex.ofReal_tan x
      · exact run _ rfl fun idx x _ => (Complex.ofReal_tanh x).trans (tanh_on x)
    | ct a =>
      have run : ∀ (g : ℂ → ℂ), func f (.ct a) = some (.ct <$> Tensor.unop (onZ g) a) →
          (∀ u, g u = f.on u) →
          Good d true (fun idx w => ∃ u, (Arg.ct a).at idx = some u ∧ w = f.on u)
            (func f (.ct a)) := by
        intro g e hg
        rw [e]
        exact good_ct _ (Tensor.unop_ok _ a hx.1) (wf_map hx.1) hx.2 fun _ _ h =>
          at_map (op := f.on) (fun z => (onZ_on g z).trans (hg _)) h
      cases f
      · exact good_rt _ (Tensor.unop_ok _ a hx.1) (wf_map hx.1) hx.2 fun _ _ h =>
          at_map (f := fun z => ‖toC z‖) (op := Fun.on .abs) (fun z => rfl) h
      · exact run _ rfl fun u => rfl
      · exact run _ rfl fun u => rfl
      · exact run _ rfl fun u => rfl
      · exact run _ rfl fun u => rfl
      · exact run _ rfl fun u => rfl
      · exact run _ rfl fun u => rfl
      · exact run _ rfl fun u => sqrt_on u
      · exact run _ rfl fun u => rfl
      · exact run _ rfl fun u => tanh_on u
    | rn a => simp [Arg.isTensor] at ht
    | cn a => simp [Arg.isTensor] at ht
  obtain ⟨out, h1, h2, h3, h4, h5⟩ := h
  exact ⟨out, h1, h2, h3, h4, fun idx u hu => h5 idx _ ⟨u, hu, rfl⟩⟩

/-- The outcome of an operation which gives a sparse matrix with the entries f. -/
def GoodS (r c : Nat) (complex : Bool) (f : Nat → Nat → ℂ) (q : Option (Res SArg)) : Prop :=
  ∃ out, q = some (.ok out) ∧ out.isMatrix = true ∧ out.isComplex = complex ∧ out.Means r c f

theorem goodS_rs {r c : Nat} {f : Nat → Nat → ℂ} {g : Nat → Nat → ℝ} {R : Res (Sparse ℝ)}
    (h : ∃ s, R = .ok s ∧ IsCsr s.rows s.cols s.rowStart s.column s.data r c g)
    (hf : ∀ i j, i < r → j < c → f i j = (g i j : ℂ)) : GoodS r c false f (some (.rs <$> R)) := by
  obtain ⟨s, rfl, hs⟩ := h
  exact ⟨.rs s, rfl, rfl, rfl, g, hs, hf⟩

theorem goodS_cs {r c : Nat} {f : Nat → Nat → ℂ} {g : Nat → Nat → Z} {R : Res (Sparse Z)}
    (h : ∃ s, R = .ok s ∧ IsCsr s.rows s.cols s.rowStart s.column s.data r c g)
    (hf : ∀ i j, i < r → j < c → f i j = ⟨(g i j).1, (g i j).2⟩) :
    GoodS r c true f (some (.cs <$> R)) := by
  obtain ⟨s, rfl, hs⟩ := h
  exact ⟨.cs s, rfl, rfl, rfl, g, hs, hf⟩

theorem binop_csr {α : Type} [Zero α] [DecidableEq α] (op : α → α → α) (hop : op 0 0 = 0) {a b : Sparse α}
    {r c : Nat} {f g : Nat → Nat → α} (ha : IsCsr a.rows a.cols a.rowStart a.column a.data r c f)
    (hb : IsCsr b.rows b.cols b.rowStart b.column b.data r c g) :
    ∃ s, Sparse.binop op a b = .ok s ∧
      IsCsr s.rows s.cols s.rowStart s.column s.data r c fun i j => op (f i j) (g i j) := by
  obtain ⟨s, h1, h2, -⟩ := Sparse.c37_binop op hop a b r c f g ha hb
  exact ⟨s, h1, h2⟩

open Classical in
theorem binop_left {op : Z → Z → Z} (hop : op 0 0 = 0) {a : Sparse ℝ} {b : Sparse Z}
    {r c : Nat} {f : Nat → Nat → ℝ} {g : Nat → Nat → Z}
    (ha : IsCsr a.rows a.cols a.rowStart a.column a.data r c f)
    (hb : IsCsr b.rows b.cols b.rowStart b.column b.data r c g) :
    ∃ s, (do Sparse.binop op (← Parts.toComplexSp a) b) = .ok s ∧
      IsCsr s.rows s.cols s.rowStart s.column s.data r c fun i j => op (f i j, 0) (g i j) := by
  obtain ⟨u, h1, h2⟩ := Sparse.c37_map Parts.ofReal rfl a r c f ha
  rw [Parts.toComplexSp, h1, Res.ok_bind]
  exact binop_csr op hop h2 hb

open Classical in
theorem binop_right {op : Z → Z → Z} (hop : op 0 0 = 0) {a : Sparse Z} {b : Sparse ℝ}
    {r c : Nat} {f : Nat → Nat → Z} {g : Nat → Nat → ℝ}
    (ha : IsCsr a.rows a.cols a.rowStart a.column a.data r c f)
    (hb : IsCsr b.rows b.cols b.rowStart b.column b.data r c g) :
    ∃ s, (do Sparse.binop op a (← Parts.toComplexSp b)) = .ok s ∧
      IsCsr s.rows s.cols s.rowStart s.column s.data r c fun i j => op (f i j) (g i j, 0) := by
  obtain ⟨u, h1, h2⟩ := Sparse.c37_map Parts.ofReal rfl b r c g hb
  rw [Parts.toComplexSp, h1, Res.ok_bind]
  exact binop_csr op hop ha h2

/-- Which operators with sparse matrices there are: +, - and * between matrices, * with a number on
either side, / by a number. -/
def Op.ForSparse (op : Op) (x y : SArg) : Prop :=
  (op ≠ .div ∧ x.isMatrix = true ∧ y.isMatrix = true) ∨
  (op = .mul ∧ (x.isMatrix = true ∨ y.isMatrix = true)) ∨
  (op = .div ∧ x.isMatrix = true ∧ y.isMatrix = false)

/-- C126: the operators which the header declares for sparse matrices. -/
theorem c126_sparse_declared (op : Op) (x y : SArg) :
    (sparse op x y).isSome = true ↔ op.ForSparse x y := by
  cases op <;> cases x <;> cases y <;> simp [sparse, Op.ForSparse, SArg.isMatrix]

/-- C126: x + y, x - y and x * y with sparse matrices of the same dimensions, x * y with a matrix and
a number, and x / y with a matrix and a number which is not zero, for all combinations of real and
complex operands, is the sparse matrix, with consistent arrays, of the sums, differences, products and
quotients of the entries. -/
theorem c126_sparse (op : Op) (x y : SArg) (r c : Nat) (f g : Nat → Nat → ℂ) (hx : x.Means r c f)
    (hy : y.Means r c g) (h : op.ForSparse x y)
    (_hdiv : op = .div → ∀ i j, i < r → j < c → g i j ≠ 0) :
    ∃ out, sparse op x y = some (.ok out) ∧ out.isMatrix = true ∧
      out.isComplex = (x.isComplex || y.isComplex) ∧
      out.Means r c fun i j => op.on (f i j) (g i j) := by
  change GoodS r c (x.isComplex || y.isComplex) (fun i j => op.on (f i j) (g i j)) (sparse op x y)
  have h := (c126_sparse_declared op x y).2 h
  have z1 : addZZ 0 0 = 0 := by simp [addZZ]
  have z2 : subZZ 0 0 = 0 := by simp [subZZ]
  have z3 : mulZZ 0 0 = 0 := by simp [mulZZ]
  cases x with
  | rs a =>
    obtain ⟨f', ha, hf⟩ := hx
    cases y with
    | rs b =>
      obtain ⟨g', hb, hg⟩ := hy
      cases op
      · refine goodS_rs (binop_csr _ (add_zero 0) ha hb) fun i j hi hj => ?_
        rw [hf i j hi hj, hg i j hi hj]; exact (Complex.ofReal_add _ _).symm
      · refine goodS_rs (binop_csr _ (sub_zero 0) ha hb) fun i j hi hj => ?_
        rw [hf i j hi hj, hg i j hi hj]; exact (Complex.ofReal_sub _ _).symm
      · refine goodS_rs (binop_csr _ (mul_zero 0) ha hb) fun i j hi hj => ?_
        rw [hf i j hi hj, hg i j hi hj]; exact (Complex.ofReal_mul _ _).symm
      · simp [sparse] at h
    | cs b =>
      obtain ⟨g', hb, hg⟩ := hy
      cases op
      · refine goodS_cs (binop_left z1 ha hb) fun i j hi hj => ?_
        rw [hf i j hi hj, hg i j hi hj]; exact (addZZ_on (_, 0) _).symm
      · refine goodS_cs (binop_left z2 ha hb) fun i j hi hj => ?_
        rw [hf i j hi hj, hg i j hi hj]; exact (subZZ_on (_, 0) _).symm
      · refine goodS_cs (binop_left z3 ha hb) fun i j hi hj => ?_
        rw [hf i j hi hj, hg i j hi hj]; exact (mulZZ_on (_, 0) _).symm
      · simp [sparse] at h
    | rn b =>
      cases op
      · simp [sparse] at h
      · simp [sparse] at h
      · refine goodS_rs (Sparse.c37_map (fun x => x * b) (zero_mul _) a r c f' ha) fun i j hi hj => ?_
        rw [hf i j hi hj, hy i j hi hj]; exact (Complex.ofReal_mul _ _).symm
      · refine goodS_rs (Sparse.c37_map (fun x => x / b) (zero_div _) a r c f' ha) fun i j hi hj => ?_
        rw [hf i j hi hj, hy i j hi hj]; exact (Complex.ofReal_div _ _).symm
    | cn b =>
      cases op
      · simp [sparse] at h
      · simp [sparse] at h
      · refine goodS_cs (Sparse.c37_map _ (by simp [mulDZ]) a r c f' ha) fun i j hi hj => ?_
        rw [hf i j hi hj, hy i j hi hj]; exact (mulDZ_on _ _).symm
      · refine goodS_cs (Sparse.c37_map _ (by simp [divDZ, divZZ]) a r c f' ha) fun i j hi hj => ?_
        rw [hf i j hi hj, hy i j hi hj]; exact (divDZ_on _ _).symm
  | cs a =>
    obtain ⟨f', ha, hf⟩ := hx
    cases y with
    | rs b =>
      obtain ⟨g', hb, hg⟩ := hy
      cases op
      · refine goodS_cs (binop_right z1 ha hb) fun i j hi hj => ?_
        rw [hf i j hi hj, hg i j hi hj]; exact (addZZ_on _ (_, 0)).symm
      · refine goodS_cs (binop_right z2 ha hb) fun i j hi hj => ?_
        rw [hf i j hi hj, hg i j hi hj]; exact (subZZ_on _ (_, 0)).symm
      · refine goodS_cs (binop_right z3 ha hb) fun i j hi hj => ?_
        rw [hf i j hi hj, hg i j hi hj]; exact (mulZZ_on _ (_, 0)).symm
      · simp [sparse] at h
    | cs b =>
      obtain ⟨g', hb, hg⟩ := hy
      cases op
      · refine goodS_cs (binop_csr _ z1 ha hb) fun i j hi hj => ?_
        rw [hf i j hi hj, hg i j hi hj]; exact (addZZ_on _ _).symm
      · refine goodS_cs (binop_csr _ z2 ha hb) fun i j hi hj => ?_
        rw [hf i j hi hj, hg i j hi hj]; exact (subZZ_on _ _).symm
      · refine goodS_cs (binop_csr _ z3 ha hb) fun i j hi hj => ?_
        rw [hf i j hi hj, hg i j hi hj]; exact (mulZZ_on _ _).symm
      · simp [sparse] at h
    | rn b =>
      cases op
      · simp [sparse] at h
      · simp [sparse] at h
      · refine goodS_cs (Sparse.c37_map _ (by simp [mulZD]) a r c f' ha) fun i j hi hj => ?_
        rw [hf i j hi hj, hy i j hi hj]; exact (mulZD_on _ _).symm
      · refine goodS_cs (Sparse.c37_map _ (by simp [divZD]) a r c f' ha) fun i j hi hj => ?_
        rw [hf i j hi hj, hy i j hi hj]; exact (divZD_on _ _).symm
    | cn b =>
      cases op
      · simp [sparse] at h
      · simp [sparse] at h
      · refine goodS_cs (Sparse.c37_map _ (by simp [mulZZ]) a r c f' ha) fun i j hi hj => ?_
        rw [hf i j hi hj, hy i j hi hj]; exact (mulZZ_on _ _).symm
      · refine goodS_cs (Sparse.c37_map _ (by simp [divZZ]) a r c f' ha) fun i j hi hj => ?_
        rw [hf i j hi hj, hy i j hi hj]; exact (divZZ_on _ _).symm
  | rn a =>
    cases y with
    | rs b =>
      obtain ⟨g', hb, hg⟩ := hy
      cases op
      · simp [sparse] at h
      · simp [sparse] at h
      · refine goodS_rs (Sparse.c37_map (fun x => a * x) (mul_zero _) b r c g' hb) fun i j hi hj => ?_
        rw [hx i j hi hj, hg i j hi hj]; exact (Complex.ofReal_mul _ _).symm
      · simp [sparse] at h
    | cs b =>
      obtain ⟨g', hb, hg⟩ := hy
      cases op
      · simp [sparse] at h
      · simp [sparse] at h
      · refine goodS_cs (Sparse.c37_map _ (by simp [mulZD]) b r c g' hb) fun i j hi hj => ?_
        rw [hx i j hi hj, hg i j hi hj]; exact (mul_comm _ _).trans (mulZD_on _ _).symm
      · simp [sparse] at h
    | rn b => cases op <;> simp [sparse] at h
    | cn b => cases op <;> simp [sparse] at h
  | cn a =>
    cases y with
    | rs b =>
      obtain ⟨g', hb, hg⟩ := hy
      cases op
      · simp [sparse] at h
      · simp [sparse] at h
      · refine goodS_cs (Sparse.c37_map _ (by simp [mulDZ]) b r c g' hb) fun i j hi hj => ?_
        rw [hx i j hi hj, hg i j hi hj]; exact (mul_comm _ _).trans (mulDZ_on _ _).symm
      · simp [sparse] at h
    | cs b =>
      obtain ⟨g', hb, hg⟩ := hy
      cases op
      · simp [sparse] at h
      · simp [sparse] at h
      · refine goodS_cs (Sparse.c37_map _ (by simp [mulZZ]) b r c g' hb) fun i j hi hj => ?_
        rw [hx i j hi hj, hg i j hi hj]; exact (mulZZ_on _ _).symm
      · simp [sparse] at h
    | rn b => cases op <;> simp [sparse] at h
    | cn b => cases op <;> simp [sparse] at h

/-- C126: -x with a sparse matrix has the entries of x with the opposite sign. -/
theorem c126_sparse_minus (x : SArg) (r c : Nat) (f : Nat → Nat → ℂ) (hx : x.Means r c f)
    (h : x.isMatrix = true) :
    ∃ out, negSparse x = some (.ok out) ∧ out.isMatrix = true ∧ out.isComplex = x.isComplex ∧
      out.Means r c fun i j => -f i j := by
  change GoodS r c x.isComplex (fun i j => -f i j) (negSparse x)
  cases x with
  | rs a =>
    obtain ⟨f', ha, hf⟩ := hx
    refine goodS_rs (Sparse.c37_map _ neg_zero a r c f' ha) fun i j hi hj => ?_
    rw [hf i j hi hj]; exact (Complex.ofReal_neg _).symm
  | cs a =>
    obtain ⟨f', ha, hf⟩ := hx
    refine goodS_cs (Sparse.c37_map _ (by simp [negZ]) a r c f' ha) fun i j hi hj => ?_
    rw [hf i j hi hj]; exact (negZ_on _).symm
  | rn a => simp [SArg.isMatrix] at h
  | cn a => simp [SArg.isMatrix] at h

/-- C126: two sparse matrices of different dimensions stop the program. -/
theorem c126_sparse_sizes (op : Op) (x y : SArg) (r c r' c' : Nat) (f g : Nat → Nat → ℂ)
    (hx : x.Means r c f) (hy : y.Means r' c' g) (h1 : x.isMatrix = true) (h2 : y.isMatrix = true)
    (hop : op ≠ .div) (h : r ≠ r' ∨ c ≠ c') : sparse op x y = some .abort := by
  have shape : ∀ {s : Sparse ℝ} {u : Sparse Z}, Parts.toComplexSp s = .ok u →
      u.rows = s.rows ∧ u.cols = s.cols := by
    intro s u e
    rw [Parts.toComplexSp, Sparse.mapData, Sparse.make, Res.assert_bind] at e
    split at e
    · cases e; exact ⟨rfl, rfl⟩
    · cases e
  cases x with
  | rs a =>
    obtain ⟨f', ha, hf⟩ := hx
    cases y with
    | rs b =>
      obtain ⟨g', hb, hg⟩ := hy
      have := fun o => Sparse.c37_mismatch (α := ℝ) o a b (by rw [ha.1, ha.2.1, hb.1, hb.2.1]; exact h)
      cases op <;> first | exact absurd rfl hop | (simp only [sparse]; rw [this]; rfl)
    | cs b =>
      obtain ⟨g', hb, hg⟩ := hy
      obtain ⟨u, e, -⟩ := Sparse.c37_map Parts.ofReal rfl a r c f' ha
      have e' : Parts.toComplexSp a = .ok u := e
      have q := shape e'
      have := fun o => Sparse.c37_mismatch o u b (by rw [q.1, q.2, ha.1, ha.2.1, hb.1, hb.2.1]; exact h)
      cases op <;> first | exact absurd rfl hop | (simp only [sparse, e', Res.ok_bind]; rw [this]; rfl)
    | rn b => simp [SArg.isMatrix] at h2
    | cn b => simp [SArg.isMatrix] at h2
  | cs a =>
    obtain ⟨f', ha, hf⟩ := hx
    cases y with
    | rs b =>
      obtain ⟨g', hb, hg⟩ := hy
      obtain ⟨u, e, -⟩ := Sparse.c37_map Parts.ofReal rfl b r' c' g' hb
      have e' : Parts.toComplexSp b = .ok u := e
      have q := shape e'
      have := fun o => Sparse.c37_mismatch o a u (by rw [q.1, q.2, ha.1, ha.2.1, hb.1, hb.2.1]; exact h)
      cases op <;> first | exact absurd rfl hop | (simp only [sparse, e', Res.ok_bind]; rw [this]; rfl)
    | cs b =>
      obtain ⟨g', hb, hg⟩ := hy
      have := fun o => Sparse.c37_mismatch (α := Z) o a b (by rw [ha.1, ha.2.1, hb.1, hb.2.1]; exact h)
      cases op <;> first | exact absurd rfl hop | (simp only [sparse]; rw [this]; rfl)
    | rn b => simp [SArg.isMatrix] at h2
    | cn b => simp [SArg.isMatrix] at h2
  | rn a => simp [SArg.isMatrix] at h1
  | cn a => simp [SArg.isMatrix] at h1

section Examples

/-- The hypotheses of `c126_binary`, `c126_assign`, `c126_minus` can be met, with a divisor which is
not zero. -/
example : ∃ (x y : Arg) (d : List Nat), x.Fits d ∧ y.Fits d ∧ x.isTensor = true ∧
    x.isComplex = true ∧ y.isComplex = false ∧ d ≠ [] ∧ ∀ idx v, y.at idx = some v → v ≠ 0 :=
  ⟨.ct ⟨[2], [(1, 2), (3, 4)]⟩, .rn 2, [2], ⟨rfl, rfl⟩, trivial, rfl, rfl, rfl, by decide,
    fun _ _ h => by cases h; exact Complex.ofReal_ne_zero.2 two_ne_zero⟩

/-- The hypotheses of `c126_sizes` and `c126_assign_sizes` can be met. -/
example : ∃ (x y : Arg) (d d' : List Nat), x.Fits d ∧ y.Fits d' ∧ x.isTensor = true ∧
    y.isTensor = true ∧ x.isComplex = true ∧ Tensor.totalSize d ≠ Tensor.totalSize d' :=
  ⟨.ct ⟨[2], [(1, 2), (3, 4)]⟩, .rt ⟨[1], [1]⟩, [2], [1], ⟨rfl, rfl⟩, ⟨rfl, rfl⟩, rfl, rfl, rfl,
    by decide⟩

/-- The hypothesis of `c126_functions` can be met, for the logarithm of a real tensor. -/
example : ∃ (x : Arg) (d : List Nat), x.Fits d ∧ x.isTensor = true ∧ d ≠ [] ∧
    ∀ idx u, x.at idx = some u → Fun.Dom .log x.isComplex u := by
  refine ⟨.rt ⟨[1], [2]⟩, [1], ⟨rfl, rfl⟩, rfl, by decide, fun idx u h => ?_⟩
  obtain ⟨v, hv, rfl⟩ := Option.map_eq_some_iff.1 h
  unfold elem at hv
  split at hv
  · have := List.mem_of_getElem? hv
    rw [List.mem_singleton] at this
    subst this
    show (0 : ℝ) < Complex.re ((2 : ℝ) : ℂ)
    rw [Complex.ofReal_re]; exact two_pos
  · cases hv

/-- The hypotheses of `c126_sparse` and `c126_sparse_minus` can be met. -/
example : ∃ (x y : SArg) (f g : Nat → Nat → ℂ), x.Means 2 2 f ∧ y.Means 2 2 g ∧
    Op.ForSparse .div x y ∧ ∀ i j, i < 2 → j < 2 → g i j ≠ 0 := by
  obtain ⟨s, -, hs⟩ := Sparse.c36_eye (α := ℝ) 2 2
  exact ⟨.rs s, .rn 2, _, fun _ _ => ((2 : ℝ) : ℂ), ⟨_, hs, fun _ _ _ _ => rfl⟩, fun _ _ _ _ => rfl,
    Or.inr (Or.inr ⟨rfl, rfl, rfl⟩), fun _ _ _ _ => Complex.ofReal_ne_zero.2 two_ne_zero⟩

/-- The hypotheses of `c126_sparse_sizes` can be met. -/
example : ∃ (x y : SArg) (f g : Nat → Nat → ℂ), x.Means 2 2 f ∧ y.Means 3 2 g ∧
    x.isMatrix = true ∧ y.isMatrix = true := by
  obtain ⟨s, -, hs⟩ := Sparse.c36_eye (α := ℝ) 2 2
  obtain ⟨s', -, hs'⟩ := Sparse.c36_eye (α := ℝ) 3 2
  exact ⟨.rs s, .rs s', _, _, ⟨_, hs, fun _ _ _ _ => rfl⟩, ⟨_, hs', fun _ _ _ _ => rfl⟩, rfl, rfl⟩

end Examples

end Verif.Ops
