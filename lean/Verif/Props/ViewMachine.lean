import Verif.Model.ViewMachine
import Verif.Props.View
import Verif.Props.Machine
/-
C106: slices in machine words.
-/
namespace Verif.Spec

/-- The step of a range is not larger than the dimension. -/
def Modest : View.Spec → Nat → Prop
  | .step _ _ s, d => s ≤ d
  | _, _ => True

/-- The same for a list of ranges and dimensions. -/
def ModestAll : List View.Spec → List Nat → Prop
  | r :: rs, d :: ds => Modest r d ∧ ModestAll rs ds
  | _, _ => True

/-- A list does not have more indices than the dimension. -/
def Short : View.Spec → Nat → Prop
  | .list l, d => l.length ≤ d
  | _, _ => True

/-- The same for a list of ranges and dimensions. -/
def ShortAll : List View.Spec → List Nat → Prop
  | r :: rs, d :: ds => Short r d ∧ ShortAll rs ds
  | _, _ => True

end Verif.Spec

namespace Verif.ViewMachine

open Verif Verif.View Verif.Machine Verif.Spec

variable {α : Type} {ov : Int → Res Int}

theorem fits_of {x : Int} (h1 : -2 ^ 63 ≤ x) (h2 : x < 2 ^ 63) : Fits x := ⟨h1, h2⟩

/-- A factor `g` times numbers up to three times the dimension. -/
theorem mul_fits {v g : Int} {d : Nat} (hg : 0 ≤ g) (h1 : -(3 * d) ≤ v) (h2 : v ≤ 3 * d) (hb : 4 * (d * g) < 2 ^ 63) :
    Fits (v * g) := by
  have a := Int.mul_le_mul_of_nonneg_right h1 hg
  have b := Int.mul_le_mul_of_nonneg_right h2 hg
  have e1 : -(3 * (d : Int)) * g = -(3 * (d * g)) := by ring
  have e2 : 3 * (d : Int) * g = 3 * (d * g) := by ring
  have : 0 ≤ (d : Int) * g := by positivity
  constructor <;> omega

theorem rescale_ok {v f g : Int} {d : Nat} (hf : 0 < f) (hg : 0 < g) (h1 : -(3 * d) ≤ v) (h2 : v ≤ 3 * d)
    (hb : 4 * (d * g) < 2 ^ 63) : rescale ov f g (v * f) = .ok (v * g) := by
  have e : (v * f).tdiv f = v := Int.mul_tdiv_cancel v hf.ne'
  have hd : (d : Int) ≤ d * g := by
    have := Int.mul_le_mul_of_nonneg_left (show 1 ≤ g by omega) (show (0 : Int) ≤ d by omega)
    omega
  unfold rescale
  rw [e, word_ok (by constructor <;> omega), Res.ok_bind, word_ok (mul_fits hg.le h1 h2 hb)]

theorem rescaleAll_ok {f g : Int} {d : Nat} (hf : 0 < f) (hg : 0 < g) (hb : 4 * (d * g) < 2 ^ 63) (l : List Int)
    (hl : ∀ x ∈ l, 0 ≤ x ∧ x < d) : rescaleAll ov f g (l.map (· * f)) = .ok (l.map (· * g)) := by
  induction l with
  | nil => rfl
  | cons x l ih =>
    have hx := hl x (by simp)
    rw [List.map_cons, rescaleAll, rescale_ok hf hg (d := d) (by omega) (by omega) hb, Res.ok_bind,
      ih fun y hy => hl y (by simp [hy])]
    rfl

/-- The bounds on the numbers of a range. -/
theorem valid_step {a b s : Int} {d : Nat} (hv : Valid (.step a b s) d) (hm : Modest (.step a b s) d) :
    0 ≤ a ∧ a ≤ 3 * d ∧ -(3 * d) ≤ b ∧ b < d ∧ 0 < s ∧ s ≤ d := by
  obtain ⟨h1, h2, h3, h4⟩ := hv
  have h5 : s ≤ d := hm
  omega

theorem setFactorLeaf_eq {sp : View.Spec} {d : Nat} {f g : Int} {L : Leaf} (h : IsScaled sp d f L) (hv : Valid sp d)
    (hm : Modest sp d) (hf : 0 < f) (hg : 0 < g) (hb : 4 * (d * g) < 2 ^ 63) :
    setFactorLeaf ov L g = L.setFactor g := by
  have hd : 0 ≤ (d : Int) * g := by positivity
  cases sp with
  | all =>
    obtain ⟨c, rfl⟩ := h
    rw [setFactorLeaf, word_ok (by constructor <;> omega)]
    rfl
  | single i =>
    obtain ⟨c, rfl⟩ := h
    have hv : 0 ≤ i ∧ i < d := hv
    rw [setFactorLeaf, if_neg hf.ne', rescale_ok hf hg (d := d) (by omega) (by omega) hb]
    simp [Leaf.setFactor, hf.ne']
  | step a b s =>
    obtain ⟨n, rfl⟩ := h
    have hh := valid_step hv hm
    rw [setFactorLeaf, if_neg hf.ne', rescale_ok hf hg (d := d) (by omega) (by omega) hb, Res.ok_bind,
      rescale_ok hf hg (d := d) (by omega) (by omega) hb, Res.ok_bind,
      rescale_ok hf hg (d := d) (by omega) (by omega) hb]
    simp [Leaf.setFactor, hf.ne']
  | list l =>
    obtain ⟨c, rfl⟩ := h
    rw [setFactorLeaf, if_neg (by simp [hf.ne']), rescaleAll_ok hf hg hb l hv]
    simp [Leaf.setFactor, hf.ne', Function.comp_def]

theorem prod_cons_int (d : Nat) (ds : List Nat) : ((prod (d :: ds) : Nat) : Int) = d * prod ds := by
  rw [prod]; push_cast; ring

/-- Bounds of the first dimension and of the others. -/
theorem bound_split {d : Nat} {ds : List Nat} {g : Int} (hg : 0 < g) (h0 : ∀ x ∈ d :: ds, x ≠ 0)
    (hb : 4 * ((prod (d :: ds) : Nat) * g) < 2 ^ 63) :
    4 * (d * g) < 2 ^ 63 ∧ 4 * ((prod ds : Nat) * (g * d)) < 2 ^ 63 ∧ 0 < g * (d : Int) ∧ 1 ≤ (prod ds : Int) := by
  have hd : 1 ≤ (d : Int) := by have := h0 d (by simp); omega
  have hp : 1 ≤ (prod ds : Int) := by
    have := prod_pos (d := ds) fun x hx => h0 x (by simp [hx])
    omega
  have e : ((prod (d :: ds) : Nat) : Int) * g = (prod ds : Int) * (g * d) := by rw [prod_cons_int]; ring
  rw [e] at hb
  have hgd : 0 < g * (d : Int) := by positivity
  have h1 := Int.mul_le_mul_of_nonneg_right hp hgd.le
  have e2 : (d : Int) * g = g * d := by ring
  refine ⟨?_, hb, hgd, hp⟩
  rw [e2]
  omega

theorem setFactor_eq {sps : List View.Spec} {ds : List Nat} {f : Int} {R : Range} (h : ChainScaled sps ds f R) :
    ∀ g : Int, ValidAll sps ds → ModestAll sps ds → (∀ x ∈ ds, x ≠ 0) → 0 < f → 0 < g →
      4 * ((prod ds : Nat) * g) < 2 ^ 63 → setFactor ov R g = R.setFactor g := by
  induction h with
  | @leaf sp d f L h =>
    intro g hv hm h0 hf hg hb
    obtain ⟨b1, -, -, -⟩ := bound_split hg h0 hb
    rw [setFactor, setFactorLeaf_eq h hv.1 hm.1 hf hg b1]
    rfl
  | @product sp d f L sps ds R b h1 h2 ih =>
    intro g hv hm h0 hf hg hb
    obtain ⟨b1, b2, b3, b4⟩ := bound_split hg h0 hb
    obtain ⟨L', e, hL'⟩ := IsScaled.setFactor g hf.ne' h1
    have hd : 0 < (d : Int) := by have := h0 d (by simp); omega
    have e2 : (d : Int) * g = g * d := by ring
    rw [setFactor, setFactorLeaf_eq h1 hv.1 hm.1 hf hg b1, Range.setFactor, e, Res.ok_bind, Res.ok_bind, hL'.limit,
      word_ok (by rw [e2] at b1; constructor <;> omega), Res.ok_bind,
      ih (g * d) hv.2 hm.2 (fun x hx => h0 x (by simp [hx])) (by positivity) b3 b2]

theorem build_eq {sp : View.Spec} {d : Nat} {L : Leaf} {sps : List View.Spec} {ds : List Nat} {Ls : List Leaf}
    (h1 : IsScaled sp d 1 L) (h2 : ScaledAll sps ds Ls) (hv : ValidAll (sp :: sps) (d :: ds))
    (hm : ModestAll (sp :: sps) (d :: ds)) (h0 : ∀ x ∈ d :: ds, x ≠ 0) (hb : 4 * (prod (d :: ds) : Int) < 2 ^ 63) :
    build ov L Ls = View.build L Ls := by
  induction h2 generalizing sp d L with
  | nil => rfl
  | @cons sp' d' L' sps ds Ls h1' h2' ih =>
    obtain ⟨b1, b2, b3, b4⟩ := bound_split (g := 1) (by omega) h0 (by omega)
    have h0' : ∀ x ∈ d' :: ds, x ≠ 0 := fun x hx => h0 x (List.mem_cons_of_mem _ hx)
    have hd : 0 < (d : Int) := by have := h0 d (by simp); omega
    obtain ⟨R, e, hR⟩ := build_ok sp' d' L' sps ds Ls h1' h2' h0'
    have hle : (prod (d' :: ds) : Int) ≤ (prod (d' :: ds) : Nat) * (1 * d) := by
      have := Int.mul_le_mul_of_nonneg_left (show 1 ≤ 1 * (d : Int) by omega) (show (0 : Int) ≤ (prod (d' :: ds) : Nat) by omega)
      omega
    rw [build, View.build, ih h1' hv.2 hm.2 h0' (by omega), e, Res.ok_bind, Res.ok_bind, mkProduct, View.mkProduct,
      h1.factor, h1.limit, word_ok (by constructor <;> omega), Res.ok_bind,
      setFactor_eq hR (1 * d) hv.2 hm.2 h0' (by omega) b3 b2]

theorem setLimitLeaf_eq (sp : View.Spec) {d : Nat} (hd : d < 2 ^ 63) :
    setLimitLeaf ov sp.new d = sp.new.setLimit d := by
  cases sp with
  | all =>
    have e : (d : Int) * 1 = d := by ring
    rw [Spec.new, setLimitLeaf, e, word_ok (fits_nat hd), Res.ok_bind, Leaf.setLimit, e]
  | _ => rfl

theorem setLimits_eq (sps : List View.Spec) (ds : List Nat) (hd : ∀ d ∈ ds, d < 2 ^ 63) :
    setLimits ov (sps.map Spec.new) ds = View.setLimits (sps.map Spec.new) ds := by
  induction sps generalizing ds with
  | nil => cases ds <;> rfl
  | cons sp sps ih =>
    cases ds with
    | nil => rfl
    | cons d ds =>
      simp only [List.map_cons, setLimits, View.setLimits]
      rw [setLimitLeaf_eq sp (hd d (by simp)), ih ds fun x hx => hd x (by simp [hx])]

theorem sizeLeaf_eq {sp : View.Spec} {d : Nat} {L : Leaf} (h : IsScaled sp d 1 L) (hv : Valid sp d) (hm : Modest sp d)
    (hb : 4 * (d : Int) < 2 ^ 63) : sizeLeaf ov L = L.size := by
  cases sp with
  | all => obtain ⟨_, rfl⟩ := h; rfl
  | single i => obtain ⟨_, rfl⟩ := h; rfl
  | list l => obtain ⟨_, rfl⟩ := h; rfl
  | step a b s =>
    obtain ⟨n, rfl⟩ := h
    have hh := valid_step hv hm
    obtain ⟨v1, v2, v3, v4⟩ := hv
    have ea : a * 1 = a := by ring
    have eb : b * 1 = b := by ring
    have es : s * 1 = s := by ring
    have hq : -2 ≤ (b - a).tdiv s ∧ (b - a).tdiv s ≤ d := by
      rcases v4 with v4 | v4
      · have h1 : 0 ≤ (b - a).tdiv s := Int.tdiv_nonneg (by omega) (by omega)
        have h2 : (b - a).tdiv s ≤ b - a := by
          rw [Int.tdiv_eq_ediv_of_nonneg (by omega)]
          exact Int.ediv_le_self _ (by omega)
        omega
      · have h1 : 0 ≤ (a - b).tdiv s := Int.tdiv_nonneg (by omega) (by omega)
        have h2 : (a - b).tdiv s < 2 := by
          rw [Int.tdiv_eq_ediv_of_nonneg (by omega)]
          exact Int.ediv_lt_of_lt_mul (by omega) (by omega)
        have e : b - a = -(a - b) := by ring
        rw [e, Int.neg_tdiv]
        omega
    rw [sizeLeaf, ea, eb, es, word_ok (by constructor <;> omega), Res.ok_bind, Leaf.size]
    rw [if_neg (by omega), if_neg (by omega), word_ok (by constructor <;> omega), Res.ok_bind,
      word_ok (by constructor <;> omega)]

theorem sizes_eq {sps : List View.Spec} {ds : List Nat} {Ls : List Leaf} (h : ScaledAll sps ds Ls) (hv : ValidAll sps ds)
    (hm : ModestAll sps ds) (hb : ∀ d ∈ ds, 4 * (d : Int) < 2 ^ 63) : sizes ov Ls = View.sizes Ls := by
  induction h with
  | nil => rfl
  | @cons sp d L sps ds Ls h1 h2 ih =>
    rw [sizes, View.sizes, sizeLeaf_eq h1 hv.1 hm.1 (hb d (by simp)), ih hv.2 hm.2 fun x hx => hb x (by simp [hx])]

theorem mem_le_prod {ds : List Nat} (h0 : ∀ x ∈ ds, x ≠ 0) {d : Nat} (hd : d ∈ ds) : d ≤ prod ds := by
  induction ds with
  | nil => simp at hd
  | cons e ds ih =>
    have h1 := prod_pos (d := ds) fun x hx => h0 x (by simp [hx])
    have h2 := h0 e (by simp)
    rw [prod]
    rcases List.mem_cons.1 hd with rfl | hd
    · exact Nat.le_mul_of_pos_right _ h1
    · exact (ih (fun x hx => h0 x (by simp [hx])) hd).trans (Nat.le_mul_of_pos_left _ (by omega))

/-- Making a view: no operation overflows. -/
theorem mkView_eq (t : Tensor α) (sps : List View.Spec) (hv : ValidAll sps (limits t.dims t.data.length sps))
    (hm : ModestAll sps (limits t.dims t.data.length sps)) (h0 : ∀ d ∈ limits t.dims t.data.length sps, d ≠ 0)
    (hb : 4 * (prod (limits t.dims t.data.length sps) : Int) < 2 ^ 63) :
    mkView ov t sps = View.mkView t sps := by
  cases sps with
  | nil => rfl
  | cons sp sps =>
    have hlim : (if sps.map Spec.new = [] then [t.size] else t.dims) =
        limits t.dims t.data.length (sp :: sps) := by
      simp [limits, Tensor.size]
    simp only [mkView, View.mkView, List.map_cons, hlim]
    have hd : ∀ d ∈ limits t.dims t.data.length (sp :: sps), 4 * (d : Int) < 2 ^ 63 := by
      intro d hd
      have := mem_le_prod h0 hd
      omega
    have hsl := setLimits_eq (ov := ov) (sp :: sps) (limits t.dims t.data.length (sp :: sps))
      (fun d h => by have := hd d h; omega)
    obtain ⟨Ls, e, hLs⟩ := setLimits_ok _ _ (ValidAll.acceptedAll hv)
    rw [List.map_cons] at hsl e
    rw [hsl, e]
    generalize limits t.dims t.data.length (sp :: sps) = ds at *
    simp only [Res.ok_bind]
    rw [sizes_eq hLs hv hm hd]
    cases hLs with
    | cons h1 h2 => simp only [build_eq h1 h2 hv hm h0 hb]

/-! ### Running over the elements -/

/-- A range whose numbers are bounded by the dimension `d` times the factor `f`. -/
def LeafIn (d : Nat) (f : Int) : Leaf → Prop
  | .full _ f' c e => f' = f ∧ e = d * f ∧ ∃ k : Nat, k ≤ d ∧ c = k * f
  | .single _ _ x _ => 0 ≤ x ∧ x + f ≤ d * f
  | .step _ _ n a b s => 0 ≤ n ∧ n ≤ 3 * (d * f) ∧ 0 ≤ a ∧ a ≤ 3 * (d * f) ∧ b + f ≤ d * f ∧ 0 ≤ s ∧ s ≤ d * f
  | .list _ _ xs _ => ∀ x ∈ xs, 0 ≤ x ∧ x + f ≤ d * f

theorem LeafIn.reset {d : Nat} {f : Int} {L : Leaf} (h : LeafIn d f L) : LeafIn d f L.reset := by
  cases L with
  | full l f' c e => exact ⟨h.1, h.2.1, 0, by omega, by simp⟩
  | single => exact h
  | step l f' n a b s => exact ⟨h.2.2.1, h.2.2.2.1, h.2.2⟩
  | list => exact h

theorem leafIn_of {sp : View.Spec} {d : Nat} {f : Int} {L : Leaf} (h : IsScaled sp d f L) (hv : Valid sp d) (hm : Modest sp d)
    (hf : 0 < f) : LeafIn d f L.reset := by
  have le : ∀ {x y : Int}, x ≤ y → x * f ≤ y * f := fun h => Int.mul_le_mul_of_nonneg_right h hf.le
  have key : ∀ {x : Int}, 0 ≤ x → x < d → 0 ≤ x * f ∧ x * f + f ≤ d * f := by
    intro x h1 h2
    have a := le h1
    have b := le (show x + 1 ≤ (d : Int) by omega)
    rw [add_mul] at b
    omega
  cases sp with
  | all => obtain ⟨c, rfl⟩ := h; exact ⟨rfl, rfl, 0, by omega, by simp⟩
  | single i => obtain ⟨c, rfl⟩ := h; exact key hv.1 hv.2
  | step a b s =>
    obtain ⟨n, rfl⟩ := h
    have hh := valid_step hv hm
    have h1 := le hh.1
    have h2 := le hh.2.1
    have h3 := le (show b + 1 ≤ (d : Int) by omega)
    have h4 := le (show (0 : Int) ≤ s by omega)
    have h5 := le hh.2.2.2.2.2
    have e : 3 * (d : Int) * f = 3 * (d * f) := by ring
    rw [add_mul] at h3
    refine ⟨?_, ?_, ?_, ?_, ?_, ?_, ?_⟩ <;> omega
  | list l =>
    obtain ⟨c, rfl⟩ := h
    intro x hx
    obtain ⟨y, hy, rfl⟩ := List.mem_map.1 hx
    exact key (hv y hy).1 (hv y hy).2

/-- A value of a range with factor `f`. -/
def ValIn (p : Nat) (f : Int) (x : Int) : Prop := x = nomore ∨ (0 ≤ x ∧ x + f ≤ p * f)

theorem popLeaf_eq {d : Nat} {f : Int} {L : Leaf} (h : LeafIn d f L) (hf : 0 < f) (hb : 4 * (d * f) < 2 ^ 63) :
    popLeaf ov L = .ok L.pop ∧ ValIn d f L.pop.1 ∧ LeafIn d f L.pop.2 := by
  have hd : 0 ≤ (d : Int) * f := by positivity
  cases L with
  | full l f' c e =>
    obtain ⟨rfl, rfl, k, hk, rfl⟩ := h
    simp only [popLeaf, Leaf.pop]
    by_cases hc : (k : Int) * f' ≥ d * f'
    · rw [if_pos hc, if_pos hc]
      exact ⟨rfl, .inl rfl, rfl, rfl, k, hk, rfl⟩
    · have hkd : k < d := by
        by_contra hn
        have : (d : Int) ≤ k := by omega
        exact hc (Int.mul_le_mul_of_nonneg_right this hf.le)
      have h1 : ((k : Int) + 1) * f' ≤ d * f' := Int.mul_le_mul_of_nonneg_right (by omega) hf.le
      rw [add_mul, one_mul] at h1
      have h2 : 0 ≤ (k : Int) * f' := by positivity
      rw [if_neg hc, if_neg hc, word_ok (by constructor <;> omega)]
      exact ⟨rfl, .inr ⟨h2, h1⟩, rfl, rfl, k + 1, hkd, by push_cast; ring⟩
  | single l f' x c =>
    simp only [popLeaf, Leaf.pop]
    by_cases hc : c ≠ 0
    · rw [if_pos hc, if_pos hc]
      exact ⟨rfl, .inl rfl, h⟩
    · have hc0 : c = 0 := by omega
      subst hc0
      rw [if_neg hc, if_neg hc, word_ok (by constructor <;> norm_num)]
      exact ⟨rfl, .inr h, h⟩
  | step l f' n a b s =>
    obtain ⟨h1, h2, h3, h4, h5, h6, h7⟩ := h
    simp only [popLeaf, Leaf.pop]
    by_cases hc : n > b
    · rw [if_pos hc, if_pos hc]
      exact ⟨rfl, .inl rfl, h1, h2, h3, h4, h5, h6, h7⟩
    · rw [if_neg hc, if_neg hc, word_ok (by constructor <;> omega)]
      refine ⟨rfl, .inr ⟨h1, by omega⟩, ?_, ?_, h3, h4, h5, h6, h7⟩
      · omega
      · omega
  | list l f' xs c =>
    simp only [popLeaf, Leaf.pop]
    cases hx : xs[c]? with
    | none => exact ⟨rfl, .inl rfl, h⟩
    | some x => exact ⟨rfl, .inr (h x (List.mem_of_getElem? hx)), h⟩

/-- The same for products of ranges. -/
inductive RangeIn : List Nat → Int → Range → Prop
  | leaf {d f L} : LeafIn d f L → RangeIn [d] f (.leaf L)
  | product {d f L ds R b} : LeafIn d f L → RangeIn ds (f * d) R → ValIn (prod ds) (f * d) b →
      RangeIn (d :: ds) f (.product L R (some b))

theorem pop_eq (n : Nat) : ∀ {ds : List Nat} {f : Int} {R : Range}, RangeIn ds f R → (∀ x ∈ ds, x ≠ 0) → 0 < f →
    4 * ((prod ds : Nat) * f) < 2 ^ 63 →
    pop ov n R = Range.pop n R ∧
      ∀ x, Range.pop n R = .done (.ok x) → ValIn (prod ds) f x.1 ∧ RangeIn ds f x.2 := by
  induction n with
  | zero => intro ds f R h h0 hf hb; exact ⟨rfl, fun x hx => by simp [Range.pop] at hx⟩
  | succ n ih =>
    intro ds f R h h0 hf hb
    cases h with
    | @leaf d _ L h =>
      have b1 := (bound_split hf h0 hb).1
      obtain ⟨e, h1, h2⟩ := popLeaf_eq (ov := ov) h hf b1
      refine ⟨by rw [pop, e]; rfl, ?_⟩
      intro x hx
      simp only [Range.pop, Run.done.injEq, Res.ok.injEq] at hx
      subst hx
      exact ⟨by simpa [prod] using h1, .leaf h2⟩
    | @product d _ L ds R b h1 h2 h3 =>
      obtain ⟨b1, b2, b3, b4⟩ := bound_split hf h0 hb
      have h0' : ∀ x ∈ ds, x ≠ 0 := fun x hx => h0 x (by simp [hx])
      obtain ⟨e, p1, p2⟩ := popLeaf_eq (ov := ov) h1 hf b1
      have hP : ((prod (d :: ds) : Nat) : Int) * f = prod ds * (f * d) := by rw [prod_cons_int]; ring
      have hfd : (d : Int) * f = f * d := by ring
      simp only [pop, Range.pop, e, Run.ok_bind]
      by_cases hb1 : b = nomore
      · rw [if_pos hb1, if_pos hb1]
        refine ⟨rfl, ?_⟩
        intro x hx
        simp only [Run.done.injEq, Res.ok.injEq] at hx
        subst hx
        exact ⟨.inl hb1, .product h1 h2 h3⟩
      · rw [if_neg hb1, if_neg hb1]
        have hb2 := h3.resolve_left hb1
        by_cases hx1 : L.pop.1 ≠ nomore
        · have hx2 := p1.resolve_left hx1
          rw [if_pos hx1, if_pos hx1, word_ok (by constructor <;> omega)]
          refine ⟨rfl, ?_⟩
          intro x hx
          simp only [Run.done.injEq, Res.ok.injEq] at hx
          subst hx
          refine ⟨.inr ⟨by show 0 ≤ L.pop.1 + b; omega, ?_⟩, .product p2 h2 h3⟩
          show L.pop.1 + b + f ≤ _
          omega
        · rw [if_neg hx1, if_neg hx1]
          obtain ⟨e2, q⟩ := ih h2 h0' b3 b2
          rw [e2]
          cases hp : Range.pop n R with
          | out => exact ⟨rfl, fun x hx => by simp at hx⟩
          | done r =>
            cases r with
            | abort => exact ⟨rfl, fun x hx => by simp at hx⟩
            | ub => exact ⟨rfl, fun x hx => by simp at hx⟩
            | ok y =>
              obtain ⟨q1, q2⟩ := q y hp
              simp only [Run.ok_bind]
              exact ih (.product p2.reset q2 q1) h0 hf hb

theorem reset_eq {sps : List View.Spec} {ds : List Nat} {f : Int} {R : Range} (h : ChainScaled sps ds f R) (n : Nat) :
    ValidAll sps ds → ModestAll sps ds → (∀ x ∈ ds, x ≠ 0) → 0 < f → 4 * ((prod ds : Nat) * f) < 2 ^ 63 →
      reset ov n R = Range.reset n R ∧ ∀ x, Range.reset n R = .done (.ok x) → RangeIn ds f x := by
  induction h with
  | @leaf sp d f L h =>
    intro hv hm h0 hf hb
    refine ⟨rfl, fun x hx => ?_⟩
    simp only [Range.reset, Run.done.injEq, Res.ok.injEq] at hx
    subst hx
    exact .leaf (leafIn_of h hv.1 hm.1 hf)
  | @product sp d f L sps ds R b h1 h2 ih =>
    intro hv hm h0 hf hb
    obtain ⟨b1, b2, b3, b4⟩ := bound_split hf h0 hb
    have h0' : ∀ x ∈ ds, x ≠ 0 := fun x hx => h0 x (by simp [hx])
    obtain ⟨e, p⟩ := ih hv.2 hm.2 h0' b3 b2
    simp only [reset, Range.reset, e]
    cases hr : Range.reset n R with
    | out => exact ⟨rfl, fun x hx => by simp at hx⟩
    | done r =>
      cases r with
      | abort => exact ⟨rfl, fun x hx => by simp at hx⟩
      | ub => exact ⟨rfl, fun x hx => by simp at hx⟩
      | ok R' =>
        obtain ⟨e2, q⟩ := pop_eq (ov := ov) n (p R' hr) h0' b3 b2
        simp only [Run.ok_bind, e2]
        cases hp : Range.pop n R' with
        | out => exact ⟨trivial, fun x hx => by simp at hx⟩
        | done r =>
          cases r with
          | abort => exact ⟨trivial, fun x hx => by simp at hx⟩
          | ub => exact ⟨trivial, fun x hx => by simp at hx⟩
          | ok y =>
            obtain ⟨q1, q2⟩ := q y hp
            refine ⟨trivial, fun x hx => ?_⟩
            simp only [Run.ok_bind, Run.pure_eq, Run.done.injEq, Res.ok.injEq] at hx
            subst hx
            exact .product (leafIn_of h1 hv.1 hm.1 hf) q2 q1

/-- Loops which take the next value with equal functions are equal. -/
theorem bind_congr {β γ : Type} {x : Run β} {f g : β → Run γ} (h : ∀ y, x = .done (.ok y) → f y = g y) :
    (x >>= f) = (x >>= g) := by
  cases x with
  | out => rfl
  | done r =>
    cases r with
    | abort => rfl
    | ub => rfl
    | ok y => exact h y rfl

theorem bind_congr_res {β γ : Type} {x : Res β} {f g : β → Run γ} (h : ∀ y, x = .ok y → f y = g y) :
    (Run.done x >>= f) = (Run.done x >>= g) := by
  cases x with
  | abort => rfl
  | ub => rfl
  | ok y => exact h y rfl

section loops

variable {ds : List Nat} (h0 : ∀ x ∈ ds, x ≠ 0) (hb : 4 * (prod ds : Int) < 2 ^ 63)
include h0 hb

theorem readLoop_eq (data : List α) (n : Nat) : ∀ {R : Range} (k : Nat) (buf : List (Option α)), RangeIn ds 1 R →
    readLoop ov data n R k buf = View.readLoop data n R k buf := by
  induction n with
  | zero => intros; rfl
  | succ n ih =>
    intro R k buf h
    obtain ⟨e, p⟩ := pop_eq (ov := ov) n h h0 (by omega) (by omega)
    rw [readLoop, View.readLoop, e]
    refine bind_congr fun y hy => ?_
    split
    · rfl
    · exact bind_congr_res fun b _ => ih _ _ (p y hy).2

theorem assignLoop_eq (src : List α) (n : Nat) : ∀ {R : Range} (k : Nat) (data : List α), RangeIn ds 1 R →
    assignLoop ov src n R k data = View.assignLoop src n R k data := by
  induction n with
  | zero => intros; rfl
  | succ n ih =>
    intro R k data h
    obtain ⟨e, p⟩ := pop_eq (ov := ov) n h h0 (by omega) (by omega)
    rw [assignLoop, View.assignLoop, e]
    refine bind_congr fun y hy => ?_
    split
    · rfl
    · exact bind_congr_res fun b _ => ih _ _ (p y hy).2

theorem fillLoop_eq (v : α) (n : Nat) : ∀ {R : Range} (data : List α), RangeIn ds 1 R →
    fillLoop ov v n R data = View.fillLoop v n R data := by
  induction n with
  | zero => intros; rfl
  | succ n ih =>
    intro R data h
    obtain ⟨e, p⟩ := pop_eq (ov := ov) n h h0 (by omega) (by omega)
    rw [fillLoop, View.fillLoop, e]
    refine bind_congr fun y hy => ?_
    split
    · rfl
    · exact bind_congr_res fun b _ => ih _ (p y hy).2

theorem viewLoop_eq {es : List Nat} (h0' : ∀ x ∈ es, x ≠ 0) (hb' : 4 * (prod es : Int) < 2 ^ 63) (src : List α) (n : Nat) :
    ∀ {R Q : Range} (data : List α), RangeIn ds 1 R → RangeIn es 1 Q →
      viewLoop ov src n R Q data = View.viewLoop src n R Q data := by
  induction n with
  | zero => intros; rfl
  | succ n ih =>
    intro R Q data h h'
    obtain ⟨e, p⟩ := pop_eq (ov := ov) n h h0 (by omega) (by omega)
    obtain ⟨e', p'⟩ := pop_eq (ov := ov) n h' h0' (by omega) (by omega)
    rw [viewLoop, View.viewLoop, e, e']
    refine bind_congr fun y hy => bind_congr fun z hz => ?_
    split
    · exact bind_congr_res fun b _ => ih _ (p y hy).2 (p' z hz).2
    · rfl

end loops

/-- Sizes of the results. -/
theorem sel_length {sp : View.Spec} {d : Nat} (hv : Valid sp d) (hs : Short sp d) (h0 : d ≠ 0) : (sel sp d).length ≤ d := by
  cases sp with
  | all => simp [sel]
  | single i => simp [sel]; omega
  | list l => exact hs
  | step a b s =>
    obtain ⟨v1, v2, v3, -⟩ := hv
    rw [sel, List.length_map, List.length_range]
    split
    · have : (b - a) / s ≤ b - a := Int.ediv_le_self _ (by omega)
      omega
    · omega

theorem mulLoop_le (l ds : List Nat) (h : List.Forall₂ (· ≤ ·) l ds) (h0 : ∀ x ∈ ds, x ≠ 0) (a : Nat)
    (hb : a * prod ds < 2 ^ 63) : mulLoop ov a (l.map Int.ofNat) = .ok ((a * prod l : Nat) : Int) ∧ prod l ≤ prod ds := by
  induction h generalizing a with
  | nil => simp [mulLoop, prod]
  | @cons x d l ds h1 h2 ih =>
    have hp := prod_pos (d := ds) fun x hx => h0 x (List.mem_cons_of_mem _ hx)
    rw [prod] at hb
    have e1 : a * x * prod ds ≤ a * (d * prod ds) := by
      rw [mul_assoc]
      exact Nat.mul_le_mul_left _ (Nat.mul_le_mul_right _ h1)
    have e2 : a * x ≤ a * x * prod ds := Nat.le_mul_of_pos_right _ hp
    obtain ⟨i1, i2⟩ := ih (fun x hx => h0 x (List.mem_cons_of_mem _ hx)) (a * x) (by omega)
    constructor
    · rw [List.map_cons, mulLoop]
      have e3 : (a : Int) * Int.ofNat x = ((a * x : Nat) : Int) := by push_cast; rfl
      rw [e3, word_ok (fits_nat (by omega)), Res.ok_bind, i1, prod, mul_assoc]
    · rw [prod, prod]
      exact Nat.mul_le_mul h1 i2

theorem lengths_le {sps : List View.Spec} {ds : List Nat} (hv : ValidAll sps ds) (hs : ShortAll sps ds) (h0 : ∀ x ∈ ds, x ≠ 0) :
    List.Forall₂ (· ≤ ·) ((selAll sps ds).map List.length) ds := by
  induction sps generalizing ds with
  | nil =>
    cases ds with
    | nil => exact .nil
    | cons => exact hv.elim
  | cons sp sps ih =>
    cases ds with
    | nil => exact hv.elim
    | cons d ds =>
      exact .cons (sel_length hv.1 hs.1 (h0 d (by simp))) (ih hv.2 hs.2 fun x hx => h0 x (List.mem_cons_of_mem _ hx))

theorem totalSize_eq {sps : List View.Spec} {ds : List Nat} (hv : ValidAll sps ds) (hs : ShortAll sps ds)
    (h0 : ∀ x ∈ ds, x ≠ 0) (hb : prod ds < 2 ^ 63) (hne : sps ≠ []) :
    totalSize ov (specSizes sps ds) = .ok (Tensor.totalSizeI (specSizes sps ds)) ∧
      ∃ n : Nat, n ≤ prod ds ∧ Tensor.totalSizeI (specSizes sps ds) = n := by
  have hl := lengths_le hv hs h0
  have hS : (selAll sps ds).map List.length ≠ [] := by
    intro e
    rw [e] at hl
    cases hl
    have := ValidAll.length hv
    cases sps with
    | nil => exact hne rfl
    | cons => simp at this
  rw [ValidAll.sizes hv, totalSizeI_ofNat, totalSize_of_ne hS, totalSize_nat _ hS]
  obtain ⟨e1, e2⟩ := mulLoop_le (ov := ov) _ ds hl h0 1 (by omega)
  rw [Nat.one_mul] at e1
  exact ⟨e1, _, e2, rfl⟩

/-! ### Slices -/

section slices

variable (t : Tensor α) (wf : t.WF) (rs : List View.Spec) (hne : rs ≠ [])
  (hd : ∀ d ∈ limits t.dims t.data.length rs, d ≠ 0) (hv : ValidAll rs (limits t.dims t.data.length rs))
  (hm : ModestAll rs (limits t.dims t.data.length rs))
include wf hne hd hv hm

/-- The view, and how it is reset. -/
theorem view_eq (hl : t.data.length < 2 ^ 60) :
    ∃ R, View.mkView t rs = .ok (specSizes rs (limits t.dims t.data.length rs), R) ∧
      mkView ov t rs = .ok (specSizes rs (limits t.dims t.data.length rs), R) ∧
      prod (limits t.dims t.data.length rs) = t.data.length ∧
      ∀ n, reset ov n R = Range.reset n R ∧
        ∀ x, Range.reset n R = .done (.ok x) → RangeIn (limits t.dims t.data.length rs) 1 x := by
  have hp := limits_prod t wf rs hne (ValidAll.length hv)
  obtain ⟨R, e, hR⟩ := mkView_ok t rs hne (ValidAll.acceptedAll hv) hd (ValidAll.stepPos hv)
  have hb : 4 * (prod (limits t.dims t.data.length rs) : Int) < 2 ^ 63 := by omega
  refine ⟨R, e, ?_, hp.symm, fun n => reset_eq hR n hv hm hd (by omega) (by omega)⟩
  rw [mkView_eq t rs hv hm hd hb, e]

/-- **C106 (partial)**: reading a slice. -/
theorem c106_slice_partial (hs : ShortAll rs (limits t.dims t.data.length rs)) (n : Nat) :
    (t.data.length < 2 ^ 60 → slice ov newReal n t rs = View.slice n t rs) ∧
    (t.data.length < 2 ^ 59 → slice ov newComplex n t rs = View.slice n t rs) := by
  have main : ∀ alloc : Int → Res (Nat × Nat), t.data.length < 2 ^ 60 →
      (∀ k : Nat, k ≤ t.data.length → alloc k = .ok (k, k)) → slice ov alloc n t rs = View.slice n t rs := by
    intro alloc hl ha
    obtain ⟨R, e1, e2, hp, hr⟩ := view_eq (ov := ov) t wf rs hne hd hv hm hl
    obtain ⟨e3, k, hk, e4⟩ := totalSize_eq (ov := ov) hv hs hd (by omega) hne
    obtain ⟨r1, r2⟩ := hr n
    simp only [slice, View.slice, e1, e2, Run.ok_bind, makeDims, e3, e4, Res.ok_bind, ha k (by omega), Res.pure_eq, r1,
      Int.toNat_natCast]
    refine bind_congr fun y hy => ?_
    rw [readLoop_eq hd (by omega) t.data n 0 _ (r2 y hy)]
  constructor
  · intro hl
    refine main newReal hl fun k hk => ?_
    rw [newReal_nat (by omega), if_pos (by omega)]
  · intro hl
    refine main newComplex (by omega) fun k hk => ?_
    rw [newComplex_nat (by omega), if_pos (by omega)]

/-- **C106 (partial)**: assigning a number to a slice. -/
theorem c106_assign_number_partial (hl : t.data.length < 2 ^ 60) (x : α) (n : Nat) :
    assignNumber ov n t rs x = View.assignNumber n t rs x := by
  obtain ⟨R, e1, e2, hp, hr⟩ := view_eq (ov := ov) t wf rs hne hd hv hm hl
  obtain ⟨r1, r2⟩ := hr n
  simp only [assignNumber, View.assignNumber, e1, e2, Run.ok_bind, r1]
  refine bind_congr fun y hy => ?_
  rw [fillLoop_eq hd (by omega) x n _ (r2 y hy)]

/-- **C106 (partial)**: assigning a tensor to a slice. -/
theorem c106_assign_partial (hl : t.data.length < 2 ^ 60) (hs : ShortAll rs (limits t.dims t.data.length rs)) (s : Tensor α)
    (wfs : s.WF) (hsd : ∀ d ∈ s.dims, d ≠ 0) (hsl : s.data.length < 2 ^ 60) (n : Nat) :
    assign ov n t rs s = View.assign n t rs s := by
  obtain ⟨R, e1, e2, hp, hr⟩ := view_eq (ov := ov) t wf rs hne hd hv hm hl
  obtain ⟨e3, k, hk, e4⟩ := totalSize_eq (ov := ov) hv hs hd (by omega) hne
  obtain ⟨r1, r2⟩ := hr n
  have e5 : totalSize ov (s.dims.map Int.ofNat) = .ok (Tensor.totalSize s.dims : Int) := by
    by_cases h : s.dims = []
    · rw [h]; rfl
    · have := wfs.length_eq h
      rw [(c77_total_size s.dims h hsd).1 (by omega), totalSize_of_ne h]
  simp only [assign, View.assign, e1, e2, Run.ok_bind, e3, e4, e5, r1]
  refine bind_congr_res fun _ _ => bind_congr fun y hy => ?_
  rw [assignLoop_eq hd (by omega) s.data n 0 _ (r2 y hy)]

/-- **C106 (partial)**: assigning a slice to a slice. -/
theorem c106_assign_view_partial (hl : t.data.length < 2 ^ 60) (hs : ShortAll rs (limits t.dims t.data.length rs)) (s : Tensor α)
    (wfs : s.WF) (qs : List View.Spec) (hqe : qs ≠ []) (hqd : ∀ d ∈ limits s.dims s.data.length qs, d ≠ 0)
    (hqv : ValidAll qs (limits s.dims s.data.length qs)) (hqm : ModestAll qs (limits s.dims s.data.length qs))
    (hqs : ShortAll qs (limits s.dims s.data.length qs)) (hql : s.data.length < 2 ^ 60) (n : Nat) :
    assignView ov n t rs s qs = View.assignView n t rs s qs := by
  obtain ⟨R, e1, e2, hp, hr⟩ := view_eq (ov := ov) t wf rs hne hd hv hm hl
  obtain ⟨e3, -⟩ := totalSize_eq (ov := ov) hv hs hd (by omega) hne
  obtain ⟨r1, r2⟩ := hr n
  obtain ⟨Q, f1, f2, hq, hr'⟩ := view_eq (ov := ov) s wfs qs hqe hqd hqv hqm hql
  obtain ⟨f3, -⟩ := totalSize_eq (ov := ov) hqv hqs hqd (by omega) hqe
  obtain ⟨s1, s2⟩ := hr' n
  simp only [assignView, View.assignView, e1, e2, Run.ok_bind, e3, f1, f2, f3, r1, s1]
  refine bind_congr_res fun _ _ => bind_congr fun y hy => bind_congr fun z hz => ?_
  rw [viewLoop_eq hd (by omega) hqd (by omega) s.data n _ (r2 y hy) (s2 z hz)]

end slices

/-- The conditions can be met: every second column of a matrix. -/
example (x : α) (n : Nat) : slice strict newReal n ⟨[2, 3], [x, x, x, x, x, x]⟩ [.all, .step 0 2 2] =
    View.slice n ⟨[2, 3], [x, x, x, x, x, x]⟩ [.all, .step 0 2 2] :=
  (c106_slice_partial (ov := strict) ⟨[2, 3], [x, x, x, x, x, x]⟩ rfl [.all, .step 0 2 2] (by simp)
    (by simp [limits]) (by simp [limits, ValidAll, Valid]) (by simp [limits, ModestAll, Modest])
    (by simp [limits, ShortAll, Short]) n).1 (by norm_num)

/-- **C106, negation**: a large step overflows after the last element, although the range is valid: the slice of the second element with
the largest step is undefined behaviour, and where overflow wraps, memory after the result is written. -/
theorem c106_negation_step (x y : α) :
    Valid (.step 1 1 (2 ^ 63 - 1)) 2 ∧
    Finishes (fun n => View.slice n ⟨[2], [x, y]⟩ [.step 1 1 (2 ^ 63 - 1)]) (.ok ([1], [y])) ∧
    Finishes (fun n => slice strict newReal n ⟨[2], [x, y]⟩ [.step 1 1 (2 ^ 63 - 1)]) .ub ∧
    Finishes (fun n => slice wrap newReal n ⟨[2], [x, y]⟩ [.step 1 1 (2 ^ 63 - 1)]) .ub := by
  refine ⟨by simp [Valid], ⟨4, ?_⟩, ⟨4, ?_⟩, ⟨4, ?_⟩⟩ <;> intro n hn <;>
    obtain ⟨m, rfl⟩ : ∃ m, n = m + 4 := ⟨n - 4, by omega⟩
  · rfl
  · rfl
  · rfl

/-- The loop of the next theorem: the step of the second range has become zero. -/
theorem fill_endless (v : α) (n : Nat) : ∀ (c : Nat) (data : List α), c ≤ 4 → data.length = 4 →
    fillLoop wrap v n (.product (.full 4 1 c 4) (.leaf (.step 1 4 0 0 0 0)) (some 0)) data = .out := by
  have hpop : ∀ (n c : Nat), c < 4 → pop wrap (n + 1) (.product (.full 4 1 c 4) (.leaf (.step 1 4 0 0 0 0)) (some 0)) =
      .done (.ok ((c : Int), .product (.full 4 1 (c + 1 : Nat) 4) (.leaf (.step 1 4 0 0 0 0)) (some 0))) := by
    intro n c hc
    match c, hc with
    | 0, _ => rfl
    | 1, _ => rfl
    | 2, _ => rfl
    | 3, _ => rfl
    | k + 4, hc => omega
  have hnext : ∀ (c : Nat) (data : List α), c < 4 → data.length = 4 → ∃ data' : List α, data'.length = 4 ∧
      writeAt data (c : Int) (some v) = .ok data' := by
    intro c data hc hd
    match data, hd, c, hc with
    | [a, b, d, e], _, 0, _ => exact ⟨[v, b, d, e], rfl, rfl⟩
    | [a, b, d, e], _, 1, _ => exact ⟨[a, v, d, e], rfl, rfl⟩
    | [a, b, d, e], _, 2, _ => exact ⟨[a, b, v, e], rfl, rfl⟩
    | [a, b, d, e], _, 3, _ => exact ⟨[a, b, d, v], rfl, rfl⟩
    | [a, b, d, e], _, k + 4, hc => omega
  induction n with
  | zero => intros; rfl
  | succ n ih =>
    intro c data hc hd
    have lt : ∀ c : Nat, c < 4 → fillLoop wrap v (n + 1) (.product (.full 4 1 c 4) (.leaf (.step 1 4 0 0 0 0)) (some 0)) data = .out := by
      intro c hc
      cases n with
      | zero => rfl
      | succ n =>
        obtain ⟨data', hd', e⟩ := hnext c data hc hd
        rw [fillLoop, hpop n c hc, Run.ok_bind]
        rw [if_neg (by show ¬ (c : Int) = -1; omega)]
        simp only [e, Run.ok_bind]
        exact ih (c + 1) data' (by omega) hd'
    rcases Nat.lt_or_ge c 4 with h | h
    · exact lt c h
    · have h4 : c = 4 := by omega
      subst h4
      cases n with
      | zero => rfl
      | succ n =>
        cases n with
        | zero => rfl
        | succ n =>
          obtain ⟨data', hd', e⟩ := hnext 0 data (by omega) hd
          have hp : pop wrap (n + 1 + 1) (.product (.full 4 1 (4 : Nat) 4) (.leaf (.step 1 4 0 0 0 0)) (some 0)) =
              .done (.ok (((0 : Nat) : Int), .product (.full 4 1 (0 + 1 : Nat) 4) (.leaf (.step 1 4 0 0 0 0)) (some 0))) := by
            rw [← hpop n 0 (by omega)]
            rfl
          rw [fillLoop, hp, Run.ok_bind]
          rw [if_neg (by show ¬ (((0 : Nat) : Int)) = -1; omega)]
          simp only [e, Run.ok_bind]
          exact ih (0 + 1) data' (by omega) hd'

/-- **C106, negation**: the step times the number of elements of a column overflows, although only the first column is selected. Filling
this column is undefined behaviour, and where overflow wraps, the step is zero and the loop never ends. -/
theorem c106_negation_endless (x y : α) :
    Valid (.step 0 0 (2 ^ 62)) 1 ∧
    Finishes (fun n => View.assignNumber n ⟨[4, 1], [x, x, x, x]⟩ [.all, .step 0 0 (2 ^ 62)] y)
      (.ok ⟨[4, 1], [y, y, y, y]⟩) ∧
    Finishes (fun n => assignNumber strict n ⟨[4, 1], [x, x, x, x]⟩ [.all, .step 0 0 (2 ^ 62)] y) .ub ∧
    Diverges (fun n => assignNumber wrap n ⟨[4, 1], [x, x, x, x]⟩ [.all, .step 0 0 (2 ^ 62)] y) := by
  refine ⟨by simp [Valid], ⟨8, ?_⟩, ⟨0, ?_⟩, ?_⟩
  · intro n hn
    obtain ⟨m, rfl⟩ : ∃ m, n = m + 8 := ⟨n - 8, by omega⟩
    rfl
  · intro n _
    rfl
  · intro n
    have e : mkView wrap ⟨[4, 1], [x, x, x, x]⟩ [.all, .step 0 0 (2 ^ 62)] =
        .ok ([4, 1], .product (.full 4 1 0 4) (.leaf (.step 1 4 0 0 0 0)) none) := rfl
    show (Run.done (mkView wrap _ _) >>= _) = _
    rw [e, Run.ok_bind]
    cases n with
    | zero => rfl
    | succ n =>
      show (fillLoop wrap y (n + 1) (.product (.full 4 1 (0 : Nat) 4) (.leaf (.step 1 4 0 0 0 0)) (some 0)) [x, x, x, x] >>= _) = _
      rw [fill_endless y (n + 1) 0 _ (by omega) rfl]
      rfl

theorem list_overflow (x : α) (n : Nat) (l : List Int) (hl : ∀ y ∈ l, y = 0) (hn : l.length = 2 ^ 32) :
    ValidAll [.list l, .list l] [1, 1] ∧ slice strict newReal n ⟨[1, 1], [x]⟩ [.list l, .list l] = .done .ub := by
  have hv : ValidAll [.list l, .list l] [1, 1] := by
    have : ∀ y ∈ l, 0 ≤ y ∧ y < ((1 : Nat) : Int) := by
      intro y hy
      rw [hl y hy]
      omega
    exact ⟨this, this, trivial⟩
  refine ⟨hv, ?_⟩
  obtain ⟨R, -, e, -⟩ := view_eq (ov := strict) ⟨[1, 1], [x]⟩ rfl [.list l, .list l] (by simp) (by simp [limits]) hv
    ⟨trivial, trivial, trivial⟩ (by norm_num)
  rw [slice, e, Run.ok_bind]
  have hs : specSizes [.list l, .list l] [1, 1] = [2 ^ 32, 2 ^ 32] := by
    simp only [specSizes, specSize, hn]
    norm_num
  have hl : limits [1, 1] [x].length [View.Spec.list l, .list l] = [1, 1] := rfl
  simp only [hl, hs]
  rfl

/-- **C106, negation**: lists may repeat indices, and then the size of a slice of a tensor with one element can overflow. -/
theorem c106_negation_list (x : α) : ∃ l : List Int, ValidAll [.list l, .list l] [1, 1] ∧
    ∀ n, slice strict newReal n ⟨[1, 1], [x]⟩ [.list l, .list l] = .done .ub := by
  obtain ⟨N, hN⟩ : ∃ N : Nat, N = 2 ^ 32 := ⟨_, rfl⟩
  refine ⟨List.replicate N 0, (list_overflow x 0 _ (fun y hy => List.eq_of_mem_replicate hy) ?_).1, fun n =>
    (list_overflow x n _ (fun y hy => List.eq_of_mem_replicate hy) ?_).2⟩ <;> rw [List.length_replicate, hN]

/-- **C106, negation**: without elements the products of the other dimensions are still computed. -/
theorem c106_negation_empty (n : Nat) :
    (⟨[0, 2 ^ 40, 2 ^ 40], []⟩ : Tensor α).WF ∧
    slice strict newReal n (⟨[0, 2 ^ 40, 2 ^ 40], []⟩ : Tensor α) [.all, .all, .all] = .done .ub := by
  refine ⟨by simp [Tensor.WF, Tensor.totalSize], rfl⟩

end Verif.ViewMachine
