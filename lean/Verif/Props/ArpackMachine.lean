import Verif.Model.ArpackMachine
import Verif.Props.Arpack
import Verif.Props.LapackMachine
/-
C116: sizes and arrays which are given to Arpack.

`w` is the number of bits of blas::integer.
-/
namespace Verif.ArpackMachine

open Verif Tensor Machine Arpack LapackMachine Spec

variable {L α β γ : Type}

theorem mulI_if (w a b : Nat) : mulI w (a : Int) (b : Int) = if a * b < 2 ^ (w - 1) then .ok ((a * b : Nat) : Int) else .ub := by
  by_cases h : a * b < 2 ^ (w - 1)
  · rw [if_pos h, mulI_nat h]
  · have e : (a : Int) * (b : Int) = ((a * b : Nat) : Int) := by push_cast; rfl
    have e' : ((2 : Int) ^ (w - 1)) = ((2 ^ (w - 1) : Nat) : Int) := by push_cast; rfl
    rw [if_neg h, mulI, e, e', if_neg (by omega)]

theorem addI_if (w a b : Nat) : addI w (a : Int) (b : Int) = if a + b < 2 ^ (w - 1) then .ok ((a + b : Nat) : Int) else .ub := by
  have e' : ((2 : Int) ^ (w - 1)) = ((2 ^ (w - 1) : Nat) : Int) := by push_cast; rfl
  rw [addI, e']
  by_cases h : a + b < 2 ^ (w - 1)
  · rw [if_pos h, if_pos (by omega)]; congr 1
  · rw [if_neg h, if_neg (by omega)]

/-- The number of vectors which Arpack keeps. -/
def basis (n nev : Nat) : Nat := min (max (2 * nev) 20) n

/-- The workspace which the manual requires. -/
def space (complex : Bool) (ncv : Nat) : Nat := if complex then ncv * (3 * ncv + 5) else ncv * (ncv + 8)

/-- The limit of iterations. -/
def limit (n ncv : Nat) : Nat := (2 * n + ncv - 1) / ncv

/-- The sizes are numbers of type blas::integer, and the limit of iterations is an int. -/
structure Fits (w : Nat) (complex : Bool) (n nev : Nat) : Prop where
  twice : 2 * nev < 2 ^ (w - 1)
  vectors : n * basis n nev < 2 ^ (w - 1)
  steps : limit n (basis n nev) < 2 ^ 31
  workl : space complex (basis n nev) < 2 ^ (w - 1)
  workd : n * 3 < 2 ^ (w - 1)

/-- The object for given sizes. -/
def object [Neg β] [One β] (complex : Bool) (junk : Nat → α) (n nev : Nat) (which : String) : Obj α β where
  status := .initialized
  args := ⟨n, which, nev, basis n nev, space complex (basis n nev)⟩
  maxit := max 300 (limit n (basis n nev))
  work := {
    ido := 0
    info := 0
    tol := -1
    resid := (List.range n).map junk
    V := (List.range (n * basis n nev)).map junk
    iparam := [1, 0, (max 300 (limit n (basis n nev)) : Nat), 1, 0, 0, 1, 0, 0, 0, 0]
    ipntr := List.replicate 15 0
    workd := (List.range (n * 3)).map junk
    workl := (List.range (space complex (basis n nev))).map junk }
  error := none

theorem steps_nat {n ncv : Nat} (h : 0 < ncv) :
    steps (n : Int) (ncv : Int) = if limit n ncv < 2 ^ 31 then .ok (limit n ncv : Int) else .ub := by
  have e : (2 * (n : Int) + max (ncv : Int) 1 - 1) / max (ncv : Int) 1 = (limit n ncv : Int) := by
    have e1 : max (ncv : Int) 1 = (ncv : Int) := by omega
    have e2 : 2 * (n : Int) + (ncv : Int) - 1 = ((2 * n + ncv - 1 : Nat) : Int) := by omega
    rw [e1, e2, limit]
    norm_cast
  rw [steps, e]
  generalize limit n ncv = q
  show (if -2 ^ 31 ≤ (q : Int) ∧ (q : Int) < 2 ^ 31 then Res.ok (q : Int) else .ub) = _
  by_cases hq : q < 2 ^ 31
  · rw [if_pos hq, if_pos (by omega)]
  · rw [if_neg hq, if_neg (by omega)]

theorem lworkl_nat (w : Nat) (complex : Bool) {ncv : Nat} (h0 : 0 < ncv) :
    lworkl w complex (ncv : Int) = if space complex ncv < 2 ^ (w - 1) then .ok (space complex ncv : Int) else .ub := by
  cases complex
  · simp only [lworkl, Bool.false_eq_true, if_false, space]
    have e := addI_if w ncv 8
    push_cast at e
    rw [e]
    have h1 : ncv + 8 ≤ ncv * (ncv + 8) := Nat.le_mul_of_pos_left _ h0
    by_cases h : ncv + 8 < 2 ^ (w - 1)
    · rw [if_pos h, Res.ok_bind]
      have e2 := mulI_if w ncv (ncv + 8)
      push_cast at e2
      rw [e2]
      push_cast
      rfl
    · rw [if_neg h, if_neg (by omega), Res.ub_bind]
  · simp only [lworkl, if_true, space]
    have e := mulI_if w 3 ncv
    push_cast at e
    have h1 : 3 * ncv + 5 ≤ ncv * (3 * ncv + 5) := Nat.le_mul_of_pos_left _ h0
    rw [e]
    by_cases h : 3 * ncv < 2 ^ (w - 1)
    · rw [if_pos h, Res.ok_bind]
      have e2 := addI_if w (3 * ncv) 5
      push_cast at e2
      rw [e2]
      by_cases h' : 3 * ncv + 5 < 2 ^ (w - 1)
      · rw [if_pos h', Res.ok_bind]
        have e3 := mulI_if w ncv (3 * ncv + 5)
        push_cast at e3
        rw [e3]
        push_cast
        rfl
      · rw [if_neg h', if_neg (by omega), Res.ub_bind]
    · rw [if_neg h, if_neg (by omega), Res.ub_bind]

/-- What the constructor makes of sizes in the range. -/
theorem sized_fits [Neg β] [One β] {w : Nat} {complex : Bool} (junk : Nat → α) {n nev : Nat} (which : String)
    (h0 : 0 < nev) (hn : nev < n) (hf : Fits w complex n nev) :
    sized (β := β) w complex junk (n : Int) (nev : Int) which = .ok (object complex junk n nev which) := by
  obtain ⟨f1, f2, f3, f4, f5⟩ := hf
  have hb : 0 < basis n nev := by unfold basis; omega
  have e0 : addI w (n : Int) (-1) = .ok ((n : Int) - 1) := by
    have e' : ((2 : Int) ^ (w - 1)) = ((2 ^ (w - 1) : Nat) : Int) := by push_cast; rfl
    rw [addI, e', if_pos (by omega)]
    congr 1
  have e1 := mulI_if w 2 nev
  rw [if_pos f1] at e1
  push_cast at e1
  have e2 : min (max (2 * (nev : Int)) 20) (n : Int) = (basis n nev : Int) := by unfold basis; omega
  have e3 := mulI_if w n (basis n nev)
  rw [if_pos f2] at e3
  have e4 := mulI_if w n 3
  rw [if_pos f5] at e4
  have e5 := mulI_if w (basis n nev) 3
  rw [if_pos (by have : basis n nev ≤ n := by unfold basis; omega
                 omega)] at e5
  push_cast at e4 e5
  simp only [sized]
  rw [e0, Res.ok_bind, Res.assert_pos (by omega), Res.ok_bind, cells_nat, Res.ok_bind, e1, Res.ok_bind]
  simp only [e2]
  rw [e3, Res.ok_bind, cells_nat, Res.ok_bind, steps_nat hb, if_pos f3, Res.ok_bind, lworkl_nat w complex hb, if_pos f4,
    Res.ok_bind, e5, Res.ok_bind, e4, Res.ok_bind]
  have e6 : cells ((n : Int) * 3) = .ok (n * 3) := by
    have := cells_nat (n * 3)
    push_cast at this
    exact this
  have e7 : cells ((basis n nev : Int) * 3) = .ok (basis n nev * 3) := by
    have := cells_nat (basis n nev * 3)
    push_cast at this
    exact this
  rw [e6, Res.ok_bind, cells_nat, Res.ok_bind, e7, Res.ok_bind, cells_nat, Res.ok_bind, Res.assert_pos (by omega), Res.ok_bind]
  simp only [Int.toNat_natCast, object]
  congr 2
  · omega
  · congr 3
    push_cast
    rfl

/-- Sizes which do not fit are undefined. -/
theorem sized_ub [Neg β] [One β] {w : Nat} {complex : Bool} (junk : Nat → α) {n nev : Nat} (which : String)
    (h0 : 0 < nev) (hn : nev < n) (hw : n < 2 ^ (w - 1)) (hf : ¬ Fits w complex n nev) :
    sized (β := β) w complex junk (n : Int) (nev : Int) which = .ub := by
  have hb : 0 < basis n nev := by unfold basis; omega
  have e0 : addI w (n : Int) (-1) = .ok ((n : Int) - 1) := by
    have e' : ((2 : Int) ^ (w - 1)) = ((2 ^ (w - 1) : Nat) : Int) := by push_cast; rfl
    rw [addI, e', if_pos (by omega)]
    congr 1
  have e1 := mulI_if w 2 nev
  push_cast at e1
  simp only [sized]
  rw [e0, Res.ok_bind, Res.assert_pos (by omega), Res.ok_bind, cells_nat, Res.ok_bind, e1]
  by_cases f1 : 2 * nev < 2 ^ (w - 1)
  swap
  · rw [if_neg f1, Res.ub_bind]
  rw [if_pos f1, Res.ok_bind]
  have e2 : min (max (2 * (nev : Int)) 20) (n : Int) = (basis n nev : Int) := by unfold basis; omega
  simp only [e2]
  rw [mulI_if w n (basis n nev)]
  by_cases f2 : n * basis n nev < 2 ^ (w - 1)
  swap
  · rw [if_neg f2, Res.ub_bind]
  rw [if_pos f2, Res.ok_bind, cells_nat, Res.ok_bind, steps_nat hb]
  by_cases f3 : limit n (basis n nev) < 2 ^ 31
  swap
  · rw [if_neg f3, Res.ub_bind]
  rw [if_pos f3, Res.ok_bind, lworkl_nat w complex hb]
  by_cases f4 : space complex (basis n nev) < 2 ^ (w - 1)
  swap
  · rw [if_neg f4, Res.ub_bind]
  rw [if_pos f4, Res.ok_bind]
  have e5 := mulI_if w (basis n nev) 3
  push_cast at e5
  rw [e5]
  by_cases f6 : basis n nev * 3 < 2 ^ (w - 1)
  swap
  · rw [if_neg f6, Res.ub_bind]
  rw [if_pos f6, Res.ok_bind]
  have e4 := mulI_if w n 3
  push_cast at e4
  rw [e4]
  by_cases f5 : n * 3 < 2 ^ (w - 1)
  · exact absurd ⟨f1, f2, f3, f4, f5⟩ hf
  · rw [if_neg f5, Res.ub_bind]

theorem limit_eq {n ncv : Nat} (h : 0 < ncv) : (2 * n + max ncv 1 - 1) / max ncv 1 = limit n ncv := by
  rw [show max ncv 1 = ncv by omega, limit]

/-- The object of unbounded integers. -/
theorem construct_object [Neg β] [One β] {complex : Bool} (junk : Nat → α) {n nev : Nat} {t : Int}
    (h0 : 0 < nev) (hn : nev < n) : Arpack.construct (β := β) complex junk n t nev =
      if complex = false ∧ (t = 4 ∨ t = 5) then .abort
      else if t < 0 ∨ t > 6 then .abort
      else match (whichs complex)[t.toNat]? with
        | none => .ub
        | some which => .ok (object complex junk n nev which) := by
  have hb : 0 < basis n nev := by unfold basis; omega
  unfold Arpack.construct
  split
  · rfl
  · split
    · rfl
    · cases h : (whichs complex)[t.toNat]? with
      | none => rfl
      | some which =>
        simp only []
        rw [if_neg (by omega)]
        simp only [object]
        rw [limit_eq (show 0 < min (max (2 * nev) 20) n by omega)]
        rfl

/-- The object depends on the sizes after conversion only. -/
theorem construct_conv [Neg β] [One β] {w : Nat} {complex : Bool} (junk : Nat → α) {N n nev : Nat} {t : Int} {K : Nat}
    (eN : conv w N = (n : Int)) (eK : conv w K = (nev : Int)) (h0 : 0 < nev) (hn : nev < n) (hf : Fits w complex n nev) :
    construct (β := β) w complex junk N t K = Arpack.construct complex junk n t nev := by
  rw [construct_object junk h0 hn, construct]
  split
  · rfl
  · split
    · rfl
    · cases h : (whichs complex)[t.toNat]? with
      | none => rfl
      | some which =>
        simp only [eN, eK]
        exact sized_fits junk which h0 hn hf

/-- A number of eigenvalues which is refused. -/
theorem sized_refused [Neg β] [One β] {w : Nat} {complex : Bool} (junk : Nat → α) {n nev : Nat} (which : String)
    (h : nev = 0 ∨ n ≤ nev) (hw : n < 2 ^ (w - 1)) :
    sized (β := β) w complex junk (n : Int) (nev : Int) which = .abort := by
  have e' : ((2 : Int) ^ (w - 1)) = ((2 ^ (w - 1) : Nat) : Int) := by push_cast; rfl
  simp only [sized]
  rw [addI, e', if_pos (by omega), Res.ok_bind, Res.assert_neg (by omega), Res.abort_bind]

/-- C116: if the sizes fit in blas::integer, the object of Arpack is that of unbounded integers: no computation of a size
overflows. -/
theorem c116_construct_partial [Neg β] [One β] {w : Nat} (hw : 1 ≤ w) {complex : Bool} (junk : Nat → α) {n nev : Nat} (t : Int)
    (hf : Fits w complex n nev) :
    construct (β := β) w complex junk n t nev = Arpack.construct complex junk n t nev := by
  have f5 := hf.workd
  have f1 := hf.twice
  have eN : conv w n = (n : Int) := conv_nat hw (by omega)
  have eK : conv w nev = (nev : Int) := conv_nat hw (by omega)
  by_cases h : nev = 0 ∨ n ≤ nev
  · unfold construct Arpack.construct
    split
    · rfl
    · split
      · rfl
      · cases (whichs complex)[t.toNat]? with
        | none => rfl
        | some which =>
          simp only [eN, eK]
          rw [sized_refused junk which h (by omega), if_pos (by omega)]
  · exact construct_conv junk eN eK (by omega) (by omega) hf

/-- C116 is false otherwise: the sizes overflow before Arpack is called. -/
theorem c116_negation_overflow [Neg β] [One β] {w : Nat} (hw : 1 ≤ w) {complex : Bool} (junk : Nat → α) {n nev : Nat} {t : Int}
    (ht : ValidType complex t) (h0 : 0 < nev) (hn : nev < n) (hN : n < 2 ^ (w - 1)) (hf : ¬ Fits w complex n nev) :
    construct (β := β) w complex junk n t nev = .ub := by
  obtain ⟨t0, t5, t3⟩ := ht
  rw [construct, if_neg (by rintro ⟨rfl, h⟩; have := t3 rfl; omega), if_neg (by omega)]
  split
  · rfl
  · rw [conv_nat hw hN, conv_nat hw (show nev < 2 ^ (w - 1) by omega), sized_ub junk _ h0 hn hN hf]

theorem bind_ok {x : Res α} {f : α → Res β} {b : β} (h : x >>= f = .ok b) : ∃ a, x = .ok a ∧ f a = .ok b := by
  cases x with
  | ok a => exact ⟨a, rfl, h⟩
  | abort => exact absurd h (by simp)
  | ub => exact absurd h (by simp)

theorem assert_ok {p : Prop} [Decidable p] {u : PUnit} (h : Res.assert p = .ok u) : p := by
  by_contra hp
  rw [Res.assert_neg hp] at h
  exact absurd h (by simp)

theorem addI_ok {w : Nat} {a b c : Int} (h : addI w a b = .ok c) : c = a + b := by
  unfold addI at h
  split at h
  · exact (Res.ok.inj h).symm
  · exact absurd h (by simp)

/-- An object is made only for sizes in the right order. -/
theorem sized_pos [Neg β] [One β] {w : Nat} {complex : Bool} {junk : Nat → α} {n nev : Int} {which : String} {o : Obj α β}
    (h : sized w complex junk n nev which = .ok o) : 0 < nev ∧ nev < n := by
  simp only [sized] at h
  obtain ⟨last, h1, h⟩ := bind_ok h
  obtain ⟨_, h2, h⟩ := bind_ok h
  have h2 := assert_ok h2
  have h1 := addI_ok h1
  obtain ⟨_, -, h⟩ := bind_ok h
  obtain ⟨_, -, h⟩ := bind_ok h
  obtain ⟨_, -, h⟩ := bind_ok h
  obtain ⟨_, -, h⟩ := bind_ok h
  obtain ⟨_, -, h⟩ := bind_ok h
  obtain ⟨_, -, h⟩ := bind_ok h
  obtain ⟨_, -, h⟩ := bind_ok h
  obtain ⟨_, -, h⟩ := bind_ok h
  obtain ⟨_, -, h⟩ := bind_ok h
  obtain ⟨_, -, h⟩ := bind_ok h
  obtain ⟨_, -, h⟩ := bind_ok h
  obtain ⟨_, -, h⟩ := bind_ok h
  obtain ⟨_, h3, -⟩ := bind_ok h
  have h3 := assert_ok h3
  omega

theorem conv_lt {w : Nat} (hw : 1 ≤ w) (x : Int) : conv w x < ((2 ^ (w - 1) : Nat) : Int) := by
  have h : 2 ^ w = 2 * 2 ^ (w - 1) := by rw [← pow_succ']; congr 1; omega
  have := Int.bmod_lt (x := x) (m := 2 ^ w) (by positivity)
  unfold conv
  omega

/-- C116: whatever the sizes are, an object which is made is ready for a first call that the manual allows: the arrays
have the sizes which Arpack is told, and its size is n modulo 2^w. -/
theorem c116_room [Neg β] [One β] {w : Nat} (hw : 1 ≤ w) {complex : Bool} {junk : Nat → α} {n nev : Nat} {t : Int}
    (ht : ValidType complex t) {o : Obj α β} (h : construct w complex junk n t nev = .ok o) :
    FirstCall complex o.args o.work ∧ n % 2 ^ w = o.args.n ∧ nev % 2 ^ w = o.args.nev ∧ o.args.n < 2 ^ (w - 1) ∧
      meaning o.args.which = some t := by
  have h' := h
  obtain ⟨t0, t5, t3⟩ := id ht
  rw [construct, if_neg (by rintro ⟨rfl, h⟩; have := t3 rfl; omega), if_neg (by omega)] at h
  cases hwh : (whichs complex)[t.toNat]? with
  | none => rw [hwh] at h; exact absurd h (by simp)
  | some which =>
    rw [hwh] at h
    simp only [] at h
    obtain ⟨p1, p2⟩ := sized_pos h
    have hlt := conv_lt hw n
    obtain ⟨m, hm⟩ := Int.eq_ofNat_of_zero_le (show 0 ≤ conv w n by omega)
    obtain ⟨k, hk⟩ := Int.eq_ofNat_of_zero_le (show 0 ≤ conv w nev by omega)
    rw [hm, hk] at h p2
    rw [hk] at p1
    rw [hm] at hlt
    have q1 : 0 < k := by omega
    have q2 : k < m := by omega
    have hf : Fits w complex m k := by
      by_contra hf
      rw [sized_ub junk which q1 q2 (by omega) hf] at h
      exact absurd h (by simp)
    obtain ⟨o', e1, -, e2, e3, e4, e5, -⟩ := c74_construct (β := β) complex junk ht q1 q2
    rw [← construct_conv junk hm hk q1 q2 hf, h'] at e1
    obtain rfl := Res.ok.inj e1
    have hmod : ∀ x y : Nat, conv w x = (y : Int) → y < 2 ^ (w - 1) → x % 2 ^ w = y := by
      intro x y hxy hy
      have hpow : 2 ^ (w - 1) ≤ 2 ^ w := Nat.pow_le_pow_right (by decide) (by omega)
      have this := Int.bmod_emod (x := (x : Int)) (m := 2 ^ w)
      unfold conv at hxy
      rw [hxy] at this
      norm_cast at this
      rw [← this, Nat.mod_eq_of_lt (by omega)]
    refine ⟨e5, ?_, ?_, by omega, e4⟩
    · rw [e2]; exact hmod n m hm (by omega)
    · rw [e3]; exact hmod nev k hk (by omega)

theorem afterCall_args {o o' : Obj α β} (h : afterCall o = .ok o') : o'.args = o.args := by
  unfold afterCall at h
  split at h
  · split at h
    · rw [← Res.ok.inj h]
    · split at h
      · rw [← Res.ok.inj h]
      · split at h
        · exact absurd h (by simp)
        · rw [← Res.ok.inj h]
  · split at h
    · rw [← Res.ok.inj h]
    · rw [← Res.ok.inj h]

theorem update_args {lib : Lib L α β} {l : L} {o : Obj α β} {r : L × Obj α β} (h : update lib l o = .ok r) :
    r.2.args = o.args := by
  unfold update at h
  split at h
  · rw [← Res.ok.inj h]
  · split at h
    · rw [← Res.ok.inj h]
    · obtain ⟨o', h1, h2⟩ := bind_ok h
      rw [← Res.ok.inj h2]
      exact (afterCall_args h1).trans rfl

theorem loop_args {lib : Lib L α β} {answer : Obj α β → Res (Obj α β)}
    (ha : ∀ o o', answer o = .ok o' → o'.args = o.args) : ∀ {fuel : Nat} {l : L} {o : Obj α β} {r : L × Obj α β},
    Arpack.loop lib answer fuel l o = .done (.ok r) → r.2.args = o.args
  | 0, _, _, _, h => by exact absurd h (by simp [Arpack.loop])
  | fuel + 1, l, o, r, h => by
    rw [Arpack.loop] at h
    cases hu : update lib l o with
    | abort => rw [hu, Run.abort_bind] at h; exact absurd h (by simp)
    | ub => rw [hu, Run.ub_bind] at h; exact absurd h (by simp)
    | ok u =>
      rw [hu, Run.ok_bind] at h
      have := update_args hu
      split at h
      · cases hv : answer u.2 with
        | abort => rw [hv, Run.abort_bind] at h; exact absurd h (by simp)
        | ub => rw [hv, Run.ub_bind] at h; exact absurd h (by simp)
        | ok o' =>
          rw [hv, Run.ok_bind] at h
          rw [loop_args ha h, ha _ _ hv, this]
      · have e : r = u := by
          injection h with h
          exact (Res.ok.inj h).symm
        rw [e, this]

/-- The tensor `vectors` before the first call. -/
theorem start_args {o o' : Obj α β} {vectors : Option (Tensor α)} {n : Nat} (h : (match vectors with
    | some v => if v.size ≥ n then setStartVector o v.data else .ok o
    | none => .ok o) = Res.ok o') : o'.args = o.args := by
  cases vectors with
  | none => rw [← Res.ok.inj h]
  | some v =>
    simp only [] at h
    split at h
    · unfold setStartVector at h
      split at h
      · exact absurd h (by simp)
      · split at h
        · exact absurd h (by simp)
        · rw [← Res.ok.inj h]
    · rw [← Res.ok.inj h]

theorem run_bind {x : Run α} {f g : α → Run β} (h : ∀ a, x = .done (.ok a) → f a = g a) : x >>= f = x >>= g := by
  cases x with
  | out => rfl
  | done r =>
    cases r with
    | ok a => exact h a rfl
    | abort => rfl
    | ub => rfl

theorem done_inj {x : Res α} {a : α} (h : Run.done x = .done (.ok a)) : x = .ok a := by
  injection h

theorem conv32_nat {n : Nat} (h : n < 2 ^ 31) : conv 32 (n : Int) = n := conv_nat (by decide) (by simpa using h)

/-- The case n > 4 does the same as with unbounded integers. -/
theorem large_eq [Zero α] [Neg β] [One β] {w fuel : Nat} (hw : 1 ≤ w) {complex : Bool} {junk : Nat → α} {lib : Lib L α β}
    {l : L} {answer : Obj α β → Res (Obj α β)} (ha : ∀ o o', answer o = .ok o' → o'.args = o.args) {n : Nat} {t : Int}
    {neig : Nat} {vectors : Option (Tensor α)} {wantC : Bool} (hf : Fits w complex n neig)
    (hv : vectors = none ∨ n < 2 ^ 31) :
    large w fuel complex junk lib l answer n t neig vectors wantC =
      Arpack.large fuel complex junk lib l answer n t neig vectors wantC := by
  unfold large Arpack.large
  rw [c116_construct_partial hw junk t hf]
  refine run_bind fun o ho => ?_
  refine run_bind fun o1 ho1 => ?_
  refine run_bind fun r hr => ?_
  have hn : vectors.isSome = true → conv 32 r.2.args.n = r.2.args.n := by
    intro hs
    have hn : n < 2 ^ 31 := by
      rcases hv with rfl | hv
      · simp at hs
      · exact hv
    rw [loop_args ha hr, start_args (done_inj ho1)]
    have ho := done_inj ho
    have : o.args.n = n := by
      unfold Arpack.construct at ho
      split at ho
      · exact absurd ho (by simp)
      · split at ho
        · exact absurd ho (by simp)
        · split at ho
          · exact absurd ho (by simp)
          · split at ho
            · exact absurd ho (by simp)
            · rw [← Res.ok.inj ho]
    rw [this]
    exact conv32_nat hn
  have e : getData fuel lib r.1 r.2 vectors.isSome = Arpack.getData fuel lib r.1 r.2 vectors.isSome := by
    unfold getData
    rw [if_neg (by intro h; exact h.2 (hn h.1))]
  rw [finish, e, Arpack.finish]

theorem answerMatrix_args [Zero α] [Add α] [Mul α] {A : Tensor α} {n : Nat} {o o' : Obj α β}
    (h : Arpack.answerMatrix A n o = .ok o') : o'.args = o.args := by
  unfold Arpack.answerMatrix at h
  obtain ⟨_, -, h⟩ := bind_ok h
  obtain ⟨_, -, h⟩ := bind_ok h
  obtain ⟨_, -, h⟩ := bind_ok h
  rw [← Res.ok.inj h]

theorem answerMap_args {f : Tensor α → Res (Tensor α)} {o o' : Obj α β} (h : answerMap f o = .ok o') : o'.args = o.args := by
  unfold answerMap setY at h
  obtain ⟨_, -, h⟩ := bind_ok h
  obtain ⟨_, -, h⟩ := bind_ok h
  obtain ⟨_, -, h⟩ := bind_ok h
  obtain ⟨_, -, h⟩ := bind_ok h
  obtain ⟨_, -, h⟩ := bind_ok h
  rw [← Res.ok.inj h]

theorem answerMatrix_eq [Zero α] [Add α] [Mul α] {w : Nat} (hw : 1 ≤ w) (A : Tensor α) {n : Nat} (h : n < 2 ^ (w - 1)) :
    answerMatrix (β := β) w A n = Arpack.answerMatrix A n := by
  funext o
  rw [answerMatrix, conv_nat hw h, Res.assert_pos (by omega), Res.ok_bind, Int.toNat_natCast]

/-- C116: eigs of a matrix in machine words is eigs with unbounded integers if the sizes fit, and, when the vectors are wanted,
n is an int. -/
theorem c116_eigs_partial [Zero α] [Add α] [Mul α] [Neg β] [One β] {w : Nat} (hw : 1 ≤ w) (fuel : Nat) {complex : Bool}
    (N : Num α β γ) (eig : Tensor α → Bool → Bool → Res (Tensor γ × Option (Tensor γ) × Option (Tensor γ)))
    (junk : Nat → α) (lib : Lib L α β) (l : L) {A : Tensor α} (t : Int) {neig : Nat} (vectors : Option (Tensor α))
    (wantC : Bool) (hf : ∀ n, A.dimension 1 = .ok n → 4 < n → Fits w complex n neig ∧ (vectors = none ∨ n < 2 ^ 31)) :
    eigs w fuel complex N eig junk lib l A t neig vectors wantC =
      Arpack.eigs fuel complex N eig junk lib l A t neig vectors wantC := by
  unfold eigs Arpack.eigs
  refine run_bind fun n hn => ?_
  refine run_bind fun rows hrows => ?_
  split
  · rfl
  · split
    · rfl
    · split
      · rfl
      · obtain ⟨h1, h2⟩ := hf n (done_inj hn) (by omega)
        have h5 := h1.workd
        rw [answerMatrix_eq hw A (by omega)]
        exact large_eq hw (fun o o' h => answerMatrix_args h) h1 h2

/-- C116: the same for a function in the place of the matrix. -/
theorem c116_map_partial [Zero α] [One α] [Neg β] [One β] {w : Nat} (hw : 1 ≤ w) (fuel : Nat) {complex : Bool}
    (N : Num α β γ) (eig : Tensor γ → Bool → Bool → Res (Tensor γ × Option (Tensor γ) × Option (Tensor γ)))
    (up : α → γ) (junkM : Nat → γ) (junk : Nat → α) (lib : Lib L α β) (l : L) (f : Tensor α → Res (Tensor α)) {n : Nat}
    (t : Int) {neig : Nat} (vectors : Option (Tensor α)) (wantC : Bool)
    (hf : 4 < n → Fits w complex n neig ∧ (vectors = none ∨ n < 2 ^ 31)) :
    doEigs w fuel complex N eig up junkM junk lib l f n t neig vectors wantC =
      Arpack.doEigs fuel complex N eig up junkM junk lib l f n t neig vectors wantC := by
  unfold doEigs Arpack.doEigs
  split
  · rfl
  · split
    · rfl
    · obtain ⟨h1, h2⟩ := hf (by omega)
      exact large_eq hw (fun o o' h => answerMap_args h) h1 h2

theorem dimension_WF {A : Tensor α} (hA : A.WF) {n : Nat} (h1 : A.dimension 1 = .ok n) (h0 : A.dimension 0 = .ok n)
    (hr : A.rank = 2) : A.data.length = n * n := by
  obtain ⟨dims, data⟩ := A
  obtain ⟨a, b, rfl⟩ : ∃ a b, dims = [a, b] := by
    simp only [Tensor.rank] at hr
    match dims, hr with
    | [a, b], _ => exact ⟨a, b, rfl⟩
  have ha : a = n := by simpa [Tensor.dimension, Res.assert, Tensor.rank] using h0
  have hb : b = n := by simpa [Tensor.dimension, Res.assert, Tensor.rank] using h1
  subst ha hb
  simpa [Tensor.WF, Tensor.totalSize] using hA

/-- C116: a matrix which is in memory (its elements have 8 bytes or more, and there are less than 2^62 bytes) has a size which 32
bits can hold: eigs is right, if the sizes of the arrays fit, and undefined, if they do not. -/
theorem c116_memory [Zero α] [Add α] [Mul α] [Neg β] [One β] (fuel : Nat) {complex : Bool}
    (N : Num α β γ) (eig : Tensor α → Bool → Bool → Res (Tensor γ × Option (Tensor γ) × Option (Tensor γ)))
    (junk : Nat → α) (lib : Lib L α β) (l : L) {A : Tensor α} (hA : A.WF) {n : Nat} (hr : A.rank = 2)
    (h1 : A.dimension 1 = .ok n) (h0 : A.dimension 0 = .ok n) (hm : A.data.length * 8 < 2 ^ 62) {t : Int}
    (ht : ValidType complex t) {neig : Nat} (hn : 4 < n) (hk : 0 < neig) (hkn : neig < n) (vectors : Option (Tensor α))
    (wantC : Bool) :
    (Fits 32 complex n neig → eigs 32 fuel complex N eig junk lib l A t neig vectors wantC =
      Arpack.eigs fuel complex N eig junk lib l A t neig vectors wantC) ∧
    (¬ Fits 32 complex n neig → eigs 32 fuel complex N eig junk lib l A t neig vectors wantC = .done .ub) := by
  have hlen := dimension_WF hA h1 h0 hr
  have hn31 : n < 2 ^ 31 := by
    by_contra hc
    have : 2 ^ 31 * 2 ^ 31 ≤ n * n := Nat.mul_le_mul (by omega) (by omega)
    omega
  constructor
  · intro hf
    refine c116_eigs_partial (by decide) fuel N eig junk lib l t vectors wantC fun m hm _ => ?_
    rw [h1] at hm
    obtain rfl := Res.ok.inj hm
    exact ⟨hf, .inr hn31⟩
  · intro hf
    unfold eigs
    rw [h1, Run.ok_bind, h0, Run.ok_bind, if_neg (by omega), if_neg (by omega), if_neg (by omega), large,
      c116_negation_overflow (by decide) junk ht hk hkn (by simpa using hn31) hf, Run.ub_bind]

theorem conv_add {w m : Nat} (hw : 1 ≤ w) (hm : m < 2 ^ (w - 1)) : conv w ((2 ^ w + m : Nat) : Int) = (m : Int) := by
  rw [← conv_nat hw hm]
  unfold conv
  rw [Nat.cast_add, Int.add_bmod_left]

/-- C116 is false of functions of many elements: eigs of a function of vectors of 2^w + m elements calls it with vectors of m
elements, and returns the eigenvalues of this other function. -/
theorem c116_negation_map [Zero α] [One α] [Neg β] [One β] {w : Nat} (hw : 1 ≤ w) (fuel : Nat) {complex : Bool}
    (N : Num α β γ) (eig : Tensor γ → Bool → Bool → Res (Tensor γ × Option (Tensor γ) × Option (Tensor γ)))
    (up : α → γ) (junkM : Nat → γ) (junk : Nat → α) (lib : Lib L α β) (l : L) (f : Tensor α → Res (Tensor α)) {m : Nat}
    (t : Int) {neig : Nat} (wantC : Bool) (h4 : 4 < m) (hk : 0 < neig) (hkm : neig < m) (hf : Fits w complex m neig) :
    doEigs w fuel complex N eig up junkM junk lib l f (2 ^ w + m) t neig none wantC =
      Arpack.doEigs fuel complex N eig up junkM junk lib l f m t neig none wantC := by
  have h5 := hf.workd
  rw [← c116_map_partial hw fuel N eig up junkM junk lib l f t none wantC fun _ => ⟨hf, .inl rfl⟩]
  have e1 : conv w (m : Int) = (m : Int) := conv_nat hw (by omega)
  have e2 : conv w (neig : Int) = (neig : Int) := conv_nat hw (by omega)
  unfold doEigs
  have hpos : 0 < 2 ^ w := by positivity
  rw [if_neg (by omega), if_neg (by omega), if_neg (by omega), if_neg (by omega)]
  unfold large
  rw [construct_conv junk (conv_add hw (by omega)) e2 hk hkm hf, construct_conv junk e1 e2 hk hkm hf]

/-- C116 is false of vectors of 2^31 elements or more, also with integers of 64 bits, because ldz is an int: eigs does not return
the eigenvectors. -/
theorem c116_negation_ldz [Zero α] [One α] [Neg β] [One β] {w : Nat} (hw : 1 ≤ w) (fuel : Nat) {complex : Bool}
    (N : Num α β γ) (eig : Tensor γ → Bool → Bool → Res (Tensor γ × Option (Tensor γ) × Option (Tensor γ)))
    (up : α → γ) (junkM : Nat → γ) (junk : Nat → α) (lib : Lib L α β) (l : L) (f : Tensor α → Res (Tensor α)) {n : Nat}
    {t : Int} {neig : Nat} (v : Tensor α) (hn : 2 ^ 31 ≤ n) (hN : n < 2 ^ (w - 1)) (ht : ValidType complex t) (r : Out α) :
    doEigs w fuel complex N eig up junkM junk lib l f n t neig (some v) false ≠ .done (.ok r) := by
  unfold doEigs
  split
  · simp
  · rw [if_neg (by omega)]
    unfold large
    cases hc : construct (β := β) w complex junk n t neig with
    | abort => simp
    | ub => simp
    | ok o =>
      rw [Run.ok_bind]
      have hroom := (c116_room hw ht hc).2.1
      have hpow : 2 ^ (w - 1) ≤ 2 ^ w := Nat.pow_le_pow_right (by decide) (by omega)
      rw [Nat.mod_eq_of_lt (by omega)] at hroom
      simp only []
      cases hs : (if v.size ≥ n then setStartVector o v.data else Res.ok o) with
      | abort => simp
      | ub => simp
      | ok o1 =>
        have ha := start_args (vectors := some v) hs
        rw [Run.ok_bind]
        cases hl : Arpack.loop lib (answerMap f) fuel l o1 with
        | out => simp
        | done x =>
          cases x with
          | abort => simp
          | ub => simp
          | ok u =>
            rw [Run.ok_bind]
            have hu := loop_args (fun o o' h => answerMap_args h) hl
            have hbig : conv 32 (u.2.args.n : Int) ≠ u.2.args.n := by
              rw [hu, ha, ← hroom]
              have := conv_lt (w := 32) (by decide) (n : Int)
              intro h
              rw [h] at this
              norm_num at this hn
              omega
            unfold finish
            split
            · rw [getData, if_pos ⟨rfl, hbig⟩, Run.ub_bind]
              simp
            · cases errorMessage u.2 with
              | ok s => rw [Run.ok_bind]; simp
              | abort => simp
              | ub => simp

/-- C116: with integers of 32 bits, up to ten eigenvalues can be computed of up to 107374182 elements, and not of more. -/
theorem c116_limit (complex : Bool) {n nev : Nat} (h : nev ≤ 10) (hn : 20 ≤ n) :
    Fits 32 complex n nev ↔ n ≤ 107374182 := by
  have hb : basis n nev = 20 := by unfold basis; omega
  constructor
  · intro hf
    have := hf.vectors
    rw [hb] at this
    norm_num at this
    omega
  · intro hn'
    have hs : space complex 20 ≤ 1300 := by cases complex <;> decide
    constructor
    · norm_num
      omega
    · rw [hb]
      norm_num
      omega
    · rw [hb, limit]
      norm_num
      omega
    · rw [hb]
      norm_num
      omega
    · norm_num
      omega

/-- C116: any number of eigenvalues can be computed of up to 26754 elements. -/
theorem c116_small (complex : Bool) {n nev : Nat} (h : nev < n) (hn : n ≤ 26754) : Fits 32 complex n nev := by
  have hb : basis n nev ≤ 26754 := by unfold basis; omega
  have hb0 : 0 < basis n nev := by unfold basis; omega
  have h2 : n * basis n nev ≤ 26754 * 26754 := Nat.mul_le_mul hn hb
  have hs : space complex (basis n nev) ≤ 26754 * (3 * 26754 + 5) := by
    cases complex
    · simp only [space, Bool.false_eq_true, if_false]
      exact Nat.mul_le_mul hb (by omega)
    · simp only [space, if_true]
      exact Nat.mul_le_mul hb (by omega)
  have hl : limit n (basis n nev) ≤ 2 * n + basis n nev - 1 := Nat.div_le_self _ _
  constructor
  all_goals norm_num
  all_goals omega

/-- C116 is false of large vectors: one eigenvalue of a function of 107374183 elements is undefined, because the size of V is
2^31 or more. -/
theorem c116_negation_basis [Neg β] [One β] (junk : Nat → α) (complex : Bool) :
    construct (β := β) 32 complex junk 107374183 0 1 = .ub := by
  refine c116_negation_overflow (by decide) junk ⟨by decide, by decide, fun _ => by decide⟩ (by decide) (by decide) (by norm_num) ?_
  rw [c116_limit complex (by decide) (by decide)]
  decide

/-- The hypotheses can be met: a function of 100 elements, and one of 2^32 + 100. -/
example : Fits 32 true 100 3 ∧ Fits 64 false (2 ^ 31) 1 ∧ ValidType true 4 := by
  refine ⟨c116_small _ (by decide) (by decide), ⟨?_, ?_, ?_, ?_, ?_⟩, by decide, by decide, by decide⟩
  all_goals norm_num [basis, limit, space]

/-- Those of `c116_memory` and `c116_eigs_partial`. -/
example : ∃ A : Tensor Nat, A.WF ∧ A.rank = 2 ∧ A.dimension 1 = .ok 6 ∧ A.dimension 0 = .ok 6 ∧
    A.data.length * 8 < 2 ^ 62 ∧ Fits 32 false 6 2 :=
  ⟨⟨[6, 6], List.replicate 36 1⟩, rfl, rfl, rfl, rfl, by simp, c116_small _ (by decide) (by decide)⟩

/-- That of `c116_room`. -/
example : ∃ o : Obj Nat Int, construct 32 true (fun _ => 7) 6 3 2 = .ok o := ⟨_, rfl⟩

end Verif.ArpackMachine
