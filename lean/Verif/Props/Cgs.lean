import Verif.Model.Cgs
import Verif.Spec.Cgs
import Verif.Props.Arith
import Verif.Props.Reduce
import Verif.Lemmas.Trace
import Mathlib.Algebra.Module.Pi
import Mathlib.Algebra.BigOperators.Fin
/-
C57: the conjugate gradient method.
-/
namespace Verif.Cgs

open Verif Spec Tensor

/-- The tensor with dimensions `d` and elements `v`. -/
abbrev vt {α : Type} {n : Nat} (d : List Nat) (v : Fin n → α) : Tensor α := ⟨d, List.ofFn v⟩

section
variable {α β : Type} {n : Nat} {d d' : List Nat}

theorem vt_wf (hd : totalSize d = n) (v : Fin n → α) : (vt d v).WF := by
  rw [Tensor.WF, List.length_ofFn]; exact hd.symm

theorem zipWith_ofFn {γ : Type} (f : α → β → γ) (u : Fin n → α) (v : Fin n → β) :
    List.zipWith f (List.ofFn u) (List.ofFn v) = List.ofFn fun i => f (u i) (v i) := by
  apply List.ext_getElem
  · simp
  · intro i h1 h2; simp

theorem vt_binop (hd : totalSize d = n) (f : α → α → α) (u v : Fin n → α) :
    binopTT f (vt d u) (vt d' v) = .ok (vt d fun i => f (u i) (v i)) := by
  rw [binopTT_ok f _ _ (vt_wf hd u) (by simp)]
  simp only [zipWith_ofFn]

theorem vt_inplace (hd : totalSize d = n) (f : α → α → α) (u v : Fin n → α) :
    inplaceTT f (vt d u) false (vt d' v) = .ok (vt d fun i => f (u i) (v i)) := by
  rw [c32_inplace f (vt d u) (vt d' v) false (vt_wf hd u) (by simp), vt_binop hd]

theorem vt_scale (hd : totalSize d = n) (f : α → α → α) (a : α) (v : Fin n → α) :
    binopNT f a (vt d v) = .ok (vt d fun i => f a (v i)) := by
  rw [binopNT, unop_ok _ _ (vt_wf hd v)]
  simp only [List.map_ofFn]; rfl

theorem vt_scprod [CommSemiring α] (conj : α → α) (u v : Fin n → α) :
    scprod conj (vt d u) (vt d' v) = .ok (∑ i, u i * conj (v i)) := by
  rw [scprod_eq conj _ _ (by simp)]
  simp only [zipWith_ofFn, List.sum_ofFn]

variable [Field α] [DecidableEq α] [LT β] [DecidableLT β]

/-- One iteration. -/
theorem loop_step (N : Num α β) (A : Tensor α → Res (Tensor α)) (L : (Fin n → α) →ₗ[α] (Fin n → α))
    (hd : totalSize d = n) (hA : ActsAs A d L) (tol : β) (k : Nat) (x r p : Fin n → α) (rs : α) (used : Nat) :
    loop N A tol (k + 1) (vt d x) (vt d r) (vt d p) rs used =
      (let b := ∑ i, p i * N.conj (L p i)
       if N.abs b < N.tiny (N.abs rs) then .abort
       else if b = 0 then .ub
       else
         let x' := x + (rs / b) • p
         let r' := r - (rs / b) • L p
         let rs' := ∑ i, r' i * N.conj (r' i)
         if N.sqrt (N.abs rs') < tol then .ok ⟨vt d x', vt d r', used + 1⟩
         else if rs = 0 then .ub
         else loop N A tol k (vt d x') (vt d r') (vt d (r' + (rs' / rs) • p)) rs' (used + 1)) := by
  have e1 : (fun i => x i + (rs / ∑ i, p i * N.conj (L p i)) * p i) =
      x + (rs / ∑ i, p i * N.conj (L p i)) • p := rfl
  have e2 : (fun i => r i - (rs / ∑ i, p i * N.conj (L p i)) * L p i) =
      r - (rs / ∑ i, p i * N.conj (L p i)) • L p := rfl
  rw [loop, hA p, Res.ok_bind, vt_scprod, Res.ok_bind]
  simp only
  by_cases h1 : N.abs (∑ i, p i * N.conj (L p i)) < N.tiny (N.abs rs)
  · simp only [if_pos h1]
  simp only [if_neg h1]
  by_cases h2 : ∑ i, p i * N.conj (L p i) = 0
  · rw [quot, if_pos h2, if_pos h2]; rfl
  rw [quot, if_neg h2, if_neg h2, Res.ok_bind, vt_scale hd, Res.ok_bind, vt_inplace hd, Res.ok_bind,
    vt_scale hd, Res.ok_bind, vt_inplace hd, Res.ok_bind, e1, e2, vt_scprod, Res.ok_bind]
  generalize rs / (∑ i, p i * N.conj (L p i)) = a
  by_cases h3 : N.sqrt (N.abs (∑ i, (r - a • L p) i * N.conj ((r - a • L p) i))) < tol
  · simp only [if_pos h3]
  simp only [if_neg h3]
  by_cases h4 : rs = 0
  · rw [quot, if_pos h4, if_pos h4]; rfl
  rw [quot, if_neg h4, if_neg h4, Res.ok_bind, vt_scale hd, Res.ok_bind, vt_binop hd, Res.ok_bind]
  rfl

/-- The start of solve. -/
theorem solve_start [Zero β] [LE β] [DecidableLE β] (N : Num α β) (deftol : β)
    (A : Tensor α → Res (Tensor α)) (L : (Fin n → α) →ₗ[α] (Fin n → α))
    (hd : totalSize d = n) (hA : ActsAs A d L) (b start : Fin n → α) (xs : Option (Fin n → α)) (m : Nat)
    (hm : d[0]? = some m) (maxiter : Int) (tol : β) :
    solve N deftol A (vt d b) (xs.map (vt d)) (vt d start) maxiter tol =
      (let k : Int := if maxiter = 0 then m else maxiter
       let t := if tol ≤ 0 then deftol else tol
       let x := xs.getD start
       let r := b - L x
       let rs := ∑ i, r i * N.conj (r i)
       if t < N.sqrt (N.abs rs) then loop N A t (k + 1).toNat (vt d x) (vt d r) (vt d r) rs 1
       else .ok ⟨vt d x, vt d r, 1⟩) := by
  have hmax : limit (vt d b) maxiter = .ok (if maxiter = 0 then (m : Int) else maxiter) := by
    rw [limit]
    split
    · have := dimension_nat (vt d b) 0 m hm
      rw [Nat.cast_zero] at this
      rw [this]; rfl
    · rfl
  have hx : (xs.map (vt d)).getD (vt d start) = vt d (xs.getD start) := by cases xs <;> rfl
  have e : (fun i => b i - L (xs.getD start) i) = b - L (xs.getD start) := rfl
  rw [solve, hmax, Res.ok_bind]
  simp only
  rw [hx, hA, Res.ok_bind, vt_binop hd, Res.ok_bind, e, vt_scprod, Res.ok_bind]

/-- All that the loop keeps. -/
theorem loop_inv (N : Num α β) (A : Tensor α → Res (Tensor α)) (L : (Fin n → α) →ₗ[α] (Fin n → α))
    (hd : totalSize d = n) (hA : ActsAs A d L) (tol : β) (b : Fin n → α) :
    ∀ (k : Nat) (x r p : Fin n → α) (rs : α) (used : Nat) (out : Out α), r = b - L x →
      rs = ∑ i, r i * N.conj (r i) →
      loop N A tol k (vt d x) (vt d r) (vt d p) rs used = .ok out →
      ∃ x', out.x = vt d x' ∧ out.r = vt d (b - L x') ∧ out.used ≤ used + k ∧
        (N.sqrt (N.abs (∑ i, (b - L x') i * N.conj ((b - L x') i))) < tol ∨ out.used = used + k)
  | 0, x, r, p, rs, used, out, hr, _, h => by
    rw [loop] at h
    cases h
    exact ⟨x, rfl, by rw [hr], by simp, .inr rfl⟩
  | k + 1, x, r, p, rs, used, out, hr, hrs, h => by
    rw [loop_step N A L hd hA] at h
    simp only at h
    split at h
    · cases h
    split at h
    · cases h
    generalize rs / (∑ i, p i * N.conj (L p i)) = a at h
    have hr' : r - a • L p = b - L (x + a • p) := by
      rw [map_add, map_smul, hr]; abel
    split at h
    · rename_i htol
      cases h
      refine ⟨_, rfl, by rw [hr'], by simp only; omega, .inl ?_⟩
      rw [← hr']; exact htol
    split at h
    · cases h
    obtain ⟨x', h1, h2, h3, h4⟩ := loop_inv N A L hd hA tol b k _ _ _ _ _ _ hr' rfl h
    refine ⟨x', h1, h2, by omega, ?_⟩
    rcases h4 with h4 | h4
    · exact .inl h4
    · exact .inr (by omega)

end

section
variable {α β : Type} {n : Nat} {d : List Nat} [Field α] [DecidableEq α]

/-- C57: for a linear map, the vector that cgs compares with the tolerance is the residual of the
solution, whose norm is not above the tolerance unless all iterations have been used. There are at most
maxiter + 1 of them, and the map is used once more, for the start. -/
theorem c57_residual [LinearOrder β] [Zero β] (N : Num α β) (deftol : β)
    (A : Tensor α → Res (Tensor α)) (L : (Fin n → α) →ₗ[α] (Fin n → α))
    (hd : totalSize d = n) (hA : ActsAs A d L) (b start : Fin n → α) (xs : Option (Fin n → α)) (m : Nat)
    (hm : d[0]? = some m) (maxiter : Int) (tol : β) (out : Out α)
    (h : solve N deftol A ⟨d, List.ofFn b⟩ (xs.map fun x => ⟨d, List.ofFn x⟩) ⟨d, List.ofFn start⟩ maxiter tol
      = .ok out) :
    ∃ x, out.x = ⟨d, List.ofFn x⟩ ∧ out.r = ⟨d, List.ofFn (b - L x)⟩ ∧
      (out.used : Int) ≤ 1 + max 0 ((if maxiter = 0 then (m : Int) else maxiter) + 1) ∧
      (N.sqrt (N.abs (∑ i, (b - L x) i * N.conj ((b - L x) i))) ≤ (if tol ≤ 0 then deftol else tol) ∨
        (out.used : Int) = 1 + max 0 ((if maxiter = 0 then (m : Int) else maxiter) + 1)) := by
  have e := solve_start N deftol A L hd hA b start xs m hm maxiter tol
  rw [e] at h
  simp only at h
  generalize (if maxiter = 0 then (m : Int) else maxiter) = k at h ⊢
  generalize (if tol ≤ 0 then deftol else tol) = t at h ⊢
  split at h
  · obtain ⟨x, h1, h2, h3, h4⟩ := loop_inv N A L hd hA _ b _ _ _ _ _ _ _ rfl rfl h
    refine ⟨x, h1, h2, by omega, ?_⟩
    rcases h4 with h4 | h4
    · exact .inl h4.le
    · right; omega
  · rename_i htol
    cases h
    exact ⟨xs.getD start, rfl, rfl, by simp only; omega, .inl (not_lt.1 htol)⟩

end

end Verif.Cgs
