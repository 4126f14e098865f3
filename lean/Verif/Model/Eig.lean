import Verif.Model.Tensor
/-
Model of the eigenvalue decompositions, /repo/src/linalg/eig_d.cc, eig_z.cc, eig_sym_d.cc, eig_sym_z.cc,
and of the solution of equations, solve_d.cc, solve_z.cc. The routines of LAPACK are parameters. Rounding
is not modelled.
-/
namespace Verif.Eig

open Verif Tensor

variable {α β γ : Type}

/-- What dgeev leaves in info and in the arrays wr, wi, vl, vr. -/
structure OutD (β : Type) where
  info : Int
  wr : List β
  wi : List β
  vl : List β
  vr : List β

/-- dgeev(jobvl, jobvr, n, a, lda, ..., ldvl, ..., ldvr, ...); the jobs say if vectors are wanted. -/
abbrev Dgeev (β : Type) := Bool → Bool → Nat → List β → Nat → Nat → Nat → OutD β

/-- `assert(A.rows() > 0); assert(A.rank() == 2); assert(A.rows() == A.columns())`, eig_d.cc:47-49,
eig_z.cc:49-51, eig_sym_d.cc:46-48, eig_sym_z.cc:46-48. -/
def checks (A : Tensor α) : Res Nat := do
  let rows ← A.dimension 0
  Res.assert (rows > 0)
  Res.assert (A.rank = 2)
  let columns ← A.dimension 1
  Res.assert (rows = columns)
  .ok rows

/-- The loop over j, eig_d.cc:113-118, 121-126, from `j` on. -/
def pairLoop (mk : β → β → γ) (neg : β → β) (real : Tensor β) (i : Nat) :
    Nat → Nat → Tensor γ → Res (Tensor γ)
  | 0, _, V => .ok V
  | k + 1, j, V => do
    let re ← real.get2 j i
    let im ← real.get2 j (i + 1)
    let V ← V.set2 j i (mk re im)
    let V ← V.set2 j (i + 1) (mk re (neg im))
    pairLoop mk neg real i k (j + 1) V

/-- The same for the vectors that are wanted: pairs with what dgeev left and the tensor of the
caller. -/
def pairs (mk : β → β → γ) (neg : β → β) (i n : Nat) :
    Option (Tensor β × Tensor γ) → Res (Option (Tensor β × Tensor γ))
  | none => .ok none
  | some (real, V) => do
    let V ← pairLoop mk neg real i n 0 V
    .ok (some (real, V))

/-- The loop over i, eig_d.cc:106-130, from `i` on. -/
def unpack [Zero β] [DecidableEq β] (mk : β → β → γ) (neg : β → β) (real imag : Tensor β) (n : Nat) :
    Nat → Nat → Tensor γ × Option (Tensor β × Tensor γ) × Option (Tensor β × Tensor γ) →
      Res (Tensor γ × Option (Tensor β × Tensor γ) × Option (Tensor β × Tensor γ))
  | 0, _, x => .ok x
  | k + 1, i, x =>
    if i < n then do
      let im ← imag.dataAt i
      if im ≠ 0 then do
        let re ← real.dataAt i
        let output ← x.1.set1 i (mk re im)
        let output ← output.set1 (i + 1) (mk re (neg im))
        let L ← pairs mk neg i n x.2.1
        let R ← pairs mk neg i n x.2.2
        unpack mk neg real imag n k (i + 2) (output, L, R)
      else unpack mk neg real imag n k (i + 1) x
    else .ok x

/-- to_complex of a tensor, tensor_to_complex.cc. -/
def toC [Zero β] (mk : β → β → γ) (t : Tensor β) : Tensor γ := ⟨t.dims, t.data.map fun x => mk x 0⟩

/-- eig(const RTensor&, R, L), eig_d.cc:45-134. The tensors are only set if they are wanted. -/
def eigReal [Zero β] [DecidableEq β] (g : Dgeev β) (mk : β → β → γ) (neg : β → β) (A : Tensor β)
    (wantR wantL : Bool) : Res (Tensor γ × Option (Tensor γ) × Option (Tensor γ)) := do
  let n ← checks A
  let o := g wantL wantR n A.data n n n
  let real : Tensor β := ⟨[n], o.wr⟩
  let imag : Tensor β := ⟨[n], o.wi⟩
  let L := if wantL then some ((⟨[n, n], o.vl⟩ : Tensor β), toC mk ⟨[n, n], o.vl⟩) else none
  let R := if wantR then some ((⟨[n, n], o.vr⟩ : Tensor β), toC mk ⟨[n, n], o.vr⟩) else none
  let x ← unpack mk neg real imag n n 0 (toC mk real, L, R)
  .ok (x.1, x.2.2.map (·.2), x.2.1.map (·.2))

/-- What zgeev leaves in info and in the arrays w, vl, vr. -/
structure OutZ (γ : Type) where
  info : Int
  w : List γ
  vl : List γ
  vr : List γ

/-- zgeev(jobvl, jobvr, n, a, lda, ..., ldvl, ..., ldvr, ...). -/
abbrev Zgeev (γ : Type) := Bool → Bool → Nat → List γ → Nat → Nat → Nat → OutZ γ

/-- eig(const CTensor&, R, L), eig_z.cc:47-104. -/
def eigComplex (g : Zgeev γ) (A : Tensor γ) (wantR wantL : Bool) :
    Res (Tensor γ × Option (Tensor γ) × Option (Tensor γ)) := do
  let n ← checks A
  let o := g wantL wantR n A.data n n n
  .ok (⟨[n], o.w⟩, if wantR then some ⟨[n, n], o.vr⟩ else none,
    if wantL then some ⟨[n, n], o.vl⟩ else none)

/-- What dsyev or zheev leave in info and in the arrays w, a. -/
structure OutS (α β : Type) where
  info : Int
  w : List β
  a : List α

/-- dsyev(jobz, 'U', n, a, lda, ...), zheev. -/
abbrev Syev (α β : Type) := Bool → Nat → List α → Nat → OutS α β

/-- eig_sym, eig_sym_d.cc:44-80, eig_sym_z.cc:44-84. -/
def eigSym (g : Syev α β) (A : Tensor α) (want : Bool) : Res (Tensor β × Option (Tensor α)) := do
  let n ← checks A
  let o := g want n A.data n
  .ok (⟨[n], o.w⟩, if want then some ⟨A.dims, o.a⟩ else none)

/-- What gesv leaves in info and in the array b. -/
structure OutG (α : Type) where
  info : Int
  b : List α

/-- gesv(n, nrhs, a, lda, ipiv, b, ldb, info). -/
abbrev Gesv (α : Type) := Nat → Nat → List α → Nat → List α → Nat → OutG α

/-- solve, solve_d.cc:39-91, solve_z.cc:33-84. `B.size() / ldb` is undefined if ldb is zero. gesv reads
n * n elements of A. -/
def solve (g : Gesv α) (A B : Tensor α) : Res (Tensor α) := do
  let n ← A.dimension 0
  let ldb ← B.dimension 0
  let columns ← A.dimension 1
  Res.assert (n = columns)
  Res.assert (n = ldb)
  if ldb = 0 then .ub
  else if A.size < n * n then .ub
  else
    let o := g n (B.size / ldb) A.data n B.data ldb
    if o.info = 0 then .ok ⟨B.dims, o.b⟩ else .abort

end Verif.Eig
