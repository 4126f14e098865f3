import Verif.Model.Svd
import Verif.Model.Eig
import Verif.Model.FoldMachine
/-
Model of the calls of LAPACK in machine words: the sizes are converted to `blas::integer`, which has `w` bits
(32 in most libraries, 64 in some, tensor_blas.h:86-125), and the size of the workspace is a number of
type double which LAPACK answers when it is called with lwork = -1.
/repo/src/linalg/svd_d.cc, svd_z.cc, solve_d.cc, solve_z.cc, eig_d.cc, eig_z.cc, eig_sym_d.cc, eig_sym_z.cc.

LAPACK stops the program (xerbla) when the arguments are not as in the manual, and reads and writes
the whole arrays of the manual; if these are shorter the behaviour is undefined. The answer `q` about the
workspace is a parameter. Simplifications: memory is not exhausted; `new` and tensors with a
negative size stop the program.
-/
namespace Verif.LapackMachine

open Verif Tensor Machine

variable {α β γ : Type}

/-- A conversion of the answer of LAPACK, a nonnegative integer of type double, to an integer type of `bits` bits:
undefined if it does not fit. -/
def castTo (bits q : Nat) : Res Int := if q < 2 ^ (bits - 1) then .ok q else .ub

/-- A product of type `blas::integer`. -/
def mulI (w : Nat) (a b : Int) : Res Int :=
  if -2 ^ (w - 1) ≤ a * b ∧ a * b < 2 ^ (w - 1) then .ok (a * b) else .ub

/-- `new double[n]` and RTensor(n): the number of elements. -/
def cells (n : Int) : Res Nat := if n < 0 then .abort else .ok n.toNat

/-- RTensor(r, c): the product is of type `index`, tensor_base.hpp:68-72. -/
def cells2 (r c : Int) : Res Nat := do
  let n ← word strict (r * c)
  cells n

/-- The size of an array which is only made if `want`; otherwise the routine gets a pointer to `other` elements (the
variable `foo`, or NULL). -/
def optional (want : Bool) (x : Res Nat) (other : Nat) : Res Nat := if want then x else .ok other

/-- `new double[f * n]`, `RTensor(f * n)`: the array rwork of the complex routines. -/
def rworkCells (w : Nat) (f n : Int) : Res Nat := do
  let r ← mulI w f n
  cells r

/-- A call of gesvd: the numbers, and the sizes of the arrays. -/
structure GesvdCall where
  jobu : Svd.Job
  jobv : Svd.Job
  m : Int
  n : Int
  lda : Int
  ldu : Int
  ldv : Int
  lwork : Int
  a : Nat
  s : Nat
  u : Nat
  v : Nat
  work : Nat
  rwork : Nat

/-- The workspace which the manual requires: max(1, 3 min(m, n) + max(m, n), 5 min(m, n)) for dgesvd and
max(1, 2 min(m, n) + max(m, n)) for zgesvd. -/
def GesvdCall.least (cx : Bool) (c : GesvdCall) : Int :=
  if cx then max 1 (2 * min c.m c.n + max c.m c.n)
  else max 1 (max (3 * min c.m c.n + max c.m c.n) (5 * min c.m c.n))

/-- The conditions of the manual on the numbers apart from lwork. -/
def GesvdCall.Legal (c : GesvdCall) : Prop :=
  0 ≤ c.m ∧ 0 ≤ c.n ∧ max 1 c.m ≤ c.lda ∧ 1 ≤ c.ldu ∧ (c.jobu ≠ .none → c.m ≤ c.ldu) ∧ 1 ≤ c.ldv ∧
    (c.jobv = .all → c.n ≤ c.ldv) ∧ (c.jobv = .small → min c.m c.n ≤ c.ldv)

instance (c : GesvdCall) : Decidable c.Legal := by unfold GesvdCall.Legal; infer_instance

/-- The conditions of the manual on the arrays. -/
def GesvdCall.Room (cx : Bool) (c : GesvdCall) : Prop :=
  c.lda * c.n ≤ c.a ∧ min c.m c.n ≤ c.s ∧ (c.jobu = .all → c.ldu * c.m ≤ c.u) ∧
    (c.jobu = .small → c.ldu * min c.m c.n ≤ c.u) ∧ (c.jobv ≠ .none → c.ldv * c.n ≤ c.v) ∧
    c.lwork ≤ c.work ∧ (cx = true → 5 * min c.m c.n ≤ c.rwork)

instance (cx : Bool) (c : GesvdCall) : Decidable (c.Room cx) := by unfold GesvdCall.Room; infer_instance

/-- gesvd with lwork = -1: the answer `q`, svd_d.cc:95-98, svd_z.cc:89-93. -/
def queryGesvd (q : Nat) (c : GesvdCall) : Res Nat := if c.Legal then .ok q else .abort

/-- gesvd. -/
def callGesvd (cx : Bool) (g : Svd.Gesvd α β) (c : GesvdCall) (a : List α) : Res (Svd.Out α β) :=
  if ¬ (c.Legal ∧ c.least cx ≤ c.lwork) then .abort
  else if ¬ c.Room cx then .ub
  else .ok (g c.jobu c.jobv c.m.toNat c.n.toNat a c.lda.toNat c.ldu.toNat c.ldv.toNat)

/-- svd, svd_d.cc:49-106, svd_z.cc:44-104 (`cx`). -/
def svd (w : Nat) (cx : Bool) (q : Nat) (g : Svd.Gesvd α β) (A : Tensor α) (wantU wantV economic : Bool) :
    Res (Tensor β × Option (Tensor α) × Option (Tensor α)) := do
  let rows ← A.dimension 0
  Res.assert (rows > 0)
  let columns ← A.dimension 1
  Res.assert (columns > 0)
  Res.assert (A.rank = 2)
  let m := conv w rows
  let n := conv w columns
  let k := min m n
  let s ← cells k
  let u ← optional wantU (cells2 m (if economic then k else m)) 1
  let v ← optional wantV (cells2 (if economic then k else n) n) 1
  let ldu := if wantU then m else 1
  let ldv := if wantV then (if economic then k else n) else 1
  let c : GesvdCall := ⟨Svd.job wantU economic, Svd.job wantV economic, m, n, m, ldu, ldv, -1, A.data.length,
    s, u, v, 1, 1⟩
  let q ← queryGesvd q c
  -- svd_d.cc:99 has `(int)work[0]`, svd_z.cc:94 a conversion to blas::integer
  let lwork ← castTo (if cx then w else 32) q
  let work ← cells lwork
  let rwork ← optional cx (rworkCells w 5 k) 0
  let o ← callGesvd cx g { c with lwork := lwork, work := work, rwork := rwork } A.data
  .ok (⟨[k.toNat], o.s⟩,
    if wantU then some ⟨[m.toNat, (if economic then k else m).toNat], o.u⟩ else none,
    if wantV then some ⟨[(if economic then k else n).toNat, n.toNat], o.v⟩ else none)

/-- gesv(n, nrhs, a, lda, ipiv, b, ldb, info) with the conditions of the manual; `na`, `np` and `nb` are the sizes
of a, ipiv and b. -/
def callGesv (g : Eig.Gesv α) (n nrhs lda ldb : Int) (a : List α) (np : Nat) (b : List α) : Res (Eig.OutG α) :=
  if ¬ (0 ≤ n ∧ 0 ≤ nrhs ∧ max 1 n ≤ lda ∧ max 1 n ≤ ldb) then .abort
  else if ¬ (lda * n ≤ a.length ∧ n ≤ np ∧ ldb * nrhs ≤ b.length) then .ub
  else .ok (g n.toNat nrhs.toNat a lda.toNat b ldb.toNat)

/-- solve, solve_d.cc:39-91, solve_z.cc:33-84 (`cx`). The division is in 64 bits, and there is none by zero or by
a negative number here because of the conditions before it (`(size_t)n != A.columns()` and `n != ldb`). -/
def solve (w : Nat) (cx : Bool) (g : Eig.Gesv α) (A B : Tensor α) : Res (Tensor α) := do
  let rows ← A.dimension 0
  let n := conv w rows
  let b0 ← B.dimension 0
  let ldb := conv w b0
  let columns ← A.dimension 1
  -- solve_d.cc:46: `(size_t)n != A.columns()`; solve_z.cc:40: `n != (blas::integer)A.columns()`
  Res.assert (if cx then n = conv w columns else toSize n = columns)
  Res.assert (n = ldb)
  if ldb = 0 then .ub
  else
    let nrhs := conv w ((B.size : Int).tdiv ldb)
    let np ← cells n
    let o ← callGesv g n nrhs n ldb A.data np B.data
    if o.info = 0 then .ok ⟨B.dims, o.b⟩ else .abort

/-- `blas::integer n = A.rows(); if ((size_t)n != A.columns()) abort();` after the assertions, eig_d.cc:57-64, eig_z.cc:60-66,
eig_sym_d.cc:50-55, eig_sym_z.cc:52-57. -/
def order (w : Nat) (A : Tensor α) : Res Int := do
  let rows ← Eig.checks A
  let n := conv w rows
  Res.assert (toSize n = rows)
  .ok n

/-- The conditions of the manual of geev on n, lda, ldvl and ldvr. -/
def geevOk (wantL wantR : Bool) (n lda ldvl ldvr : Int) : Prop :=
  0 ≤ n ∧ max 1 n ≤ lda ∧ 1 ≤ ldvl ∧ (wantL = true → n ≤ ldvl) ∧ 1 ≤ ldvr ∧ (wantR = true → n ≤ ldvr)

instance (wantL wantR : Bool) (n lda ldvl ldvr : Int) : Decidable (geevOk wantL wantR n lda ldvl ldvr) := by
  unfold geevOk; infer_instance

/-- The workspace which the manual requires: max(1, 3n) for dgeev, max(1, 4n) with vectors, max(1, 2n) for zgeev. -/
def geevLeast (cx wantL wantR : Bool) (n : Int) : Int :=
  max 1 (if cx then 2 * n else if wantL || wantR then 4 * n else 3 * n)

/-- The conditions of the manual of geev on the arrays, which have `na`, `nw` (w, or wr and wi), `nl`, `nr`, `nwork`
and `nrwork` elements. -/
def geevRoom (cx wantL wantR : Bool) (n lda ldvl ldvr lwork : Int) (na nw nl nr nwork nrwork : Nat) : Prop :=
  lda * n ≤ na ∧ n ≤ nw ∧ (wantL = true → ldvl * n ≤ nl) ∧ (wantR = true → ldvr * n ≤ nr) ∧ lwork ≤ nwork ∧
    (cx = true → 2 * n ≤ nrwork)

instance (cx wantL wantR : Bool) (n lda ldvl ldvr lwork : Int) (na nw nl nr nwork nrwork : Nat) :
    Decidable (geevRoom cx wantL wantR n lda ldvl ldvr lwork na nw nl nr nwork nrwork) := by
  unfold geevRoom; infer_instance

/-- The calls of geev, eig_d.cc:66-100, eig_z.cc:68-102: the order of the matrix, if they are as in the manual. -/
def geevArgs (w : Nat) (cx : Bool) (q : Nat) (A : Tensor α) (wantR wantL : Bool) : Res Nat := do
  let n ← order w A
  let nl ← optional wantL (cells2 n n) 0
  let nr ← optional wantR (cells2 n n) 0
  let nw ← cells n
  let nrwork ← optional cx (rworkCells w 2 n) 0
  -- the call with lwork = -1
  Res.assert (geevOk wantL wantR n n n n)
  let lwork ← castTo (if cx then w else 32) q
  let nwork ← cells lwork
  if ¬ (geevOk wantL wantR n n n n ∧ geevLeast cx wantL wantR n ≤ lwork) then .abort
  else if ¬ geevRoom cx wantL wantR n n n n lwork A.data.length nw nl nr nwork nrwork then .ub
  else .ok n.toNat

/-- eig(const RTensor&, R, L), eig_d.cc:45-134. -/
def eigReal [Zero β] [DecidableEq β] (w q : Nat) (g : Eig.Dgeev β) (mk : β → β → γ) (neg : β → β) (A : Tensor β)
    (wantR wantL : Bool) : Res (Tensor γ × Option (Tensor γ) × Option (Tensor γ)) := do
  let n ← geevArgs w false q A wantR wantL
  let o := g wantL wantR n A.data n n n
  let real : Tensor β := ⟨[n], o.wr⟩
  let imag : Tensor β := ⟨[n], o.wi⟩
  let L := if wantL then some ((⟨[n, n], o.vl⟩ : Tensor β), Eig.toC mk ⟨[n, n], o.vl⟩) else none
  let R := if wantR then some ((⟨[n, n], o.vr⟩ : Tensor β), Eig.toC mk ⟨[n, n], o.vr⟩) else none
  let x ← Eig.unpack mk neg real imag n n 0 (Eig.toC mk real, L, R)
  .ok (x.1, x.2.2.map (·.2), x.2.1.map (·.2))

/-- eig(const CTensor&, R, L), eig_z.cc:47-104. -/
def eigComplex (w q : Nat) (g : Eig.Zgeev γ) (A : Tensor γ) (wantR wantL : Bool) :
    Res (Tensor γ × Option (Tensor γ) × Option (Tensor γ)) := do
  let n ← geevArgs w true q A wantR wantL
  let o := g wantL wantR n A.data n n n
  .ok (⟨[n], o.w⟩, if wantR then some ⟨[n, n], o.vr⟩ else none,
    if wantL then some ⟨[n, n], o.vl⟩ else none)

/-- eig_sym, eig_sym_d.cc:44-80, eig_sym_z.cc:44-84 (`cx`). The manual requires max(1, 3n - 1) elements of workspace for
dsyev, max(1, 2n - 1) and max(1, 3n - 2) for zheev. -/
def eigSym (w : Nat) (cx : Bool) (q : Nat) (g : Eig.Syev α β) (A : Tensor α) (want : Bool) :
    Res (Tensor β × Option (Tensor α)) := do
  let n ← order w A
  let nw ← cells n
  let nrwork ← optional cx (rworkCells w 3 n) 0
  -- the call with lwork = -1
  Res.assert (0 ≤ n ∧ max 1 n ≤ n)
  let lwork ← castTo 32 q
  let nwork ← cells lwork
  if ¬ (0 ≤ n ∧ max 1 n ≤ n ∧ max 1 (if cx then 2 * n - 1 else 3 * n - 1) ≤ lwork) then .abort
  else if ¬ (n * n ≤ A.data.length ∧ n ≤ nw ∧ lwork ≤ nwork ∧ (cx = true → max 1 (3 * n - 2) ≤ nrwork)) then .ub
  else
    let o := g want n.toNat A.data n.toNat
    .ok (⟨[n.toNat], o.w⟩, if want then some ⟨A.dims, o.a⟩ else none)

end Verif.LapackMachine
