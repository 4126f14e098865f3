import Verif.Model.BlockSvd
import Verif.Model.Eig
import Verif.Model.Sparse
/-
Model of the classes RArpack and CArpack, /repo/src/arpack/arpack_t.cc, and of eigs, eigs_d.cc, eigs_z.cc,
eigs_map_d.cc, eigs_map_z.cc, eigs_sp_d.cc, eigs_sp_z.cc. The routines dsaupd, dseupd, znaupd and zneupd
of ARPACK are parameters; `L` are the variables that they keep between calls. Sizes and counters are not
bounded, and rounding is not modelled.
-/
namespace Verif.Arpack

open Verif Tensor View Svd

variable {L α β γ : Type}

/-- Status, arpack_d.h:42-50. -/
inductive Status where
  | uninitialized
  | initialized
  | running
  | finished
  | error
  | tooManyIterations
  | noConvergence
  deriving DecidableEq

/-- The values of the enumeration, which are compared. -/
def Status.code : Status → Nat
  | .uninitialized => 0
  | .initialized => 1
  | .running => 2
  | .finished => 3
  | .error => 4
  | .tooManyIterations => 5
  | .noConvergence => 6

/-- The arguments that the routines of ARPACK do not change. bmat = 'I' and hwmny = 'A' are not written. -/
structure Args where
  n : Nat
  which : String
  nev : Nat
  ncv : Nat
  lworkl : Nat

/-- The arguments that the routines of ARPACK read and write. (rwork and workv are only written.) -/
structure Work (α β : Type) where
  ido : Int
  info : Int
  tol : β
  resid : List α
  V : List α
  iparam : List Int
  ipntr : List Int
  workd : List α
  workl : List α

/-- dsaupd or znaupd, and dseupd or zneupd, which also writes the arrays d and z. -/
structure Lib (L α β : Type) where
  aupd : L → Args → Work α β → L × Work α β
  eupd : L → Bool → Args → Work α β → L × Work α β × List α × List α

/-- The members of the object. `error` is a pointer which the constructor does not set. -/
structure Obj (α β : Type) where
  status : Status
  args : Args
  maxit : Nat
  work : Work α β
  error : Option String

/-- whichs, arpack_t.cc:28, 30, without the two null pointers, which are not read. -/
def whichs (complex : Bool) : List String :=
  if complex then ["LM", "SM", "LR", "SR", "LI", "SI"] else ["LM", "SM", "LA", "SA"]

/-- The constructor, arpack_t.cc:25-116. The elements of new arrays are unknown, `junk`. -/
def construct [Neg β] [One β] (complex : Bool) (junk : Nat → α) (n : Nat) (t : Int) (nev : Nat) :
    Res (Obj α β) :=
  if complex = false ∧ (t = 4 ∨ t = 5) then .abort
  else if t < 0 ∨ t > 6 then .abort
  else
    match (whichs complex)[t.toNat]? with
    | none => .ub
    | some which =>
      if nev = 0 ∨ (nev : Int) > (n : Int) - 1 then .abort
      else
        let ncv := min (max (2 * nev) 20) n
        let maxit := max 300 ((2 * n + max ncv 1 - 1) / max ncv 1)
        let lworkl := if complex then ncv * (3 * ncv + 5) else ncv * (ncv + 8)
        let array (size : Nat) : List α := (List.range size).map junk
        .ok {
          status := .initialized
          args := ⟨n, which, nev, ncv, lworkl⟩
          maxit := maxit
          work := {
            ido := 0
            info := 0
            tol := -1
            resid := array n
            V := array (n * ncv)
            iparam := [1, 0, maxit, 1, 0, 0, 1, 0, 0, 0, 0]
            ipntr := List.replicate 15 0
            workd := array (n * 3)
            workl := array lworkl }
          error := none }

/-- The end of update(), arpack_t.cc:152-176. -/
def afterCall (o : Obj α β) : Res (Obj α β) :=
  if o.work.ido = 99 then
    if o.work.info = 1 then
      .ok { o with status := .tooManyIterations, error := some "Maximum number of iterations reached" }
    else if o.work.info > 0 then
      .ok { o with status := .noConvergence, error := some "Algorithm failed to converge" }
    else if o.work.info < 0 then .abort
    else .ok { o with status := .finished }
  else if o.work.ido ≠ 1 ∧ o.work.ido ≠ -1 then
    .ok { o with status := .error, error := some "Internal error -- ARPACK asks for B matrix" }
  else .ok { o with status := .running }

/-- update(), arpack_t.cc:131-177. -/
def update (lib : Lib L α β) (l : L) (o : Obj α β) : Res (L × Obj α β) :=
  if o.status.code < Status.initialized.code then
    .ok (l, { o with
      status := .error
      error := some "ARPACK: Cannot call update() with an uninitialized ARPACK object." })
  else if o.status.code > Status.running.code then
    .ok (l, { o with
      status := .error
      error := some "ARPACK: Cannot call update() after the algorithm is finished." })
  else do
    let r := lib.aupd l o.args o.work
    let o ← afterCall { o with work := r.2 }
    .ok (r.1, o)

/-- get_data(vectors), arpack_t.cc:179-243. The first nev elements of the nev + 1 of `output` are
returned. -/
def getData (fuel : Nat) (lib : Lib L α β) (l : L) (o : Obj α β) (wantV : Bool) :
    Run (L × Obj α β × Tensor α × Option (Tensor α)) :=
  let r := lib.eupd l wantV o.args o.work
  if r.2.1.info ≠ 0 then .done .abort
  else do
    let d ← sliceT fuel ⟨[o.args.nev + 1], r.2.2.1⟩ [.step 0 ((o.args.nev : Int) - 1) 1]
    pure (r.1, { o with work := r.2.1 }, d,
      if wantV then some ⟨[o.args.n, o.args.nev], r.2.2.2⟩ else none)

/-- set_start_vector(v), arpack_t.cc:245-252. memcpy reads n elements of v. -/
def setStartVector (o : Obj α β) (v : List α) : Res (Obj α β) :=
  if o.status.code ≥ Status.running.code then .abort
  else if v.length < o.args.n then .ub
  else .ok { o with work := { o.work with info := 1, resid := v.take o.args.n } }

/-- set_random_start_vector(), arpack_t.cc:254-256. -/
def setRandomStartVector (o : Obj α β) : Obj α β := { o with work := { o.work with info := 0 } }

/-- set_tolerance(tol), arpack_t.cc:258-264. -/
def setTolerance (o : Obj α β) (tol : β) : Res (Obj α β) :=
  if o.status.code ≥ Status.running.code then .abort
  else .ok { o with work := { o.work with tol := tol } }

/-- set_maxiter(maxiter), arpack_t.cc:266-273. -/
def setMaxiter (o : Obj α β) (maxiter : Nat) : Res (Obj α β) :=
  if o.status.code ≥ Status.running.code then .abort
  else .ok { o with maxit := maxiter, work := { o.work with iparam := o.work.iparam.set 2 maxiter } }

/-- get_x_vector() and get_y_vector() for k = 0 and k = 1, arpack_t.cc:275-291: the position in workd. -/
def pointer (o : Obj α β) (k : Nat) : Res Nat :=
  if o.status ≠ .running then .abort
  else do
    let p ← Res.ofOption o.work.ipntr[k]?
    if p - 1 < 0 ∨ p - 1 > o.work.workd.length then .ub else .ok (p - 1).toNat

/-- n elements from the position p of an array. -/
def readN (a : List α) (p n : Nat) : Res (List α) :=
  if p + n ≤ a.length then .ok ((a.drop p).take n) else .ub

/-- Replace the elements from the position p of an array. -/
def writeN (a : List α) (p : Nat) (v : List α) : Res (List α) :=
  if p + v.length ≤ a.length then .ok (a.take p ++ v ++ a.drop (p + v.length)) else .ub

/-- get_x(), arpack_t.cc:293-296. -/
def getX (o : Obj α β) : Res (Tensor α) := do
  let p ← pointer o 0
  let x ← readN o.work.workd p o.args.n
  .ok ⟨[o.args.n], x⟩

/-- set_y(y), arpack_t.cc:303-306. memcpy reads n elements of y. -/
def setY (o : Obj α β) (y : List α) : Res (Obj α β) := do
  let p ← pointer o 1
  let y ← readN y 0 o.args.n
  let workd ← writeN o.work.workd p y
  .ok { o with work := { o.work with workd := workd } }

/-- error_message(), arpack_d.h:64. -/
def errorMessage (o : Obj α β) : Res String := Res.ofOption o.error

/-- aux in sort_values, arpack_t.cc:308-331. -/
def keys [Neg β] (re im abs : γ → β) (t : Int) (values : List γ) : List β :=
  if t = 2 then values.map fun z => - re z
  else if t = 0 then values.map fun z => - abs z
  else if t = 1 then values.map abs
  else if t = 4 then values.map fun z => - im z
  else if t = 5 then values.map im
  else if t = 3 then values.map re
  else []

/-- The functions over numbers that eigs uses. `sort` is sort_indices, `back` is the identity for complex
matrices, and the real part for real ones. -/
structure Num (α β γ : Type) where
  re : γ → β
  im : γ → β
  abs : γ → β
  back : γ → α
  sort : List β → List Int

/-- The results of eigs: what it returns, *eigenvectors and *converged. -/
structure Out (α : Type) where
  values : Tensor α
  vectors : Option (Tensor α)
  converged : Option Bool

/-- The case n <= 4, eigs_d.cc:51-62, eigs_z.cc:55-66, eigs_map_d.cc:51-62, eigs_map_z.cc:50-61. `eig` is
the function eig(A, NULL, vectors) of C69. -/
def small [Neg β] (fuel : Nat) (N : Num α β γ)
    (eig : Bool → Bool → Res (Tensor γ × Option (Tensor γ) × Option (Tensor γ))) (t : Int) (neig : Nat)
    (wantV wantC : Bool) : Run (Out α) := do
  let e ← Run.done (eig false wantV)
  let ndx := N.sort (keys N.re N.im N.abs t e.1.data)
  let out ← Run.done (readN ndx 0 neig)
  let V ← ifWanted e.2.2 fun v => sliceT fuel v [.all, .list out]
  let values ← sliceT fuel e.1 [.list out]
  pure ⟨⟨values.dims, values.data.map N.back⟩, V.map fun v => ⟨v.dims, v.data.map N.back⟩,
    if wantC then some true else none⟩

/-- The loop, eigs_d.cc:70-73, eigs_z.cc:74-77, eigs_map_d.cc:70-72, eigs_map_z.cc:69-71; `answer` puts
the product in the place for y. -/
def loop (lib : Lib L α β) (answer : Obj α β → Res (Obj α β)) : Nat → L → Obj α β → Run (L × Obj α β)
  | 0, _, _ => .out
  | fuel + 1, l, o => do
    let r ← Run.done (update lib l o)
    if r.2.status.code < Status.finished.code then do
      let o ← Run.done (answer r.2)
      loop lib answer fuel r.1 o
    else pure r

/-- The end of eigs, eigs_d.cc:74-86, eigs_z.cc:78-90, eigs_map_d.cc:73-85, eigs_map_z.cc:72-84. -/
def finish [Zero α] (fuel : Nat) (lib : Lib L α β) (l : L) (o : Obj α β) (neig : Nat)
    (vectors : Option (Tensor α)) (wantC : Bool) : Run (Out α) :=
  if o.status = .finished then do
    let d ← getData fuel lib l o vectors.isSome
    pure ⟨d.2.2.1, d.2.2.2, if wantC then some true else none⟩
  else do
    let _ ← Run.done (errorMessage o)
    if wantC then pure ⟨fill [neig] 0, vectors, some false⟩ else .done .abort

/-- The case n > 4, eigs_d.cc:65-86, eigs_z.cc:69-90, eigs_map_d.cc:65-85, eigs_map_z.cc:64-84. -/
def large [Zero α] [Neg β] [One β] (fuel : Nat) (complex : Bool) (junk : Nat → α) (lib : Lib L α β) (l : L)
    (answer : Obj α β → Res (Obj α β)) (n : Nat) (t : Int) (neig : Nat) (vectors : Option (Tensor α))
    (wantC : Bool) : Run (Out α) := do
  let o ← Run.done (construct (β := β) complex junk n t neig)
  let o ← Run.done (match vectors with
    | some v => if v.size ≥ n then setStartVector o v.data else .ok o
    | none => .ok o)
  let r ← loop lib answer fuel l o
  finish fuel lib r.1 r.2 neig vectors wantC

/-- gemv('N', n, n, 1, a, n, x, 1, 0, y, 1), gemv.cc:31-71, where x and y are n elements of `w` from the
positions p and q, which must not overlap. -/
def gemv [Zero α] [Add α] [Mul α] (n : Nat) (a w : List α) (p q : Nat) : Res (List α) :=
  if a.length < n * n ∨ (p < q + n ∧ q < p + n) then .ub
  else do
    let x ← readN w p n
    writeN w q ((List.range n).map fun i =>
      ((List.range n).map fun j => (a[i + n * j]?.getD 0) * (x[j]?.getD 0)).sum)

/-- The body of the loop in eigs_d.cc:71-72, eigs_z.cc:75-76. -/
def answerMatrix [Zero α] [Add α] [Mul α] (A : Tensor α) (n : Nat) (o : Obj α β) : Res (Obj α β) := do
  let p ← pointer o 0
  let q ← pointer o 1
  let workd ← gemv n A.data o.work.workd p q
  .ok { o with work := { o.work with workd := workd } }

/-- The body of the loop in eigs_map_d.cc:71, eigs_map_z.cc:70. -/
def answerMap (f : Tensor α → Res (Tensor α)) (o : Obj α β) : Res (Obj α β) := do
  let x ← getX o
  let y ← f x
  setY o y.data

/-- eigs(A, eig_type, neig, eigenvectors, converged), eigs_d.cc:28-87, eigs_z.cc:32-92. The tensor
`vectors` is what *eigenvectors has before the call. -/
def eigs [Zero α] [Add α] [Mul α] [Neg β] [One β] (fuel : Nat) (complex : Bool) (N : Num α β γ)
    (eig : Tensor α → Bool → Bool → Res (Tensor γ × Option (Tensor γ) × Option (Tensor γ)))
    (junk : Nat → α) (lib : Lib L α β) (l : L) (A : Tensor α) (t : Int) (neig : Nat)
    (vectors : Option (Tensor α)) (wantC : Bool) : Run (Out α) := do
  let n ← Run.done (A.dimension 1)
  let rows ← Run.done (A.dimension 0)
  if A.rank ≠ 2 ∨ rows ≠ n then .done .abort
  else if neig > n ∨ neig = 0 then .done .abort
  else if n ≤ 4 then small fuel N (eig A) t neig vectors.isSome wantC
  else large fuel complex junk lib l (answerMatrix A n) n t neig vectors wantC

/-- The loop over the columns, eigs_map_d.cc:46-50, eigs_map_z.cc:45-49, from `i` for `k` more steps. `up`
is the conversion to complex numbers. -/
def columnLoop [Zero α] [One α] (fuel : Nat) (f : Tensor α → Res (Tensor α)) (up : α → γ) (n : Nat) :
    Nat → Nat → Tensor γ → Run (Tensor γ)
  | 0, _, M => pure M
  | k + 1, i, M => do
    let v ← Run.done ((fill [n] (0 : α)).set1 i 1)
    let y ← Run.done (f v)
    let M ← assign fuel M [.all, .single i] ⟨y.dims, y.data.map up⟩
    columnLoop fuel f up n k (i + 1) M

/-- do_eigs(A, n, eig_type, neig, eigenvectors, converged), eigs_map_d.cc:29-86, eigs_map_z.cc:28-85. The
elements of the new matrix M are unknown, `junkM`. -/
def doEigs [Zero α] [One α] [Neg β] [One β] (fuel : Nat) (complex : Bool) (N : Num α β γ)
    (eig : Tensor γ → Bool → Bool → Res (Tensor γ × Option (Tensor γ) × Option (Tensor γ)))
    (up : α → γ) (junkM : Nat → γ) (junk : Nat → α) (lib : Lib L α β) (l : L)
    (f : Tensor α → Res (Tensor α)) (n : Nat) (t : Int) (neig : Nat) (vectors : Option (Tensor α))
    (wantC : Bool) : Run (Out α) :=
  if neig > n ∨ neig = 0 then .done .abort
  else if n ≤ 4 then do
    let M ← columnLoop fuel f up n n 0 ⟨[n, n], (List.range (n * n)).map junkM⟩
    small fuel N (eig M) t neig vectors.isSome wantC
  else large fuel complex junk lib l (answerMap f) n t neig vectors wantC

/-- eigs(A, eig_type, neig, eigenvectors, converged) for sparse matrices, eigs_sp_d.cc:28-34,
eigs_sp_z.cc:28-34; the map is mmult(A, x), map.cc:33-36. -/
def eigsSparse [Zero α] [One α] [Add α] [Mul α] [Neg β] [One β] (fuel : Nat) (complex : Bool) (N : Num α β γ)
    (eig : Tensor γ → Bool → Bool → Res (Tensor γ × Option (Tensor γ) × Option (Tensor γ)))
    (up : α → γ) (junkM : Nat → γ) (junk : Nat → α) (lib : Lib L α β) (l : L) (A : Sparse α) (t : Int)
    (neig : Nat) (vectors : Option (Tensor α)) (wantC : Bool) : Run (Out α) :=
  doEigs fuel complex N eig up junkM junk lib l A.mmultST A.cols t neig vectors wantC

end Verif.Arpack
