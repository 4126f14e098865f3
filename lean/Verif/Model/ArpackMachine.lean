import Verif.Model.Arpack
import Verif.Model.LapackMachine
/-
Model of the classes RArpack and CArpack in machine words: n, nev, ncv and the sizes of the arrays are of type
`blas::integer`, which has `w` bits (arpack_d.h:86-93, 106-113), and ldz is an `int`.
/repo/src/arpack/arpack_t.cc, eigs_d.cc, eigs_z.cc, eigs_map_d.cc, eigs_map_z.cc.

Simplifications: `new` with a negative size stops the program, memory is not exhausted, and the quotient in maxit is not rounded
(it is exact as long as n < 2^52).
-/
namespace Verif.ArpackMachine

open Verif Tensor Machine Arpack LapackMachine

variable {L α β γ : Type}

/-- A sum of type `blas::integer`. -/
def addI (w : Nat) (a b : Int) : Res Int :=
  if -2 ^ (w - 1) ≤ a + b ∧ a + b < 2 ^ (w - 1) then .ok (a + b) else .ub

/-- `(int)(ceil(2.0*n/std::max(ncv,1)))`, arpack_t.cc:86: undefined if it is not an int. -/
def steps (n ncv : Int) : Res Int :=
  let q := (2 * n + max ncv 1 - 1) / max ncv 1
  if -2 ^ 31 ≤ q ∧ q < 2 ^ 31 then .ok q else .ub

/-- lworkl, arpack_t.cc:105. -/
def lworkl (w : Nat) (complex : Bool) (ncv : Int) : Res Int :=
  if complex then do
    let a ← mulI w 3 ncv
    let b ← addI w a 5
    mulI w ncv b
  else do
    let a ← addI w ncv 8
    mulI w ncv a

/-- The constructor from the selection of the sizes on, arpack_t.cc:60-116. A negative nev, which is not refused in :65, makes
dsaupd and znaupd answer info = -2, and update() stop the program; here it stops at once. -/
def sized [Neg β] [One β] (w : Nat) (complex : Bool) (junk : Nat → α) (n nev : Int) (which : String) : Res (Obj α β) := do
  let last ← addI w n (-1)
  Res.assert (¬ (nev = 0 ∨ nev > last))
  let resid ← cells n
  let twice ← mulI w 2 nev
  let ncv := min (max twice 20) n
  let v ← mulI w n ncv
  let V ← cells v
  let q ← steps n ncv
  let maxit := max 300 q
  let lworkl ← lworkl w complex ncv
  let lworkv ← mulI w ncv 3
  let d ← mulI w n 3
  let workd ← cells d
  let workl ← cells lworkl
  let _ ← cells lworkv
  let _ ← cells ncv
  Res.assert (0 < nev)
  let array (size : Nat) : List α := (List.range size).map junk
  .ok {
    status := .initialized
    args := ⟨n.toNat, which, nev.toNat, ncv.toNat, lworkl.toNat⟩
    maxit := maxit.toNat
    work := {
      ido := 0
      info := 0
      tol := -1
      resid := array resid
      V := array V
      iparam := [1, 0, maxit, 1, 0, 0, 1, 0, 0, 0, 0]
      ipntr := List.replicate 15 0
      workd := array workd
      workl := array workl }
    error := none }

/-- The constructor, arpack_t.cc:25-116. `n` and `nev` are of type size_t. -/
def construct [Neg β] [One β] (w : Nat) (complex : Bool) (junk : Nat → α) (n : Nat) (t : Int) (nev : Nat) :
    Res (Obj α β) :=
  if complex = false ∧ (t = 4 ∨ t = 5) then .abort
  else if t < 0 ∨ t > 6 then .abort
  else
    match (whichs complex)[t.toNat]? with
    | none => .ub
    | some which => sized w complex junk (conv w n) (conv w nev) which

/-- get_data(vectors), arpack_t.cc:179-243: `int ldz = n` in :192, and dseupd and zneupd write n elements of each column; with
another ldz the columns overlap or leave the array, here undefined. -/
def getData (fuel : Nat) (lib : Lib L α β) (l : L) (o : Obj α β) (wantV : Bool) :
    Run (L × Obj α β × Tensor α × Option (Tensor α)) :=
  if wantV = true ∧ conv 32 o.args.n ≠ o.args.n then .done .ub
  else Arpack.getData fuel lib l o wantV

/-- The end of eigs, as in Model/Arpack.lean. -/
def finish [Zero α] (fuel : Nat) (lib : Lib L α β) (l : L) (o : Obj α β) (neig : Nat)
    (vectors : Option (Tensor α)) (wantC : Bool) : Run (Out α) :=
  if o.status = .finished then do
    let d ← getData fuel lib l o vectors.isSome
    pure ⟨d.2.2.1, d.2.2.2, if wantC then some true else none⟩
  else do
    let _ ← Run.done (errorMessage o)
    if wantC then pure ⟨fill [neig] 0, vectors, some false⟩ else .done .abort

/-- The case n > 4, eigs_d.cc:65-86, eigs_z.cc:69-90, eigs_map_d.cc:65-85, eigs_map_z.cc:64-84. -/
def large [Zero α] [Neg β] [One β] (w fuel : Nat) (complex : Bool) (junk : Nat → α) (lib : Lib L α β) (l : L)
    (answer : Obj α β → Res (Obj α β)) (n : Nat) (t : Int) (neig : Nat) (vectors : Option (Tensor α))
    (wantC : Bool) : Run (Out α) := do
  let o ← Run.done (construct (β := β) w complex junk n t neig)
  let o ← Run.done (match vectors with
    | some v => if v.size ≥ n then setStartVector o v.data else .ok o
    | none => .ok o)
  let r ← Arpack.loop lib answer fuel l o
  finish fuel lib r.1 r.2 neig vectors wantC

/-- The body of the loop in eigs_d.cc:71-72, eigs_z.cc:75-76: the sizes of gemv are converted; BLAS refuses negative
ones. -/
def answerMatrix [Zero α] [Add α] [Mul α] (w : Nat) (A : Tensor α) (n : Nat) (o : Obj α β) : Res (Obj α β) := do
  Res.assert (0 ≤ conv w n)
  Arpack.answerMatrix A (conv w n).toNat o

/-- eigs(A, eig_type, neig, eigenvectors, converged), eigs_d.cc:28-87, eigs_z.cc:32-92. -/
def eigs [Zero α] [Add α] [Mul α] [Neg β] [One β] (w fuel : Nat) (complex : Bool) (N : Num α β γ)
    (eig : Tensor α → Bool → Bool → Res (Tensor γ × Option (Tensor γ) × Option (Tensor γ)))
    (junk : Nat → α) (lib : Lib L α β) (l : L) (A : Tensor α) (t : Int) (neig : Nat)
    (vectors : Option (Tensor α)) (wantC : Bool) : Run (Out α) := do
  let n ← Run.done (A.dimension 1)
  let rows ← Run.done (A.dimension 0)
  if A.rank ≠ 2 ∨ rows ≠ n then .done .abort
  else if neig > n ∨ neig = 0 then .done .abort
  else if n ≤ 4 then small fuel N (eig A) t neig vectors.isSome wantC
  else large w fuel complex junk lib l (answerMatrix w A n) n t neig vectors wantC

/-- do_eigs(A, n, eig_type, neig, eigenvectors, converged), eigs_map_d.cc:29-86, eigs_map_z.cc:28-85. -/
def doEigs [Zero α] [One α] [Neg β] [One β] (w fuel : Nat) (complex : Bool) (N : Num α β γ)
    (eig : Tensor γ → Bool → Bool → Res (Tensor γ × Option (Tensor γ) × Option (Tensor γ)))
    (up : α → γ) (junkM : Nat → γ) (junk : Nat → α) (lib : Lib L α β) (l : L)
    (f : Tensor α → Res (Tensor α)) (n : Nat) (t : Int) (neig : Nat) (vectors : Option (Tensor α))
    (wantC : Bool) : Run (Out α) :=
  if neig > n ∨ neig = 0 then .done .abort
  else if n ≤ 4 then do
    let M ← columnLoop fuel f up n n 0 ⟨[n, n], (List.range (n * n)).map junkM⟩
    small fuel N (eig M) t neig vectors.isSome wantC
  else large w fuel complex junk lib l (answerMap f) n t neig vectors wantC

end Verif.ArpackMachine
