import Verif.Model.AllocFail
import Verif.Model.Tensor
/-
Model of programs with tensors, lists of indices and vectors of elements whose buffers are shared, when memory may be
exhausted in any of the `new` of the library. A tensor has two vectors, `data_` and `dims_`, created in this order
(/repo/include/tensor/tensor.h:291-292); if the second cannot be created then the first is destroyed by the compiler. The
dimensions share their buffer with the `Indices` they were copied from and with those of other tensors.

The buffers are those of Model/RefCount.lean and their failures those of Model/AllocFail.lean; indices and elements are in one
heap, with the two kinds of numbers apart.

Simplifications: a loop which reads all elements of a vector, or writes all of them through the pointer which the non-const
begin() gave, is one instruction. `dims_.at(k) = d` for each k (tensor_base.hpp:62-118) calls begin() each time; the buffer is new
and not shared, and it is one instruction, too. A temporary vector in an initialiser is the member itself.
-/
namespace Verif.TensorFail

open RefCount AllocFail

/-- Elements of the buffers: those of `Indices` and those of tensors. -/
inductive Cell (α : Type) where
  | num (n : Int)
  | elt (v : α)
deriving Repr, DecidableEq

/-- What a function does with buffers. The continuation of an operation has the observation or `none`: an exception. -/
inductive Prog (β ρ : Type) where
  | ret (r : ρ)
  | stop                                                             -- a failed assertion
  | bad                                                              -- a variable of another type: no C++ program
  | prim (o : Op β) (k : Option (Out β) → Prog β ρ)
  | fill (h : Nat) (l : Cells β) (k : Bool → Prog β ρ)               -- begin(), then all elements are written
  | load (h : Nat) (k : Cells β → Prog β ρ)                          -- all elements are read

variable {α β ρ : Type}

/-- begin(), vector.h:67, and a loop which writes through the pointer. -/
def fillAll (s : St β) (h : Nat) (l : Cells β) (f : Fail) : Res (St β × Bool) := do
  let x ← AllocFail.appropriate s h f
  match x.2 with
  | none => pure (x.1, false)
  | some p =>
    let P ← getPtr x.1 p
    let c ← getBlk x.1 P.blk
    if l.length = c.length then pure ({ x.1 with blks := upd x.1.blks P.blk (some l) }, true) else .ub

/-- begin_const() to end_const(), vector.h:69-70. -/
def loadAll (s : St β) (h : Nat) : Res (Cells β) := do
  let p ← handle s h
  let P ← getPtr s p
  let c ← getBlk s P.blk
  if P.size ≤ c.length then pure (c.take P.size) else .ub

/-- Run a function; one `Fail` for each instruction which may need memory, in the order of the instructions. -/
def exec (s : St β) : Prog β ρ → List Fail → Res (St β × ρ)
  | .ret r, _ => .ok (s, r)
  | .stop, _ => .abort
  | .bad, _ => .ub
  | .prim o k, fs => do
    let x ← AllocFail.step s o (fs.headD .no)
    exec x.1 (k x.2) fs.tail
  | .fill h l k, fs => do
    let x ← fillAll s h l (fs.headD .no)
    exec x.1 (k x.2) fs.tail
  | .load h k, fs => do
    let c ← loadAll s h
    exec s (k c) fs

/-- Variables of the program: the handles of their vectors. -/
inductive Var where
  | tensor (data dims : Nat)
  | idx (h : Nat)                        -- Indices
  | vec (h : Nat)                        -- Vector<elt_t>
  | gone                                 -- destroyed
deriving DecidableEq, Repr

/-- Operations of the program. Those which create something create a variable, numbered in the order of creation. -/
inductive TOp (α : Type) where
  | indices (l : List Int)               -- Indices d = igen << ...
  | dimsOf (t : Nat)                     -- Indices d = t.dimensions()
  | elements (t : Nat)                   -- Vector<elt_t> v = t
  | setIdx (d i : Nat) (n : Int)         -- d.at(i) = n
  | empty                                -- Tensor()
  | ofDims (d : Nat)                     -- Tensor(d)
  | sizes (l : List Int)                 -- Tensor(d1), Tensor(d1, d2), ...
  | list (l : List α)                    -- Tensor t = rgen << ...
  | ofVector (v : Nat)                   -- Tensor(v)
  | reshaped (t d : Nat)                 -- Tensor(d, t), reshape(t, d)
  | reshape (t d : Nat)                  -- t.reshape(d)
  | copy (x : Nat)
  | assign (x y : Nat)
  | destroy (x : Nat)
  | get (t i : Nat)                      -- t[i], v[i]
  | put (t i : Nat) (v : α)              -- t.at_seq(i) = v, v.at(i) = v
  | size (t : Nat)
  | rank (t : Nat)
  | dimension (t k : Nat)
  | fill (t : Nat) (v : α)               -- t.fill_with(v)
  | apply (t : Nat) (f : α → α)          -- t += n, t *= n, ...
  | binary (t u : Nat) (f : α → α → α)   -- t + u, t - u, ...

/-- What the program sees of an operation. -/
inductive TOut (α : Type) where
  | unit
  | val (v : Option α)                   -- an element; none: not initialised
  | num (n : Int)
deriving DecidableEq, Repr

/-- An `Indices` in memory; elements which were never written cannot be used as dimensions. -/
def toInts : Cells (Cell α) → Option (List Int)
  | [] => some []
  | some (.num n) :: l => (toInts l).map (n :: ·)
  | _ :: _ => none

/-- The elements of a tensor in memory. -/
def toElts : Cells (Cell α) → Option (Cells α)
  | [] => some []
  | none :: l => (toElts l).map (none :: ·)
  | some (.elt v) :: l => (toElts l).map (some v :: ·)
  | some (.num _) :: _ => none

def ints (l : List Int) : Cells (Cell α) := l.map fun n => some (.num n)
def elts (l : Cells α) : Cells (Cell α) := l.map (·.map .elt)

/-- `f(x, y)` of two elements; indeterminate if one of them is. -/
def both (f : α → α → α) : Option α → Option α → Option α
  | some x, some y => some (f x y)
  | _, _ => none

abbrev TProg (α : Type) := Prog (Cell α) (List Var × Option (TOut α))

/-- `Vector output(n)` with elements that are written, as handle number m; otherwise an exception and the vector is destroyed. -/
def make (m : Nat) (l : Cells (Cell α)) (ok exc : TProg α) : TProg α :=
  .prim (.newSize l.length) fun
    | none => exc
    | some _ => .fill m l fun
      | true => ok
      | false => .prim (.destroy m) fun _ => exc

/-- Read the numbers of an `Indices`. -/
def loadInts (h : Nat) (k : List Int → TProg α) : TProg α :=
  .load h fun c => match toInts c with
    | some l => k l
    | none => .bad

def loadElts (h : Nat) (k : Cells α → TProg α) : TProg α :=
  .load h fun c => match toElts c with
    | some l => k l
    | none => .bad

/-- One operation, with the variables `vs`, if `m` vectors have been created so far. -/
def prog (vs : List Var) (m : Nat) : TOp α → TProg α
  | .indices l =>                                                    -- gen.h:81-93, indices.h:36-40
    make m (ints l) (.ret (vs ++ [.idx m], some .unit)) (.ret (vs, none))
  | .dimsOf t => match vs[t]? with                                   -- tensor.h:128
    | some (.tensor _ n) => .prim (.copy n) fun _ => .ret (vs ++ [.idx m], some .unit)
    | _ => .bad
  | .elements t => match vs[t]? with                                 -- tensor.h:115
    | some (.tensor d _) => .prim (.copy d) fun _ => .ret (vs ++ [.vec m], some .unit)
    | _ => .bad
  | .setIdx d i n => match vs[d]? with                               -- vector.h:63-65
    | some (.idx h) => .prim (.write h i (.num n)) fun
      | none => .ret (vs, none)
      | some _ => .ret (vs, some .unit)
    | _ => .bad
  | .empty =>                                                        -- tensor_base.hpp:36-38
    .prim .newEmpty fun
    | none => .ret (vs, none)
    | some _ => .prim .newEmpty fun
      | none => .prim (.destroy m) fun _ => .ret (vs, none)
      | some _ => .ret (vs ++ [.tensor m (m + 1)], some .unit)
  | .ofDims d => match vs[d]? with                                   -- tensor_base.hpp:40-44
    | some (.idx h) => loadInts h fun l =>
      .prim (.newSize (Tensor.totalSizeI l).toNat) fun
      | none => .ret (vs, none)
      | some _ => .prim (.copy h) fun _ => .ret (vs ++ [.tensor m (m + 1)], some .unit)
    | _ => .bad
  | .sizes l =>                                                      -- tensor_base.hpp:62-118
    if l.foldl (· * ·) 1 < 0 then .ret (vs, none)                    -- a size_t which no `new` can give
    else .prim (.newSize (l.foldl (· * ·) 1).toNat) fun
    | none => .ret (vs, none)
    | some _ => make (m + 1) (ints l) (.ret (vs ++ [.tensor m (m + 1)], some .unit))
        (.prim (.destroy m) fun _ => .ret (vs, none))
  | .list l =>                                                       -- tensor.h:91-94, gen.h:74-93
    make m (elts (l.map some))
      (make (m + 1) (ints [(l.length : Int)]) (.ret (vs ++ [.tensor m (m + 1)], some .unit))
        (.prim (.destroy m) fun _ => .ret (vs, none)))
      (.ret (vs, none))
  | .ofVector v => match vs[v]? with                                 -- tensor_base.hpp:125-128
    | some (.vec h) => .load h fun c => .prim (.copy h) fun _ =>
      make (m + 1) (ints [(c.length : Int)]) (.ret (vs ++ [.tensor m (m + 1)], some .unit))
        (.prim (.destroy m) fun _ => .ret (vs, none))
    | _ => .bad
  | .reshaped t d => match vs[t]?, vs[d]? with                       -- tensor_base.hpp:46-51, tensor_reshape.hpp:33-35
    | some (.tensor e _), some (.idx h) => .prim (.copy e) fun _ => .prim (.copy h) fun _ =>
      loadInts h fun l => .load e fun c =>
      if Tensor.totalSizeI l = c.length then .ret (vs ++ [.tensor m (m + 1)], some .unit) else .stop
    | _, _ => .bad
  | .reshape t d => match vs[t]?, vs[d]? with                        -- tensor_base.hpp:205-209
    | some (.tensor e n), some (.idx h) => loadInts h fun l => .load e fun c =>
      if Tensor.totalSizeI l = c.length then .prim (.assign n h) fun _ => .ret (vs, some .unit) else .stop
    | _, _ => .bad
  | .copy x => match vs[x]? with                                     -- tensor_base.hpp:120-123, vector.h:45
    | some (.tensor d n) => .prim (.copy d) fun _ => .prim (.copy n) fun _ =>
      .ret (vs ++ [.tensor m (m + 1)], some .unit)
    | some (.idx h) => .prim (.copy h) fun _ => .ret (vs ++ [.idx m], some .unit)
    | some (.vec h) => .prim (.copy h) fun _ => .ret (vs ++ [.vec m], some .unit)
    | _ => .bad
  | .assign x y => match vs[x]?, vs[y]? with                         -- tensor_base.hpp:130-136, vector.h:46
    | some (.tensor d n), some (.tensor d' n') => .prim (.assign d d') fun _ => .prim (.assign n n') fun _ =>
      .ret (vs, some .unit)
    | some (.idx h), some (.idx h') => .prim (.assign h h') fun _ => .ret (vs, some .unit)
    | some (.vec h), some (.vec h') => .prim (.assign h h') fun _ => .ret (vs, some .unit)
    | _, _ => .bad
  | .destroy x => match vs[x]? with                                  -- members in the opposite order
    | some (.tensor d n) => .prim (.destroy n) fun _ => .prim (.destroy d) fun _ => .ret (vs.set x .gone, some .unit)
    | some (.idx h) => .prim (.destroy h) fun _ => .ret (vs.set x .gone, some .unit)
    | some (.vec h) => .prim (.destroy h) fun _ => .ret (vs.set x .gone, some .unit)
    | _ => .bad
  | .get t i =>                                                      -- tensor_base.hpp:215-218, vector.h:60-62
    let rd (h : Nat) : TProg α := .prim (.read h i) fun
      | some (.val (some (.elt v))) => .ret (vs, some (.val (some v)))
      | some (.val none) => .ret (vs, some (.val none))
      | _ => .bad
    match vs[t]? with
    | some (.tensor d _) => rd d
    | some (.vec h) => rd h
    | _ => .bad
  | .put t i v =>                                                    -- tensor_base.hpp:289-292, vector.h:63-65
    let wr (h : Nat) : TProg α := .prim (.write h i (.elt v)) fun
      | none => .ret (vs, none)
      | some _ => .ret (vs, some .unit)
    match vs[t]? with
    | some (.tensor d _) => wr d
    | some (.vec h) => wr h
    | _ => .bad
  | .size t => match vs[t]? with                                     -- tensor.h:121
    | some (.tensor d _) => .prim (.size d) fun
      | some (.num n) => .ret (vs, some (.num n))
      | _ => .bad
    | _ => .bad
  | .rank t => match vs[t]? with                                     -- tensor.h:126
    | some (.tensor _ n) => .prim (.size n) fun
      | some (.num k) => .ret (vs, some (.num k))
      | _ => .bad
    | _ => .bad
  | .dimension t k => match vs[t]? with                              -- tensor_base.hpp:142-147
    | some (.tensor _ n) => .prim (.size n) fun
      | some (.num r) => if k < r then .prim (.read n k) fun
          | some (.val (some (.num x))) => .ret (vs, some (.num x))
          | _ => .bad
        else .stop
      | _ => .bad
    | _ => .bad
  | .fill t v => match vs[t]? with                                   -- tensor_base.hpp:359-362
    | some (.tensor d _) => .load d fun c => .fill d (List.replicate c.length (some (.elt v))) fun
      | true => .ret (vs, some .unit)
      | false => .ret (vs, none)
    | _ => .bad
  | .apply t f => match vs[t]? with                                  -- tensor_ops.hpp:176-195
    | some (.tensor d _) => loadElts d fun c => .fill d (elts (c.map (·.map f))) fun
      | true => .ret (vs, some .unit)
      | false => .ret (vs, none)
    | _ => .bad
  | .binary t u f => match vs[t]?, vs[u]? with                       -- tensor_ops.hpp:48-83
    | some (.tensor d n), some (.tensor d' n') => loadInts n fun l => loadInts n' fun l' =>
      if l = l' then
        loadElts d fun c => loadElts d' fun c' =>
        .prim (.newSize (Tensor.totalSizeI l).toNat) fun
        | none => .ret (vs, none)
        | some _ => .prim (.copy n) fun _ => .fill m (elts (List.zipWith (both f) c c')) fun
          | true => .ret (vs ++ [.tensor m (m + 1)], some .unit)
          | false => .prim (.destroy (m + 1)) fun _ => .prim (.destroy m) fun _ => .ret (vs, none)
      else .stop
    | _, _ => .bad

/-- The state of the program. -/
structure TSt (α : Type) where
  heap : St (Cell α)
  vars : List Var

def init : TSt α := { heap := RefCount.init [], vars := [] }

/-- One operation; `none` in place of the observation: an exception. -/
def step (s : TSt α) (o : TOp α) (fs : List Fail) : Res (TSt α × Option (TOut α)) := do
  let x ← exec s.heap (prog s.vars s.heap.hs.length o) fs
  pure ({ heap := x.1, vars := x.2.1 }, x.2.2)

/-- A program, which notices the exceptions and goes on. -/
def run (s : TSt α) : List (TOp α × List Fail) → Res (TSt α × List (Option (TOut α)))
  | [] => .ok (s, [])
  | (o, fs) :: ops => do
    let x ← step s o fs
    let y ← run x.1 ops
    pure (y.1, x.2 :: y.2)

end Verif.TensorFail
