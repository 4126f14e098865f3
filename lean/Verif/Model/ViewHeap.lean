import Verif.Model.View
/-
Model of ranges and views as objects with a lifetime: `PRange r = range(...)`, `const auto &v = t(r1, ...)`,
`auto &&w = t.at(r1, ...)`. /repo/include/tensor/indices.h:98-206, /repo/include/tensor/detail/tensor_slice.hpp:28-86,
/repo/src/tensor/tensor_view.hpp, /repo/src/views/range.cc.

The computations are those of Model/View.lean, but the range objects are in memory: a PRange is a pointer to one of
them (indices.h:186-195), and the destructor of a view deletes its ranges. The ProductRange objects, which are made
for a view and deleted with it (range.cc:266-270), are a part of the view. Tensors are values (justified by C01); a
view has a copy of the elements (tensor_slice.hpp:37), a mutable_view a reference to the tensor (tensor_slice.hpp:72).

Simplification: variables are numbers, and declaring a variable again is possible.
-/
namespace Verif.ViewHeap

open Verif View

variable {α : Type}

abbrev Addr := Nat

/-- The memory: `none` is memory which is not in use, or no longer. -/
structure Heap where
  cells : Addr → Option Leaf
  next : Addr

def upd {β : Type} (f : Nat → β) (k : Nat) (v : β) : Nat → β := fun x => if x = k then v else f x

def Heap.set (h : Heap) (p : Addr) (x : Option Leaf) : Heap := { h with cells := upd h.cells p x }

/-- An access to a range object; undefined if it was deleted. -/
def Heap.get (h : Heap) (p : Addr) : Res Leaf := Res.ofOption (h.cells p)

/-- A range, or ProductRange objects, with pointers to simple ranges; compare `View.Range`. -/
inductive Ptr where
  | leaf (p : Addr)
  | product (p : Addr) (r2 : Ptr) (base : Option Int)

/-- set_factor, range.cc:86-93, 131-137, 179-187, 224-233, 295-300. -/
def setFactor (h : Heap) : Ptr → Int → Res Heap
  | .leaf p, f => do
    let r ← h.get p
    let r ← r.setFactor f
    pure (h.set p (some r))
  | .product p r2 _, f => do
    let r ← h.get p
    let r ← r.setFactor f
    setFactor (h.set p (some r)) r2 (f * r.limit)

/-- product(r1, r2), range.cc:261-264, 314-317. -/
def mkProduct (h : Heap) (p : Addr) (r2 : Ptr) : Res (Ptr × Heap) := do
  let r ← h.get p
  let h ← setFactor h r2 (r.factor * r.limit)
  pure (.product p r2 none, h)

/-- product(r1, product(r2, ...)), tensor_view.hpp:66, 81, 98, 117, 139. -/
def build (h : Heap) (p : Addr) : List Addr → Res (Ptr × Heap)
  | [] => .ok (.leaf p, h)
  | p' :: ps => do
    let x ← build h p' ps
    mkProduct x.2 p x.1

/-- pop, range.cc:74-84, 122-129, 167-177, 216-222, 272-285; compare `View.Range.pop`. -/
def pop : Nat → Heap → Ptr → Run (Int × Heap × Ptr)
  | 0, _, _ => .out
  | _ + 1, h, .leaf p => do
    let r ← Run.done (h.get p)
    pure (r.pop.1, h.set p (some r.pop.2), .leaf p)
  | n + 1, h, .product p r2 base =>
    match base with
    | none => .done .ub
    | some out =>
      if out = nomore then pure (out, h, .product p r2 base)
      else do
        let r ← Run.done (h.get p)
        if r.pop.1 ≠ nomore then pure (r.pop.1 + out, h.set p (some r.pop.2), .product p r2 base)
        else do
          let x ← pop n (h.set p (some r.pop.2)) r2
          let r ← Run.done (x.2.1.get p)
          pop n (x.2.1.set p (some r.reset)) (.product p x.2.2 (some x.1))

/-- reset, range.cc:108-112, 152-156, 202-206, 252-256, 287-293. -/
def reset (n : Nat) (h : Heap) : Ptr → Run (Heap × Ptr)
  | .leaf p => do
    let r ← Run.done (h.get p)
    pure (h.set p (some r.reset), .leaf p)
  | .product p r2 _ => do
    let r ← Run.done (h.get p)
    let x ← reset n (h.set p (some r.reset)) r2
    let y ← pop n x.1 x.2
    pure (y.2.1, .product p y.2.2 (some y.1))

/-- The destructors, range.cc:31-33, 266-270. -/
def destroy (h : Heap) : Ptr → Res Heap
  | .leaf p => do
    let _ ← h.get p
    pure (h.set p none)
  | .product p r2 _ => do
    let _ ← h.get p
    destroy (h.set p none) r2

/-- `set_limit` for all ranges, in order; tensor_view.hpp:52, 62-63, 75-77 ... -/
def setLimits (h : Heap) : List Addr → List Nat → Res Heap
  | [], [] => .ok h
  | p :: ps, d :: ds => do
    let r ← h.get p
    let r ← r.setLimit d
    setLimits (h.set p (some r)) ps ds
  | _, _ => .abort

/-- `size()` of all ranges, in order; tensor_view.hpp:53, 64-65, 78-80 ... -/
def sizes (h : Heap) : List Addr → Res (List Int)
  | [] => .ok []
  | p :: ps => do
    let r ← h.get p
    let s ← r.size
    let ss ← sizes h ps
    pure (s :: ss)

/-- The overloads operator()(PRange, ...) and at(PRange, ...), tensor_view.hpp:46-141, 147-242. -/
def mkView (h : Heap) (t : Tensor α) : List Addr → Res (List Int × Ptr × Heap)
  | [] => .abort
  | p :: ps => do
    let limits := if ps = [] then [t.size] else t.dims
    Res.assert (limits.length = ps.length + 1)
    let h ← setLimits h (p :: ps) limits
    let dims ← sizes h (p :: ps)
    let x ← build h p ps
    pure (dims, x.1, x.2)

/-- The loop of view::operator Tensor, tensor_view.hpp:36-38. -/
def readLoop (data : List α) : Nat → Heap → Ptr → Nat → List (Option α) → Run (List (Option α) × Heap × Ptr)
  | 0, _, _, _, _ => .out
  | n + 1, h, r, k, buf => do
    let x ← pop n h r
    if x.1 = nomore then pure (buf, x.2)
    else do
      let buf ← Run.done (writeAll buf [(k, readAt data x.1)])
      readLoop data n x.2.1 x.2.2 (k + 1) buf

/-- The loop of mutable_view::operator=(Tensor), tensor_view.hpp:270-272, for another tensor. -/
def assignLoop (src : List α) : Nat → Heap → Ptr → Nat → List α → Run (List α × Heap × Ptr)
  | 0, _, _, _, _ => .out
  | n + 1, h, r, i, data => do
    let x ← pop n h r
    if x.1 = nomore then pure (data, x.2)
    else do
      let data ← Run.done (writeAt data x.1 src[i]?)
      assignLoop src n x.2.1 x.2.2 (i + 1) data

/-- The same loop for the tensor of the view. -/
def assignSelfLoop : Nat → Heap → Ptr → Nat → List α → Run (List α × Heap × Ptr)
  | 0, _, _, _, _ => .out
  | n + 1, h, r, i, data => do
    let x ← pop n h r
    if x.1 = nomore then pure (data, x.2)
    else do
      let data ← Run.done (writeAt data x.1 data[i]?)
      assignSelfLoop n x.2.1 x.2.2 (i + 1) data

/-- The loop of mutable_view::operator=(elt_t), tensor_view.hpp:279-281. -/
def fillLoop (v : α) : Nat → Heap → Ptr → List α → Run (List α × Heap × Ptr)
  | 0, _, _, _ => .out
  | n + 1, h, r, data => do
    let x ← pop n h r
    if x.1 = nomore then pure (data, x.2)
    else do
      let data ← Run.done (writeAt data x.1 (some v))
      fillLoop v n x.2.1 x.2.2 data

/-- The loop of mutable_view::operator=(view), tensor_view.hpp:258-261. -/
def viewLoop (src : List α) : Nat → Heap → Ptr → Ptr → List α → Run (List α × Heap × Ptr × Ptr)
  | 0, _, _, _, _ => .out
  | n + 1, h, r1, r2, data => do
    let x ← pop n h r1
    let y ← pop n x.2.1 r2
    if x.1 ≠ nomore ∧ y.1 ≠ nomore then do
      let data ← Run.done (writeAt data x.1 (readAt src y.1))
      viewLoop src n y.2.1 x.2.2 y.2.2 data
    else pure (data, y.2.1, x.2.2, y.2.2)

/-- Tensor::view, tensor_slice.hpp:28-54. -/
structure ViewObj (α : Type) where
  data : List α
  dims : List Int
  ranges : Ptr

/-- Tensor::mutable_view, tensor_slice.hpp:56-86; `tensor` is the variable whose elements it refers to. -/
structure MView where
  tensor : Nat
  dims : List Int
  ranges : Ptr

/-- Statements. -/
inductive Stmt (α : Type) where
  | tensor (t : Nat) (x : Tensor α)              -- Tensor t = x, or t = x
  | endTensor (t : Nat)                          -- end of the lifetime of t
  | range (r : Nat) (spec : View.Spec)           -- PRange r = range(...)
  | view (v t : Nat) (rs : List Nat)             -- const auto &v = t(r1, ...)
  | convert (v : Nat)                            -- Tensor s = v, and s is observed
  | endView (v : Nat)                            -- end of the lifetime of v
  | mview (w t : Nat) (rs : List Nat)            -- auto &&w = t.at(r1, ...)
  | assign (w s : Nat)                           -- w = s, for a tensor s
  | number (w : Nat) (x : α)                     -- w = x, for a number x
  | assignView (w v : Nat)                       -- w = v, for a view v
  | endMView (w : Nat)                           -- end of the lifetime of w

/-- The state of a program. -/
structure St (α : Type) where
  heap : Heap
  tensors : Nat → Option (Tensor α)
  ranges : Nat → Option Addr
  views : Nat → Option (ViewObj α)
  mviews : Nat → Option MView
  out : List (List Int × List α)

/-- A variable; undefined if it does not exist. -/
def var {β : Type} (f : Nat → Option β) (k : Nat) : Res β := Res.ofOption (f k)

def vars {β : Type} (f : Nat → Option β) : List Nat → Res (List β)
  | [] => .ok []
  | k :: ks => do
    let x ← var f k
    let xs ← vars f ks
    pure (x :: xs)

/-- Execution of a statement, with fuel for the loops. -/
def step (n : Nat) (s : St α) : Stmt α → Run (St α)
  | .tensor t x => pure { s with tensors := upd s.tensors t (some x) }
  | .endTensor t => pure { s with tensors := upd s.tensors t none }
  | .range r spec => pure
    { s with
      heap := ⟨upd s.heap.cells s.heap.next (some spec.new), s.heap.next + 1⟩,
      ranges := upd s.ranges r (some s.heap.next) }
  | .view v t rs => do
    let x ← Run.done (var s.tensors t)
    let ps ← Run.done (vars s.ranges rs)
    let y ← Run.done (mkView s.heap x ps)
    pure { s with heap := y.2.2, views := upd s.views v (some ⟨x.data, y.1, y.2.1⟩) }
  | .convert v => do                                           -- tensor_view.hpp:30-40
    let x ← Run.done (var s.views v)
    let y ← reset n s.heap x.ranges
    let z ← readLoop x.data n y.1 y.2 0 (List.replicate (Tensor.totalSizeI x.dims).toNat none)
    let data ← Run.done (finish z.1)
    pure
      { s with
        heap := z.2.1, views := upd s.views v (some { x with ranges := z.2.2 }), out := s.out ++ [(x.dims, data)] }
  | .endView v => do                                           -- tensor_slice.hpp:32-34
    let x ← Run.done (var s.views v)
    let h ← Run.done (destroy s.heap x.ranges)
    pure { s with heap := h, views := upd s.views v none }
  | .mview w t rs => do
    let x ← Run.done (var s.tensors t)
    let ps ← Run.done (vars s.ranges rs)
    let y ← Run.done (mkView s.heap x ps)
    pure { s with heap := y.2.2, mviews := upd s.mviews w (some ⟨t, y.1, y.2.1⟩) }
  | .assign w q => do                                          -- tensor_view.hpp:264-273
    let x ← Run.done (var s.mviews w)
    let t ← Run.done (var s.tensors x.tensor)
    let q' ← Run.done (var s.tensors q)
    let _ ← Run.done (Res.assert (Tensor.totalSizeI x.dims = Tensor.totalSize q'.dims))
    let y ← reset n s.heap x.ranges
    let z ← if q = x.tensor then assignSelfLoop n y.1 y.2 0 t.data else assignLoop q'.data n y.1 y.2 0 t.data
    pure
      { s with
        heap := z.2.1, mviews := upd s.mviews w (some { x with ranges := z.2.2 }),
        tensors := upd s.tensors x.tensor (some ⟨t.dims, z.1⟩) }
  | .number w v => do                                          -- tensor_view.hpp:275-282
    let x ← Run.done (var s.mviews w)
    let t ← Run.done (var s.tensors x.tensor)
    let y ← reset n s.heap x.ranges
    let z ← fillLoop v n y.1 y.2 t.data
    pure
      { s with
        heap := z.2.1, mviews := upd s.mviews w (some { x with ranges := z.2.2 }),
        tensors := upd s.tensors x.tensor (some ⟨t.dims, z.1⟩) }
  | .assignView w v => do                                      -- tensor_view.hpp:248-262
    let x ← Run.done (var s.mviews w)
    let t ← Run.done (var s.tensors x.tensor)
    let q ← Run.done (var s.views v)
    let _ ← Run.done (Res.assert (Tensor.totalSizeI x.dims = Tensor.totalSizeI q.dims))
    let y1 ← reset n s.heap x.ranges
    let y2 ← reset n y1.1 q.ranges
    let z ← viewLoop q.data n y2.1 y1.2 y2.2 t.data
    pure
      { s with
        heap := z.2.1, mviews := upd s.mviews w (some { x with ranges := z.2.2.1 }),
        views := upd s.views v (some { q with ranges := z.2.2.2 }),
        tensors := upd s.tensors x.tensor (some ⟨t.dims, z.1⟩) }
  | .endMView w => do                                          -- tensor_slice.hpp:60-62
    let x ← Run.done (var s.mviews w)
    let h ← Run.done (destroy s.heap x.ranges)
    pure { s with heap := h, mviews := upd s.mviews w none }

/-- Execution of a program. -/
def run (n : Nat) (s : St α) : List (Stmt α) → Run (St α)
  | [] => pure s
  | c :: cs => do
    let s ← step n s c
    run n s cs

/-- The state at the start. -/
def start : St α := ⟨⟨fun _ => none, 0⟩, fun _ => none, fun _ => none, fun _ => none, fun _ => none, []⟩

end Verif.ViewHeap
