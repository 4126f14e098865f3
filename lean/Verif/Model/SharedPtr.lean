import Verif.Core.Res
/-
Model of class `shared_ptr`, /repo/include/tensor/refcount.h:103-113, which is the type of the data
set handles returned by Job::open_dataset (/repo/include/tensor/jobs.h, typedef `dataset`).

The class declares neither copy constructor nor assignment, so the compiler generated ones copy the
two pointers `_ref` and `_value` and nothing else.
Simplification: the counter `*_ref` and the object `*_value` of one `shared_ptr(T*)` call are one
heap object, as they are created and deleted together.
-/
namespace Verif.SharedPtr

structure St where
  objs : List (Option Int)      -- counter of each object; `none`: deleted
  hs : List (Option Nat)        -- object of each handle; `none`: destroyed handle
deriving Repr, DecidableEq

def init : St := ⟨[], []⟩

inductive Op where
  | create            -- shared_ptr(T *t), refcount.h:106
  | copy (h : Nat)    -- implicit copy constructor
  | destroy (h : Nat) -- ~shared_ptr(), refcount.h:107
  | use (h : Nat)     -- operator->, operator*, refcount.h:108-109
deriving Repr, DecidableEq

def step (s : St) : Op → Res St
  | .create => pure ⟨s.objs ++ [some 1], s.hs ++ [some s.objs.length]⟩
  | .copy h => do
    let o ← Res.ofOption (s.hs[h]?.join)
    pure { s with hs := s.hs ++ [some o] }
  | .destroy h => do
    let o ← Res.ofOption (s.hs[h]?.join)
    let c ← Res.ofOption (s.objs[o]?.join)          -- reading *_ref after `delete _ref`
    if c - 1 = 0 then pure ⟨s.objs.set o none, s.hs.set h none⟩
    else pure ⟨s.objs.set o (some (c - 1)), s.hs.set h none⟩
  | .use h => do
    let o ← Res.ofOption (s.hs[h]?.join)
    let _ ← Res.ofOption (s.objs[o]?.join)
    pure s

def run (s : St) : List Op → Res St
  | [] => .ok s
  | op :: ops => do
    let s1 ← step s op
    run s1 ops

/-- The program is well formed: it only uses handles which exist and were not destroyed.
`n` handles were created so far, `dead` were destroyed. -/
def valid (n : Nat) (dead : List Nat) : List Op → Prop
  | [] => True
  | .create :: ops => valid (n + 1) dead ops
  | .copy h :: ops => h < n ∧ h ∉ dead ∧ valid (n + 1) dead ops
  | .destroy h :: ops => h < n ∧ h ∉ dead ∧ valid n (h :: dead) ops
  | .use h :: ops => h < n ∧ h ∉ dead ∧ valid n dead ops

instance decValid : (n : Nat) → (dead : List Nat) → (ops : List Op) → Decidable (valid n dead ops)
  | _, _, [] => isTrue trivial
  | n, d, .create :: ops => decValid (n + 1) d ops
  | n, d, .copy h :: ops =>
    have := decValid (n + 1) d ops
    inferInstanceAs (Decidable (h < n ∧ h ∉ d ∧ valid (n + 1) d ops))
  | n, d, .destroy h :: ops =>
    have := decValid n (h :: d) ops
    inferInstanceAs (Decidable (h < n ∧ h ∉ d ∧ valid n (h :: d) ops))
  | n, d, .use h :: ops =>
    have := decValid n d ops
    inferInstanceAs (Decidable (h < n ∧ h ∉ d ∧ valid n d ops))

end Verif.SharedPtr
