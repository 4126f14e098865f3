import Verif.Model.Parts
import Mathlib.Analysis.SpecialFunctions.Trigonometric.Basic
import Mathlib.Analysis.SpecialFunctions.Pow.Complex
/-
Model of the operators and functions which the library declares for each combination of real and
complex operands, /repo/include/tensor/tensor.h:302-341, 458-474, 594-610, sparse.h:168-197: which
of the files in /repo/src/generated, or which template in detail/tensor_ops.hpp with which functor
of detail/functional.h, runs, and which operation of the C++ library it applies to the elements.
Numbers are real numbers without rounding; a complex number is the pair of its parts. The functions
of <cmath> and <complex> are the mathematical ones.
-/
namespace Verif.Ops

open Verif

/-- std::complex<double>. -/
abbrev Z := ℝ × ℝ

/-! ### Operators of std::complex ([complex.ops] in the C++ standard) -/

def addZZ (a b : Z) : Z := (a.1 + b.1, a.2 + b.2)
def addZD (a : Z) (b : ℝ) : Z := (a.1 + b, a.2)
def addDZ (a : ℝ) (b : Z) : Z := (a + b.1, b.2)
def subZZ (a b : Z) : Z := (a.1 - b.1, a.2 - b.2)
def subZD (a : Z) (b : ℝ) : Z := (a.1 - b, a.2)
def subDZ (a : ℝ) (b : Z) : Z := (a - b.1, -b.2)
def mulZZ (a b : Z) : Z := (a.1 * b.1 - a.2 * b.2, a.1 * b.2 + a.2 * b.1)
def mulZD (a : Z) (b : ℝ) : Z := (a.1 * b, a.2 * b)
def mulDZ (a : ℝ) (b : Z) : Z := (a * b.1, a * b.2)
noncomputable def divZZ (a b : Z) : Z :=
  ((a.1 * b.1 + a.2 * b.2) / (b.1 * b.1 + b.2 * b.2),
    (a.2 * b.1 - a.1 * b.2) / (b.1 * b.1 + b.2 * b.2))
noncomputable def divZD (a : Z) (b : ℝ) : Z := (a.1 / b, a.2 / b)
noncomputable def divDZ (a : ℝ) (b : Z) : Z := divZZ (a, 0) b
def negZ (a : Z) : Z := (-a.1, -a.2)

/-! ### Tensors -/

/-- An operand: RTensor, CTensor, double or cdouble. -/
inductive Arg where
  | rt (t : Tensor ℝ)
  | ct (t : Tensor Z)
  | rn (x : ℝ)
  | cn (z : Z)

/-- The symbols. -/
inductive Op where
  | add | sub | mul | div
deriving DecidableEq

/-- operator+. `none`: not an operator of the library. -/
def add : Arg → Arg → Option (Res Arg)
  -- src/generated/tensor_plus_tt_double.cc:24-34, tensor_plus_tt_cdouble.cc:24-34
  | .rt a, .rt b => some (.rt <$> Tensor.binopTT (· + ·) a b)
  | .ct a, .ct b => some (.ct <$> Tensor.binopTT addZZ a b)
  -- tensor_ops.hpp:49-56 with plus<t1,t2>, functional.h:49-54
  | .rt a, .ct b => some (.ct <$> Tensor.binopMixed addDZ a b)
  | .ct a, .rt b => some (.ct <$> Tensor.binopMixed addZD a b)
  -- src/generated/tensor_plus_tn_double.cc:24-32, tensor_plus_tn_cdouble.cc:24-32
  | .rt a, .rn b => some (.rt <$> Tensor.binopTN (· + ·) a b)
  | .ct a, .cn b => some (.ct <$> Tensor.binopTN addZZ a b)
  -- tensor_ops.hpp:89-93 with plus_constant<t1,t2>, functional.h:80-87
  | .rt a, .cn b => some (.ct <$> Tensor.unop (fun x => addDZ x b) a)
  | .ct a, .rn b => some (.ct <$> Tensor.unop (fun x => addZD x b) a)
  -- src/generated/tensor_plus_tn_double.cc:34-42, tensor_plus_tn_cdouble.cc:34-42
  | .rn a, .rt b => some (.rt <$> Tensor.binopNT (· + ·) a b)
  | .cn a, .ct b => some (.ct <$> Tensor.binopNT addZZ a b)
  -- tensor_ops.hpp:117-121 with plus_constant<t2,t1>: the element is the first operand
  | .cn a, .rt b => some (.ct <$> Tensor.unop (fun x => addDZ x a) b)
  | .rn a, .ct b => some (.ct <$> Tensor.unop (fun x => addZD x a) b)
  | _, _ => none

/-- operator-. -/
def sub : Arg → Arg → Option (Res Arg)
  -- src/generated/tensor_minus_tt_double.cc:24-34, tensor_minus_tt_cdouble.cc:24-34
  | .rt a, .rt b => some (.rt <$> Tensor.binopTT (· - ·) a b)
  | .ct a, .ct b => some (.ct <$> Tensor.binopTT subZZ a b)
  -- tensor_ops.hpp:58-65 with minus<t1,t2>, functional.h:56-61
  | .rt a, .ct b => some (.ct <$> Tensor.binopMixed subDZ a b)
  | .ct a, .rt b => some (.ct <$> Tensor.binopMixed subZD a b)
  -- src/generated/tensor_minus_tn_double.cc:24-32, tensor_minus_tn_cdouble.cc:24-32
  | .rt a, .rn b => some (.rt <$> Tensor.binopTN (· - ·) a b)
  | .ct a, .cn b => some (.ct <$> Tensor.binopTN subZZ a b)
  -- tensor_ops.hpp:95-99 with minus_constant<t1,t2>, functional.h:89-96
  | .rt a, .cn b => some (.ct <$> Tensor.unop (fun x => subDZ x b) a)
  | .ct a, .rn b => some (.ct <$> Tensor.unop (fun x => subZD x b) a)
  -- src/generated/tensor_minus_tn_double.cc:34-42, tensor_minus_tn_cdouble.cc:34-42
  | .rn a, .rt b => some (.rt <$> Tensor.binopNT (· - ·) a b)
  | .cn a, .ct b => some (.ct <$> Tensor.binopNT subZZ a b)
  -- tensor_ops.hpp:123-127 with constant_minus<t1,t2>, functional.h:116-123
  | .cn a, .rt b => some (.ct <$> Tensor.unop (fun x => subZD a x) b)
  | .rn a, .ct b => some (.ct <$> Tensor.unop (fun x => subDZ a x) b)
  | _, _ => none

/-- operator*. -/
def mul : Arg → Arg → Option (Res Arg)
  -- src/generated/tensor_times_tt_double.cc:24-34, tensor_times_tt_cdouble.cc:24-34
  | .rt a, .rt b => some (.rt <$> Tensor.binopTT (· * ·) a b)
  | .ct a, .ct b => some (.ct <$> Tensor.binopTT mulZZ a b)
  -- tensor_ops.hpp:67-74 with times<t1,t2>, functional.h:63-68
  | .rt a, .ct b => some (.ct <$> Tensor.binopMixed mulDZ a b)
  | .ct a, .rt b => some (.ct <$> Tensor.binopMixed mulZD a b)
  -- src/generated/tensor_times_tn_double.cc:24-32, tensor_times_tn_cdouble.cc:24-32
  | .rt a, .rn b => some (.rt <$> Tensor.binopTN (· * ·) a b)
  | .ct a, .cn b => some (.ct <$> Tensor.binopTN mulZZ a b)
  -- tensor_ops.hpp:101-105 with times_constant<t1,t2>, functional.h:98-105
  | .rt a, .cn b => some (.ct <$> Tensor.unop (fun x => mulDZ x b) a)
  | .ct a, .rn b => some (.ct <$> Tensor.unop (fun x => mulZD x b) a)
  -- src/generated/tensor_times_tn_double.cc:34-42, tensor_times_tn_cdouble.cc:34-42
  | .rn a, .rt b => some (.rt <$> Tensor.binopNT (· * ·) a b)
  | .cn a, .ct b => some (.ct <$> Tensor.binopNT mulZZ a b)
  -- tensor_ops.hpp:129-133 with times_constant<t2,t1>: the element is the first operand
  | .cn a, .rt b => some (.ct <$> Tensor.unop (fun x => mulDZ x a) b)
  | .rn a, .ct b => some (.ct <$> Tensor.unop (fun x => mulZD x a) b)
  | _, _ => none

/-- operator/. -/
noncomputable def div : Arg → Arg → Option (Res Arg)
  -- src/generated/tensor_divide_tt_double.cc:24-34, tensor_divide_tt_cdouble.cc:24-34
  | .rt a, .rt b => some (.rt <$> Tensor.binopTT (· / ·) a b)
  | .ct a, .ct b => some (.ct <$> Tensor.binopTT divZZ a b)
  -- tensor_ops.hpp:76-83 with divided<t1,t2>, functional.h:70-75
  | .rt a, .ct b => some (.ct <$> Tensor.binopMixed divDZ a b)
  | .ct a, .rt b => some (.ct <$> Tensor.binopMixed divZD a b)
  -- src/generated/tensor_divide_tn_double.cc:24-32, tensor_divide_tn_cdouble.cc:24-32
  | .rt a, .rn b => some (.rt <$> Tensor.binopTN (· / ·) a b)
  | .ct a, .cn b => some (.ct <$> Tensor.binopTN divZZ a b)
  -- tensor_ops.hpp:107-111 with divided_constant<t1,t2>, functional.h:107-114
  | .rt a, .cn b => some (.ct <$> Tensor.unop (fun x => divDZ x b) a)
  | .ct a, .rn b => some (.ct <$> Tensor.unop (fun x => divZD x b) a)
  -- src/generated/tensor_divide_tn_double.cc:34-42, tensor_divide_tn_cdouble.cc:34-42
  | .rn a, .rt b => some (.rt <$> Tensor.binopNT (· / ·) a b)
  | .cn a, .ct b => some (.ct <$> Tensor.binopNT divZZ a b)
  -- tensor_ops.hpp:135-139 with constant_divided<t1,t2>, functional.h:125-132
  | .cn a, .rt b => some (.ct <$> Tensor.unop (fun x => divZD a x) b)
  | .rn a, .ct b => some (.ct <$> Tensor.unop (fun x => divDZ a x) b)
  | _, _ => none

/-- x OP y. -/
noncomputable def binary : Op → Arg → Arg → Option (Res Arg)
  | .add => add
  | .sub => sub
  | .mul => mul
  | .div => div

/-- std::transform(a.begin(), a.end(), b.begin(), a.begin(), f) with operands of different types,
tensor_ops.hpp:146-171, from position `i` for `n` more elements. -/
def assignLoop {α β : Type} (f : α → β → α) (b : List β) (buf : List α) (i : Nat) : Nat → Res (List α)
  | 0 => .ok buf
  | n + 1 => do
    let x ← Res.ofOption buf[i]?
    let y ← Res.ofOption b[i]?
    assignLoop f b (buf.set i (f x y)) (i + 1) n

/-- a OP= b with a CTensor and an RTensor, tensor_ops.hpp:145-171. -/
def assignMixed {α β : Type} (f : α → β → α) (a : Tensor α) (b : Tensor β) : Res (Tensor α) := do
  Res.assert (a.dims = b.dims)
  let c ← assignLoop f b.data a.data 0 a.size
  pure ⟨a.dims, c⟩

/-- a OP= b with operands of the same type, for the operators without a file of their own,
tensor_ops.hpp:159-171; `same`: both are the same variable. -/
def assignTT {α : Type} (f : α → α → α) (a : Tensor α) (same : Bool) (b : Tensor α) :
    Res (Tensor α) := do
  Res.assert (a.dims = b.dims)
  let c ← Tensor.inplaceLoop f (if same then none else some b.data) a.data 0 a.size
  pure ⟨a.dims, c⟩

/-- a OP= number, which is not an element of `a`, tensor_ops.hpp:176-195: std::transform(a.begin(),
a.end(), a.begin(), f). -/
def assignN {α β : Type} (f : α → β → α) (a : Tensor α) (v : β) : Res (Tensor α) := do
  let c ← assignLoop (fun x (_ : Unit) => f x v) (List.replicate a.size ()) a.data 0 a.size
  pure ⟨a.dims, c⟩

/-- x OP= y. `none`: not an operator of the library, or a complex number would be assigned to an
element of type double, which is not valid C++. -/
noncomputable def assign (op : Op) (x : Arg) (same : Bool) (y : Arg) : Option (Res Arg) :=
  match op, x, y with
  -- src/generated/tensor_plus_t1_double.cc:25-42, tensor_plus_t1_cdouble.cc
  | .add, .rt a, .rt b => some (.rt <$> Tensor.inplaceTT (· + ·) a same b)
  | .add, .ct a, .ct b => some (.ct <$> Tensor.inplaceTT addZZ a same b)
  -- src/generated/tensor_minus_t1_double.cc, tensor_minus_t1_cdouble.cc
  | .sub, .rt a, .rt b => some (.rt <$> Tensor.inplaceTT (· - ·) a same b)
  | .sub, .ct a, .ct b => some (.ct <$> Tensor.inplaceTT subZZ a same b)
  -- tensor_ops.hpp:159-171
  | .mul, .rt a, .rt b => some (.rt <$> assignTT (· * ·) a same b)
  | .mul, .ct a, .ct b => some (.ct <$> assignTT mulZZ a same b)
  | .div, .rt a, .rt b => some (.rt <$> assignTT (· / ·) a same b)
  | .div, .ct a, .ct b => some (.ct <$> assignTT divZZ a same b)
  -- tensor_ops.hpp:145-171
  | .add, .ct a, .rt b => some (.ct <$> assignMixed addZD a b)
  | .sub, .ct a, .rt b => some (.ct <$> assignMixed subZD a b)
  | .mul, .ct a, .rt b => some (.ct <$> assignMixed mulZD a b)
  | .div, .ct a, .rt b => some (.ct <$> assignMixed divZD a b)
  -- tensor_ops.hpp:176-195
  | .add, .rt a, .rn b => some (.rt <$> assignN (· + ·) a b)
  | .add, .ct a, .rn b => some (.ct <$> assignN addZD a b)
  | .add, .ct a, .cn b => some (.ct <$> assignN addZZ a b)
  | .sub, .rt a, .rn b => some (.rt <$> assignN (· - ·) a b)
  | .sub, .ct a, .rn b => some (.ct <$> assignN subZD a b)
  | .sub, .ct a, .cn b => some (.ct <$> assignN subZZ a b)
  | .mul, .rt a, .rn b => some (.rt <$> assignN (· * ·) a b)
  | .mul, .ct a, .rn b => some (.ct <$> assignN mulZD a b)
  | .mul, .ct a, .cn b => some (.ct <$> assignN mulZZ a b)
  | .div, .rt a, .rn b => some (.rt <$> assignN (· / ·) a b)
  | .div, .ct a, .rn b => some (.ct <$> assignN divZD a b)
  | .div, .ct a, .cn b => some (.ct <$> assignN divZZ a b)
  | _, _, _ => none

/-- -x, tensor_ops.hpp:33-38, with std::negate. -/
def neg : Arg → Option (Res Arg)
  | .rt a => some (.rt <$> Tensor.unop (- ·) a)
  | .ct a => some (.ct <$> Tensor.unop negZ a)
  | _ => none

/-! ### Functions -/

/-- The names of the functions. -/
inductive Fun where
  | abs | cos | cosh | exp | log | sin | sinh | sqrt | tan | tanh
deriving DecidableEq

/-- The number with the given parts. -/
def toC (z : Z) : ℂ := ⟨z.1, z.2⟩

/-- A function of <complex>. -/
def onZ (f : ℂ → ℂ) (z : Z) : Z := ((f (toC z)).re, (f (toC z)).im)

/-- f(x). -/
noncomputable def func : Fun → Arg → Option (Res Arg)
  -- src/generated/tensor_unop_abs_d.cc:25-33, tensor_unop_abs_z.cc:25-33
  | .abs, .rt a => some (.rt <$> Tensor.unop (fun x => |x|) a)
  | .abs, .ct a => some (.rt <$> Tensor.unop (fun z => ‖toC z‖) a)
  -- src/generated/tensor_unop_cos_d.cc:25-33, tensor_unop_cos_z.cc:25-33
  | .cos, .rt a => some (.rt <$> Tensor.unop Real.cos a)
  | .cos, .ct a => some (.ct <$> Tensor.unop (onZ Complex.cos) a)
  -- src/generated/tensor_unop_cosh_d.cc:25-33, tensor_unop_cosh_z.cc:25-33
  | .cosh, .rt a => some (.rt <$> Tensor.unop Real.cosh a)
  | .cosh, .ct a => some (.ct <$> Tensor.unop (onZ Complex.cosh) a)
  -- src/generated/tensor_unop_exp_d.cc:25-33, tensor_unop_exp_z.cc:25-33
  | .exp, .rt a => some (.rt <$> Tensor.unop Real.exp a)
  | .exp, .ct a => some (.ct <$> Tensor.unop (onZ Complex.exp) a)
  -- src/generated/tensor_unop_log_d.cc:25-33, tensor_unop_log_z.cc:25-33
  | .log, .rt a => some (.rt <$> Tensor.unop Real.log a)
  | .log, .ct a => some (.ct <$> Tensor.unop (onZ Complex.log) a)
  -- src/generated/tensor_unop_sin_d.cc:25-33, tensor_unop_sin_z.cc:25-33
  | .sin, .rt a => some (.rt <$> Tensor.unop Real.sin a)
  | .sin, .ct a => some (.ct <$> Tensor.unop (onZ Complex.sin) a)
  -- src/generated/tensor_unop_sinh_d.cc:25-33, tensor_unop_sinh_z.cc:25-33
  | .sinh, .rt a => some (.rt <$> Tensor.unop Real.sinh a)
  | .sinh, .ct a => some (.ct <$> Tensor.unop (onZ Complex.sinh) a)
  -- src/generated/tensor_unop_sqrt_d.cc:25-33, tensor_unop_sqrt_z.cc:25-33 (the principal root)
  | .sqrt, .rt a => some (.rt <$> Tensor.unop Real.sqrt a)
  | .sqrt, .ct a => some (.ct <$> Tensor.unop (onZ fun z => z ^ (1 / 2 : ℂ)) a)
  -- src/generated/tensor_unop_tan_d.cc:25-33, tensor_unop_tan_z.cc:25-33
  | .tan, .rt a => some (.rt <$> Tensor.unop Real.tan a)
  | .tan, .ct a => some (.ct <$> Tensor.unop (onZ Complex.tan) a)
  -- src/generated/tensor_unop_tanh_d.cc:25-33, tensor_unop_tanh_z.cc:25-33
  | .tanh, .rt a => some (.rt <$> Tensor.unop Real.tanh a)
  | .tanh, .ct a => some (.ct <$> Tensor.unop (onZ Complex.tanh) a)
  | _, _ => none

/-! ### Sparse matrices -/

/-- An operand: RSparse, CSparse, double or cdouble. -/
inductive SArg where
  | rs (s : Sparse ℝ)
  | cs (s : Sparse Z)
  | rn (x : ℝ)
  | cn (z : Z)

open Classical in
/-- x OP y with sparse matrices. `none`: the header does not declare the operator. -/
noncomputable def sparse : Op → SArg → SArg → Option (Res SArg)
  -- src/generated/sparse_plus_tt_double.cc:24-27, sparse_plus_tt_cdouble.cc:24-27
  | .add, .rs a, .rs b => some (.rs <$> Sparse.binop (· + ·) a b)
  | .add, .cs a, .cs b => some (.cs <$> Sparse.binop addZZ a b)
  -- src/generated/sparse_plus_tr_cdouble.cc:24-32, with the conversion in sparse.h:60-63
  | .add, .cs a, .rs b => some (.cs <$> do Sparse.binop addZZ a (← Parts.toComplexSp b))
  | .add, .rs a, .cs b => some (.cs <$> do Sparse.binop addZZ (← Parts.toComplexSp a) b)
  -- src/generated/sparse_minus_tt_double.cc:24-27, sparse_minus_tt_cdouble.cc:24-27
  | .sub, .rs a, .rs b => some (.rs <$> Sparse.binop (· - ·) a b)
  | .sub, .cs a, .cs b => some (.cs <$> Sparse.binop subZZ a b)
  -- src/generated/sparse_minus_tr_cdouble.cc:24-32
  | .sub, .cs a, .rs b => some (.cs <$> do Sparse.binop subZZ a (← Parts.toComplexSp b))
  | .sub, .rs a, .cs b => some (.cs <$> do Sparse.binop subZZ (← Parts.toComplexSp a) b)
  -- src/generated/sparse_times_tt_double.cc:24-27, sparse_times_tt_cdouble.cc:24-27
  | .mul, .rs a, .rs b => some (.rs <$> Sparse.binop (· * ·) a b)
  | .mul, .cs a, .cs b => some (.cs <$> Sparse.binop mulZZ a b)
  -- src/generated/sparse_times_tr_cdouble.cc:24-32
  | .mul, .cs a, .rs b => some (.cs <$> do Sparse.binop mulZZ a (← Parts.toComplexSp b))
  | .mul, .rs a, .cs b => some (.cs <$> do Sparse.binop mulZZ (← Parts.toComplexSp a) b)
  -- src/generated/sparse_times_tn_double.cc:24-28, sparse_times_tn_cdouble.cc:24-28,
  -- sparse_times_td_cdouble.cc:24-28, sparse_times_tz_double.cc:24-28: s.priv_data() * n
  | .mul, .rs a, .rn b => some (.rs <$> Sparse.mapData (fun x => x * b) a)
  | .mul, .cs a, .cn b => some (.cs <$> Sparse.mapData (fun x => mulZZ x b) a)
  | .mul, .cs a, .rn b => some (.cs <$> Sparse.mapData (fun x => mulZD x b) a)
  | .mul, .rs a, .cn b => some (.cs <$> Sparse.mapData (fun x => mulDZ x b) a)
  -- src/generated/sparse_times_nt_double.cc:24-28, sparse_times_nt_cdouble.cc:24-28,
  -- sparse_times_dt_cdouble.cc:24-28, sparse_times_zt_double.cc:24-28: n * s.priv_data(), where the
  -- last two are times_constant as in `mul`
  | .mul, .rn a, .rs b => some (.rs <$> Sparse.mapData (fun x => a * x) b)
  | .mul, .cn a, .cs b => some (.cs <$> Sparse.mapData (fun x => mulZZ a x) b)
  | .mul, .rn a, .cs b => some (.cs <$> Sparse.mapData (fun x => mulZD x a) b)
  | .mul, .cn a, .rs b => some (.cs <$> Sparse.mapData (fun x => mulDZ x a) b)
  -- src/generated/sparse_divide_tn_double.cc:24-28, sparse_divide_tn_cdouble.cc:24-28,
  -- sparse_divide_td_cdouble.cc:24-28, sparse_divide_tz_double.cc:24-28: s.priv_data() / n
  | .div, .rs a, .rn b => some (.rs <$> Sparse.mapData (fun x => x / b) a)
  | .div, .cs a, .cn b => some (.cs <$> Sparse.mapData (fun x => divZZ x b) a)
  | .div, .cs a, .rn b => some (.cs <$> Sparse.mapData (fun x => divZD x b) a)
  | .div, .rs a, .cn b => some (.cs <$> Sparse.mapData (fun x => divDZ x b) a)
  | _, _, _ => none

/-- -x, src/generated/sparse_minus_t1_double.cc:24-28, sparse_minus_t1_cdouble.cc:24-28. -/
def negSparse : SArg → Option (Res SArg)
  | .rs a => some (.rs <$> Sparse.mapData (- ·) a)
  | .cs a => some (.cs <$> Sparse.mapData negZ a)
  | _ => none

end Verif.Ops
