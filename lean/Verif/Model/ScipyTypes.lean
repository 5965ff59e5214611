import Verif.Model.Adjoint
import Mathlib.Data.Complex.Basic
import Mathlib.Algebra.Order.Archimedean.Real.Basic

/-!
# Model of the SciPy export with data types of the arguments (`/repo/curvlinops/_torch_base.py:300-382`)

In `Model/Adjoint.lean` casts keep the entries. Here they are modelled.
-/

namespace Curvlinops

/-- Data types of NumPy arrays. Integer types are given by their range; `other` are types that PyTorch does not know
(objects, strings). Floating point types have the name of PyTorch's type with the same values. -/
inductive NpType
  | bool
  | int (lo hi : ℤ)
  | float (p : DType)
  | complex (p : DType)
  | other
  deriving DecidableEq

/-- A NumPy array; all values are written as complex numbers. -/
structure TypedArray where
  dtype : NpType
  arr : Tensor ℂ

/-- Rounding to floating point types, and conversion of numbers outside of the range of an integer type (undefined in C). -/
structure Casts where
  round : DType → ℝ → ℝ
  overflow : ℝ → ℤ

/-- `as_tensor(X, dtype=dtype)` (`_torch_base.py:374`) for one entry: integers and Booleans become numbers, imaginary parts
are dropped (with a warning). -/
noncomputable def Casts.toTorch (k : Casts) (dt : DType) (z : ℂ) : ℝ := k.round dt z.re

/-- Conversion of a number to an integer: truncation toward zero. -/
noncomputable def truncate (x : ℝ) : ℤ := if 0 ≤ x then ⌊x⌋ else ⌈x⌉

open Classical in
/-- `.astype(X.dtype)` (`_torch_base.py:380`) for one entry. -/
noncomputable def Casts.astype (k : Casts) (t : NpType) (x : ℝ) : ℂ :=
  match t with
  | .bool => if x = 0 then 0 else 1
  | .int lo hi => if lo ≤ truncate x ∧ truncate x ≤ hi then (truncate x : ℂ) else (k.overflow x : ℂ)
  | .float p => (k.round p x : ℂ)
  | .complex p => (k.round p x : ℂ)
  | .other => (x : ℂ)

/-- `f_scipy` (`_torch_base.py:364-380`) for `f = A.__matmul__`, where `A` has the data type `dt`. Conversion of `bfloat16`
to `float32` keeps the values. Simplification: exact arithmetic in the product itself. -/
noncomputable def wrapTyped (k : Casts) (A : LinOp ℝ) (dt : DType) (X : TypedArray) : Py TypedArray :=
  if X.dtype = .other then .error .typeError
  else
    match (A.matmul (.tensor ⟨X.arr.shape, X.arr.data.map (k.toTorch dt)⟩)).1 with
    | .error e => .error e
    | .ok (.tensor AX) => .ok ⟨X.dtype, ⟨AX.shape, AX.data.map (k.astype X.dtype)⟩⟩
    | .ok _ => .error .attributeError

/-- SciPy's `matvec`/`rmatvec` around the given function, as `scipyVec` (external code). -/
def typedVec (f : TypedArray → Py TypedArray) (M N : Nat) (x : TypedArray) : Py TypedArray :=
  if x.arr.shape = [N] ∨ x.arr.shape = [N, 1] then
    match f x with
    | .error e => .error e
    | .ok y =>
      match y.arr.reshape (M :: x.arr.shape.tail) with
      | .error _ => .error .valueError
      | .ok t => .ok ⟨y.dtype, t⟩
  else .error .valueError

/-- SciPy's `matmat`/`rmatmat` around the given function, as `scipyMat` (external code). -/
def typedMat (f : TypedArray → Py TypedArray) (N : Nat) (x : TypedArray) : Py TypedArray :=
  match x.arr.shape with
  | [n, _] => if n = N then f x else .error .valueError
  | _ => .error .valueError

/-- The four products of the SciPy operator. -/
structure TypedScipyOp where
  rows : Nat
  cols : Nat
  matvec : TypedArray → Py TypedArray
  rmatvec : TypedArray → Py TypedArray
  matmat : TypedArray → Py TypedArray
  rmatmat : TypedArray → Py TypedArray

/-- `to_scipy` (`_torch_base.py:300-326`) for an operator with data type `dt`. -/
noncomputable def OpObj.toScipyTyped (k : Casts) (A : OpObj ℝ) (dt : DType) : Py TypedScipyOp :=
  match A.adjoint with
  | .error e => .error e
  | .ok At =>
    .ok { rows := A.op.nrows, cols := A.op.ncols,
          matvec := typedVec (wrapTyped k A.op dt) A.op.nrows A.op.ncols,
          rmatvec := typedVec (wrapTyped k At.op dt) A.op.ncols A.op.nrows,
          matmat := typedMat (wrapTyped k A.op dt) A.op.ncols,
          rmatmat := typedMat (wrapTyped k At.op dt) A.op.nrows }

end Curvlinops
