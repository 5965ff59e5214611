import Verif.Model.Export
import Verif.Model.Rounding

/-!
# Model of the SciPy export with two precisions

PyTorch multiplies in the type of the parameters, NumPy in the type of the array; `_scipy_compatible` casts between them.
-/

namespace Curvlinops

variable {α β : Type _}

/-- `as_tensor(X, dtype=...)` and `.astype(X.dtype)` (`_torch_base.py:375, 380`): cast of every entry (external code). -/
def Tensor.cast (f : α → β) (t : Tensor α) : Tensor β := ⟨t.shape, t.data.map f⟩

/-- Cast of a floating point number to another precision: rounding. -/
noncomputable def flCast {σ : Rounding} (ρ : Rounding) (x : Fl σ) : Fl ρ := Fl.of ρ x.val

/-- `_scipy_compatible(f, device, dtype)` applied to `X` (`_torch_base.py:350-382`) for `f = A.__matmul__`, with the two
casts `toTorch` (`:375`) and `toNp` (`:380`). The cast of `bfloat16` to `float32` (`:378-379`) is exact. -/
def scipyCompatibleCast (toTorch : β → α) (toNp : α → β) (A : LinOp α) (dt : DType) (X : NpArray β) : Py (NpArray β) :=
  match (A.matmul (.tensor (X.arr.cast toTorch))).1 with
  | .error e => .error e
  | .ok (.tensor AX) =>
    let dt' := if dt = .bfloat16 then DType.float32 else dt
    match toNumpy dt' AX with
    | .error e => .error e
    | .ok r => .ok ⟨X.dtype, r.arr.cast toNp⟩
  | .ok _ => .error .attributeError

/-- `to_scipy(dtype)` (`_torch_base.py:300-326`) of an operator with `SELF_ADJOINT = True` (its adjoint is itself,
`:128-134`), with casts. -/
def exportCast (toTorch : β → α) (toNp : α → β) (A : LinOp α) (dt : DType) (dtype : Option DType) : ScipyOp β where
  rows := A.nrows
  cols := A.ncols
  matvecFn := scipyCompatibleCast toTorch toNp A dt
  rmatvecFn := scipyCompatibleCast toTorch toNp A dt
  matmatFn := scipyCompatibleCast toTorch toNp A dt
  rmatmatFn := scipyCompatibleCast toTorch toNp A dt
  dtype := match dtype with | none => .float64 | some d => d

end Curvlinops
