import Verif.Model.Curvature

/-!
# Model of `adjoint` and of the SciPy export
-/

namespace Curvlinops

variable {α : Type _}

/-- Operator objects, as far as `adjoint` distinguishes them: the two Jacobian classes with the arguments
they hand to each other's constructor, and any other class with its `SELF_ADJOINT` flag and without an own
`_adjoint` (Hessian, GGN, Fisher, KFAC, ...; `_torch_base.py:60, 136-145`). -/
inductive OpObj (α : Type _)
  | jacobian (paramShapes : List (List Nat)) (nData : Nat) (b : JacBatch α) (bs : List (JacBatch α))
  | transposedJacobian (paramShapes : List (List Nat)) (nData : Nat) (b : JacBatch α)
      (bs : List (JacBatch α))
  | plain (selfAdjoint : Bool) (op : LinOp α)

/-- The linear operator that the object is. -/
def OpObj.op [NonUnitalNonAssocSemiring α] : OpObj α → LinOp α
  | .jacobian ps n b bs => jacobianOp ps n b bs
  | .transposedJacobian ps n b bs => transposedJacobianOp ps n b bs
  | .plain _ op => op

/-- `SELF_ADJOINT` (`_torch_base.py:60`; not set by the Jacobians, so `False`). -/
def OpObj.selfAdjoint : OpObj α → Bool
  | .plain sa _ => sa
  | _ => false

/-- `_adjoint` (`_torch_base.py:136-145`, `jacobian.py:116-130, 241-255`): the Jacobians construct each other
with the same model, parameters, data and number of data; the base class raises. -/
def OpObj.adjointImpl : OpObj α → Py (OpObj α)
  | .jacobian ps n b bs => .ok (.transposedJacobian ps n b bs)
  | .transposedJacobian ps n b bs => .ok (.jacobian ps n b bs)
  | .plain _ _ => .error .notImplementedError

/-- `adjoint` (`_torch_base.py:128-134`). -/
def OpObj.adjoint (A : OpObj α) : Py (OpObj α) :=
  if A.selfAdjoint then .ok A else A.adjointImpl

/-! ## SciPy export -/

/-- Data types, as far as the wrapper distinguishes them. -/
inductive DType
  | float16
  | bfloat16
  | float32
  | float64
  deriving DecidableEq

/-- A NumPy array or a tensor with its dtype. Simplification: exact arithmetic, so a cast keeps the entries. -/
structure NpArray (α : Type _) where
  dtype : DType
  arr : Tensor α
  deriving DecidableEq

/-- `t.detach().cpu().numpy()` (`_torch_base.py:380`): not supported for bfloat16 tensors, raises
`TypeError`. -/
def toNumpy (dt : DType) (t : Tensor α) : Py (NpArray α) :=
  if dt = .bfloat16 then .error .typeError else .ok ⟨dt, t⟩

/-- `_scipy_compatible(f, device, dtype)` applied to `X` (`_torch_base.py:350-382`) for `f = A.__matmul__`. The
result tensor of an operator with data type `dt` has that type. -/
def scipyCompatible (A : LinOp α) (dt : DType) (X : NpArray α) : Py (NpArray α) :=
  match (A.matmul (.tensor X.arr)).1 with
  | .error e => .error e
  | .ok (.tensor AX) =>
    let dt' := if dt = .bfloat16 then DType.float32 else dt
    match toNumpy dt' AX with
    | .error e => .error e
    | .ok r => .ok ⟨X.dtype, r.arr⟩
  | .ok _ => .error .attributeError

/-- A SciPy `LinearOperator` constructed with the four product functions (`_torch_base.py:319-326`). -/
structure ScipyOp (α : Type _) where
  rows : Nat
  cols : Nat
  matvecFn : NpArray α → Py (NpArray α)
  rmatvecFn : NpArray α → Py (NpArray α)
  matmatFn : NpArray α → Py (NpArray α)
  rmatmatFn : NpArray α → Py (NpArray α)
  dtype : DType

/-- `to_scipy(dtype)` (`_torch_base.py:300-326`) for an operator with data type `dt`; `numpy.dtype(None)` is
`float64`. -/
def OpObj.toScipy [NonUnitalNonAssocSemiring α] (A : OpObj α) (dt : DType) (dtype : Option DType) :
    Py (ScipyOp α) :=
  match A.adjoint with
  | .error e => .error e
  | .ok At =>
    .ok { rows := A.op.nrows, cols := A.op.ncols,
          matvecFn := scipyCompatible A.op dt, rmatvecFn := scipyCompatible At.op dt,
          matmatFn := scipyCompatible A.op dt, rmatmatFn := scipyCompatible At.op dt,
          dtype := match dtype with | none => .float64 | some d => d }

/-- SciPy's `LinearOperator.matvec`/`rmatvec` around the given function: accepts `(N,)` and `(N, 1)` arrays
and reshapes the result to `(M,)` and `(M, 1)` (external code, its documented behaviour). -/
def scipyVec (f : NpArray α → Py (NpArray α)) (M N : Nat) (x : NpArray α) : Py (NpArray α) :=
  if x.arr.shape = [N] ∨ x.arr.shape = [N, 1] then
    match f x with
    | .error e => .error e
    | .ok y =>
      match y.arr.reshape (M :: x.arr.shape.tail) with
      | .error _ => .error .valueError
      | .ok t => .ok ⟨y.dtype, t⟩
  else .error .valueError

/-- SciPy's `LinearOperator.matmat`/`rmatmat` around the given function: accepts `(N, K)` arrays (external
code). -/
def scipyMat (f : NpArray α → Py (NpArray α)) (N : Nat) (x : NpArray α) : Py (NpArray α) :=
  match x.arr.shape with
  | [n, _] => if n = N then f x else .error .valueError
  | _ => .error .valueError

/-- `L.matvec(x)`. -/
def ScipyOp.matvec (L : ScipyOp α) (x : NpArray α) : Py (NpArray α) := scipyVec L.matvecFn L.rows L.cols x
/-- `L.rmatvec(x)`. -/
def ScipyOp.rmatvec (L : ScipyOp α) (x : NpArray α) : Py (NpArray α) := scipyVec L.rmatvecFn L.cols L.rows x
/-- `L.matmat(x)`. -/
def ScipyOp.matmat (L : ScipyOp α) (x : NpArray α) : Py (NpArray α) := scipyMat L.matmatFn L.cols x
/-- `L.rmatmat(x)`. -/
def ScipyOp.rmatmat (L : ScipyOp α) (x : NpArray α) : Py (NpArray α) := scipyMat L.rmatmatFn L.rows x

end Curvlinops
