import Verif.Model.Adjoint
import Verif.Model.Submatrix
import Verif.Model.Estimators
import Mathlib.Analysis.InnerProductSpace.PiL2

/-!
# Model of SciPy exports as arguments of the vector-level algorithms

`to_scipy` (`_torch_base.py:300-326`) returns SciPy's `_CustomLinearOperator`, whose `_matvec`, `_rmatvec`, `_matmat` and
`_rmatmat` call the given functions and whose adjoint exchanges them (external code). The examples in
`docs/examples/basic_usage` hand it to `SubmatrixLinearOperator` (`example_submatrices.py:76, 164`) and to the inverses (`example_inverses.py:84-95, 262`);
the estimators and the spectral density functions take any SciPy operator as well.
-/

namespace Curvlinops

variable {α : Type _}

/-- A NumPy array with its shape and entries in row-major order. The algorithms work with NumPy's default type. -/
def NpVal.toArray : NpVal α → NpArray α
  | .vec v => ⟨.float64, ⟨[v.length], v⟩⟩
  | .mat r cs => ⟨.float64, ⟨[r, cs.length], (NpVal.mat r cs).ravel⟩⟩

/-- The other direction. Arrays with other numbers of axes are not returned by the exported functions for arrays with one or
two axes. -/
def NpArray.toVal (x : NpArray α) : Py (NpVal α) :=
  match x.arr.shape with
  | [_] => .ok (.vec x.arr.data)
  | [r, k] => .ok (.mat r ((List.range k).map fun j => (List.range r).filterMap fun i => x.arr.data[i * k + j]?))
  | _ => .error .valueError

/-- A call of one of the functions that were given to the constructor. -/
def callFn (f : NpArray α → Py (NpArray α)) (x : NpVal α) : Py (NpVal α) :=
  match f x.toArray with
  | .error e => .error e
  | .ok y => y.toVal

/-- The exported operator as seen by SciPy (`_torch_base.py:319-326`). -/
def ScipyOp.toSci (L : ScipyOp α) : SciOp α where
  rows := L.rows
  cols := L.cols
  matvecImpl := callFn L.matvecFn
  matmatImpl r cs := callFn L.matmatFn (.mat r cs)

/-- Its adjoint. -/
def ScipyOp.adjSci (L : ScipyOp α) : SciOp α where
  rows := L.cols
  cols := L.rows
  matvecImpl := callFn L.rmatvecFn
  matmatImpl r cs := callFn L.rmatmatFn (.mat r cs)

/-- The operator with its adjoint, as argument of `SubmatrixLinearOperator`. -/
def ScipyOp.toPair (L : ScipyOp α) : SciPair α := ⟨L.toSci, L.adjSci⟩

/-- The external functions of an estimator for the operator `L`; the products do not change the state of NumPy's generator. -/
def Ext.withOp {W : Type _} (E : Ext α W) (L : SciOp α) : Ext α W := { E with mul := fun v w => (L.mulVec v, w) }

/-- `A @ v` in `fast_lanczos` (`papyan2020traces/spectrum.py:401`, `404`). Simplification: zero where the product raises
(`fastLanczos` is the model for operators that do not raise). -/
noncomputable def SciOp.asFunction {d : Nat} (L : SciOp ℝ) (x : EuclideanSpace ℝ (Fin d)) : EuclideanSpace ℝ (Fin d) :=
  match L.mulVec (List.ofFn x.ofLp) with
  | .error _ => 0
  | .ok y => WithLp.toLp 2 fun i => y.getD i 0

end Curvlinops
