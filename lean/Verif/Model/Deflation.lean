import Verif.Model.Programs
import Verif.Model.Submatrix

/-!
# Model of the example program with a deflated operator

`docs/examples/basic_usage/example_verification_spectral_density.py:216-237`: eigenpairs are subtracted from an operator with
`OuterProductLinearOperator` before its spectral density is estimated. Arithmetic of SciPy's operators is external code, taken at its
documented behaviour.
-/

namespace Curvlinops

variable {α : Type _}

/-- SciPy's `_ScaledLinearOperator`: multiplies with the operator, then with the number. Simplification: no adjoint. -/
def SciOp.scaled [Mul α] (c : α) (A : SciOp α) : SciOp α where
  rows := A.rows
  cols := A.cols
  matvecImpl x :=
    match A.matvec x with
    | .error e => .error e
    | .ok y => .ok (y.map1 (c * ·))
  matmatImpl r cs :=
    match A.matmat r cs with
    | .error e => .error e
    | .ok y => .ok (y.map1 (c * ·))

/-- SciPy's `A - B` for linear operators, which is `A + (-1) * B`. -/
def SciOp.sub [Ring α] (A B : SciOp α) : Py (SciOp α) := A.add (B.scaled (-1))

/-- `Y_linop - OuterProductLinearOperator(Y_top_evals, Y_top_evecs)` (`example_verification_spectral_density.py:217-221`): the array of
eigenvectors has `rows` rows and the columns `evecs`. -/
def deflate [Ring α] (A : SciOp α) (rows : Nat) (evals : List α) (evecs : List (List α)) : Py (SciOp α) :=
  A.sub (OuterState.mk rows evals evecs).toSci

end Curvlinops
