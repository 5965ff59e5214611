import Verif.Model.Py
import Mathlib.Algebra.BigOperators.Group.List.Basic

/-!
# NumPy arrays and SciPy linear operators

The vector-level world of `submatrix.py`, `outer.py`, `inverse.py` (CG, LSMR, Neumann), the estimators and the
Lanczos code. External code, taken at its documented behaviour.
-/

namespace Curvlinops

/-- A NumPy array with one or two axes. A 2d array is given by its number of rows and the list of its columns
(the order in which `for col in X.T` visits them). Simplification: no dtypes, real entries. -/
inductive NpVal (α : Type _)
  | vec (v : List α)
  | mat (rows : Nat) (cols : List (List α))
  deriving DecidableEq

namespace NpVal

variable {α : Type _}

/-- Entries in row-major order. -/
def ravel : NpVal α → List α
  | .vec v => v
  | .mat r cs => (List.range r).flatMap fun i => cs.filterMap fun c => c[i]?

/-- `y.reshape(M)`. -/
def reshapeVec (M : Nat) (y : NpVal α) : Py (NpVal α) :=
  if y.ravel.length = M then .ok (.vec y.ravel) else .error .valueError

/-- `y.reshape(M, 1)`. -/
def reshapeCol (M : Nat) (y : NpVal α) : Py (NpVal α) :=
  if y.ravel.length = M then .ok (.mat M [y.ravel]) else .error .valueError

end NpVal

/-- `numpy.column_stack` of 1d arrays: raises for an empty list and for different lengths. -/
def columnStack {α : Type _} : List (List α) → Py (NpVal α)
  | [] => .error .valueError
  | c :: cs => if cs.all (fun d => d.length = c.length) then .ok (.mat c.length (c :: cs)) else .error .valueError

/-- A subclass of SciPy's `LinearOperator`: its shape and its implementations of `_matvec` and `_matmat`. -/
structure SciOp (α : Type _) where
  rows : Nat
  cols : Nat
  matvecImpl : NpVal α → Py (NpVal α)
  matmatImpl : Nat → List (List α) → Py (NpVal α)

namespace SciOp

variable {α : Type _}

/-- SciPy's `LinearOperator.matvec`: accepts arrays of shape `(N,)` and `(N, 1)`, hands them to `_matvec` as
they are, and reshapes the result to `(M,)` and `(M, 1)`. -/
def matvec (L : SciOp α) : NpVal α → Py (NpVal α)
  | .vec v =>
    if v.length = L.cols then
      match L.matvecImpl (.vec v) with
      | .error e => .error e
      | .ok y => y.reshapeVec L.rows
    else .error .valueError
  | .mat r [c] =>
    if r = L.cols then
      match L.matvecImpl (.mat r [c]) with
      | .error e => .error e
      | .ok y => y.reshapeCol L.rows
    else .error .valueError
  | .mat _ _ => .error .valueError

/-- SciPy's `LinearOperator.matmat`. -/
def matmat (L : SciOp α) (r : Nat) (cs : List (List α)) : Py (NpVal α) :=
  if r = L.cols then L.matmatImpl r cs else .error .valueError

/-- SciPy's `L @ X`: vectors and matrices with a single column go to `matvec`, other matrices to `matmat`. -/
def dot (L : SciOp α) : NpVal α → Py (NpVal α)
  | .vec v => L.matvec (.vec v)
  | .mat r [c] => L.matvec (.mat r [c])
  | .mat r cs => L.matmat r cs

/-- `L @ v` for a 1d array, result as list. -/
def mulVec (L : SciOp α) (v : List α) : Py (List α) :=
  match L.dot (.vec v) with
  | .error e => .error e
  | .ok y => .ok y.ravel

/-- SciPy's default `_matmat`: `hstack([self.matvec(col.reshape(-1, 1)) for col in X.T])`. -/
def defaultMatmat (rows cols : Nat) (matvecImpl : NpVal α → Py (NpVal α)) (r : Nat) (cs : List (List α)) :
    Py (NpVal α) :=
  let L : SciOp α := ⟨rows, cols, matvecImpl, fun _ _ => .error .notImplementedError⟩
  match pyMapM (fun c => L.matvec (.mat r [c])) cs with
  | .error e => .error e
  | .ok ys => columnStack (ys.map NpVal.ravel)

end SciOp

/-- `numpy.dot` of two 1d arrays. -/
def npDot {α : Type _} [Mul α] [Add α] [Zero α] (u v : List α) : α := (List.zipWith (· * ·) u v).sum

end Curvlinops
