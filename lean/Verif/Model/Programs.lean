import Verif.Model.Inverse
import Mathlib.Data.Real.Basic

/-!
# Model of the example programs with damped inverses

`docs/examples/basic_usage/example_inverses.py:81-123, 250-262` (damped GGN, natural gradient, Neumann series) and `example_model_merging.py:162-192`
(Fisher-weighted averaging). Arithmetic of SciPy's operators is external code, taken at its documented behaviour.
-/

namespace Curvlinops

variable {α : Type _}

/-- SciPy's `_SumLinearOperator`: multiplies with both operators and adds. Simplification: no adjoint. -/
def SciOp.sumOf [Add α] (A B : SciOp α) : SciOp α where
  rows := A.rows
  cols := A.cols
  matvecImpl x :=
    match A.matvec x with
    | .error e => .error e
    | .ok y =>
      match B.matvec x with
      | .error e => .error e
      | .ok z => y.map2 (· + ·) z
  matmatImpl r cs :=
    match A.matmat r cs with
    | .error e => .error e
    | .ok y =>
      match B.matmat r cs with
      | .error e => .error e
      | .ok z => y.map2 (· + ·) z

/-- SciPy's `A + B` for linear operators: raises for different shapes. -/
def SciOp.add [Add α] (A B : SciOp α) : Py (SciOp α) :=
  if A.rows = B.rows ∧ A.cols = B.cols then .ok (A.sumOf B) else .error .valueError

/-- `aslinearoperator(delta * sparse.eye(n))` (`example_inverses.py:87`, `example_model_merging.py:170-174`). -/
def dampingOp [Mul α] (n : Nat) (δ : α) : SciOp α :=
  ⟨n, n, fun x => .ok (x.map1 (δ * ·)), fun r cs => .ok (NpVal.map1 (δ * ·) (.mat r cs))⟩

/-- `damped_GGN = GGN + damping` (`example_inverses.py:86-89`). -/
def dampedSci [Add α] [Mul α] (A : SciOp α) (δ : α) : Py (SciOp α) := A.add (dampingOp A.rows δ)

/-- `CGInverseLinearOperator(damped_GGN) @ gradient` (`example_inverses.py:95`, `116`, `181-182`), after any calls of `set_cg_hyperparameters`. -/
def cgSolve {Obj : Type _} [Add α] [Mul α] (cg : SciOp α → NpVal α → CGHyper Obj → Py (NpVal α × Int)) (calls : List (CGArgs Obj))
    (A : SciOp α) (δ : α) (g : NpVal α) : Py (NpVal α) :=
  match dampedSci A δ with
  | .error e => .error e
  | .ok D => ((calls.foldl CGState.set (mkCG D)).toSci cg).dot g

/-- `scale` for the Neumann series, from the largest eigenvalue (`example_inverses.py:252`). -/
noncomputable def neumannScale (maxEig : ℝ) : ℝ := if maxEig < 2 then 1 else 1.99 / maxEig

/-- Python's `sum(fisher @ theta for fisher, theta in zip(fishers, thetas))` (`example_model_merging.py:162`), starting from the integer
`0`, which is `none` here. -/
def weightedSum [Add α] : List (SciOp α × NpVal α) → Option (NpVal α) → Py (Option (NpVal α))
  | [], acc => .ok acc
  | (F, θ) :: rest, acc =>
    match F.dot θ with
    | .error e => .error e
    | .ok y =>
      match acc with
      | none => weightedSum rest (some y)
      | some a =>
        match a.map2 (· + ·) y with
        | .error e => .error e
        | .ok s => weightedSum rest (some s)

/-- `fisher_sum += fisher` (`example_model_merging.py:176-177`). -/
def addAll [Add α] : List (SciOp α) → SciOp α → Py (SciOp α)
  | [], S => .ok S
  | F :: rest, S =>
    match S.add F with
    | .error e => .error e
    | .ok S' => addAll rest S'

/-- The parameters merged with Fisher-weighted averaging (`example_model_merging.py:162-192`). A product with the integer `0` is refused by
SciPy; it does not occur because `fishers[0]` raises before. -/
def mergeParams {Obj : Type _} [Add α] [Mul α] (cg : SciOp α → NpVal α → CGHyper Obj → Py (NpVal α × Int)) (calls : List (CGArgs Obj))
    (δ : α) (fishers : List (SciOp α)) (thetas : List (NpVal α)) : Py (NpVal α) :=
  match weightedSum (fishers.zip thetas) none with
  | .error e => .error e
  | .ok rhs =>
    match fishers.head? with
    | none => .error .indexError
    | some F =>
      match addAll fishers (dampingOp F.rows δ) with
      | .error e => .error e
      | .ok S =>
        match rhs with
        | none => .error .valueError
        | some b => ((calls.foldl CGState.set (mkCG S)).toSci cg).dot b

end Curvlinops
