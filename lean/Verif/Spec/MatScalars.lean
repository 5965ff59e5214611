import Verif.Spec.Dense
import Mathlib.LinearAlgebra.Matrix.Determinant.Basic
import Mathlib.Analysis.SpecialFunctions.Log.Basic

/-!
# Specification: trace, determinant, log-determinant and Frobenius norm of a dense matrix
-/

namespace Curvlinops

/-- Trace of the leading `n × n` part. -/
def matTrace (n : Nat) (M : Mat ℝ) : ℝ := ∑ i ∈ Finset.range n, M i i

/-- Determinant of the leading `n × n` part. -/
noncomputable def matDet (n : Nat) (M : Mat ℝ) : ℝ := (Matrix.of fun i j : Fin n => M i j).det

/-- Sum of squared entries of the leading `n × n` part. -/
def matSquares (n : Nat) (M : Mat ℝ) : ℝ := ∑ i ∈ Finset.range n, ∑ j ∈ Finset.range n, M i j ^ 2

/-- A logarithm as floating point arithmetic returns it (without rounding): finite, `-inf`, or `nan`. -/
inductive FLog
  | fin (x : ℝ)
  | negInf
  | nan

/-- `log` of a real number: `-inf` at zero and `nan` for negative numbers. -/
noncomputable def FLog.ofReal (x : ℝ) : FLog :=
  open Classical in if 0 < x then .fin (Real.log x) else if x = 0 then .negInf else .nan

end Curvlinops
