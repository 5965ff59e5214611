import Mathlib.Analysis.Calculus.Deriv.Basic
import Mathlib.Data.Real.Basic

/-!
# Specification: partial derivatives
-/

namespace Curvlinops

variable {ι : Type _} [DecidableEq ι]

/-- Partial derivative of `F` in coordinate `i`. -/
noncomputable def pderiv (F : (ι → ℝ) → ℝ) (i : ι) (x : ι → ℝ) : ℝ := deriv (fun t => F (Function.update x i t)) (x i)

/-- Second partial derivative. -/
noncomputable def hess (F : (ι → ℝ) → ℝ) (x : ι → ℝ) (i j : ι) : ℝ := pderiv (fun y => pderiv F j y) i x

end Curvlinops
