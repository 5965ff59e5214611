import Verif.Model.Spectrum
import Mathlib.LinearAlgebra.Matrix.Notation

/-!
# Specification: eigensolvers and quadratures
-/

namespace Curvlinops

open Matrix

/-- The first `n` rows and columns. -/
def leading (n : Nat) (T : Nat → Nat → ℝ) : Matrix (Fin n) (Fin n) ℝ := Matrix.of fun i j => T i j

/-- The columns of `evecs` are an orthonormal basis of eigenvectors of `T` for `evals`. -/
def IsEigh (n : Nat) (T : Nat → Nat → ℝ) (r : (Nat → ℝ) × (Nat → Nat → ℝ)) : Prop :=
  (leading n r.2)ᵀ * leading n r.2 = 1 ∧ leading n T * leading n r.2 = leading n r.2 * diagonal fun j : Fin n => r.1 j

/-- The contract of `scipy.linalg.eigh` and `eigh_tridiagonal` in exact arithmetic: results for symmetric matrices are
eigendecompositions. They may raise. -/
def EighContract (eigh : Eigh) : Prop :=
  ∀ n T, (∀ i j, T i j = T j i) → ∀ r, eigh n T = .ok r → IsEigh n T r

end Curvlinops
