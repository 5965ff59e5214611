import Mathlib.Analysis.Matrix.Spectrum
import Mathlib.LinearAlgebra.Matrix.PosDef

/-!
# Eigendecomposition of real symmetric matrices in matrix form
-/

namespace Curvlinops

open Matrix

variable {n : Type _} [Fintype n] [DecidableEq n]

/-- Every real symmetric matrix is `U diag(d) Uᵀ` with orthogonal `U`. -/
theorem exists_eigendecomposition (A : Matrix n n ℝ) (hA : Aᵀ = A) :
    ∃ (U : Matrix n n ℝ) (d : n → ℝ), Uᵀ * U = 1 ∧ U * Uᵀ = 1 ∧ A = U * diagonal d * Uᵀ := by
  have hH : A.IsHermitian := by
    rw [IsHermitian, conjTranspose_eq_transpose_of_trivial, hA]
  refine ⟨(hH.eigenvectorUnitary : Matrix n n ℝ), hH.eigenvalues, ?_, ?_, ?_⟩
  · have := (Matrix.mem_unitaryGroup_iff' (A := (hH.eigenvectorUnitary : Matrix n n ℝ))).mp
      hH.eigenvectorUnitary.2
    rwa [star_eq_conjTranspose, conjTranspose_eq_transpose_of_trivial] at this
  · have := (Matrix.mem_unitaryGroup_iff (A := (hH.eigenvectorUnitary : Matrix n n ℝ))).mp
      hH.eigenvectorUnitary.2
    rwa [star_eq_conjTranspose, conjTranspose_eq_transpose_of_trivial] at this
  · have := hH.spectral_theorem
    rw [Unitary.conjStarAlgAut_apply, star_eq_conjTranspose, conjTranspose_eq_transpose_of_trivial] at this
    exact this

/-- The columns of `U` are eigenvectors. -/
theorem eigendecomposition_col {A U : Matrix n n ℝ} {d : n → ℝ} (hU : Uᵀ * U = 1)
    (hA : A = U * diagonal d * Uᵀ) (j : n) :
    A *ᵥ (fun i => U i j) = d j • (fun i => U i j) ∧ (fun i => U i j) ≠ 0 := by
  constructor
  · have h : A * U = U * diagonal d := by
      rw [hA, Matrix.mul_assoc, hU, Matrix.mul_one]
    funext i
    have := congrFun (congrFun h i) j
    rw [Matrix.mul_diagonal] at this
    simp only [Pi.smul_apply, smul_eq_mul]
    rw [mul_comm, ← this]
    rfl
  · intro h0
    have := congrFun (congrFun hU j) j
    rw [Matrix.mul_apply, Matrix.one_apply_eq] at this
    have hz : ∀ i, U i j = 0 := fun i => congrFun h0 i
    simp [hz] at this

/-- Functions of the matrix act on the eigenvalues. -/
theorem eigendecomposition_pow {U : Matrix n n ℝ} (d : n → ℝ) (hU : Uᵀ * U = 1) (hU' : U * Uᵀ = 1)
    (k : ℕ) : (U * diagonal d * Uᵀ) ^ k = U * diagonal (fun j => d j ^ k) * Uᵀ := by
  induction k with
  | zero => simp [hU']
  | succ k ih =>
    rw [pow_succ, ih]
    calc U * diagonal (fun j => d j ^ k) * Uᵀ * (U * diagonal d * Uᵀ)
        = U * diagonal (fun j => d j ^ k) * (Uᵀ * U) * diagonal d * Uᵀ := by
          simp only [Matrix.mul_assoc]
      _ = U * (diagonal (fun j => d j ^ k) * diagonal d) * Uᵀ := by
          rw [hU, Matrix.mul_one]; simp only [Matrix.mul_assoc]
      _ = _ := by rw [diagonal_mul_diagonal]; simp only [pow_succ]

end Curvlinops
