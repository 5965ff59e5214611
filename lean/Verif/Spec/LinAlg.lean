import Verif.Model.KfacInverse

/-!
# Specification: PyTorch's decompositions

What the routines of `LinAlg` are assumed to compute, in exact arithmetic. `Lemmas/LinAlg.lean` shows that there are
such routines. (That the Cholesky factor is triangular is not needed.)
-/

namespace Curvlinops

/-- A symmetric factor. -/
def Factor.Sym (M : Factor ℝ) : Prop := ∀ i < M.dim, ∀ j < M.dim, M.mat i j = M.mat j i

/-- A positive semi-definite factor. -/
def Factor.PosSemidef (M : Factor ℝ) : Prop :=
  M.Sym ∧ ∀ x : Nat → ℝ, 0 ≤ ∑ i ∈ Finset.range M.dim, ∑ j ∈ Finset.range M.dim, x i * M.mat i j * x j

/-- A positive definite factor. -/
def Factor.PosDef (M : Factor ℝ) : Prop :=
  M.Sym ∧ ∀ x : Nat → ℝ, (∃ i < M.dim, x i ≠ 0) →
    0 < ∑ i ∈ Finset.range M.dim, ∑ j ∈ Finset.range M.dim, x i * M.mat i j * x j

/-- `N` is the inverse of `M`. -/
def Factor.IsInv (M N : Factor ℝ) : Prop :=
  N.dim = M.dim ∧ ∀ i < M.dim, ∀ j < M.dim,
    ∑ k ∈ Finset.range M.dim, M.mat i k * N.mat k j = (if i = j then 1 else 0) ∧
      ∑ k ∈ Finset.range M.dim, N.mat i k * M.mat k j = if i = j then 1 else 0

/-- `L` is a square root: `L Lᵀ = M`. -/
def Factor.IsRoot (M L : Factor ℝ) : Prop :=
  L.dim = M.dim ∧ ∀ i < M.dim, ∀ j < M.dim, ∑ k ∈ Finset.range M.dim, L.mat i k * L.mat j k = M.mat i j

/-- `e` is an eigendecomposition of `M`: orthonormal eigenvectors, and `M = Q diag(λ) Qᵀ`. -/
structure Factor.IsEigen (M : Factor ℝ) (e : Eigen) : Prop where
  dim : e.dim = M.dim
  orthonormal : ∀ p < M.dim, ∀ q < M.dim,
    ∑ i ∈ Finset.range M.dim, e.vecs i p * e.vecs i q = if p = q then 1 else 0
  decomp : ∀ i < M.dim, ∀ j < M.dim,
    ∑ p ∈ Finset.range M.dim, e.vecs i p * e.vals p * e.vecs j p = M.mat i j

/-- The routines are correct: the Cholesky decomposition succeeds for positive definite matrices in every precision, its
result is a square root, `cholesky_inverse` inverts the matrix with the given root, `eigh` of symmetric matrices
succeeds with an eigendecomposition. -/
structure LinAlg.Correct (la : LinAlg) : Prop where
  cholesky : ∀ dt (M : Factor ℝ), M.PosDef → ∃ L, la.cholesky dt M = .ok L ∧ M.IsRoot L
  inverse : ∀ M L : Factor ℝ, M.PosDef → M.IsRoot L → M.IsInv (la.choleskyInverse L)
  eigh : ∀ M : Factor ℝ, M.Sym → ∃ e, la.eigh M = .ok e ∧ M.IsEigen e

end Curvlinops
