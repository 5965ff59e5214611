import Verif.Model.Numpy
import Mathlib.Data.Matrix.Mul

/-!
# Specification: a SciPy operator multiplies with a dense matrix
-/

namespace Curvlinops

open Matrix

/-- `L @ x` is `A x` for every 1d array `x`. -/
def VecRep {α : Type _} [NonUnitalNonAssocSemiring α] {m n : Nat} (L : SciOp α)
    (A : Matrix (Fin m) (Fin n) α) : Prop :=
  L.rows = m ∧ L.cols = n ∧
    ∀ x : Fin n → α, L.dot (.vec (List.ofFn x)) = .ok (.vec (List.ofFn (A *ᵥ x)))

/-- `L @ X` is `A X` for every 2d array `X` with `K` columns. -/
def MatRepAt {α : Type _} [NonUnitalNonAssocSemiring α] {m n : Nat} (L : SciOp α)
    (A : Matrix (Fin m) (Fin n) α) (K : Nat) : Prop :=
  ∀ X : Matrix (Fin n) (Fin K) α,
    L.dot (.mat n (List.ofFn fun k => List.ofFn fun i => X i k)) =
      .ok (.mat m (List.ofFn fun k => List.ofFn fun i => (A * X) i k))

end Curvlinops
