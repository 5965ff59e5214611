import Verif.Model.EstimatorRounding
import Verif.Model.Deflation

/-!
# Model of `OuterProductLinearOperator` and of deflated operators in floating point arithmetic

As in `Model/Submatrix.lean` and `Model/Deflation.lean`, with floating point numbers. `SubState`, `SciOp.scaled`, `SciOp.add` and `dampingOp` are used as
they are, because they only need the operations of the numbers.
-/

namespace Curvlinops

variable {ρ : Rounding}

/-- Order in which `einsum` contracts `A`, `c`, `A`, `x` (`outer.py:31-34`). NumPy's `optimal` path is the first one, unless the matrix has only one row or
column; the others have the same result without rounding. Simplification: paths with intermediate arrays that have three axes are not modelled. -/
inductive OuterPath
  /-- `A (c ⊙ (Aᵀ x))` -/
  | inner
  /-- `(A ⊙ c) (Aᵀ x)` -/
  | outer
  /-- `A ((A ⊙ c)ᵀ x)` -/
  | first
  /-- `((A ⊙ c) Aᵀ) x` -/
  | matrix

/-- Entry `i` of `einsum("ij,j,kj,k->i", A, c, A, x)` (`outer.py:29-34`, `45`): rounded products, and sums. -/
noncomputable def outerEntryFl (σ : FlSum ρ) (c : List (Fl ρ)) (cols : List (List (Fl ρ))) (x : List (Fl ρ)) (i : Nat) : OuterPath → Fl ρ
  | .inner => npDotFl σ (cols.map fun a => a.getD i 0) (List.zipWith (fun cj a => cj * npDotFl σ a x) c cols)
  | .outer => npDotFl σ (List.zipWith (fun cj a => a.getD i 0 * cj) c cols) (cols.map fun a => npDotFl σ a x)
  | .first => npDotFl σ (cols.map fun a => a.getD i 0) (List.zipWith (fun cj a => npDotFl σ (a.map (· * cj)) x) c cols)
  | .matrix =>
    npDotFl σ ((List.range x.length).map fun k =>
      npDotFl σ (List.zipWith (fun cj a => a.getD i 0 * cj) c cols) (cols.map fun a => a.getD k 0)) x

/-- `OuterProductLinearOperator._matvec` (`outer.py:36-45`), as `OuterState.matvecImpl`. -/
noncomputable def OuterState.matvecFl (σ : FlSum ρ) (path : OuterPath) (s : OuterState (Fl ρ)) : NpVal (Fl ρ) → Py (NpVal (Fl ρ))
  | .vec x => .ok (.vec ((List.range s.dim).map fun i => outerEntryFl σ (npStretch s.rank s.c) (npStretch s.rank s.cols) x i path))
  | .mat _ _ => .error .valueError

/-- The operator as seen by SciPy (`outer.py:24`), as `OuterState.toSci`. -/
noncomputable def OuterState.toSciFl (σ : FlSum ρ) (path : OuterPath) (s : OuterState (Fl ρ)) : SciOp (Fl ρ) where
  rows := s.dim
  cols := s.dim
  matvecImpl := s.matvecFl σ path
  matmatImpl := SciOp.defaultMatmat s.dim s.dim (s.matvecFl σ path)

/-- `Projector(A)` (`outer.py:61-69`), as `mkProjector`. -/
noncomputable def mkProjectorFl (dim : Nat) (cols : List (List (Fl ρ))) : OuterState (Fl ρ) := ⟨dim, List.replicate cols.length 1, cols⟩

/-- `Y_linop - OuterProductLinearOperator(Y_top_evals, Y_top_evecs)` (`example_verification_spectral_density.py:217-221`), as `deflate`: SciPy multiplies
the products of the second operator with minus one and adds. -/
noncomputable def deflateFl (σ : FlSum ρ) (path : OuterPath) (A : SciOp (Fl ρ)) (rows : Nat) (evals : List (Fl ρ)) (evecs : List (List (Fl ρ))) :
    Py (SciOp (Fl ρ)) :=
  A.add (((OuterState.mk rows evals evecs).toSciFl σ path).scaled (Fl.of ρ (-1)))

end Curvlinops
