import Verif.Model.Numpy
import Mathlib.Analysis.Real.Sqrt

/-!
# Model of the power iteration of the documentation

`docs/examples/basic_usage/example_eigenvalues.py:125-186`. Arrays of real numbers are lists; `none` is an array of NaN (or NaN). Numbers
are exact.
-/

namespace Curvlinops

/-- `normalize` (`example_eigenvalues.py:150-151`). Dividing the zero vector by its norm gives NaN. -/
noncomputable def normalizeVec (v : List ℝ) : Option (List ℝ) :=
  if npDot v v = 0 then none else some (v.map (· / √(npDot v v)))

/-- `orthonormalize` (`example_eigenvalues.py:153-156`). The in-place update changes only arrays that `normalize` has just created. -/
noncomputable def orthonormalizeVec (v : List ℝ) : List (Option (List ℝ)) → Option (List ℝ)
  | [] => normalizeVec v
  | none :: _ => none
  | some b :: basis => orthonormalizeVec (List.zipWith (fun x y => x - npDot v b * y) v b) basis

/-- An eigenpair of the power iteration. `value` is `none` for Python's `None` and `some none` for NaN, `products` counts products with the
operator. -/
structure PowerRun where
  value : Option (Option ℝ)
  vec : Option (List ℝ)
  products : Nat

/-- The inner loop (`example_eigenvalues.py:163-176`) with the given number of iterations left. From NaN, all remaining iterations give NaN:
comparisons with NaN are false. Simplification: products with NaN do not raise and are NaN. -/
noncomputable def powerIter (A : SciOp ℝ) (tol : ℝ) (basis : List (Option (List ℝ))) :
    Nat → Option ℝ → Option (List ℝ) → Nat → Py PowerRun
  | 0, ev, v, c => .ok ⟨ev.map some, v, c⟩
  | m + 1, ev, v, c =>
    match v.bind (orthonormalizeVec · basis) with
    | none => .ok ⟨some none, none, c + (m + 1)⟩
    | some u =>
      match A.mulVec u with
      | .error e => .error e
      | .ok Au =>
        match ev with
        | none => powerIter A tol basis m (some (npDot u Au)) (normalizeVec Au) (c + 1)
        | some e =>
          if |e - npDot u Au| / (|e| + 1e-6) < tol then .ok ⟨some (some e), normalizeVec Au, c + 1⟩
          else powerIter A tol basis m (some (npDot u Au)) (normalizeVec Au) (c + 1)

/-- The outer loop (`example_eigenvalues.py:158-180`) with the given number of eigenpairs to go; `draw j` is the result of the `j`-th call of
`numpy.random.randn`. -/
noncomputable def powerLoop (A : SciOp ℝ) (maxIterations : Nat) (tol : ℝ) (draw : Nat → List ℝ) :
    Nat → List PowerRun → Py (List PowerRun)
  | 0, done => .ok done
  | k + 1, done =>
    match powerIter A tol (done.map PowerRun.vec) maxIterations none (normalizeVec (draw done.length)) 0 with
    | .error e => .error e
    | .ok r => powerLoop A maxIterations tol draw k (done ++ [r])

/-- `power_method` (`example_eigenvalues.py:125-186`): the eigenvalues, the rows of the array of eigenvectors, and the number of products. -/
noncomputable def powerMethod (A : SciOp ℝ) (maxIterations : Nat) (tol : ℝ) (k : Nat) (draw : Nat → List ℝ) :
    Py (List (Option (Option ℝ)) × List (Option (List ℝ)) × Nat) :=
  match powerLoop A maxIterations tol draw k [] with
  | .error e => .error e
  | .ok rs => .ok (rs.reverse.map PowerRun.value, rs.reverse.map PowerRun.vec, (rs.map PowerRun.products).sum)

end Curvlinops
