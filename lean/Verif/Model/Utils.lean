import Verif.Model.Py
import Mathlib.Algebra.BigOperators.Group.List.Basic

/-!
# Model of `curvlinops/utils.py`
-/

namespace Curvlinops

/-- Normalization of one end of a Python slice `x[a:b]` for a list of length `n`: negative values
count from the end, and the result is clamped to `[0, n]`. (CPython `PySlice_AdjustIndices`, used in
`/repo/curvlinops/utils.py:28`.) -/
def pySliceIdx (n : Nat) (a : Int) : Nat :=
  let a' := if a < 0 then a + n else a
  min a'.toNat n

/-- Python's `x[a:b]` with step 1 (`/repo/curvlinops/utils.py:28`). -/
def pySlice {α : Type _} (x : List α) (a b : Int) : List α :=
  (x.drop (pySliceIdx x.length a)).take (pySliceIdx x.length b - pySliceIdx x.length a)

/-- The consecutive pairs `(boundaries[i], boundaries[i+1])` of `cumsum([0] + sizes)`, starting at the
given running sum. (`/repo/curvlinops/utils.py:27-28`.) -/
def boundaryPairs (start : Int) : List Int → List (Int × Int)
  | [] => []
  | s :: ss => (start, start + s) :: boundaryPairs (start + s) ss

/-- `split_list(x, sizes)`: `/repo/curvlinops/utils.py:9-28`. Sizes are Python integers, so negative
ones are allowed by the code. -/
def splitList {α : Type _} (x : List α) (sizes : List Int) : Py (List (List α)) :=
  if (x.length : Int) ≠ sizes.sum then .error .valueError
  else .ok ((boundaryPairs 0 sizes).map fun p => pySlice x p.1 p.2)

end Curvlinops
