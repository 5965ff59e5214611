import Verif.Model.Submatrix
import Verif.Model.Utils
import Verif.Model.Tensor

/-!
# Model of the example program about blocks of the Hessian

`docs/examples/basic_usage/example_submatrices.py:66-135, 156-171, 212-221`. NumPy is external code, taken at its documented behaviour.
-/

namespace Curvlinops

variable {α : Type _}

/-- `sum(param_dims[:i]), sum(param_dims[: i + 1])` (`example_submatrices.py:106-107`, `158-159`, `213-214`); negative `i` are allowed by the
code. -/
def blockBounds (dims : List Nat) (i : Int) : Nat × Nat := ((pySlice dims 0 i).sum, (pySlice dims 0 (i + 1)).sum)

/-- `extract_block` (`example_submatrices.py:91-109`): `mat[row_start:row_end, :][:, col_start:col_end]`. One axis less raises
`IndexError`. -/
def extractBlock (mat : NpVal α) (dims : List Nat) (i j : Int) : Py (NpVal α) :=
  match mat with
  | .vec _ => .error .indexError
  | .mat r cs =>
    let rows := blockBounds dims i
    let cols := blockBounds dims j
    .ok (.mat (pySliceIdx r rows.2 - pySliceIdx r rows.1) (pySlice (cs.map fun c => pySlice c rows.1 rows.2) cols.1 cols.2))

/-- `list(range(start, end))` (`example_submatrices.py:161-162`, `216-217`). -/
def rangeIdxs (bounds : Nat × Nat) : List PyIdx := (List.range' bounds.1 (bounds.2 - bounds.1)).map fun p : Nat => .int p

/-- `SubmatrixLinearOperator(H, row_idxs, col_idxs)` for the indices of two parameters (`example_submatrices.py:164`, `219`). -/
def blockOp (H : SciPair α) (dims : List Nat) (i j : Int) : Py (SubState α) :=
  mkSubmatrix H (rangeIdxs (blockBounds dims i)) (rangeIdxs (blockBounds dims j))

/-- `numpy.eye(n)`. -/
def npEye [Zero α] [One α] (n : Nat) : NpVal α := .mat n ((List.range n).map fun k => (List.range n).map fun i => if i = k then 1 else 0)

/-- `.numpy()` of a tensor with two axes. -/
def tensorToNumpy [Zero α] (t : Tensor α) : NpVal α :=
  let m := t.shape.getD 0 0
  let n := t.shape.getD 1 0
  .mat m ((List.range n).map fun c => (List.range m).map fun r => t.data.getD (r * n + c) 0)

end Curvlinops
