import Verif.Model.Py
import Mathlib.Algebra.BigOperators.Group.List.Basic

/-!
# Argument validation in `CurvatureLinearOperator.__init__` (`/repo/curvlinops/_torch_base.py:463-478`)
-/

namespace Curvlinops

/-- What `next(iter(data))[0]` is: no batch at all (`StopIteration`), a dict-like object, or something else
(`_torch_base.py:463`). -/
inductive FirstInput
  | noBatch
  | mapping
  | nonMapping
  deriving DecidableEq

/-- The checks at the start of the constructor (`_torch_base.py:463-478`); returns `self._block_sizes`. -/
def initBlockSizes (first : FirstInput) (hasBatchSizeFn supportsBlocks : Bool)
    (blockSizes : Option (List Int)) (numParams : Nat) : Py (List Int) :=
  match first with
  | .noBatch => .error .stopIteration
  | _ =>
    if first = .mapping ∧ hasBatchSizeFn = false then .error .valueError
    else
      match blockSizes with
      | none => .ok [(numParams : Int)]
      | some bs =>
        if supportsBlocks = false then .error .valueError
        else if bs.sum ≠ (numParams : Int) then .error .valueError
        else if bs.any (fun s => s ≤ 0) then .error .valueError
        else .ok bs

end Curvlinops
