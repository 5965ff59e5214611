import Verif.Model.Losses
import Verif.Model.Curvature
import Mathlib.Analysis.SpecialFunctions.Sqrt

/-!
# Model of `loss_hessian_matrix_sqrt`
-/

namespace Curvlinops

/-- The loss function argument: one of the three supported losses with its reduction, or something else. -/
inductive LossArg
  | known (k : LossKind) (red : Reduction)
  | other

/-- `{"sum": 1.0, "mean": 1.0 / output_dim}[reduction]`; both values are computed (`kfac_utils.py:117`, `136`). -/
noncomputable def sqrtScale (red : Reduction) (C : Nat) : Py ℝ :=
  if C = 0 then .error .zeroDivisionError
  else
    match red with
    | .sum => .ok 1
    | .mean => .ok (1 / C)
    | .other => .error .keyError

/-- `loss_hessian_matrix_sqrt` (`kfac_utils.py:103-141`). `f` is the data of the prediction, whose shape `outShape` has
`C` entries; `target` the data of the target. `torch.diag` of a zero-dimensional tensor raises `RuntimeError`; the
predicted probabilities are zero-dimensional after `squeeze()` if `C = 1`. -/
noncomputable def lossHessianSqrt {C : Nat} (loss : LossArg) (outShape : List Nat) (f : Fin C → ℝ)
    (targetShape : List Nat) (target : List ℝ) : Py (Fin C → Fin C → ℝ) :=
  if outShape.length ≠ 2 ∨ outShape.head? ≠ some 1 then .error .valueError
  else
    match targetShape with
    | [] => .error .indexError
    | n :: _ =>
      if n ≠ 1 then .error .valueError
      else
        match loss with
        | .known .mse red =>
          match sqrtScale red C with
          | .error e => .error e
          | .ok c => .ok fun i j => (if i = j then 1 else 0) * Real.sqrt (2 * c)
        | .known .ce _ =>
          if C = 1 then .error .runtimeError
          else .ok fun i j => ((if i = j then Real.sqrt (softmax f i) else 0) -
            softmax f i * Real.sqrt (softmax f j)) * Real.sqrt 1
        | .known .bce red =>
          open Classical in
          if ∀ y ∈ target, y = 0 ∨ y = 1 then
            match sqrtScale red C with
            | .error e => .error e
            | .ok c => .ok fun i j => if i = j then
                Real.sqrt c * Real.sqrt (Real.sigmoid (f i) * (1 - Real.sigmoid (f i))) else 0
          else .error .notImplementedError
        | .other => .error .notImplementedError

end Curvlinops
