import Mathlib.Analysis.SpecialFunctions.Sigmoid
import Mathlib.Analysis.SpecialFunctions.Log.Basic
import Mathlib.Algebra.BigOperators.Fin

/-!
# Model of the supported loss functions

Formulas of the PyTorch documentation, for outputs of shape `(n, C)` (the operators convert other outputs to this form
by `rearrange`). Class weights, label smoothing, `ignore_index` and `pos_weight` have their default values.
-/

namespace Curvlinops

/-- The supported loss functions. -/
inductive LossKind
  | mse
  | ce
  | bce
  deriving DecidableEq

/-- Target of one loss term: a class for `CrossEntropyLoss`, otherwise a vector. -/
abbrev TermTarget (k : LossKind) (C : Nat) : Type :=
  match k with
  | .ce => Fin C
  | _ => Fin C → ℝ

/-- One loss term without reduction: `MSELoss`, `CrossEntropyLoss` and `BCEWithLogitsLoss` summed over the output
dimension. -/
noncomputable def termLoss {C : Nat} : (k : LossKind) → TermTarget k C → (Fin C → ℝ) → ℝ
  | .mse, y, f => ∑ c, (f c - y c) ^ 2
  | .ce, y, f => -Real.log (Real.exp (f y) / ∑ c, Real.exp (f c))
  | .bce, y, f => ∑ c, -(y c * Real.log (Real.sigmoid (f c)) + (1 - y c) * Real.log (1 - Real.sigmoid (f c)))

/-- The number that `reduction="mean"` divides by: the number of terms for `CrossEntropyLoss`, and the number of
entries of the output for the others; `1` for `reduction="sum"`. The same numbers are the `reduction_factor`s of
`gradient_moments.py:142-149` and `fisher.py:234-241`. -/
def reductionFactor (k : LossKind) (mean : Bool) (n C : Nat) : ℝ :=
  if mean then
    match k with
    | .ce => n
    | _ => n * C
  else 1

/-- The loss of `n` terms with reduction. -/
noncomputable def batchLoss {n C : Nat} (k : LossKind) (mean : Bool) (y : Fin n → TermTarget k C)
    (f : Fin n × Fin C → ℝ) : ℝ :=
  (∑ m, termLoss k (y m) fun c => f (m, c)) / reductionFactor k mean n C

/-- `torch.softmax` over the output dimension. -/
noncomputable def softmax {C : Nat} (f : Fin C → ℝ) (c : Fin C) : ℝ := Real.exp (f c) / ∑ c, Real.exp (f c)

end Curvlinops
