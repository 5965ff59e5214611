import Verif.Model.LossCurvature

/-!
# Model of the losses with options, and of the operators on them

`CrossEntropyLoss(weight, ignore_index, label_smoothing)` and `BCEWithLogitsLoss(weight, pos_weight)`, formulas of the PyTorch
documentation. The operators only look at the class of the loss and at its reduction. Real arithmetic; a mean over no weight is
`nan` in PyTorch and outside the model.
-/

namespace Curvlinops

variable {C : Nat}

/-- A loss with options: class weights and label smoothing for `CrossEntropyLoss`, weights of the entries and of positive labels
for `BCEWithLogitsLoss`. -/
inductive LossOpts (C : Nat)
  | ce (weight : Fin C → ℝ) (smoothing : ℝ)
  | bce (weight posWeight : Fin C → ℝ)

/-- The class of the loss. -/
def LossOpts.kind : LossOpts C → LossKind
  | .ce .. => .ce
  | .bce .. => .bce

/-- Target of one loss term: for `CrossEntropyLoss` a class, or `none` for the label `ignore_index`. -/
abbrev LossOpts.Target : LossOpts C → Type
  | .ce .. => Option (Fin C)
  | .bce .. => Fin C → ℝ

/-- One loss term without reduction. -/
noncomputable def LossOpts.termLoss : (o : LossOpts C) → o.Target → (Fin C → ℝ) → ℝ
  | .ce _ _, none, _ => 0
  | .ce w ε, some y, f => (1 - ε) * (w y * -Real.log (softmax f y)) + ε / C * ∑ c, w c * -Real.log (softmax f c)
  | .bce w p, y, f => ∑ c, w c *
      -(p c * y c * Real.log (Real.sigmoid (f c)) + (1 - y c) * Real.log (1 - Real.sigmoid (f c)))

/-- What one term contributes to the divisor of `reduction="mean"`: the weight of the label's class, nothing for ignored labels; the
number of entries for `BCEWithLogitsLoss`. -/
def LossOpts.divisor : (o : LossOpts C) → o.Target → ℝ
  | .ce _ _, none => 0
  | .ce w _, some y => w y
  | .bce _ _, _ => C

/-- One row of the converted output: prediction `f`, its Jacobian `J` in the parameters, target `y`. -/
structure ORow (o : LossOpts C) where
  J : Nat → Nat → ℝ
  f : Fin C → ℝ
  y : o.Target

variable {o : LossOpts C}

/-- The output of a mini-batch. -/
def rowOuts (ts : List (ORow o)) : Fin ts.length × Fin C → ℝ := fun x => (ts[x.1]).f x.2

/-- Jacobian of the flattened output. -/
def rowsJ {n C : Nat} (J : Fin n → Nat → Nat → ℝ) : Nat → Nat → ℝ := fun s p =>
  if h : s < n * C then
    let x := finProdFinEquiv.symm (⟨s, h⟩ : Fin (n * C))
    J x.1 x.2 p
  else 0

/-- The number that the reduction divides by. -/
noncomputable def rowsDivisor (mean : Bool) (ts : List (ORow o)) : ℝ :=
  if mean then (ts.map fun t => o.divisor t.y).sum else 1

/-- The loss of a mini-batch as function of the output. -/
noncomputable def rowsLoss (mean : Bool) (ts : List (ORow o)) (f : Fin ts.length × Fin C → ℝ) : ℝ :=
  (∑ m : Fin ts.length, o.termLoss (ts[m]).y fun c => f (m, c)) / rowsDivisor mean ts

/-- `GGNLinearOperator._matmat_batch` (`ggn.py:47-78`). -/
noncomputable def ggnOptBatch (shapes : List (List Nat)) (mean : Bool) (ts : List (ORow o)) (M : List (Tensor ℝ)) :
    Py (List (Tensor ℝ)) :=
  ggnMatmatBatch shapes (rowsJ (C := C) fun m : Fin ts.length => (ts[m]).J) (flat2 (hess (rowsLoss mean ts) (rowOuts ts)))
    [ts.length, C] M

/-- `grad_output` of the empirical Fisher (`gradient_moments.py:151-153`); the reduction factor (142-149) counts the rows. -/
noncomputable def efOptGrad (mean : Bool) (ts : List (ORow o)) : Fin ts.length × Fin C → ℝ := fun x =>
  pderiv (rowsLoss mean ts) x (rowOuts ts) * efReductionFactor o.kind mean ts.length C

/-- `EFLinearOperator._matmat_batch` (`gradient_moments.py:114-175`). -/
noncomputable def efOptBatch (shapes : List (List Nat)) (mean : Bool) (ts : List (ORow o)) (M : List (Tensor ℝ)) :
    Py (List (Tensor ℝ)) :=
  ggnMatmatBatch shapes (rowsJ (C := C) fun m : Fin ts.length => (ts[m]).J)
    (flat2 (hess (efPseudoLoss (efReductionFactor o.kind mean ts.length C) (efOptGrad mean ts)) (rowOuts ts)))
    [ts.length, C] M

end Curvlinops
