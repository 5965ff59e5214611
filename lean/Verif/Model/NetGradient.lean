import Verif.Model.Net

/-!
# Model of the loss and gradient of a mini-batch for arbitrary models and losses
-/

namespace Curvlinops

variable {P O : Nat}

/-- `self._loss_func(prediction, y)` and `grad(loss, self._params)` (`_torch_base.py:638-645`) at parameters `θ`, before
the multiplication with the normalization factor. The parameters are pieces of one vector, in which `grad` contracts the
derivative with the cotangent 1. -/
noncomputable def netLossGradBatch (shapes : List (List Nat)) (red : Reduction) (θ : Fin P → ℝ) (b : List (NetDatum P O)) :
    ℝ × List (Tensor ℝ) :=
  (netLoss red b θ,
    vjp (fun _ p => if h : p < P then pderiv (netLoss red b) ⟨p, h⟩ θ else 0) (prefs 0 shapes) ⟨[], [1]⟩)

end Curvlinops
