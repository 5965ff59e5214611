import Verif.Model.LossCurvature
import Mathlib.Analysis.Calculus.FDeriv.Basic
import Mathlib.Analysis.Normed.Group.Constructions

/-!
# Model of the Hessian and GGN for arbitrary models and losses

The network and the loss enter as real functions; automatic differentiation is modelled by their derivatives. The loss
of a mini-batch is the sum or mean of the losses of its data, and the network treats the data independently.
-/

namespace Curvlinops

/-- One datum: the model's (flattened) output as function of the `P` (flattened) parameters, and the loss as function
of the output. -/
structure NetDatum (P O : Nat) where
  f : (Fin P → ℝ) → Fin O → ℝ
  loss : (Fin O → ℝ) → ℝ

variable {P O : Nat}

/-- Scale of the sum over `n` losses. -/
noncomputable def redScale (red : Reduction) (n : Nat) : ℝ := if red = .mean then (n : ℝ)⁻¹ else 1

/-- `self._loss_func(self._model_func(X), y)` (`hessian.py:62`) as function of the parameters. -/
noncomputable def netLoss (red : Reduction) (b : List (NetDatum P O)) (θ : Fin P → ℝ) : ℝ :=
  redScale red b.length * (b.map fun d => d.loss (d.f θ)).sum

/-- A matrix on flattened parameters. -/
def natMat (H : Fin P → Fin P → ℝ) : Nat → Nat → ℝ := fun r c =>
  if h : r < P ∧ c < P then H ⟨r, h.1⟩ ⟨c, h.2⟩ else 0

/-- `HessianLinearOperator._matmat_batch` (`hessian.py:45-84`) at parameters `θ`. -/
noncomputable def netHessianBatch (shapes : List (List Nat)) (blockSizes : List Int) (red : Reduction)
    (θ : Fin P → ℝ) (b : List (NetDatum P O)) (M : List (Tensor ℝ)) : Py (List (Tensor ℝ)) :=
  hessianMatmatBatch shapes blockSizes (natMat (hess (netLoss red b) θ)) M

/-- Jacobian of the flattened output of a mini-batch. -/
noncomputable def netJ (θ : Fin P → ℝ) (b : List (NetDatum P O)) : Nat → Nat → ℝ := fun s p =>
  if h : s < b.length * O ∧ p < P then
    let x := finProdFinEquiv.symm (⟨s, h.1⟩ : Fin (b.length * O))
    pderiv (fun θ => (b[x.1]).f θ x.2) ⟨p, h.2⟩ θ
  else 0

/-- The loss of a mini-batch as function of its output. -/
noncomputable def netOutLoss (red : Reduction) (b : List (NetDatum P O)) (F : Fin b.length × Fin O → ℝ) : ℝ :=
  (∑ m : Fin b.length, (b[m]).loss fun o => F (m, o)) / (redScale red b.length)⁻¹

/-- `GGNLinearOperator._matmat_batch` (`ggn.py:47-78`) at parameters `θ`. -/
noncomputable def netGGNBatch (shapes : List (List Nat)) (red : Reduction) (θ : Fin P → ℝ) (b : List (NetDatum P O))
    (M : List (Tensor ℝ)) : Py (List (Tensor ℝ)) :=
  ggnMatmatBatch shapes (netJ θ b) (flat2 (hess (netOutLoss red b) fun x => (b[x.1]).f θ x.2)) [b.length, O] M

/-- `linearized_model` (`functorch.py:108-127`) around the anchor. -/
noncomputable def linearizedModel (anchor : Fin P → ℝ) (d : NetDatum P O) : NetDatum P O :=
  ⟨fun θ => d.f anchor + fderiv ℝ d.f anchor (θ - anchor), d.loss⟩

/-- `functorch_ggn` (`functorch.py:80-151`): Hessian of the loss of the linearized model on the concatenated data. -/
noncomputable def functorchGGN (red : Reduction) (θ : Fin P → ℝ) (ds : List (NetDatum P O)) : Nat → Nat → ℝ :=
  natMat (hess (netLoss red (ds.map (linearizedModel θ))) θ)

/-- `functorch_hessian` (`functorch.py:37-77`). -/
noncomputable def functorchHessian (red : Reduction) (θ : Fin P → ℝ) (ds : List (NetDatum P O)) : Nat → Nat → ℝ :=
  natMat (hess (netLoss red ds) θ)

end Curvlinops
