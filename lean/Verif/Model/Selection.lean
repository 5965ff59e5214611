import Verif.Model.Net
import Verif.Spec.Selection

/-!
# Model of operators on some of the model's parameters

An operator gets a model and a list of parameters (`_torch_base.py:468`). Automatic differentiation takes derivatives
with respect to the tensors in that list; the model's other parameters are constants (`hessian.py:62-80`, `ggn.py:64-75`,
`jacobian.py:108`, `232`).
-/

namespace Curvlinops

variable {P P' O : Nat}

/-- All parameters of the model, when the selected ones have values `θ'` and the others keep their values. -/
noncomputable def embedParams (σ : Fin P' → Fin P) (θ : Fin P → ℝ) (θ' : Fin P' → ℝ) : Fin P → ℝ := fun i =>
  open Classical in if h : ∃ r, σ r = i then θ' h.choose else θ i

/-- The model as a function of the selected parameters only. -/
noncomputable def NetDatum.select (σ : Fin P' → Fin P) (θ : Fin P → ℝ) (d : NetDatum P O) : NetDatum P' O :=
  ⟨fun θ' => d.f (embedParams σ θ θ'), d.loss⟩

/-- The Jacobian of one row of the output in the selected parameters. -/
def Term.select {k : LossKind} {C : Nat} (σ : Nat → Nat) (t : Term k C) : Term k C := { t with J := fun i r => t.J i (σ r) }

end Curvlinops
