import Verif.Model.KfacFactors
import Verif.Spec.Dense

/-!
# Specification: KFAC's Kronecker factors

Normalized sums over all data, without batches.
-/

namespace Curvlinops

/-- Layer input at position `s`, extended by a one for a jointly treated bias. -/
noncomputable def specInputVec (cfg : KfacCfg) (l : KLayer) (d : KDatum) (s i : Nat) : ℝ :=
  if l.joint cfg = true ∧ i = l.din then 1 else d.x l.name s i

/-- Layer input averaged over positions, extended by a one for a jointly treated bias. -/
noncomputable def specMeanInput (cfg : KfacCfg) (l : KLayer) (d : KDatum) (i : Nat) : ℝ :=
  if l.joint cfg = true ∧ i = l.din then 1 else (∑ s ∈ Finset.range l.S, d.x l.name s i) / l.S

/-- The input factor: `1 / (N S) ∑ₙ ∑ₛ x xᵀ` (expand) or `1 / N ∑ₙ x̄ x̄ᵀ` (reduce). -/
noncomputable def specInputFactor (cfg : KfacCfg) (l : KLayer) (data : List KDatum) : Mat ℝ := fun i j =>
  match cfg.approx with
  | .expand => 1 / (cfg.N * l.S : ℝ) *
      (data.map fun d => ∑ s ∈ Finset.range l.S, specInputVec cfg l d s i * specInputVec cfg l d s j).sum
  | .reduce => 1 / (cfg.N : ℝ) * (data.map fun d => specMeanInput cfg l d i * specMeanInput cfg l d j).sum

/-- The vectors that are propagated back for a datum, without any scale: all columns of the square root of the loss
Hessian (type-2), gradients of the unreduced loss for each drawn label (Monte-Carlo), or for the true label
(empirical). -/
def specCotangents (cfg : KfacCfg) (d : KDatum) : List (Nat → Nat → ℝ) :=
  match cfg.fisher with
  | .type2 => (List.range cfg.C).map fun k t c => d.sqrt t c k
  | .mc => (List.range cfg.mcSamples).map d.lossGrad
  | .empirical => [d.lossGrad 0]
  | .forwardOnly => []

/-- Gradient at position `s` of the layer's output, for the vector `v`. -/
noncomputable def specGradVec (cfg : KfacCfg) (l : KLayer) (d : KDatum) (v : Nat → Nat → ℝ) (s o : Nat) : ℝ :=
  ∑ t ∈ Finset.range cfg.T, ∑ c ∈ Finset.range cfg.C, d.jac l.name s o t c * v t c

/-- The scale of the gradient factor: the loss divided by the number `N T` of loss terms for reduction `mean` (and by
`C` for gradients of `MSELoss` and `BCEWithLogitsLoss`), and the average over Monte-Carlo samples. -/
noncomputable def specGradScale (cfg : KfacCfg) : ℝ :=
  (1 / (cfg.mcSamples : ℝ)) * if cfg.mean then
    1 / ((cfg.N : ℝ) * (cfg.T : ℝ)) * (if cfg.fisher = .type2 ∨ cfg.loss = .ce then 1 else 1 / (cfg.C : ℝ)) else 1

/-- The gradient factor: scaled sum of outer products over data, propagated vectors and positions (expand), or of
gradients summed over positions (reduce); the identity for `FORWARD_ONLY`. -/
noncomputable def specGradFactor (cfg : KfacCfg) (l : KLayer) (data : List KDatum) : Mat ℝ := fun i j =>
  match cfg.fisher, cfg.approx with
  | .forwardOnly, _ => if i = j then 1 else 0
  | _, .expand => specGradScale cfg * (data.map fun d => ((specCotangents cfg d).map fun v =>
      ∑ s ∈ Finset.range l.S, specGradVec cfg l d v s i * specGradVec cfg l d v s j).sum).sum
  | _, .reduce => specGradScale cfg * (data.map fun d => ((specCotangents cfg d).map fun v =>
      (∑ s ∈ Finset.range l.S, specGradVec cfg l d v s i) * ∑ s ∈ Finset.range l.S, specGradVec cfg l d v s j).sum).sum

end Curvlinops
