import Verif.Model.KfacFactors
import Verif.Model.LossCurvature
import Verif.Spec.Calculus

/-!
# Model of the labels that Monte-Carlo KFAC draws
-/

namespace Curvlinops

variable {k : LossKind} {C : Nat}

/-- `KFACLinearOperator.draw_label` (`kfac.py:549-597`) for one row of the (two-dimensional) output. -/
noncomputable def drawLabel : (k : LossKind) → (Fin C → ℝ) → TermDraw k C → TermTarget k C
  | .mse, f, z => fun c => f c + Real.sqrt 0.5 * z c
  | .ce, _, s => s
  | .bce, _, b => fun c => if b c then 1 else 0

/-- A datum of Monte-Carlo KFAC: what the hooks see, the prediction of each loss term, and the random numbers for each
sample and loss term (`kfac.py:515-516`). The random numbers of a batch come from one call per sample, row by row. -/
structure McDatum (k : LossKind) (C : Nat) where
  base : KDatum
  pred : Nat → Fin C → ℝ
  draw : Nat → Nat → TermDraw k C

/-- The gradient of the loss term for the drawn label with respect to the prediction (`kfac.py:516-519`). -/
noncomputable def McDatum.toKDatum (d : McDatum k C) : KDatum :=
  { d.base with lossGrad := fun m t c =>
      if h : c < C then pderiv (termLoss k (drawLabel k (d.pred t) (d.draw m t))) ⟨c, h⟩ (d.pred t) else 0 }

end Curvlinops
