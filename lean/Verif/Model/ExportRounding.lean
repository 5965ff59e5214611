import Verif.Model.KfacProductRounding
import Verif.Model.MixedPrecision

/-!
# Model of KFAC as an operator in floating point arithmetic
-/

namespace Curvlinops

variable {ρ : Rounding}

/-- `KFACLinearOperator` as an operator (`kfac.py:354-397`; shapes `_torch_base.py:498-524`) after the factors have been
computed, as `kfacOp`, with rounded products. -/
noncomputable def kfacOpFl (σ : FlSum ρ) (shapes : List (List Nat)) (sep : Bool) (mapping : Dict (Dict Nat)) (inCov gradCov : Dict (Factor (Fl ρ))) :
    LinOp (Fl ρ) :=
  { inShape := shapes, outShape := shapes, matmat := fun M => (kfacMatmatFl σ sep mapping inCov gradCov M, M) }

end Curvlinops
