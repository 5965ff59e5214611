import Verif.Model.Estimators
import Verif.Model.KfacRounding

/-!
# Model of the stochastic estimators in floating point arithmetic

As `Model/Estimators.lean`, with floating point numbers. NumPy's sums are in any order (`FlSum`). The operator's product, including
conversions between data types, is external.
-/

namespace Curvlinops

variable {ρ : Rounding} {W : Type _}

/-- `rademacher` (`sampling.py:16-17`). -/
noncomputable def rademacherFl (E : Ext (Fl ρ) W) (dim : Nat) (w : W) : List (Fl ρ) × W :=
  let r := E.bits dim w
  (r.1.map fun b => (if b then 1 else 0) * ((2 : Nat) : Fl ρ) - 1, r.2)

/-- `random_vector` (`sampling.py:32-51`), as `randomVector`. -/
noncomputable def randomVectorFl (E : Ext (Fl ρ) W) (dim : Nat) (dist : DistArg) (w : W) : Py (List (Fl ρ)) × W :=
  match dist with
  | .str s =>
    if s = "rademacher" then let r := rademacherFl E dim w; (.ok r.1, r.2)
    else if s = "normal" then let r := normal E dim w; (.ok r.1, r.2)
    else (.error .valueError, w)
  | .nonStr => (.error .typeError, w)

/-- The common start of all `sample` methods, as `drawAndMul` (`trace/hutchinson.py:79-81`, `diagonal/hutchinson.py:83-85`,
`norm/hutchinson.py:63-65`). -/
noncomputable def drawAndMulFl (E : Ext (Fl ρ) W) (dim : Nat) (dist : DistArg) (w : W) : Py (List (Fl ρ) × List (Fl ρ)) × W :=
  match randomVectorFl E dim dist w with
  | (.error e, w) => (.error e, w)
  | (.ok v, w) =>
    match E.mul v w with
    | (.error e, w) => (.error e, w)
    | (.ok Av, w) => (.ok (v, Av), w)

/-- `numpy.dot` of vectors: rounded products and a sum (external code). -/
noncomputable def npDotFl (σ : FlSum ρ) (a b : List (Fl ρ)) : Fl ρ := σ.sum (List.zipWith (· * ·) a b)

/-- `HutchinsonTraceEstimator.sample` (`trace/hutchinson.py:65-82`). -/
noncomputable def hutchTraceFl (σ : FlSum ρ) (E : Ext (Fl ρ) W) (dim : Nat) (dist : DistArg) (w : W) : Py (Fl ρ) × W :=
  match drawAndMulFl E dim dist w with
  | (.error e, w) => (.error e, w)
  | (.ok (v, Av), w) => (.ok (npDotFl σ v Av), w)

/-- `HutchinsonDiagonalEstimator.sample` (`diagonal/hutchinson.py:69-86`). -/
noncomputable def hutchDiagFl (E : Ext (Fl ρ) W) (dim : Nat) (dist : DistArg) (w : W) : Py (List (Fl ρ)) × W :=
  match drawAndMulFl E dim dist w with
  | (.error e, w) => (.error e, w)
  | (.ok (v, Av), w) => (.ok (List.zipWith (· * ·) v Av), w)

/-- `HutchinsonSquaredFrobeniusNormEstimator.sample` (`norm/hutchinson.py:49-66`). -/
noncomputable def hutchNormFl (σ : FlSum ρ) (E : Ext (Fl ρ) W) (dim : Nat) (dist : DistArg) (w : W) : Py (Fl ρ) × W :=
  match drawAndMulFl E dim dist w with
  | (.error e, w) => (.error e, w)
  | (.ok (_, Av), w) => (.ok (npDotFl σ Av Av), w)

end Curvlinops
