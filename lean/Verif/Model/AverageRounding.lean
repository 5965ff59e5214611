import Verif.Model.EstimatorRounding

/-!
# Model of averages of samples in floating point arithmetic

The documentation of the estimators tells the caller to average samples.
-/

namespace Curvlinops

variable {ρ : Rounding}

/-- `mean([estimator.sample() for _ in range(m)])` (`trace/hutchinson.py:46`, `norm/hutchinson.py:35`) of the collected results: the first exception is
raised; otherwise `numpy.mean` adds in any order and divides. Simplification: `m = 0`, where NumPy warns and returns `nan`, is not modelled. -/
noncomputable def meanFl (σ : FlSum ρ) (samples : List (Py (Fl ρ))) : Py (Fl ρ) :=
  match pyMapM id samples with
  | .error e => .error e
  | .ok xs => .ok (σ.sum xs / (xs.length : Fl ρ))

/-- `mean(samples, axis=0)` (`diagonal/hutchinson.py:46-47`) of the collected results, which have length `dim`: every entry is averaged. -/
noncomputable def meanRowsFl (σ : FlSum ρ) (dim : Nat) (samples : List (Py (List (Fl ρ)))) : Py (List (Fl ρ)) :=
  match pyMapM id samples with
  | .error e => .error e
  | .ok xs => .ok ((List.range dim).map fun a => σ.sum (xs.map fun x => x.getD a 0) / (xs.length : Fl ρ))

end Curvlinops
