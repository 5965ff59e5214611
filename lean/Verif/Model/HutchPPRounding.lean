import Verif.Model.EstimatorRounding

/-!
# Model of Hutch++ in floating point arithmetic

As in `Model/Estimators.lean`, with floating point numbers. The reduced QR decomposition is external and returns floating point numbers.
-/

namespace Curvlinops

variable {ρ : Rounding} {W : Type _}

/-- The list comprehension for `AS` (`trace/meyer2020hutch.py:140-145`), as `basisLoop`. -/
noncomputable def basisLoopFl (E : Ext (Fl ρ) W) (dim : Nat) (dist : DistArg) : Nat → W → Py (List (List (Fl ρ))) × W
  | 0, w => (.ok [], w)
  | n + 1, w =>
    match drawAndMulFl E dim dist w with
    | (.error e, w) => (.error e, w)
    | (.ok (_, As), w) =>
      match basisLoopFl E dim dist n w with
      | (.error e, w) => (.error e, w)
      | (.ok rest, w) => (.ok (As :: rest), w)

/-- The loop that accumulates the trace (`trace/meyer2020hutch.py:148-152`), as `traceLoop`. -/
noncomputable def traceLoopFl (σ : FlSum ρ) (E : Ext (Fl ρ) W) : List (List (Fl ρ)) → Fl ρ → W → Py Unit × Fl ρ × W
  | [], tr, w => (.ok (), tr, w)
  | q :: qs, tr, w =>
    match E.mul q w with
    | (.error e, w) => (.error e, tr, w)
    | (.ok Aq, w) => traceLoopFl σ E qs (tr + npDotFl σ q Aq) w

/-- `maybe_compute_and_cache_subspace` (`trace/meyer2020hutch.py:134-152`), as `HutchPP.maybeCompute`. -/
noncomputable def maybeComputeFl (σ : FlSum ρ) (E : Ext (Fl ρ) W) (s : HutchPP (Fl ρ)) (w : W) : Py Unit × HutchPP (Fl ρ) × W :=
  if s.Q.isSome && s.tr.isSome then (.ok (), s, w)
  else
    match basisLoopFl E s.dim s.basisDist s.basisDim.toNat w with
    | (.error e, w) => (.error e, s, w)
    | (.ok cols, w) =>
      match columnStack cols with
      | .error e => (.error e, s, w)
      | .ok _ =>
        let Q := E.qr cols
        let r := traceLoopFl σ E (Q.take s.basisDim.toNat) 0 w
        let s' := { s with Q := some Q, tr := some r.2.1 }
        match r.1 with
        | .error e => (.error e, s', r.2.2)
        | .ok () => if Q.length < s.basisDim.toNat then (.error .indexError, s', r.2.2) else (.ok (), s', r.2.2)

/-- `v - Q (Qᵀ v)` for the columns of `Q` (`trace/meyer2020hutch.py:130`): two rounded products, and a rounded difference. -/
noncomputable def projectOutFl (σ : FlSum ρ) (Q : List (List (Fl ρ))) (v : List (Fl ρ)) : List (Fl ρ) :=
  (List.range v.length).map fun i => v.getD i 0 - npDotFl σ (Q.map fun q => q.getD i 0) (Q.map fun q => npDotFl σ q v)

/-- `sample` (`trace/meyer2020hutch.py:107-132`), as `HutchPP.sample`. -/
noncomputable def hutchppSampleFl (σ : FlSum ρ) (E : Ext (Fl ρ) W) (s : HutchPP (Fl ρ)) (dist : DistArg) (w : W) :
    Py (Fl ρ) × HutchPP (Fl ρ) × W :=
  match maybeComputeFl σ E s w with
  | (.error e, s, w) => (.error e, s, w)
  | (.ok (), s, w) =>
    match randomVectorFl E s.dim dist w with
    | (.error e, w) => (.error e, s, w)
    | (.ok v, w) =>
      match s.Q, s.tr with
      | some Q, some tr =>
        let v := projectOutFl σ Q v
        match E.mul v w with
        | (.error e, w) => (.error e, s, w)
        | (.ok Av, w) => (.ok (tr + npDotFl σ v Av), s, w)
      | _, _ => (.error .typeError, s, w)

end Curvlinops
