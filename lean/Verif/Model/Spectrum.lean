import Verif.Model.Py
import Mathlib.Analysis.InnerProductSpace.PiL2
import Mathlib.Analysis.SpecialFunctions.Log.Basic
import Mathlib.Analysis.Real.Sqrt
import Mathlib.Analysis.SpecialFunctions.Trigonometric.Basic

/-!
# Model of the spectral density approximations (`/repo/curvlinops/papyan2020traces/spectrum.py`)

Real numbers instead of floating point numbers. A division of arrays by zero gives `nan`, which is modelled where it can be
reached from admissible arguments (the breakdown of the Lanczos iteration); elsewhere division by zero is that of Lean
and the theorems assume that it does not happen.
-/

namespace Curvlinops

/-- The result of `fast_lanczos`: `evals` and `evecs` with `ncv` entries per axis. -/
structure LanczosIter where
  ncv : Nat
  evals : Nat → ℝ
  evecs : Nat → Nat → ℝ

/-! ## Lanczos iterations -/

/-- The variables of the loop of `fast_lanczos`. The arrays `alphas` and `betas` are the lists of the entries written so far. -/
structure LanczosState (d : Nat) where
  v : EuclideanSpace ℝ (Fin d)
  vPrev : EuclideanSpace ℝ (Fin d)
  alphas : List ℝ
  betas : List ℝ

/-- One iteration of the loop (`spectrum.py:397-414`); `none` if a vector is divided by zero, which fills it and all later
entries of `alphas` with `nan`. -/
noncomputable def lanczosStep {d : Nat} (A : EuclideanSpace ℝ (Fin d) → EuclideanSpace ℝ (Fin d)) (ncv : Nat)
    (randn : EuclideanSpace ℝ (Fin d)) (st : LanczosState d) (m : Nat) : Option (LanczosState d) :=
  if m = 0 ∧ ‖randn‖ = 0 then none
  else
    let v := if m = 0 then ‖randn‖⁻¹ • randn else st.v
    let vNext := if m = 0 then A v else A v - st.betas.getD (m - 1) 0 • st.vPrev
    let α := inner ℝ vNext v
    let vNext := vNext - α • v
    if m + 1 = ncv then some ⟨v, st.vPrev, st.alphas ++ [α], st.betas⟩
    else if ‖vNext‖ = 0 then none
    else some ⟨‖vNext‖⁻¹ • vNext, v, st.alphas ++ [α], st.betas ++ [‖vNext‖]⟩

/-- The loop after `k` iterations. -/
noncomputable def lanczosLoop {d : Nat} (A : EuclideanSpace ℝ (Fin d) → EuclideanSpace ℝ (Fin d)) (ncv : Nat)
    (randn : EuclideanSpace ℝ (Fin d)) (k : Nat) : Option (LanczosState d) :=
  (List.range k).foldlM (lanczosStep A ncv randn) ⟨0, 0, [], []⟩

/-- `diags([betas, alphas, betas], offsets=[-1, 0, 1]).todense()` (`spectrum.py:419`). -/
def tridiagonal (alphas betas : List ℝ) (i j : Nat) : ℝ :=
  if i = j then alphas.getD i 0 else if i = j + 1 then betas.getD j 0 else if j = i + 1 then betas.getD i 0 else 0

/-- Eigensolvers of SciPy: number of rows and matrix, to eigenvalues and eigenvectors. -/
abbrev Eigh := Nat → (Nat → Nat → ℝ) → Py ((Nat → ℝ) × (Nat → Nat → ℝ))

/-- `fast_lanczos` (`spectrum.py:374-422`) for the vector `randn` that is drawn. `zeros(ncv - 1)` raises for `ncv = 0`. The
eigensolvers raise `ValueError` for arrays with `nan` (their argument `check_finite` is `True`). The products with `A` do
not raise. `eigh_tridiagonal` is given the tridiagonal matrix with the entries of its two arguments. -/
noncomputable def fastLanczos {d : Nat} (eigh eighTridiagonal : Eigh)
    (A : EuclideanSpace ℝ (Fin d) → EuclideanSpace ℝ (Fin d)) (ncv : Nat) (useTridiagonal : Bool)
    (randn : EuclideanSpace ℝ (Fin d)) : Py LanczosIter :=
  if ncv = 0 then .error .valueError
  else match lanczosLoop A ncv randn ncv with
    | none => .error .valueError
    | some st => do
      let (evals, evecs) ← (if useTridiagonal then eighTridiagonal else eigh) ncv (tridiagonal st.alphas st.betas)
      .ok ⟨ncv, evals, evecs⟩

/-! ## Spectral boundaries -/

/-- The argument `boundaries`. -/
abbrev Boundaries := Option (Option ℝ × Option ℝ)

/-- `eigsh(A, k, which, tol=tol, return_eigenvectors=False)`. -/
abbrev Eigsh := Nat → String → Py (List ℝ)

/-- `if x is None: (x,) = eigsh(A, k=1, which=...)`, with the calls to the eigensolver. -/
def eigshIfNone (eigsh : Eigsh) (which : String) : Option ℝ → Py ℝ × List (Nat × String)
  | some x => (.ok x, [])
  | none => match eigsh 1 which with
    | .error e => (.error e, [(1, which)])
    | .ok [x] => (.ok x, [(1, which)])
    | .ok _ => (.error .valueError, [(1, which)])

/-- `approximate_boundaries` (`spectrum.py:425-457`): result and the calls to the eigensolver. -/
def approximateBoundaries (eigsh : Eigsh) : Boundaries → Py (ℝ × ℝ) × List (Nat × String)
  | none => match eigsh 2 "BE" with
    | .error e => (.error e, [(2, "BE")])
    | .ok [a, b] => (.ok (a, b), [(2, "BE")])
    | .ok _ => (.error .valueError, [(2, "BE")])
  | some (lo, hi) =>
    match eigshIfNone eigsh "SA" lo with
    | (.error e, c1) => (.error e, c1)
    | (.ok a, c1) => match eigshIfNone eigsh "LA" hi with
      | (.error e, c2) => (.error e, c1 ++ c2)
      | (.ok b, c2) => (.ok (a, b), c1 ++ c2)

/-- `approximate_boundaries_abs` (`spectrum.py:460-488`): result and the calls to the eigensolver. -/
def approximateBoundariesAbs (eigsh : Eigsh) (boundaries : Boundaries) : Py (ℝ × ℝ) × List (Nat × String) :=
  let (lo, hi) := boundaries.getD (none, none)
  match eigshIfNone eigsh "LM" hi with
  | (.error e, c1) => (.error e, c1)
  | (.ok b, c1) => match eigshIfNone eigsh "SM" lo with
    | (.error e, c2) => (.error e, c1 ++ c2)
    | (.ok a, c2) => (.ok (|a|, |b|), c1 ++ c2)

/-! ## Densities -/

/-- NumPy's `linspace(start, stop, num, endpoint=True)`. -/
noncomputable def linspace (start stop : ℝ) (num : Nat) : List ℝ :=
  (List.range num).map fun i : Nat => if num = 1 then start else start + i * ((stop - start) / ((num : ℝ) - 1))

/-- `_gaussian` (`spectrum.py:491-502`). -/
noncomputable def gaussian (x mu sigma : ℝ) : ℝ :=
  Real.exp (-0.5 * ((x - mu) / sigma) ^ 2) / (sigma * Real.sqrt (2 * Real.pi))

/-- Width of the Gaussian bumps (`spectrum.py:104`, `299`). The number of nodes is a Python integer, so
`2 / (ncv - 1)` raises for one node. -/
noncomputable def bumpWidth (ncv : Nat) (kappa : ℝ) : Py ℝ :=
  if ncv = 1 then .error .zeroDivisionError else .ok (2 / ((ncv : ℝ) - 1) / Real.sqrt (8 * Real.log kappa))

/-- `lanczos_approximate_spectrum_from_iter` (`spectrum.py:75-107`). -/
noncomputable def spectrumFromIter (it : LanczosIter) (boundaries : ℝ × ℝ) (numPoints : Nat) (kappa margin : ℝ) :
    Py (List ℝ × List ℝ) := do
  let width := boundaries.2 - boundaries.1
  let padding := margin * width
  let evalMin := boundaries.1 - padding
  let evalMax := boundaries.2 + padding
  let c := (evalMax + evalMin) / 2
  let d := (evalMax - evalMin) / 2
  let gridNorm := linspace (-1) 1 numPoints
  let nodes := fun j => (it.evals j - c) / d
  let weights := fun j => it.evecs 0 j ^ 2 / d
  let sigma ← bumpWidth it.ncv kappa
  let density := gridNorm.map fun g => ∑ j ∈ Finset.range it.ncv, weights j * gaussian g (nodes j) sigma
  .ok (linspace evalMin evalMax numPoints, density)

/-- `lanczos_approximate_log_spectrum_from_iter` (`spectrum.py:265-302`). -/
noncomputable def logSpectrumFromIter (it : LanczosIter) (boundaries : ℝ × ℝ) (numPoints : Nat)
    (kappa margin epsilon : ℝ) : Py (List ℝ × List ℝ) := do
  let logMin := Real.log (boundaries.1 + epsilon)
  let logMax := Real.log (boundaries.2 + epsilon)
  let width := logMax - logMin
  let padding := margin * width
  let logMin := logMin - padding
  let logMax := logMax + padding
  let c := (logMax + logMin) / 2
  let d := (logMax - logMin) / 2
  let gridNorm := linspace (-1) 1 numPoints
  let nodes := fun j => (Real.log (|it.evals j| + epsilon) - c) / d
  let weights := fun j => it.evecs 0 j ^ 2
  let sigma ← bumpWidth it.ncv kappa
  let density := gridNorm.map fun g =>
    (∑ j ∈ Finset.range it.ncv, weights j * gaussian g (nodes j) sigma) / (d * Real.exp (g * d + c))
  .ok (gridNorm.map fun g => Real.exp (g * d + c), density)

/-! ## Averages over repetitions

`fast_lanczos` draws from NumPy's global random number generator. `src i` is the outcome of call number `i` since the
program started; the functions return the number of calls made so far. -/

/-- The outcomes of the calls to `fast_lanczos`. -/
abbrev LanczosSource := Nat → Py LanczosIter

/-- The loops over `range(num_repeats)` (`spectrum.py:62-72`, `252-262`), where `fromIter` is the function that computes a
single density, for the iterations `n, n + 1, ...`; the last argument counts the iterations left. -/
noncomputable def repeatLoop (src : LanczosSource) (fromIter : LanczosIter → Py (List ℝ × List ℝ)) :
    Nat → Nat → Option (List ℝ) → List ℝ → Nat → Py (List ℝ × List ℝ) × Nat
  | calls, _, none, _, 0 => (.error .unboundLocalError, calls)
  | calls, _, some grid, average, 0 => (.ok (grid, average), calls)
  | calls, n, _, average, left + 1 => match src calls with
    | .error e => (.error e, calls + 1)
    | .ok it => match fromIter it with
      | .error e => (.error e, calls + 1)
      | .ok (grid, density) => repeatLoop src fromIter (calls + 1) (n + 1) (some grid)
          (List.zipWith (fun a r => (1 - 1 / ((n : ℝ) + 1)) * a + r / ((n : ℝ) + 1)) average density) left

/-- `lanczos_approximate_spectrum` (`spectrum.py:19-72`). -/
noncomputable def lanczosSpectrum (eigsh : Eigsh) (src : LanczosSource) (calls numPoints : Nat) (numRepeats : Int)
    (kappa : ℝ) (boundaries : Boundaries) (margin : ℝ) : Py (List ℝ × List ℝ) × Nat :=
  match (approximateBoundaries eigsh boundaries).1 with
  | .error e => (.error e, calls)
  | .ok b => repeatLoop src (fun it => spectrumFromIter it b numPoints kappa margin) calls 0 none
      (List.replicate numPoints 0) numRepeats.toNat

/-- `lanczos_approximate_log_spectrum` (`spectrum.py:201-262`). -/
noncomputable def lanczosLogSpectrum (eigsh : Eigsh) (src : LanczosSource) (calls numPoints : Nat) (numRepeats : Int)
    (kappa : ℝ) (boundaries : Boundaries) (margin epsilon : ℝ) : Py (List ℝ × List ℝ) × Nat :=
  match (approximateBoundariesAbs eigsh boundaries).1 with
  | .error e => (.error e, calls)
  | .ok b => repeatLoop src (fun it => logSpectrumFromIter it b numPoints kappa margin epsilon) calls 0 none
      (List.replicate numPoints 0) numRepeats.toNat

/-! ## Cached Lanczos iterations -/

/-- The state of a cached spectrum object together with the number of calls to `fast_lanczos`. -/
structure SpectrumCache where
  iters : List LanczosIter
  calls : Nat

/-- The loop of `_get_lanczos_iters` (`spectrum.py:129-130`) with `missing` iterations left. An exception ends it. -/
def drawIters (src : LanczosSource) : Nat → SpectrumCache → Py Unit × SpectrumCache
  | 0, st => (.ok (), st)
  | missing + 1, st => match src st.calls with
    | .error e => (.error e, ⟨st.iters, st.calls + 1⟩)
    | .ok it => drawIters src missing ⟨st.iters ++ [it], st.calls + 1⟩

/-- The slice `l[:n]`; negative numbers count from the end. -/
def sliceTo {β : Type} (l : List β) (n : Int) : List β :=
  if 0 ≤ n then l.take n.toNat else l.take (l.length - (-n).toNat)

/-- `_get_lanczos_iters` (`spectrum.py:128-132`). -/
def getLanczosIters (src : LanczosSource) (st : SpectrumCache) (numIters : Int) : Py (List LanczosIter) × SpectrumCache :=
  match drawIters src (numIters - st.iters.length).toNat st with
  | (.error e, st) => (.error e, st)
  | (.ok _, st) => (.ok (sliceTo st.iters numIters), st)

/-- `approximate_spectrum` and `approximate_log_spectrum` of the cached classes (`spectrum.py:189-198`, `362-371`), where
`fromIter` is the function that computes a single density. The spectra are computed before `spectra[0]` is read, which
raises for an empty list. -/
noncomputable def cachedSpectrum (src : LanczosSource) (fromIter : LanczosIter → Py (List ℝ × List ℝ)) (st : SpectrumCache)
    (numRepeats : Int) : Py (List ℝ × List ℝ) × SpectrumCache :=
  match getLanczosIters src st numRepeats with
  | (.error e, st) => (.error e, st)
  | (.ok its, st) => match its.mapM fromIter with
    | .error e => (.error e, st)
    | .ok [] => (.error .indexError, st)
    | .ok (s :: spectra) =>
      (.ok (s.1, ((spectra.map Prod.snd).foldl (List.zipWith (· + ·)) s.2).map (· / (numRepeats : ℝ))), st)

/-- A request to `LanczosApproximateSpectrumCached.approximate_spectrum` (`spectrum.py:168-198`). -/
noncomputable def cachedApproximateSpectrum (src : LanczosSource) (b : ℝ × ℝ) (st : SpectrumCache) (numRepeats : Int)
    (numPoints : Nat) (kappa margin : ℝ) : Py (List ℝ × List ℝ) × SpectrumCache :=
  cachedSpectrum src (fun it => spectrumFromIter it b numPoints kappa margin) st numRepeats

/-- A request to `LanczosApproximateLogSpectrumCached.approximate_log_spectrum` (`spectrum.py:338-371`). -/
noncomputable def cachedApproximateLogSpectrum (src : LanczosSource) (b : ℝ × ℝ) (st : SpectrumCache) (numRepeats : Int)
    (numPoints : Nat) (kappa margin epsilon : ℝ) : Py (List ℝ × List ℝ) × SpectrumCache :=
  cachedSpectrum src (fun it => logSpectrumFromIter it b numPoints kappa margin epsilon) st numRepeats

/-- Default values of the argument `kappa`: `lanczos_approximate_log_spectrum` (`spectrum.py:206`). -/
noncomputable def logSpectrumKappa : ℝ := 1.04

/-- `LanczosApproximateLogSpectrumCached.approximate_log_spectrum` (`spectrum.py:342`). -/
noncomputable def cachedLogSpectrumKappa : ℝ := 3

end Curvlinops
