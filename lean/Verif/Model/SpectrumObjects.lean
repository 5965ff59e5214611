import Verif.Model.Spectrum

/-!
# Model of programs that use the spectrum classes and functions (`/repo/curvlinops/papyan2020traces/spectrum.py`)

A program creates cached spectrum objects, asks them for densities and calls the functions, in any order and with any
number of objects. All of them draw from NumPy's global random number generator through `fast_lanczos`.

* `Op` stands for the linear operators; `fast A ncv i` is the outcome of call number `i` of `fast_lanczos` in the program if
  it is made with the arguments `A` and `ncv`, `eigsh A tol k which` the outcome of SciPy's `eigsh`.
* The world records the number of calls to `fast_lanczos` and the arguments of all calls to `eigsh`.
-/

namespace Curvlinops

/-- The two kinds of densities: of `A` (`spectrum.py:19-198`) and of `log(|A| + εI)` (`spectrum.py:201-371`). -/
inductive SpectrumKind
  | plain
  | log
  deriving DecidableEq

/-- The function that estimates the boundaries (`spectrum.py:58`, `164-166` and `246-248`, `334-336`). -/
def SpectrumKind.boundaries (kind : SpectrumKind) (eigsh : Eigsh) (b : Boundaries) : Py (ℝ × ℝ) × List (Nat × String) :=
  match kind with
  | .plain => approximateBoundaries eigsh b
  | .log => approximateBoundariesAbs eigsh b

/-- The hyper-parameters of a density: `num_points`, `kappa`, `margin`, `epsilon` (ignored by the plain density). -/
structure DensityArgs where
  numPoints : Nat
  kappa : ℝ
  margin : ℝ
  epsilon : ℝ

/-- Outcomes of the calls to `fast_lanczos`. -/
abbrev LanczosWorld (Op : Type) := Op → Nat → LanczosSource

/-- Outcomes of the calls to `eigsh`. -/
abbrev EigshWorld (Op : Type) := Op → ℝ → Eigsh

/-- A cached spectrum object: `self._A`, `self._ncv`, `self._lanczos_iters` and `self._boundaries`. -/
structure SpectrumObject (Op : Type) where
  kind : SpectrumKind
  op : Op
  ncv : Nat
  boundaries : ℝ × ℝ
  iters : List LanczosIter

/-- What a program has done so far. -/
structure SpectrumWorld (Op : Type) where
  calls : Nat
  solverCalls : List (Op × ℝ × Nat × String)
  objects : List (SpectrumObject Op)

/-- The constructors `LanczosApproximateSpectrumCached.__init__` (`spectrum.py:142-166`) and
`LanczosApproximateLogSpectrumCached.__init__` (`spectrum.py:312-336`) with `_LanczosSpectrumCached.__init__`
(`spectrum.py:117-126`): the object and the calls to the eigensolver. -/
def newSpectrumObject {Op : Type} (eigsh : EigshWorld Op) (kind : SpectrumKind) (A : Op) (ncv : Nat) (boundaries : Boundaries)
    (boundariesTol : ℝ) : Py (SpectrumObject Op) × List (Op × ℝ × Nat × String) :=
  let r := kind.boundaries (eigsh A boundariesTol) boundaries
  (match r.1 with
    | .error e => .error e
    | .ok b => .ok ⟨kind, A, ncv, b, []⟩,
   r.2.map fun q => (A, boundariesTol, q.1, q.2))

/-- `approximate_spectrum` or `approximate_log_spectrum` (`spectrum.py:168-198`, `338-371`) of an object when `fast_lanczos`
has been called `calls` times: the result, the object afterwards and the number of calls. -/
noncomputable def SpectrumObject.request {Op : Type} (fast : LanczosWorld Op) (o : SpectrumObject Op) (calls : Nat)
    (numRepeats : Int) (args : DensityArgs) : Py (List ℝ × List ℝ) × SpectrumObject Op × Nat :=
  let r := match o.kind with
    | .plain => cachedApproximateSpectrum (fast o.op o.ncv) o.boundaries ⟨o.iters, calls⟩ numRepeats args.numPoints args.kappa
        args.margin
    | .log => cachedApproximateLogSpectrum (fast o.op o.ncv) o.boundaries ⟨o.iters, calls⟩ numRepeats args.numPoints
        args.kappa args.margin args.epsilon
  (r.1, { o with iters := r.2.iters }, r.2.calls)

/-- A call to `lanczos_approximate_spectrum` or `lanczos_approximate_log_spectrum` (`spectrum.py:19-72`, `201-262`): the
result, the number of calls to `fast_lanczos` and the calls to the eigensolver. -/
noncomputable def callSpectrum {Op : Type} (fast : LanczosWorld Op) (eigsh : EigshWorld Op) (kind : SpectrumKind) (A : Op)
    (ncv : Nat) (calls : Nat) (numRepeats : Int) (boundaries : Boundaries) (boundariesTol : ℝ) (args : DensityArgs) :
    (Py (List ℝ × List ℝ) × Nat) × List (Op × ℝ × Nat × String) :=
  (match kind with
    | .plain => lanczosSpectrum (eigsh A boundariesTol) (fast A ncv) calls args.numPoints numRepeats args.kappa boundaries
        args.margin
    | .log => lanczosLogSpectrum (eigsh A boundariesTol) (fast A ncv) calls args.numPoints numRepeats args.kappa boundaries
        args.margin args.epsilon,
   (kind.boundaries (eigsh A boundariesTol) boundaries).2.map fun q => (A, boundariesTol, q.1, q.2))

/-- One step of a program. -/
inductive SpectrumEvent (Op : Type)
  | create (kind : SpectrumKind) (A : Op) (ncv : Nat) (boundaries : Boundaries) (boundariesTol : ℝ)
  | request (object : Nat) (numRepeats : Int) (args : DensityArgs)
  | call (kind : SpectrumKind) (A : Op) (ncv : Nat) (numRepeats : Int) (boundaries : Boundaries) (boundariesTol : ℝ)
      (args : DensityArgs)

/-- The world after a step; exceptions are caught by the program. A request to an object that does not exist has no
effect. -/
noncomputable def SpectrumEvent.run {Op : Type} (fast : LanczosWorld Op) (eigsh : EigshWorld Op) (w : SpectrumWorld Op) :
    SpectrumEvent Op → SpectrumWorld Op
  | .create kind A ncv boundaries tol =>
    let r := newSpectrumObject eigsh kind A ncv boundaries tol
    { w with
      solverCalls := w.solverCalls ++ r.2
      objects := match r.1 with
        | .error _ => w.objects
        | .ok o => w.objects ++ [o] }
  | .request i numRepeats args => match w.objects[i]? with
    | none => w
    | some o =>
      let r := o.request fast w.calls numRepeats args
      { w with calls := r.2.2, objects := w.objects.set i r.2.1 }
  | .call kind A ncv numRepeats boundaries tol args =>
    let r := callSpectrum fast eigsh kind A ncv w.calls numRepeats boundaries tol args
    { w with calls := r.1.2, solverCalls := w.solverCalls ++ r.2 }

/-- The world after a program. -/
noncomputable def SpectrumWorld.run {Op : Type} (fast : LanczosWorld Op) (eigsh : EigshWorld Op) (w : SpectrumWorld Op)
    (program : List (SpectrumEvent Op)) : SpectrumWorld Op :=
  program.foldl (SpectrumEvent.run fast eigsh) w

/-- A program starts without objects and calls. -/
def SpectrumWorld.start (Op : Type) : SpectrumWorld Op := ⟨0, [], []⟩

end Curvlinops
