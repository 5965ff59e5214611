import Verif.Model.KfacFactors
import Verif.Model.KfacScalars

/-!
# Model of the state of `KFACLinearOperator`

The attributes that products and properties read and write, the hooks installed on the model, and exceptions during the
computation of the factors. The random number generator is abstract: the draws for a batch are a function of its
state. Devices are left out: `to_device` (`kfac.py:323-333`) replaces the factors by equal values, and the generator,
which may be created anew on another device, is seeded before every use.
-/

namespace Curvlinops

/-- What the operator holds by reference and does not assign to: layers (with the mapping), data, and how data are
turned into layer inputs and gradients for a model, settings and state of the generator. -/
structure KWorld (Θ B G : Type) where
  layers : List KLayer
  data : List B
  seeded : Nat → G
  run : Θ → KfacCfg → G → B → List KDatum × G

/-- The mutable attributes. `hooks` is the number of sets of hooks of this operator that are installed on the model,
`traversals` how often the loop over the data has been started. `none` is Python's `None`. -/
structure KState (Θ : Type) where
  model : Θ
  cfg : KfacCfg
  seed : Nat
  shape : Nat × Nat
  progressbar : Bool
  inCov : Dict (Factor ℝ)
  gradCov : Dict (Factor ℝ)
  trace : Option ℝ
  det : Option ℝ
  logdet : Option FLog
  frob : Option ℝ
  hooks : Nat
  traversals : Nat

variable {Θ B G : Type}

/-- After `__init__` (`kfac.py:247-258`). -/
def KState.fresh (model : Θ) (cfg : KfacCfg) (seed : Nat) (shape : Nat × Nat) (progressbar : Bool) : KState Θ :=
  { model, cfg, seed, shape, progressbar, inCov := [], gradCov := [], trace := none, det := none, logdet := none,
    frob := none, hooks := 0, traversals := 0 }

/-- `self._mapping`. -/
def KWorld.mapping (w : KWorld Θ B G) : Dict (Dict Nat) := w.layers.map fun l => (l.name, l.pos)

/-- The data with their draws, in the order of the loop. -/
def KWorld.batches (w : KWorld Θ B G) (θ : Θ) (cfg : KfacCfg) : G → List B → List (List KDatum)
  | _, [] => []
  | g, b :: bs => let r := w.run θ cfg g b; r.1 :: w.batches θ cfg r.2 bs

/-- Updates of the dictionaries in the loop over the data (`kfac.py:434-436`) when `h` sets of hooks are installed: each
set updates the dictionaries. (For `FORWARD_ONLY` the assignment of identity matrices does not come from a hook;
repeating it makes no difference.) -/
noncomputable def KWorld.events (w : KWorld Θ B G) (θ : Θ) (cfg : KfacCfg) (h : Nat) (g : G) : List KEvent :=
  (w.batches θ cfg g w.data).flatMap fun b => (batchEvents cfg w.layers b).flatMap fun e => List.replicate h e

/-- `_reset_matrix_properties` (`kfac.py:316-321`). -/
def KState.reset (s : KState Θ) : KState Θ := { s with trace := none, det := none, logdet := none, frob := none }

/-- An exception `.2` that is raised in the loop over the data (by the data loader, the model, a backward pass, or by an
interrupt) after `.1` updates of the dictionaries. -/
abbrev Fault := Option (Nat × PyErr)

/-- `_compute_kfac` (`kfac.py:399-440`). An exception leaves the loop, and the hooks are not removed. -/
noncomputable def computeKfac (w : KWorld Θ B G) (fault : Fault) (s : KState Θ) : Py Unit × KState Θ :=
  let s := s.reset
  let s := { s with hooks := s.hooks + 1, traversals := s.traversals + 1 }
  let es := w.events s.model s.cfg s.hooks (w.seeded s.seed)
  match fault with
  | some (k, e) =>
    let d := (es.take k).foldl applyEvent (s.inCov, s.gradCov)
    (.error e, { s with inCov := d.1, gradCov := d.2 })
  | none =>
    let d := es.foldl applyEvent (s.inCov, s.gradCov)
    (.ok (), { s with inCov := d.1, gradCov := d.2, hooks := s.hooks - 1 })

/-- `if not self._input_covariances and not self._gradient_covariances: self._compute_kfac()` (`kfac.py:351-352`,
`780-781`, `817-818`, `863-864`, `906-907`). -/
noncomputable def ensureKfac (w : KWorld Θ B G) (fault : Fault) (s : KState Θ) : Py Unit × KState Θ :=
  if s.inCov.isEmpty && s.gradCov.isEmpty then computeKfac w fault s else (.ok (), s)

/-- `_matmat` (`kfac.py:335-397`). -/
noncomputable def KState.matmat (w : KWorld Θ B G) (fault : Fault) (M : List (Tensor ℝ)) (s : KState Θ) :
    Py (List (Tensor ℝ)) × KState Θ :=
  match ensureKfac w fault s with
  | (.error e, s) => (.error e, s)
  | (.ok (), s) => (kfacMatmat s.cfg.sep w.mapping s.inCov s.gradCov M, s)

/-- The loop of `accLoop` with the value that has been accumulated when an exception is raised. -/
def accPartial {γ : Type _} (sep : Bool) (inCov gradCov : Dict (Factor ℝ)) (joint weight : Factor ℝ → Factor ℝ → γ → γ)
    (other : Factor ℝ → γ → γ) : Dict (Dict Nat) → γ → γ × Option PyErr
  | [], acc => (acc, none)
  | (name, pos) :: rest, acc =>
    match gradCov.getE name with
    | .error e => (acc, some e)
    | .ok B =>
      if !sep && pos.has "weight" && pos.has "bias" then
        match inCov.getE name with
        | .error e => (acc, some e)
        | .ok A => accPartial sep inCov gradCov joint weight other rest (joint A B acc)
      else
        match paramsLoop name B pos acc with
        | (acc, some e) => (acc, some e)
        | (acc', none) => accPartial sep inCov gradCov joint weight other rest acc'
where
  /-- The inner loop over the layer's parameters. -/
  paramsLoop (name : String) (B : Factor ℝ) : Dict Nat → γ → γ × Option PyErr
    | [], acc => (acc, none)
    | (p, _) :: ps, acc =>
      if p = "weight" then
        match inCov.getE name with
        | .error e => (acc, some e)
        | .ok A => paramsLoop name B ps (weight A B acc)
      else paramsLoop name B ps (other B acc)

/-- The common form of the properties: return a cached value (`kfac.py:777-778`, `814-815`, `860-861`, `903-904`),
otherwise make sure the factors are there, and accumulate the value in the attribute that caches it. `loop` returns the
value that the attribute holds at the end of the loop, or when an exception is raised. -/
noncomputable def readProperty {γ : Type _} (w : KWorld Θ B G) (get : KState Θ → Option γ)
    (set : KState Θ → γ → KState Θ) (loop : KState Θ → γ × Option PyErr) (fault : Fault) (s : KState Θ) :
    Py γ × KState Θ :=
  match get s with
  | some v => (.ok v, s)
  | none =>
    match ensureKfac w fault s with
    | (.error e, s) => (.error e, s)
    | (.ok (), s) =>
      match loop s with
      | (v, none) => (.ok v, set s v)
      | (v, some e) => (.error e, set s v)

/-- The loop of `trace` (`kfac.py:783-798`). -/
noncomputable def KState.traceLoop (w : KWorld Θ B G) (s : KState Θ) : ℝ × Option PyErr :=
  accPartial s.cfg.sep s.inCov s.gradCov (fun A B acc => acc + A.trace * B.trace)
    (fun A B acc => acc + B.trace * A.trace) (fun B acc => acc + B.trace * 1) w.mapping 0

/-- The loop of `det` (`kfac.py:820-843`). -/
noncomputable def KState.detLoop (w : KWorld Θ B G) (s : KState Θ) : ℝ × Option PyErr :=
  accPartial s.cfg.sep s.inCov s.gradCov (fun A B acc => acc * (A.det ^ B.dim * B.det ^ A.dim))
    (fun A B acc => acc * (B.det ^ A.dim * A.det ^ B.dim)) (fun B acc => acc * (B.det ^ 1 * 1)) w.mapping 1

/-- The loop of `logdet` (`kfac.py:866-889`). -/
noncomputable def KState.logdetLoop (w : KWorld Θ B G) (s : KState Θ) : FLog × Option PyErr :=
  accPartial s.cfg.sep s.inCov s.gradCov (fun A B acc => acc.add ((A.logdet.smul B.dim).add (B.logdet.smul A.dim)))
    (fun A B acc => acc.add ((B.logdet.smul A.dim).add (A.logdet.smul B.dim)))
    (fun B acc => acc.add ((B.logdet.smul 1).add (.fin 0))) w.mapping (.fin 0)

/-- The loop of `frobenius_norm` and the root at its end (`kfac.py:909-926`). -/
noncomputable def KState.frobLoop (w : KWorld Θ B G) (s : KState Θ) : ℝ × Option PyErr :=
  match accPartial s.cfg.sep s.inCov s.gradCov (fun A B acc => acc + A.squares * B.squares)
      (fun A B acc => acc + B.squares * A.squares) (fun B acc => acc + B.squares * 1) w.mapping 0 with
  | (v, some e) => (v, some e)
  | (v, none) => if w.mapping.isEmpty then (v, some .attributeError) else (Real.sqrt v, none)

/-- `trace` (`kfac.py:765-799`). -/
noncomputable def KState.readTrace (w : KWorld Θ B G) : Fault → KState Θ → Py ℝ × KState Θ :=
  readProperty w KState.trace (fun s v => { s with trace := some v }) (KState.traceLoop w)

/-- `det` (`kfac.py:801-844`). -/
noncomputable def KState.readDet (w : KWorld Θ B G) : Fault → KState Θ → Py ℝ × KState Θ :=
  readProperty w KState.det (fun s v => { s with det := some v }) (KState.detLoop w)

/-- `logdet` (`kfac.py:846-890`). -/
noncomputable def KState.readLogdet (w : KWorld Θ B G) : Fault → KState Θ → Py FLog × KState Θ :=
  readProperty w KState.logdet (fun s v => { s with logdet := some v }) (KState.logdetLoop w)

/-- `frobenius_norm` (`kfac.py:892-927`). -/
noncomputable def KState.readFrob (w : KWorld Θ B G) : Fault → KState Θ → Py ℝ × KState Θ :=
  readProperty w KState.frob (fun s v => { s with frob := some v }) (KState.frobLoop w)

/-- Use of the model on a batch by somebody else, in forward mode: runs the forward hooks that are installed. -/
noncomputable def userForward (w : KWorld Θ B G) (batch : List KDatum) (s : KState Θ) : KState Θ :=
  let es := ((w.layers.filter fun l => l.pos.has "weight").map fun l =>
    KEvent.input l.name (inputCovariance s.cfg l batch)).flatMap fun e => List.replicate s.hooks e
  let d := es.foldl applyEvent (s.inCov, s.gradCov)
  { s with inCov := d.1, gradCov := d.2 }

/-- Calls. -/
inductive KCall
  | matmat (M : List (Tensor ℝ))
  | trace
  | det
  | logdet
  | frobenius
  | userForward (batch : List KDatum)

/-- Values that calls return. -/
inductive KValue
  | matrix (M : List (Tensor ℝ))
  | number (x : ℝ)
  | log (x : FLog)
  | none

/-- Change the type of a returned value. -/
def wrap {γ : Type _} (f : γ → KValue) (r : Py γ × KState Θ) : Py KValue × KState Θ :=
  (match r.1 with
    | .ok v => .ok (f v)
    | .error e => .error e, r.2)

/-- One call. The fault only matters if the factors are computed. -/
noncomputable def kStep (w : KWorld Θ B G) (s : KState Θ) (fault : Fault) : KCall → Py KValue × KState Θ
  | .matmat M => wrap .matrix (s.matmat w fault M)
  | .trace => wrap .number (KState.readTrace w fault s)
  | .det => wrap .number (KState.readDet w fault s)
  | .logdet => wrap .log (KState.readLogdet w fault s)
  | .frobenius => wrap .number (KState.readFrob w fault s)
  | .userForward b => (.ok .none, userForward w b s)

/-- The results and the final state of a sequence of calls. -/
noncomputable def kRun (w : KWorld Θ B G) (s : KState Θ) : List (KCall × Fault) → List (Py KValue) × KState Θ
  | [] => ([], s)
  | c :: cs =>
    let r := kStep w s c.2 c.1
    let rest := kRun w r.2 cs
    (r.1 :: rest.1, rest.2)

end Curvlinops
