import Verif.Model.KfacState

/-!
# Model of `KFACLinearOperator.state_dict`, `load_state_dict` and `from_state_dict`

The dictionaries of factors are shared by reference, so they live on a heap. An operator's two dictionaries are always
handed on together (`kfac.py:956-957`, `1020-1021`), hence one heap cell holds both. Device transfers replace tensors
by equal ones. Loading the model's parameters is assumed to succeed.
-/

namespace Curvlinops

variable {Θ B G : Type}

/-- The heap: contents of the pairs of dictionaries. -/
abbrev KHeap := Nat → Dict (Factor ℝ) × Dict (Factor ℝ)

/-- An operator object: attributes (whose factors are not used) and the reference to its dictionaries. -/
structure KObj (Θ : Type) where
  attrs : KState Θ
  ref : Nat

/-- The state of the operator, with the present contents of its dictionaries. -/
def KObj.value (heap : KHeap) (o : KObj Θ) : KState Θ :=
  { o.attrs with inCov := (heap o.ref).1, gradCov := (heap o.ref).2 }

/-- The returned dictionary (`kfac.py:940-963`). -/
structure StateDict (Θ : Type) where
  model : Θ
  lossType : LossKind
  lossMean : Bool
  progressbar : Bool
  shape : Nat × Nat
  seed : Nat
  fisher : FisherType
  mcSamples : Nat
  approx : KfacApprox
  numTerms : Nat
  sep : Bool
  numData : Nat
  ref : Nat
  trace : Option ℝ
  det : Option ℝ
  logdet : Option FLog
  frob : Option ℝ

/-- `state_dict` (`kfac.py:929-963`). -/
def KObj.stateDict (o : KObj Θ) : StateDict Θ where
  model := o.attrs.model
  lossType := o.attrs.cfg.loss
  lossMean := o.attrs.cfg.mean
  progressbar := o.attrs.progressbar
  shape := o.attrs.shape
  seed := o.attrs.seed
  fisher := o.attrs.cfg.fisher
  mcSamples := o.attrs.cfg.mcSamples
  approx := o.attrs.cfg.approx
  numTerms := o.attrs.cfg.T
  sep := o.attrs.cfg.sep
  numData := o.attrs.cfg.N
  ref := o.ref
  trace := o.attrs.trace
  det := o.attrs.det
  logdet := o.attrs.logdet
  frob := o.attrs.frob

/-- Equality of `set(a)` and `set(b)`. -/
def sameKeys (a b : List String) : Bool := a.all (fun k => b.contains k) && b.all fun k => a.contains k

/-- The keys of a dictionary. -/
def Dict.keyList {β : Type _} (d : Dict β) : List String := d.map Prod.fst

/-- The check of the operator's present keys (`kfac.py:1004-1019`): does it raise? -/
def keysMismatch (w : KWorld Θ B G) (d : Dict (Factor ℝ) × Dict (Factor ℝ)) : Bool :=
  (!d.1.isEmpty || !d.2.isEmpty) &&
    ((!d.1.isEmpty && !sameKeys d.1.keyList w.mapping.keyList) ||
      (!d.2.isEmpty && !sameKeys d.2.keyList w.mapping.keyList))

/-- `load_state_dict` (`kfac.py:965-1027`). -/
def KObj.load (w : KWorld Θ B G) (heap : KHeap) (sd : StateDict Θ) (o : KObj Θ) : Py Unit × KObj Θ :=
  let o : KObj Θ := { o with attrs := { o.attrs with model := sd.model } }
  if o.attrs.cfg.loss ≠ sd.lossType then (.error .valueError, o)
  else if sd.lossMean ≠ o.attrs.cfg.mean then (.error .valueError, o)
  else
    let cfg : KfacCfg := { o.attrs.cfg with
      fisher := sd.fisher, mcSamples := sd.mcSamples, approx := sd.approx, T := sd.numTerms, sep := sd.sep, N := sd.numData }
    let o : KObj Θ := { o with attrs := { o.attrs with
      progressbar := sd.progressbar, shape := sd.shape, seed := sd.seed, cfg := cfg } }
    if keysMismatch w (heap o.ref) then (.error .valueError, o)
    else
      (.ok (), { attrs := { o.attrs with trace := sd.trace, det := sd.det, logdet := sd.logdet, frob := sd.frob },
                 ref := sd.ref })

/-- `from_state_dict` (`kfac.py:1029-1093`, without the check for determinism): a new operator, whose empty dictionaries
have the reference `ref`, followed by `load_state_dict`. `C` is the output dimension of the model. -/
def fromStateDict (w : KWorld Θ B G) (heap : KHeap) (sd : StateDict Θ) (model : Θ) (C ref : Nat) : Py Unit × KObj Θ :=
  let cfg : KfacCfg :=
    { fisher := sd.fisher, approx := sd.approx, loss := sd.lossType, mean := sd.lossMean, mcSamples := sd.mcSamples,
      N := sd.numData, T := sd.numTerms, C := C, sep := sd.sep }
  KObj.load w heap sd ⟨KState.fresh model cfg sd.seed sd.shape sd.progressbar, ref⟩

/-- Several operators and the heap. -/
structure KSys (Θ B G : Type) where
  heap : KHeap
  ops : List (KWorld Θ B G × KObj Θ)

/-- A call on an operator, or loading a state dictionary into it. -/
inductive SysCall (Θ : Type)
  | call (i : Nat) (c : KCall) (fault : Fault)
  | load (i : Nat) (sd : StateDict Θ)

/-- Run a call on an operator object. -/
noncomputable def KObj.call (w : KWorld Θ B G) (heap : KHeap) (c : KCall) (fault : Fault) (o : KObj Θ) :
    Py KValue × KHeap × KObj Θ :=
  let r := kStep w (o.value heap) fault c
  (r.1, Function.update heap o.ref (r.2.inCov, r.2.gradCov), { o with attrs := r.2 })

/-- One step; nothing happens if there is no such operator. -/
noncomputable def KSys.step (s : KSys Θ B G) : SysCall Θ → KSys Θ B G
  | .call i c f =>
    match s.ops[i]? with
    | none => s
    | some (w, o) =>
      let r := o.call w s.heap c f
      { heap := r.2.1, ops := s.ops.set i (w, r.2.2) }
  | .load i sd =>
    match s.ops[i]? with
    | none => s
    | some (w, o) => { s with ops := s.ops.set i (w, (o.load w s.heap sd).2) }

/-- Several steps. -/
noncomputable def KSys.run (s : KSys Θ B G) (cs : List (SysCall Θ)) : KSys Θ B G := cs.foldl KSys.step s

end Curvlinops
