import Verif.Model.KfacMapping

/-!
# Model of the devices of KFAC's Kronecker factors

Only devices are tracked. The two dictionaries of Kronecker factors are Python objects that several operators can
share (`state_dict` and `load_state_dict` hand on the dictionaries themselves), as is the model. They are kept in a
memory and referred to by numbers. An operation that combines tensors of different devices raises `RuntimeError`.
-/

namespace Curvlinops

variable {D : Type} [DecidableEq D]

/-- Devices of the entries of `_input_covariances` and `_gradient_covariances`. -/
abbrev DevCell (D : Type) := Dict D × Dict D

/-- The pairs of dictionaries, and the device of the parameters of each model. Simplification: the two dictionaries of
an operator are handed on together (`kfac.py:956-957`, `1020-1021`), hence they form one cell; all parameters of a
model are on one device (`_infer_device`, `_torch_base.py:841-853`, raises otherwise). -/
structure DevMem (D : Type) where
  cells : Nat → DevCell D
  models : Nat → D

/-- The attributes of a `KFACLinearOperator` that matter for devices: `_device`, the dictionaries, `_model_func`, the
keys of `_mapping` with whether the layer's weight is among the parameters, whether `fisher_type` is
`FisherType.MC`, the device of `_generator`, and the device of `_trace` (`some none` is a Python number). `_params` is
left out: the module moves its parameters in place, so they are on the device of the model (C27). -/
structure DevKfac (D : Type) where
  device : D
  ref : Nat
  model : Nat
  layers : List (String × Bool)
  isMC : Bool
  generator : Option D := none
  trace : Option (Option D) := none

/-- `to_device` (`kfac.py:323-333`, `_torch_base.py:678-691`): the model is moved in place, and so are the entries of
both dictionaries. Nothing else is moved. -/
def DevKfac.toDevice (d : D) (m : DevMem D) (o : DevKfac D) : DevMem D × DevKfac D :=
  let c := m.cells o.ref
  ({ cells := Function.update m.cells o.ref (c.1.map fun e => (e.1, d), c.2.map fun e => (e.1, d)),
     models := Function.update m.models o.model d },
   { o with device := d })

/-- Device of the generator after `kfac.py:430-431`: a new one on the operator's device if there is none, or if it
is on another device. -/
def DevKfac.generatorDevice (o : DevKfac D) : D :=
  match o.generator with
  | none => o.device
  | some g => if g ≠ o.device then o.device else g

/-- `_compute_kfac` (`kfac.py:398-442`). The data are moved to `self._device` (`_torch_base.py:590-596`; simplification: tensor data), so the
forward pass raises `RuntimeError` unless the model is there; Monte-Carlo labels are drawn from the output with the
generator, which has to be on the same device (`kfac.py:545-600`). All factors are computed from tensors on
`self._device` (`kfac.py:539-541`, `659-665`, `716-722`); input covariances exist for layers with a weight only.
Simplification: after a failure, factors accumulated so far and hooks that are left behind are not modelled. -/
def DevKfac.compute (m : DevMem D) (o : DevKfac D) : Py Unit × DevMem D × DevKfac D :=
  let o := { o with trace := none, generator := some o.generatorDevice }
  if m.models o.model ≠ o.device then (.error .runtimeError, m, o)
  else if o.isMC && decide (o.generator ≠ some o.device) then (.error .runtimeError, m, o)
  else
    let cell : DevCell D :=
      ((o.layers.filter fun l => l.2).map fun l => (l.1, o.device), o.layers.map fun l => (l.1, o.device))
    (.ok (), { m with cells := Function.update m.cells o.ref cell }, o)

/-- `if not self._input_covariances and not self._gradient_covariances: self._compute_kfac()`
(`kfac.py:351-352`, `780-781`, `inverse.py:632-633`). -/
def DevKfac.ensure (m : DevMem D) (o : DevKfac D) : Py Unit × DevMem D × DevKfac D :=
  if (m.cells o.ref).1.isEmpty && (m.cells o.ref).2.isEmpty then o.compute m else (.ok (), m, o)

/-- An `einsum` of a factor from a dictionary with a tensor on `x`: `KeyError` if there is no factor, `RuntimeError` if
it is on another device. -/
def useFactor (d : Dict D) (name : String) (x : D) : Py Unit :=
  match d.get name with
  | none => .error .keyError
  | some f => if f = x then .ok () else .error .runtimeError

/-- The loop over layers of `_matmat` (`kfac.py:356-396`) for a matrix on `x`. -/
def productLoop (c : DevCell D) (x : D) : List (String × Bool) → Py Unit
  | [] => .ok ()
  | (name, hasWeight) :: ls => do
    if hasWeight then useFactor c.1 name x
    useFactor c.2 name x
    productLoop c x ls

/-- `_matmat` (`kfac.py:335-396`) for a matrix on `x`: the device of the result. -/
def DevKfac.product (x : D) (m : DevMem D) (o : DevKfac D) : Py D × DevMem D × DevKfac D :=
  match o.ensure m with
  | (.error e, m', o') => (.error e, m', o')
  | (.ok (), m', o') => ((productLoop (m'.cells o'.ref) x o'.layers).map fun _ => x, m', o')

/-- The loop of `trace` (`kfac.py:784-799`); `mix` is the device of the result of an operation with two scalar tensors
(PyTorch allows some combinations of devices for scalars). The accumulator is the device of `self._trace`; `none` is
the number `0.0`. The second component is the accumulator when the loop ends or fails. Simplification: with separate
weight and bias, the bias adds a term on the device of the gradient covariance, which is not treated separately. -/
def devTraceLoop (mix : D → D → Py D) (c : DevCell D) : List (String × Bool) → Option D → Py Unit × Option D
  | [], acc => (.ok (), acc)
  | (name, hasWeight) :: ls, acc =>
    let s : Py D := do
      let g ← (c.2.get name).elim (.error .keyError) .ok
      let t ← if hasWeight then do
          let a ← (c.1.get name).elim (.error .keyError) .ok
          mix a g
        else .ok g
      acc.elim (.ok t) fun s => mix s t
    match s with
    | .error e => (.error e, acc)
    | .ok s => devTraceLoop mix c ls (some s)

/-- `trace` (`kfac.py:765-800`): `self._trace` is the accumulator of the loop, so it stays set if the loop fails. `det`,
`logdet` and `frobenius_norm` (`kfac.py:802-927`) cache their result in the same way. -/
def DevKfac.getTrace (mix : D → D → Py D) (m : DevMem D) (o : DevKfac D) :
    Py (Option D) × DevMem D × DevKfac D :=
  match o.trace with
  | some t => (.ok t, m, o)
  | none =>
    match o.ensure m with
    | (.error e, m', o') => (.error e, m', o')
    | (.ok (), m', o') =>
      match devTraceLoop mix (m'.cells o'.ref) o'.layers none with
      | (r, t) => (r.map fun _ => t, m', { o' with trace := some t })

/-- The determinism check of the constructor and of `from_state_dict` (`kfac.py:273-281`, `1083-1091`): on the CPU, with
the device restored in any case. `same` is the outcome of the comparisons, which are made after products on the CPU. -/
def DevKfac.check (cpu : D) (same : Bool) (m : DevMem D) (o : DevKfac D) : Py Unit × DevMem D × DevKfac D :=
  let old := o.device
  let (m1, o1) := o.toDevice cpu m
  match o1.product cpu m1 with
  | (r, m2, o2) =>
    let (m3, o3) := o2.toDevice old m2
    (r.bind fun _ => if same then .ok () else .error .runtimeError, m3, o3)

/-- `load_state_dict(other.state_dict())` (`kfac.py:929-963`, `965-1027`): the dictionaries and the cached trace of the
other operator are taken over; nothing is moved, the model keeps its device. Simplification: loss and keys match. -/
def DevKfac.load (o other : DevKfac D) : DevKfac D :=
  { o with ref := other.ref, trace := other.trace, isMC := other.isMC }

/-- `from_state_dict(other.state_dict(), …)` (`kfac.py:1029-1093`) with a model that has number `model`; `check` is
`check_deterministic`. -/
def DevKfac.restore (cpu : D) (check same : Bool) (model ref : Nat) (m : DevMem D) (other : DevKfac D) :
    Py Unit × DevMem D × DevKfac D :=
  let fresh : DevKfac D := ⟨m.models model, ref, model, other.layers, other.isMC, none, none⟩
  let m := { m with cells := Function.update m.cells ref ([], []) }
  let o := fresh.load other
  if check then o.check cpu same m else (.ok (), m, o)

/-- The attributes of a `KFACInverseLinearOperator` that matter for devices: `_cache` and the cached inverses (the
inverse of `None` is `None`). -/
structure DevInv (D : Type) where
  cache : Bool
  inputs : Dict (Option D) := []
  grads : Dict (Option D) := []

/-- `_compute_or_get_cached_inverse` (`inverse.py:492-519`): an inverse is on the device of the factor. -/
def DevInv.get (c : DevCell D) (name : String) (v : DevInv D) : Option D × Option D × DevInv D :=
  if v.inputs.has name then ((v.inputs.get name).join, (v.grads.get name).join, v)
  else
    let a := c.1.get name
    let g := c.2.get name
    if v.cache then (a, g, { v with inputs := v.inputs.set name a, grads := v.grads.set name g })
    else (a, g, v)

/-- Use of an inverse with a tensor on `x`; `None` is no operand. -/
def useInverse (f : Option D) (x : D) : Py Unit :=
  match f with
  | none => .error .typeError
  | some f => if f = x then .ok () else .error .runtimeError

/-- The loop of `KFACInverseLinearOperator._matmat` (`inverse.py:635-662`). -/
def inverseLoop (c : DevCell D) (x : D) : List (String × Bool) → DevInv D → Py Unit × DevInv D
  | [], v => (.ok (), v)
  | (name, hasWeight) :: ls, v =>
    match v.get c name with
    | (a, g, v) =>
      match (do if hasWeight then useInverse a x
                useInverse g x : Py Unit) with
      | .error e => (.error e, v)
      | .ok () => inverseLoop c x ls v

/-- `KFACInverseLinearOperator._matmat` (`inverse.py:620-664`) of an inverse of `o`, for a matrix on `x`. The inverse has
no `to_device`. -/
def DevInv.product (x : D) (m : DevMem D) (o : DevKfac D) (v : DevInv D) :
    Py D × DevMem D × DevKfac D × DevInv D :=
  match o.ensure m with
  | (.error e, m', o') => (.error e, m', o', v)
  | (.ok (), m', o') =>
    match inverseLoop (m'.cells o'.ref) x o'.layers v with
    | (r, v') => (r.map fun _ => x, m', o', v')

/-- Several operators, each with one inverse; objects are numbered. -/
structure DevSys (D : Type) where
  mem : DevMem D
  ops : Nat → DevKfac D
  invs : Nat → DevInv D

/-- Calls: a product of operator `i` with a matrix on `x`, its trace, `to_device`, the determinism check with either
outcome, a product with the inverse of operator `i`, and `load_state_dict` with the state of operator `j`. -/
inductive DevCall (D : Type)
  | product (i : Nat) (x : D)
  | trace (i : Nat)
  | toDevice (i : Nat) (d : D)
  | check (i : Nat) (same : Bool)
  | inverse (i : Nat) (x : D)
  | load (i j : Nat)

/-- The effect of a call; an exception is caught by the caller. -/
def DevSys.step (cpu : D) (mix : D → D → Py D) (s : DevSys D) : DevCall D → DevSys D
  | .product i x =>
    match (s.ops i).product x s.mem with
    | (_, m, o) => { s with mem := m, ops := Function.update s.ops i o }
  | .trace i =>
    match (s.ops i).getTrace mix s.mem with
    | (_, m, o) => { s with mem := m, ops := Function.update s.ops i o }
  | .toDevice i d =>
    match (s.ops i).toDevice d s.mem with
    | (m, o) => { s with mem := m, ops := Function.update s.ops i o }
  | .check i same =>
    match (s.ops i).check cpu same s.mem with
    | (_, m, o) => { s with mem := m, ops := Function.update s.ops i o }
  | .inverse i x =>
    match (s.invs i).product x s.mem (s.ops i) with
    | (_, m, o, v) =>
      { mem := m, ops := Function.update s.ops i o, invs := Function.update s.invs i v }
  | .load i j => { s with ops := Function.update s.ops i ((s.ops i).load (s.ops j)) }

/-- A sequence of calls. -/
def DevSys.run (cpu : D) (mix : D → D → Py D) (s : DevSys D) (cs : List (DevCall D)) : DevSys D :=
  cs.foldl (DevSys.step cpu mix) s

end Curvlinops
