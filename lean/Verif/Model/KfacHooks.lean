import Verif.Model.KfacFactors

/-!
# Model of KFAC's hooks for networks that evaluate a layer any number of times

`Model/KfacFactors` assumes that every layer of the mapping is evaluated exactly once in a forward pass. Here a forward
pass is any list of evaluations of modules, which may differ from batch to batch: a layer may be evaluated several times,
with different inputs, or not at all. The exceptions of the hooks and of `torch.autograd.grad`, and the life time of the
computation graph (`retain_graph`), are part of the model.
-/

namespace Curvlinops

/-- One evaluation of the module `layer` in a forward pass. `key` names the evaluation in the data (`KDatum.x` and
`KDatum.jac` at `key` are the module's input and the derivative with respect to its output in this evaluation), `S` is the
number of positions, `inputs` the number of positional arguments (keyword arguments are not passed to hooks), `tracked`
whether the output requires a gradient, and `reached` whether the network's output depends on it. -/
structure LayerCall where
  layer : String
  key : String
  S : Nat
  inputs : Nat
  tracked : Bool
  reached : Bool

/-- A batch with the forward pass of the network on it; `used` is whether the network's output depends on all parameters of
the operator (through evaluations of the layers or otherwise). -/
structure HookBatch where
  data : List KDatum
  calls : List LayerCall
  used : Bool

/-- The layer as seen by one evaluation. -/
def LayerCall.view (c : LayerCall) (l : KLayer) : KLayer := { l with name := c.key, S := c.S }

/-- The layer of the mapping whose hooks run when a module is evaluated (`kfac.py:406-427`). -/
def hookedLayer (layers : List KLayer) (c : LayerCall) : Option KLayer := layers.find? fun l => l.name == c.layer

/-- The forward pass (`kfac.py:435`): updates by the pre-hooks, which are installed on layers with a weight
(`kfac.py:410-418`, `682-722`), tensor hooks that the forward hooks register on the outputs (`kfac.py:421-427`, `621-624`;
PyTorch raises `RuntimeError` for a tensor that requires no gradient), and the exception that ends the pass. -/
noncomputable def forwardPass (cfg : KfacCfg) (layers : List KLayer) (data : List KDatum) :
    List LayerCall → List KEvent × List (KLayer × LayerCall) × Option PyErr
  | [] => ([], [], none)
  | c :: cs => match hookedLayer layers c with
    | none => forwardPass cfg layers data cs
    | some l =>
      if l.pos.has "weight" = true ∧ c.inputs ≠ 1 then ([], [], some .valueError)
      else
        let es := if l.pos.has "weight" then [.input l.name (inputCovariance cfg (c.view l) data)] else []
        if c.tracked then
          let r := forwardPass cfg layers data cs
          (es ++ r.1, (l, c) :: r.2.1, r.2.2)
        else (es, [], some .runtimeError)

/-- The argument `retain_graph` in pass `k` (`kfac.py:507-512`, `515-519`, `524`; the default of `grad` is to release the
graph). -/
def retainGraph (cfg : KfacCfg) (k : Nat) : Bool :=
  match cfg.fisher with
  | .type2 => decide ((k : Int) < (cfg.C : Int) - 1)
  | .mc => decide ((k : Int) ≠ (cfg.mcSamples : Int) - 1)
  | _ => false

/-- What the tensor hooks do in pass `k` (`kfac.py:639-665`): those on outputs that the back-propagated scalar depends on
run, last registered first. -/
noncomputable def tensorHooks (cfg : KfacCfg) (data : List KDatum) (hooks : List (KLayer × LayerCall)) (k : Nat) :
    List KEvent :=
  (hooks.filter fun h => h.2.reached).reverse.map fun h => .grad h.1.name (gradCovariance cfg (h.2.view h.1) data k)

/-- `torch.autograd.grad(loss, params, retain_graph)`: `RuntimeError` if the graph has been released, otherwise the hooks
run; the graph is released unless it is retained; `RuntimeError` if the scalar does not depend on some parameter
(`allow_unused=False`). Returns the updates, whether the graph is released, and the exception. -/
def autogradGrad (used released retain : Bool) (es : List KEvent) : List KEvent × Bool × Option PyErr :=
  if released then ([], released, some .runtimeError)
  else (es, !retain, if used then none else some .runtimeError)

/-- The backward passes (`kfac.py:506-512`, `515-519`, `522-524`). -/
noncomputable def backwardPasses (cfg : KfacCfg) (b : HookBatch) (hooks : List (KLayer × LayerCall)) :
    List Nat → Bool → List KEvent × Bool × Option PyErr
  | [], released => ([], released, none)
  | k :: ks, released =>
    let r := autogradGrad b.used released (retainGraph cfg k) (tensorHooks cfg b.data hooks k)
    match r.2.2 with
    | some e => (r.1, r.2.1, some e)
    | none =>
      let rest := backwardPasses cfg b hooks ks r.2.1
      (r.1 ++ rest.1, rest.2)

/-- The updates for one batch (`kfac.py:434-436`, `487-541`), whether the graph has been released, and the exception. -/
noncomputable def hookBatch (cfg : KfacCfg) (layers : List KLayer) (b : HookBatch) : List KEvent × Bool × Option PyErr :=
  let f := forwardPass cfg layers b.data b.calls
  match f.2.2 with
  | some e => (f.1, false, some e)
  | none => match cfg.fisher with
    | .forwardOnly =>
      (f.1 ++ layers.map fun l => .setGrad l.name ⟨l.dout, fun i j => if i = j then 1 else 0⟩, false, none)
    | _ =>
      let r := backwardPasses cfg b f.2.1 (List.range (numPasses cfg)) false
      (f.1 ++ r.1, r.2)

/-- The loop over the data (`kfac.py:434-436`). -/
noncomputable def hookLoop (cfg : KfacCfg) (layers : List KLayer) :
    List HookBatch → Dict (Factor ℝ) × Dict (Factor ℝ) → Py Unit × (Dict (Factor ℝ) × Dict (Factor ℝ))
  | [], d => (.ok (), d)
  | b :: bs, d =>
    let r := hookBatch cfg layers b
    let d := r.1.foldl applyEvent d
    match r.2.2 with
    | some e => (.error e, d)
    | none => hookLoop cfg layers bs d

/-- The first product of an operator (`kfac.py:351-397`): `_compute_kfac`, then the product with the factors. -/
noncomputable def hookMatmat (cfg : KfacCfg) (layers : List KLayer) (batches : List HookBatch) (M : List (Tensor ℝ)) :
    Py (List (Tensor ℝ)) :=
  let r := hookLoop cfg layers batches ([], [])
  match r.1 with
  | .error e => .error e
  | .ok () => kfacMatmat cfg.sep (layers.map fun l => (l.name, l.pos)) r.2.1 r.2.2 M

end Curvlinops
