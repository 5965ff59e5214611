import Verif.Model.Curvature

/-!
# Model of `gradient_and_loss`, `_check_deterministic` and `to_device`
(`/repo/curvlinops/_torch_base.py:498-508, 618-835`)
-/

namespace Curvlinops

variable {α : Type _}

/-! ## `gradient_and_loss` -/

/-- `t.mul_(c)` resp. multiplication of a gradient by a constant. -/
def Tensor.scale [Mul α] (c : α) (t : Tensor α) : Tensor α := ⟨t.shape, t.data.map (c * ·)⟩

/-- `data_prediction_loss_gradient` for one mini-batch (`_torch_base.py:637-646`) with a loss function: the
normalized loss and its gradient. `lossGrad b` are the mini-batch loss and its gradient, differentiation of the
scaled loss scales the gradient (trusted meaning of autograd). -/
def batchLossGrad [One α] [Mul α] [Div α] [NatCast α] {B : Type _} (red : Reduction) (nData : Nat) (batchSize : B → Nat)
    (lossGrad : B → α × List (Tensor α)) (b : B) : Py (α × List (Tensor α)) :=
  match (normalizationFactor red (batchSize b) nData : Py α) with
  | .error e => .error e
  | .ok c => .ok ((lossGrad b).1 * c, (lossGrad b).2.map (Tensor.scale c))

/-- The loop of `gradient_and_loss` (`_torch_base.py:669-674`). -/
def gradLossLoop [One α] [Add α] [Mul α] [Div α] [NatCast α] {B : Type _} (red : Reduction) (nData : Nat) (batchSize : B → Nat)
    (lossGrad : B → α × List (Tensor α)) :
    List B → List (Tensor α) → α → Py (List (Tensor α) × α)
  | [], G, L => .ok (G, L)
  | b :: bs, G, L =>
    match batchLossGrad red nData batchSize lossGrad b with
    | .error e => .error e
    | .ok (l, g) =>
      match zipUpdate (fun t u => t.addScaled 1 u) G g with
      | .error e => .error e
      | .ok G' => gradLossLoop red nData batchSize lossGrad bs G' (L + l)

/-- `gradient_and_loss` (`_torch_base.py:650-676`); `lossGrad = none` means that there is no loss function. -/
def gradientAndLoss [Zero α] [One α] [Add α] [Mul α] [Div α] [NatCast α] {B : Type _} (paramShapes : List (List Nat)) (red : Reduction)
    (nData : Nat) (batchSize : B → Nat) (lossGrad : Option (B → α × List (Tensor α))) (data : List B) :
    Py (List (Tensor α) × α) :=
  match lossGrad with
  | none => .error .valueError
  | some lg => gradLossLoop red nData batchSize lg data
      (paramShapes.map fun s => ⟨s, List.replicate s.prod 0⟩) 0

/-! ## Determinism check

Tensors are elements of a commutative monoid `V` (simplification: shapes do not matter for adding and
comparing), compared by an arbitrary Boolean relation `close` (`allclose_report` with the fixed tolerances,
`utils.py:31-68`). -/

/-- Values in a dict-like input: tensors or anything else (`_torch_base.py:791-796`). -/
inductive MapVal (V : Type _)
  | tensor (v : V)
  | other
  deriving DecidableEq

/-- Model input: tensor or dict-like (`_torch_base.py:790`). -/
inductive Input (V : Type _)
  | tensor (v : V)
  | mapping (items : List (String × MapVal V))
  deriving DecidableEq

/-- What `data_prediction_loss_gradient` yields for a mini-batch (`_torch_base.py:648`). The last two are
unused if there is no loss function. -/
structure Rec (V : Type _) where
  X : Input V
  y : V
  pred : V
  loss : V
  grad : List V

/-- Raise `RuntimeError` unless the comparison holds. -/
def expectClose (b : Bool) : Py Unit := if b then .ok () else .error .runtimeError

/-- The loop over the keys of the first mapping (`_torch_base.py:791-796`): a missing key raises `KeyError`, a
tensor compared with a non-tensor `TypeError`. -/
def checkMapping {V : Type _} (close : V → V → Bool) (items2 : List (String × MapVal V)) :
    List (String × MapVal V) → Py Unit
  | [] => .ok ()
  | (k, v1) :: rest =>
    match items2.lookup k with
    | none => .error .keyError
    | some v2 =>
      match v1, v2 with
      | .tensor a, .tensor b => if close a b then checkMapping close items2 rest else .error .runtimeError
      | .tensor _, .other => .error .typeError
      | .other, _ => checkMapping close items2 rest

/-- Comparison of the inputs (`_torch_base.py:788-797`); calling `allclose` on a mapping raises
`AttributeError`, passing one to it `TypeError`. -/
def checkInput {V : Type _} (close : V → V → Bool) : Input V → Input V → Py Unit
  | .mapping i1, .mapping i2 => checkMapping close i2 i1
  | .tensor a, .tensor b => expectClose (close a b)
  | .mapping _, .tensor _ => .error .attributeError
  | .tensor _, .mapping _ => .error .typeError

/-- `__check_deterministic_batch` (`_torch_base.py:764-817`). -/
def checkBatch {V : Type _} (close : V → V → Bool) (hasLoss : Bool) (r1 r2 : Rec V) : Py Unit :=
  match checkInput close r1.X r2.X with
  | .error e => .error e
  | .ok () =>
    if !close r1.y r2.y then .error .runtimeError
    else if !close r1.pred r2.pred then .error .runtimeError
    else if hasLoss && !close r1.loss r2.loss then .error .runtimeError
    else if hasLoss && (r1.grad.zip r2.grad).any (fun p => !close p.1 p.2) then .error .runtimeError
    else .ok ()

/-- State of the loop: accumulated losses and gradients, and the loop variables `loss1, loss2` of the last
iteration (`none`: unbound). -/
structure Acc (V : Type _) where
  loss1 : V
  loss2 : V
  grad1 : List V
  grad2 : List V
  last : Option (V × V)

/-- `for total_g, g in zip(total, gs): total_g.add_(g)`. -/
def addZip {V : Type _} [Add V] : List V → List V → List V
  | t :: ts, g :: gs => (t + g) :: addZip ts gs
  | ts, _ => ts

/-- The loop over the two zipped traversals (`_torch_base.py:729-751`). -/
def checkLoop {V : Type _} [Add V] (close : V → V → Bool) (fixedOrder hasLoss : Bool) :
    List (Rec V × Rec V) → Acc V → Py (Acc V)
  | [], a => .ok a
  | (r1, r2) :: rest, a =>
    match (if fixedOrder then checkBatch close hasLoss r1 r2 else .ok ()) with
    | .error e => .error e
    | .ok () =>
      checkLoop close fixedOrder hasLoss rest
        (if hasLoss then
          ⟨a.loss1 + r1.loss, a.loss2 + r2.loss, addZip a.grad1 r1.grad, addZip a.grad2 r2.grad,
            some (r1.loss, r2.loss)⟩
        else a)

/-- The comparisons after the loop (`_torch_base.py`, lines 745-760, guarded by `has_loss_func`). -/
def checkTotals {V : Type _} (close : V → V → Bool) (hasLoss : Bool) (a : Acc V) : Py Unit :=
  if hasLoss then
    match a.last with
    | none => .error .unboundLocalError
    | some (l1, l2) =>
      if !close l1 l2 then .error .runtimeError
      else if (a.grad1.zip a.grad2).any (fun p => !close p.1 p.2) then .error .runtimeError
      else .ok ()
  else .ok ()

/-- `_check_deterministic` (`_torch_base.py:693-762`) for two traversals `run1`, `run2` of the data and two
products `Av1`, `Av2` with the same random vector (`:819-835`). Line 753 compares the loop variables
`loss1, loss2`, i.e. the losses of the last mini-batch; if there was no iteration they are unbound. -/
def checkDeterministic {V : Type _} [Zero V] [Add V] (close : V → V → Bool) (fixedOrder hasLoss : Bool)
    (numParams : Nat) (run1 run2 : List (Rec V)) (Av1 Av2 : Py V) : Py Unit :=
  match checkLoop close fixedOrder hasLoss (run1.zip run2)
      ⟨0, 0, List.replicate numParams 0, List.replicate numParams 0, none⟩ with
  | .error e => .error e
  | .ok a =>
    match checkTotals close hasLoss a with
    | .error e => .error e
    | .ok () =>
      match Av1 with
      | .error e => .error e
      | .ok v1 =>
        match Av2 with
        | .error e => .error e
        | .ok v2 => expectClose (close v1 v2)

/-! ## Devices -/

/-- Tensor objects are numbered; `dev` is the device of each allocated object, `next` the next unused number.
`owned` are the parameters of the model if it is a `Module` (`isModule`), `params` the operator's list, `device`
is `self._device`. -/
structure DevState (D : Type _) where
  dev : Nat → D
  next : Nat
  device : D
  isModule : Bool
  owned : List Nat
  params : List Nat

/-- `[p.to(d) for p in params]` (`_torch_base.py:688`): a tensor already on the device is returned itself,
otherwise a new tensor is made. -/
def paramsTo {D : Type _} [DecidableEq D] (d : D) :
    List Nat → (Nat → D) → Nat → List Nat × (Nat → D) × Nat
  | [], dev, n => ([], dev, n)
  | p :: ps, dev, n =>
    if dev p = d then
      let r := paramsTo d ps dev n
      (p :: r.1, r.2)
    else
      let r := paramsTo d ps (Function.update dev n d) (n + 1)
      (n :: r.1, r.2)

/-- `to_device` (`_torch_base.py:678-691`): a module moves its parameters in place. Simplification: the move
of the loss module is not modelled. -/
def toDevice {D : Type _} [DecidableEq D] (d : D) (s : DevState D) : DevState D :=
  let dev1 := if s.isModule then (fun i => if i ∈ s.owned then d else s.dev i) else s.dev
  let r := paramsTo d s.params dev1 s.next
  { s with device := d, params := r.1, dev := r.2.1, next := r.2.2 }

/-- The end of the constructor (`_torch_base.py:500-508`): move to the CPU, run the check, and in any case move
back (`finally`). `check` is the outcome of `_check_deterministic`, an arbitrary function of the state it runs
in; it does not change devices or parameters. -/
def constructorCheck {D : Type _} [DecidableEq D] (cpu : D) (enabled : Bool)
    (check : DevState D → Py Unit) (s : DevState D) : Py Unit × DevState D :=
  if enabled then
    let oldDevice := s.device
    let s1 := toDevice cpu s
    (check s1, toDevice oldDevice s1)
  else (.ok (), s)

end Curvlinops
