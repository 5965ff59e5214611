import Verif.Model.CurvatureInit
import Verif.Model.Determinism
import Verif.Model.KfacInit

/-!
# Model of the whole constructors of the curvature operators
(`/repo/curvlinops/_torch_base.py:404-508`, `fisher.py:112-183`, `gradient_moments.py:50-112`,
`jacobian.py:25-89, 142-206`)

The parts are those of `CurvatureInit`, `KfacInit` and `Determinism`; here they are put together in the order of the
code, with the number of times that `data` was asked for an iterator.
-/

namespace Curvlinops

/-- The classes whose constructors are modelled. -/
inductive OpClass
  | hessian
  | ggn
  | empiricalFisher
  | mcFisher
  | jacobian
  | transposedJacobian
  deriving DecidableEq

/-- The two Jacobians, which have no loss function and take a shape from the first batch. -/
def OpClass.isJacobian : OpClass → Bool
  | .jacobian | .transposedJacobian => true
  | _ => false

/-- `SUPPORTS_BLOCKS` (`_torch_base.py:401`, `hessian.py:43`). -/
def OpClass.supportsBlocks : OpClass → Bool
  | .hessian => true
  | _ => false

/-- Whether the constructor has an argument `block_sizes`: the Hessian and the GGN use the constructor of the base class,
the others have their own (`fisher.py:112-123`, `gradient_moments.py:50-60`, `jacobian.py:25-34, 142-151`). -/
def OpClass.hasBlockArg : OpClass → Bool
  | .hessian | .ggn => true
  | _ => false

/-- `FIXED_DATA_ORDER` (`_torch_base.py:402`, `fisher.py:109`, `jacobian.py:23, 140`). -/
def OpClass.fixedOrder : OpClass → Bool
  | .mcFisher | .jacobian | .transposedJacobian => true
  | _ => false

/-- Classes with `supported_losses` (`fisher.py:110, 167`, `gradient_moments.py:47, 99`). -/
def OpClass.checksLoss : OpClass → Bool
  | .empiricalFisher | .mcFisher => true
  | _ => false

/-- The argument `loss_func`: `None`, or an object; `supported` says whether it is an instance of `MSELoss`,
`CrossEntropyLoss` or `BCEWithLogitsLoss`, `reduction` is its attribute (`none`: there is no such attribute, as for a plain
function). -/
inductive CtorLoss
  | noLoss
  | obj (supported : Bool) (reduction : Option Reduction)
  deriving DecidableEq

/-- `isinstance(loss_func, self.supported_losses)` (`fisher.py:167`, `gradient_moments.py:99`). -/
def CtorLoss.isSupported : CtorLoss → Bool
  | .obj true _ => true
  | _ => false

/-- `self._loss_func is not None`. -/
def CtorLoss.isLoss : CtorLoss → Bool
  | .noLoss => false
  | _ => true

/-- `X` of a mini-batch: a tensor, a `MutableMapping`, or something else. -/
inductive XArg
  | tensor (shape : List Nat)
  | mapping
  | other
  deriving DecidableEq

/-- What `next(iter(data))[0]` is (`_torch_base.py:463`). -/
def XArg.first : Option XArg → FirstInput
  | none => .noBatch
  | some .mapping => .mapping
  | some _ => .nonMapping

/-- `lambda X: X.shape[0]` (`_torch_base.py:486`): a tensor without dimensions raises `IndexError`, an object without
`shape` `AttributeError`. -/
def XArg.defaultSize : XArg → Py Nat
  | .tensor (n :: _) => .ok n
  | .tensor [] => .error .indexError
  | _ => .error .attributeError

variable {B V D T : Type _}

/-- The arguments of the constructor, with what the user's functions do. `X b` is the input of a batch,
`batchSizeFn` the argument of that name, `predShape b` the shape of the model's prediction. `record k N b` is what
`data_prediction_loss_gradient` yields for a batch in traversal `k` of the check (two traversals of a model with
dropout need not agree), `apply k N` the result of the product with the random vector in the `k`-th product.
Simplifications: `data` can be traversed repeatedly and hands out the same batches (other sources are the subject of
`constructData`), and neither the model nor the loss raises; whether a product raises is decided by the
normalization. -/
structure CtorArgs (B V T : Type _) where
  cls : OpClass
  loss : CtorLoss
  paramShapes : List (List Nat)
  dtypes : List T
  data : List B
  check : Bool
  numData : Option Nat
  blockSizes : Option (List Int)
  batchSizeFn : Option (B → Nat)
  X : B → XArg
  predShape : B → List Nat
  close : V → V → Bool
  record : Nat → Nat → B → Rec V
  apply : Nat → Nat → V

/-- `self._loss_func`: the Jacobians pass `None` (`jacobian.py:67, 184`). -/
def CtorArgs.lossFunc (a : CtorArgs B V T) : CtorLoss := if a.cls.isJacobian then .noLoss else a.loss

/-- `self._batch_size_fn(X)` (`_torch_base.py:485-487`). -/
def CtorArgs.size (a : CtorArgs B V T) (b : B) : Py Nat :=
  match a.batchSizeFn with
  | some f => .ok (f b)
  | none => (a.X b).defaultSize

/-- `_get_normalization_factor` (`_torch_base.py:598-612`) as far as it raises: the batch size is evaluated first, then the
division, then `self._loss_func.reduction` (`AttributeError` if there is no loss function or no such attribute), then the
look-up. -/
def CtorArgs.normalize (a : CtorArgs B V T) (nData : Nat) (b : B) : Py Unit :=
  match a.size b with
  | .error e => .error e
  | .ok n =>
    if nData = 0 then .error .zeroDivisionError
    else
      match a.lossFunc with
      | .noLoss => .error .attributeError
      | .obj _ none => .error .attributeError
      | .obj _ (some red) =>
        match (normalizationFactor red n nData : Py ℚ) with
        | .error e => .error e
        | .ok _ => .ok ()

/-- What the constructor leaves behind: the number of `iter(data)` and the devices. -/
structure CtorState (D : Type _) where
  iters : Nat
  dev : DevState D

/-- The attributes that the constructor sets. -/
structure CtorAttrs (D : Type _) where
  blockSizes : List Int
  device : D
  nData : Nat
  inShape : List (List Nat)
  outShape : List (List Nat)
  deriving DecidableEq

/-- `self._N_data` (`_torch_base.py:489-496`) with the number of iterators. -/
def CtorArgs.count (a : CtorArgs B V T) : Py Nat × Nat :=
  match a.numData with
  | some n => (.ok n, 0)
  | none =>
    match pyMapM a.size a.data with
    | .error e => (.error e, 1)
    | .ok ns => (.ok ns.sum, 1)

/-- `_get_in_shape()` and `_get_out_shape()` (`_torch_base.py:510-524`, `jacobian.py:77-89, 194-206`) with the number of
iterators. -/
def CtorArgs.shapes (a : CtorArgs B V T) (nData : Nat) : Py (List (List Nat) × List (List Nat)) × Nat :=
  if a.cls.isJacobian then
    match a.data with
    | [] => (.error .stopIteration, 1)
    | b :: _ =>
      let s := [nData :: (a.predShape b).tail]
      (.ok (if a.cls = .jacobian then (a.paramShapes, s) else (s, a.paramShapes)), 1)
  else (.ok (a.paramShapes, a.paramShapes), 0)

/-- One item of `data_prediction_loss_gradient` (`_torch_base.py:637-648`) in traversal `k`: with a loss function the
normalization factor is needed. -/
def CtorArgs.item (a : CtorArgs B V T) (nData k : Nat) (b : B) : Py (Rec V) :=
  if a.lossFunc.isLoss then
    match a.normalize nData b with
    | .error e => .error e
    | .ok () => .ok (a.record k nData b)
  else .ok (a.record k nData b)

/-- The two traversals of `_check_deterministic` in lock step (`_torch_base.py:729-741`): items and, if the data order
is fixed, their comparison. -/
def CtorArgs.lockStep (a : CtorArgs B V T) (nData : Nat) : List B → Py (List (Rec V × Rec V))
  | [] => .ok []
  | b :: bs =>
    match a.item nData 0 b with
    | .error e => .error e
    | .ok r1 =>
      match a.item nData 1 b with
      | .error e => .error e
      | .ok r2 =>
        match (if a.cls.fixedOrder then checkBatch a.close a.lossFunc.isLoss r1 r2 else .ok ()) with
        | .error e => .error e
        | .ok () =>
          match a.lockStep nData bs with
          | .error e => .error e
          | .ok rs => .ok ((r1, r2) :: rs)

/-- One product with the random vector (`_torch_base.py:830-831`): the operators on the parameter space need the
normalization factor of every batch (`:542-543`), the Jacobians do not (`jacobian.py:103, 226`). -/
def CtorArgs.product (a : CtorArgs B V T) (nData k : Nat) : Py V :=
  if a.cls.isJacobian then .ok (a.apply k nData)
  else
    match pyMapM (a.normalize nData) a.data with
    | .error e => .error e
    | .ok _ => .ok (a.apply k nData)

/-- `_infer_dtype()` as far as it raises (`_torch_base.py:855-867`). -/
def CtorArgs.needDtype [DecidableEq T] (a : CtorArgs B V T) : Py Unit :=
  match inferUnique a.dtypes with
  | .error e => .error e
  | .ok _ => .ok ()

/-- The last part of `_check_deterministic` (`_torch_base.py:752-762, 819-835`) with the number of iterators: the totals
are compared before the data type of the random vector is inferred and the products are computed. The comparison of the
totals is `checkDeterministic` with products that agree. -/
def CtorArgs.checkEnd [AddCommMonoid V] [DecidableEq T] (a : CtorArgs B V T) (nData : Nat) (rs : List (Rec V × Rec V)) :
    Py Unit × Nat :=
  match checkLoop a.close a.cls.fixedOrder a.lossFunc.isLoss rs
      ⟨0, 0, List.replicate a.paramShapes.length 0, List.replicate a.paramShapes.length 0, none⟩ with
  | .error e => (.error e, 0)
  | .ok acc =>
    match checkTotals a.close a.lossFunc.isLoss acc with
    | .error e => (.error e, 0)
    | .ok () =>
      match a.needDtype with
      | .error e => (.error e, 0)
      | .ok () =>
        match a.product nData 0 with
        | .error e => (.error e, 1)
        | .ok v1 =>
          match a.product nData 1 with
          | .error e => (.error e, 2)
          | .ok v2 => (expectClose (a.close v1 v2), 2)

/-- `_check_deterministic` (`_torch_base.py:693-762`) with the number of iterators. With a loss function the data type of
the parameters is needed before the first traversal (`:722-726`). The second traversal starts with the first item of
the first. -/
def CtorArgs.runCheck [AddCommMonoid V] [DecidableEq T] (a : CtorArgs B V T) (nData : Nat) : Py Unit × Nat :=
  match (if a.lossFunc.isLoss then a.needDtype else .ok ()) with
  | .error e => (.error e, 0)
  | .ok () =>
    let started := match a.data with
      | [] => 1
      | b :: _ => match a.item nData 0 b with
        | .error _ => 1
        | .ok _ => 2
    match a.lockStep nData a.data with
    | .error e => (.error e, started)
    | .ok rs =>
      let r := a.checkEnd nData rs
      (r.1, started + r.2)

/-- The whole constructor. First what the subclasses check (`fisher.py:167-170`, `gradient_moments.py:99-102`; an argument
that the constructor does not have is a `TypeError`), then the base class (`_torch_base.py:463-508`). -/
def construct [AddCommMonoid V] [DecidableEq T] [DecidableEq D] (cpu : D) (a : CtorArgs B V T) (s : DevState D) :
    Py (CtorAttrs D) × CtorState D :=
  if a.blockSizes.isSome ∧ a.cls.hasBlockArg = false then (.error .typeError, ⟨0, s⟩)
  else if a.cls.checksLoss = true ∧ a.loss.isSupported = false then (.error .notImplementedError, ⟨0, s⟩)
  else
    match initBlockSizes (XArg.first (a.data.head?.map a.X)) a.batchSizeFn.isSome a.cls.supportsBlocks a.blockSizes
        a.paramShapes.length with
    | .error e => (.error e, ⟨1, s⟩)
    | .ok bs =>
      match inferUnique (s.params.map s.dev) with
      | .error e => (.error e, ⟨1, s⟩)
      | .ok d =>
        let s := { s with device := d }
        let c := a.count
        match c.1 with
        | .error e => (.error e, ⟨1 + c.2, s⟩)
        | .ok n =>
          let sh := a.shapes n
          match sh.1 with
          | .error e => (.error e, ⟨1 + c.2 + sh.2, s⟩)
          | .ok io =>
            if a.check then
              let r := a.runCheck n
              let z := constructorCheck cpu true (fun _ => r.1) s
              match z.1 with
              | .error e => (.error e, ⟨1 + c.2 + sh.2 + r.2, z.2⟩)
              | .ok () => (.ok ⟨bs, d, n, io.1, io.2⟩, ⟨1 + c.2 + sh.2 + r.2, z.2⟩)
            else (.ok ⟨bs, d, n, io.1, io.2⟩, ⟨1 + c.2 + sh.2, s⟩)

end Curvlinops
