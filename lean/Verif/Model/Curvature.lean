import Verif.Model.Columns
import Verif.Model.TorchBase

/-!
# Model of `CurvatureLinearOperator` products and of the Hessian, GGN and Jacobian operators
-/

namespace Curvlinops

variable {α : Type _}

/-- `loss_func.reduction`. -/
inductive Reduction
  | mean
  | sum
  | other
  deriving DecidableEq

/-- `_get_normalization_factor` (`_torch_base.py:598-612`). Both dictionary entries are evaluated before the
look-up, so `N_data = 0` raises `ZeroDivisionError` for every reduction; an unknown reduction raises
`KeyError`. -/
def normalizationFactor [One α] [Div α] [NatCast α] (red : Reduction) (batchSize nData : Nat) : Py α :=
  if nData = 0 then .error .zeroDivisionError
  else
    match red with
    | .sum => .ok 1
    | .mean => .ok ((batchSize : α) / (nData : α))
    | .other => .error .keyError

/-- `self._N_data` (`_torch_base.py:489-496`). -/
def inferNData {B : Type _} (batchSize : B → Nat) (data : List B) (numData : Option Nat) : Nat :=
  match numData with
  | none => (data.map batchSize).sum
  | some n => n

/-- The loop of `CurvatureLinearOperator._matmat` (`_torch_base.py:542-545`), from accumulator `AM`. -/
def matmatLoop [One α] [Add α] [Mul α] [Div α] [NatCast α] {B : Type _} (red : Reduction) (nData : Nat) (batchSize : B → Nat)
    (batchMatmat : B → List (Tensor α) → Py (List (Tensor α))) (M : List (Tensor α)) :
    List B → List (Tensor α) → Py (List (Tensor α))
  | [], AM => .ok AM
  | b :: bs, AM =>
    match (normalizationFactor red (batchSize b) nData : Py α) with
    | .error e => .error e
    | .ok c =>
      match batchMatmat b M with
      | .error e => .error e
      | .ok cur =>
        match zipUpdate (fun t u => t.addScaled c u) AM cur with
        | .error e => .error e
        | .ok AM' => matmatLoop red nData batchSize batchMatmat M bs AM'

/-- `CurvatureLinearOperator._matmat` (`_torch_base.py:526-547`); it does not assign to its argument list. -/
def curvatureMatmat [Zero α] [One α] [Add α] [Mul α] [Div α] [NatCast α] {B : Type _} (red : Reduction) (nData : Nat) (batchSize : B → Nat)
    (batchMatmat : B → List (Tensor α) → Py (List (Tensor α))) (data : List B) (M : List (Tensor α)) :
    Py (List (Tensor α)) :=
  matmatLoop red nData batchSize batchMatmat M data (M.map Tensor.zerosLike)

/-- A curvature operator on parameter space (`_torch_base.py:385-547`): in- and output shapes are the
parameter shapes (`:510-524`). -/
def curvatureOp [Zero α] [One α] [Add α] [Mul α] [Div α] [NatCast α] {B : Type _} (paramShapes : List (List Nat)) (red : Reduction)
    (nData : Nat) (batchSize : B → Nat)
    (batchMatmat : B → List (Tensor α) → Py (List (Tensor α))) (data : List B) : LinOp α :=
  { inShape := paramShapes, outShape := paramShapes,
    matmat := fun M => (curvatureMatmat red nData batchSize batchMatmat data M, M) }

/-! ## Hessian -/

/-- The loop over blocks of `HessianLinearOperator._matmat_batch` (`hessian.py:71-82`) over the zipped
blocks of `M`, `params`, `grad_params` and `HM`. The tensors in `HM_block` are the tensors of `HM`, so the
result is the concatenation of the updated blocks. -/
def hessianBlocks [NonUnitalNonAssocSemiring α] (H : Nat → Nat → α) (K : Nat) :
    List (List (Tensor α) × List PRef × List PRef × List (Tensor α)) → Py (List (Tensor α))
  | [] => .ok []
  | (Mb, pb, gb, HMb) :: rest =>
    match columnLoop (fun v => hvp H pb v gb) Mb (List.range K) HMb with
    | .error e => .error e
    | .ok HMb' =>
      match hessianBlocks H K rest with
      | .error e => .error e
      | .ok out => .ok (HMb' ++ out)

/-- `HessianLinearOperator._matmat_batch` (`hessian.py:45-84`). `H` are the second partial derivatives of the
mini-batch loss with respect to the flattened parameters. -/
def hessianMatmatBatch [NonUnitalNonAssocSemiring α] (paramShapes : List (List Nat))
    (blockSizes : List Int) (H : Nat → Nat → α) (M : List (Tensor α)) : Py (List (Tensor α)) :=
  match numVecs M with
  | .error e => .error e
  | .ok K =>
    let params := prefs 0 paramShapes
    match splitList M blockSizes with
    | .error e => .error e
    | .ok Ms =>
      match splitList params blockSizes with
      | .error e => .error e
      | .ok ps =>
        match splitList params blockSizes with
        | .error e => .error e
        | .ok gs =>
          match splitList (M.map Tensor.zerosLike) blockSizes with
          | .error e => .error e
          | .ok HMs => hessianBlocks H K (Ms.zip (ps.zip (gs.zip HMs)))

/-! ## GGN -/

/-- `GGNLinearOperator._matmat_batch` (`ggn.py:47-78`); the same loop with another pseudo-loss is used by the
empirical Fisher (`gradient_moments.py:163-175`) and the Monte-Carlo Fisher (`fisher.py:253-265`). `J` is the
Jacobian of the flattened mini-batch output, `HL` the Hessian of the (pseudo-)loss with respect to it. -/
def ggnMatmatBatch [NonUnitalNonAssocSemiring α] (paramShapes : List (List Nat)) (J HL : Nat → Nat → α)
    (outShape : List Nat) (M : List (Tensor α)) : Py (List (Tensor α)) :=
  match numVecs M with
  | .error e => .error e
  | .ok K => columnLoop (ggnvp J HL outShape (prefs 0 paramShapes)) M (List.range K)
      (M.map Tensor.zerosLike)

/-! ## Jacobian and transposed Jacobian -/

/-- `torch.stack(cols, dim=-1)` (`jacobian.py:111`): `RuntimeError` for an empty list or different shapes. -/
def stackLast [Zero α] (cols : List (Tensor α)) : Py (Tensor α) :=
  match cols with
  | [] => .error .runtimeError
  | c :: cs =>
    if cs.all (fun d => d.shape == c.shape) then
      .ok ⟨c.shape ++ [cs.length + 1],
        (List.range c.shape.prod).flatMap fun r => (c :: cs).map fun d => d.data.getD r 0⟩
    else .error .runtimeError

/-- One mini-batch for the Jacobian: the shape of the prediction and its Jacobian in the parameters. -/
structure JacBatch (α : Type _) where
  predShape : List Nat
  J : Nat → Nat → α

/-- `JacobianLinearOperator._matmat` (`jacobian.py:91-114`). -/
def jacobianMatmat [NonUnitalNonAssocSemiring α] (paramShapes : List (List Nat))
    (data : List (JacBatch α)) (M : List (Tensor α)) : Py (List (Tensor α)) :=
  match numVecs M with
  | .error e => .error e
  | .ok K =>
    match pyMapM (fun b : JacBatch α => stackLast ((List.range K).map fun n =>
        jvp b.J b.predShape (prefs 0 paramShapes) (M.map (Tensor.col n)))) data with
    | .error e => .error e
    | .ok JM =>
      match Tensor.cat0 JM with
      | .error e => .error e
      | .ok t => .ok [t]

/-- `m[start:end, ..., n]` (`jacobian.py:231`) of a tensor of shape `(N, *S, K)`: the rows `start:end` and
column `n`; Python slicing clamps at `N`. -/
def sliceCol [Zero α] (start stop n : Nat) (t : Tensor α) : Tensor α :=
  let K := t.shape.getLastD 0
  let S := t.shape.dropLast.tail
  let N := t.shape.headD 0
  let a := min start N
  let b := min stop N
  ⟨(b - a) :: S, (List.range ((b - a) * S.prod)).map fun i =>
    t.data.getD ((a * S.prod + i) * K + n) 0⟩

/-- Inner loop of `TransposedJacobianLinearOperator._matmat` (`jacobian.py:230-235`). `vjp` raises
`RuntimeError` if the cotangent does not have the shape of the prediction. The unpacking `(v,) = ...` needs
exactly one tensor in `M`, else `ValueError`. -/
def vjpLoop [NonUnitalNonAssocSemiring α] (params : List PRef) (b : JacBatch α) (start : Nat)
    (M : List (Tensor α)) : List Nat → List (Tensor α) → Py (List (Tensor α))
  | [], T => .ok T
  | n :: ns, T =>
    match M.map (sliceCol start (start + b.predShape.headD 0) n) with
    | [v] =>
      if v.shape = b.predShape then
        match zipUpdate (fun t c => t.addCol n c) T (vjp b.J params v) with
        | .error e => .error e
        | .ok T' => vjpLoop params b start M ns T'
      else .error .runtimeError
    | _ => .error .valueError

/-- Outer loop of `TransposedJacobianLinearOperator._matmat` (`jacobian.py:225-237`) with the running
counter `processed`. -/
def transposedLoop [NonUnitalNonAssocSemiring α] (params : List PRef) (K : Nat) (M : List (Tensor α)) :
    List (JacBatch α) → Nat → List (Tensor α) → Py (List (Tensor α))
  | [], _, T => .ok T
  | b :: bs, processed, T =>
    match vjpLoop params b processed M (List.range K) T with
    | .error e => .error e
    | .ok T' => transposedLoop params K M bs (processed + b.predShape.headD 0) T'

/-- `TransposedJacobianLinearOperator._matmat` (`jacobian.py:208-239`). -/
def transposedJacobianMatmat [NonUnitalNonAssocSemiring α] (paramShapes : List (List Nat))
    (data : List (JacBatch α)) (M : List (Tensor α)) : Py (List (Tensor α)) :=
  match numVecs M with
  | .error e => .error e
  | .ok K =>
    transposedLoop (prefs 0 paramShapes) K M data 0
      (paramShapes.map fun s => ⟨s ++ [K], List.replicate (s.prod * K) 0⟩)

/-- `JacobianLinearOperator` (`jacobian.py:16-130`): output space `(N_data, *S)` with `S` taken from the first
batch's prediction (`:77-89`; `next(iter(data))` raises `StopIteration` for empty data). -/
def jacobianOp [NonUnitalNonAssocSemiring α] (paramShapes : List (List Nat)) (nData : Nat)
    (b : JacBatch α) (bs : List (JacBatch α)) : LinOp α :=
  { inShape := paramShapes, outShape := [nData :: b.predShape.tail],
    matmat := fun M => (jacobianMatmat paramShapes (b :: bs) M, M) }

/-- `TransposedJacobianLinearOperator` (`jacobian.py:133-255`). -/
def transposedJacobianOp [NonUnitalNonAssocSemiring α] (paramShapes : List (List Nat)) (nData : Nat)
    (b : JacBatch α) (bs : List (JacBatch α)) : LinOp α :=
  { inShape := [nData :: b.predShape.tail], outShape := paramShapes,
    matmat := fun M => (transposedJacobianMatmat paramShapes (b :: bs) M, M) }

end Curvlinops
