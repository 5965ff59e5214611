import Verif.Model.CurvatureInit
import Verif.Model.Curvature
import Verif.Model.KfacFactors
import Verif.Model.KfacMapping

/-!
# Model of `KFACLinearOperator.__init__`

The deterministic check at the end of the constructor (`kfac.py:272-281`) is modelled elsewhere (C25-C27).
-/

namespace Curvlinops

/-- An argument that should be an enumeration member or its string value: `FisherType` and `KFACType` are subclasses of
`str`, so members and strings compare equal (`kfac.py:60-73`). -/
inductive EnumArg
  | str (s : String)
  | other
  deriving DecidableEq

/-- `FisherType(item)` (`kfac.py:60-66`); `none` for `ValueError`, which `MetaEnum.__contains__` catches
(`kfac.py:52-57`). -/
def toFisherType : EnumArg → Option FisherType
  | .str "type-2" => some .type2
  | .str "mc" => some .mc
  | .str "empirical" => some .empirical
  | .str "forward-only" => some .forwardOnly
  | _ => none

/-- `KFACType(item)` (`kfac.py:69-73`). -/
def toKfacApprox : EnumArg → Option KfacApprox
  | .str "expand" => some .expand
  | .str "reduce" => some .reduce
  | _ => none

/-- `_infer_device` and `_infer_dtype` (`_torch_base.py:841-867`): the only element of the set. -/
def inferUnique {τ : Type _} [DecidableEq τ] (l : List τ) : Py τ :=
  match l.dedup with
  | [d] => .ok d
  | _ => .error .runtimeError

/-- Shapes of a mini-batch: `batch_size_fn(X)` and `y.shape`. -/
structure KBatchShape where
  size : Nat
  y : List Nat

/-- Number of loss terms of a mini-batch (`kfac.py:299-303`). -/
def batchLossTerms (loss : LossKind) (b : KBatchShape) : Nat :=
  match loss with
  | .ce => b.y.prod
  | _ => b.y.dropLast.prod

/-- `_set_num_per_example_loss_terms` (`kfac.py:283-314`). -/
def setNumLossTerms (loss : LossKind) (nData : Nat) (data : List KBatchShape) (given : Option Int) : Py Int :=
  match given with
  | some t => .ok t
  | none =>
    let n := (data.map (batchLossTerms loss)).sum
    if nData = 0 then .error .zeroDivisionError
    else if n % nData ≠ 0 then .error .valueError
    else .ok ((n / nData : Nat) : Int)

/-- The arguments of the constructor that are checked (`kfac.py:130-146`). `loss` is `none` for a loss that is no instance
of `_SUPPORTED_LOSSES`. `ids` and `devices` are those of `params`; `first` and `hasBatchSizeFn` as in C07. -/
structure KfacArgs where
  loss : Option LossKind
  fisher : EnumArg
  mcSamples : Int
  approx : EnumArg
  ids : List Nat
  devices : List String
  mods : List Mod
  first : FirstInput
  hasBatchSizeFn : Bool
  data : List KBatchShape
  numData : Option Nat
  numTerms : Option Int

/-- The attributes that the constructor sets. -/
structure KfacAttrs where
  loss : LossKind
  fisher : FisherType
  mcSamples : Int
  approx : KfacApprox
  mapping : Dict (Dict Nat)
  device : String
  nData : Nat
  numTerms : Int

/-- `KFACLinearOperator.__init__` (`kfac.py:227-270`, with `_torch_base.py:463-498`). -/
def kfacInit (a : KfacArgs) : Py KfacAttrs :=
  match a.loss with
  | none => .error .valueError
  | some loss =>
    match toFisherType a.fisher with
    | none => .error .valueError
    | some fisher =>
      if fisher ≠ .mc ∧ a.mcSamples ≠ 1 then .error .valueError
      else match toKfacApprox a.approx with
        | none => .error .valueError
        | some approx => do
          let mapping ← computeMapping a.ids a.mods
          let _ ← initBlockSizes a.first a.hasBatchSizeFn false none a.ids.length
          let device ← inferUnique a.devices
          let nData := inferNData KBatchShape.size a.data a.numData
          let t ← setNumLossTerms loss nData a.data a.numTerms
          .ok ⟨loss, fisher, a.mcSamples, approx, mapping, device, nData, t⟩

end Curvlinops
