import Verif.Model.Tensor
import Verif.Model.KfacMapping
import Mathlib.Data.Real.Basic

/-!
# Model of `_concatenate_batches` and `report_nonclose` (`/repo/curvlinops/examples`)
-/

namespace Curvlinops

variable {α β : Type}

/-- A model input: a tensor or a dict-like object of tensors. Simplification: nothing else occurs. -/
inductive XVal (α : Type)
  | tensor (t : Tensor α)
  | mapping (d : Dict (Tensor α))

/-- `cat(X)` for a tuple of inputs (`functorch.py:348`): `TypeError` for a dict-like object. -/
def catInputs (X : List (XVal α)) : Py (Tensor α) := do
  let ts ← pyMapM (fun x => match x with
    | .tensor t => .ok t
    | .mapping _ => .error .typeError) X
  Tensor.cat0 ts

/-- `cat([d[input_key] for d in X])` (`functorch.py:350`): `KeyError` for a missing key; indexing a tensor with a string is taken as
`TypeError`. -/
def catKey (key : String) (X : List (XVal α)) : Py (Tensor α) := do
  let ts ← pyMapM (fun x => match x with
    | .tensor _ => .error .typeError
    | .mapping d => match Dict.get d key with
      | none => .error .keyError
      | some t => .ok t) X
  Tensor.cat0 ts

/-- `_concatenate_batches` (`functorch.py:320-351`). For empty data, unpacking `list(zip(*[]))` raises `ValueError`. Simplification:
devices are left out. -/
def concatenateBatches (data : List (XVal α × Tensor β)) (inputKey : Option String) : Py (XVal α × Tensor β) :=
  match data with
  | [] => .error .valueError
  | (x, _) :: _ => do
    let y ← Tensor.cat0 (data.map Prod.snd)
    match x, inputKey with
    | .mapping _, none => .error .valueError
    | .tensor _, _ =>
      let X ← catInputs (data.map Prod.fst)
      .ok (.tensor X, y)
    | .mapping _, some key =>
      let X ← catKey key (data.map Prod.fst)
      .ok (.mapping [(key, X)], y)

/-- Floating point numbers without rounding. -/
inductive NpFloat
  | fin (x : ℝ)
  | pinf
  | ninf
  | nan

/-- `numpy.isclose` for one pair, from the documentation: `|a - b| <= atol + rtol * |b|`; infinities are close to themselves
only, NaNs to NaNs if `equal_nan`. -/
def NpFloat.IsClose (rtol atol : ℝ) (equalNan : Bool) : NpFloat → NpFloat → Prop
  | .fin a, .fin b => |a - b| ≤ atol + rtol * |b|
  | .pinf, .pinf => True
  | .ninf, .ninf => True
  | .nan, .nan => equalNan = true
  | _, _ => False

open Classical in
/-- `report_nonclose` (`examples/utils.py:6-44`): the printed pairs, and the outcome. `allclose` says whether all pairs are close.
Simplification: the other printed lines are left out (`max`/`min` are evaluated for non-empty arrays only). -/
noncomputable def reportNonclose (rtol atol : ℝ) (equalNan : Bool) (a1 a2 : Tensor NpFloat) : List (NpFloat × NpFloat) × Py Unit :=
  if a1.shape ≠ a2.shape then ([], .error .valueError)
  else if ∀ p ∈ a1.data.zip a2.data, p.1.IsClose rtol atol equalNan p.2 then ([], .ok ())
  else ((a1.data.zip a2.data).filter fun p => ¬ p.1.IsClose rtol atol equalNan p.2, .error .valueError)

end Curvlinops
