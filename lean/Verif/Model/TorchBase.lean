import Verif.Model.Tensor

/-!
# Model of `PyTorchLinearOperator` (`/repo/curvlinops/_torch_base.py:37-294`)
-/

namespace Curvlinops

/-- What a caller can pass to (and get from) `@`: a tensor, a list whose entries are all tensors, or
anything else (`_torch_base.py:165-174`). -/
inductive PyVal (α : Type _)
  | tensor (t : Tensor α)
  | list (ts : List (Tensor α))
  | other
  deriving DecidableEq, Repr

/-- A PyTorch linear operator: its input and output shapes (`_torch_base.py:62-76`) and the behaviour of
`_matmat` implemented by the subclass. `_matmat` returns its outcome together with the content that its
argument *list object* has afterwards, so that in-place assignments `X[i] = ...` to the argument are
visible. (Tensor storage is never written to by any `_matmat` in the library.) -/
structure LinOp (α : Type _) where
  inShape : List (List Nat)
  outShape : List (List Nat)
  matmat : List (Tensor α) → Py (List (Tensor α)) × List (Tensor α)

namespace LinOp

variable {α : Type _}

/-- `self._in_shape_flat` (`_torch_base.py:74`). -/
def inFlat (A : LinOp α) : List Nat := A.inShape.map List.prod
/-- `self._out_shape_flat` (`_torch_base.py:75`). -/
def outFlat (A : LinOp α) : List Nat := A.outShape.map List.prod
/-- `self.shape[0]` (`_torch_base.py:76`). -/
def nrows (A : LinOp α) : Nat := A.outFlat.sum
/-- `self.shape[1]` (`_torch_base.py:76`). -/
def ncols (A : LinOp α) : Nat := A.inFlat.sum

/-- `__check_tensor_and_preprocess` (`_torch_base.py:178-210`). A zero-dimensional tensor makes
`X.shape[0]` raise `IndexError`. -/
def preTensor (A : LinOp α) (X : Tensor α) : Py (List (Tensor α) × Bool × Nat) :=
  if X.ndim > 2 then .error .valueError
  else
    match X.shape with
    | [] => .error .indexError
    | d :: rest =>
      if d ≠ A.ncols then .error .valueError
      else
        let isVec := X.ndim == 1
        let numVecs := if isVec then 1 else rest.headD 0
        match X.split0 A.inFlat with
        | .error e => .error e
        | .ok pieces =>
          match pyMapM (fun p : Tensor α × List Nat => p.1.reshape (p.2 ++ [numVecs]))
              (pieces.zip A.inShape) with
          | .error e => .error e
          | .ok Xs => .ok (Xs, isVec, numVecs)

/-- `__check_tensor_list_and_preprocess` (`_torch_base.py:212-254`). The set `{x.shape[-1] for x in X}`
has exactly one element iff the list of trailing dimensions is non-empty and constant. -/
def preList (A : LinOp α) (X : List (Tensor α)) : Py (List (Tensor α) × Bool × Nat) :=
  if X.length ≠ A.inShape.length then .error .valueError
  else if (X.zip A.inShape).all (fun p => p.1.shape == p.2) then
    .ok (X.map Tensor.unsqueezeLast, true, 1)
  else if (X.zip A.inShape).all (fun p => p.1.ndim == p.2.length + 1 && p.1.shape.dropLast == p.2) then
    match (X.map fun x => x.shape.getLastD 0).dedup with
    | [k] => .ok (X, false, k)
    | _ => .error .valueError
  else .error .valueError

/-- `_check_input_and_preprocess` (`_torch_base.py:147-176`): processed list, `list_format`, `is_vec`,
`num_vecs`. -/
def pre (A : LinOp α) : PyVal α → Py (List (Tensor α) × Bool × Bool × Nat)
  | .tensor X =>
    match A.preTensor X with
    | .error e => .error e
    | .ok (Xs, isVec, k) => .ok (Xs, false, isVec, k)
  | .list X =>
    match A.preList X with
    | .error e => .error e
    | .ok (Xs, isVec, k) => .ok (Xs, true, isVec, k)
  | .other => .error .valueError

/-- `_check_output_and_postprocess` (`_torch_base.py:256-294`). -/
def post (A : LinOp α) (AX : List (Tensor α)) (listFormat isVec : Bool) (numVecs : Nat) :
    Py (PyVal α) :=
  if AX.length ≠ A.outShape.length then .error .valueError
  else if (AX.zip A.outShape).any (fun p => p.1.shape != p.2 ++ [numVecs]) then .error .valueError
  else if listFormat then
    .ok (.list (if isVec then AX.map Tensor.squeezeLast else AX))
  else
    match pyMapM (fun p : Tensor α × Nat => p.1.reshape [p.2, numVecs]) (AX.zip A.outFlat) with
    | .error e => .error e
    | .ok parts =>
      match Tensor.cat0 parts with
      | .error e => .error e
      | .ok t => .ok (.tensor (if isVec then t.squeezeLast else t))

/-- `__matmul__` (`_torch_base.py:78-109`): the outcome, and what the caller's argument holds
afterwards. For a list of matrices the processed list *is* the caller's list object
(`_torch_base.py:252`), so assignments made by `_matmat` to its argument list are seen by the caller;
in the other cases `_matmat` receives a fresh list. -/
def matmul (A : LinOp α) (X : PyVal α) : Py (PyVal α) × PyVal α :=
  match A.pre X with
  | .error e => (.error e, X)
  | .ok (Xs, listFormat, isVec, numVecs) =>
    let r := A.matmat Xs
    let X' := if listFormat && !isVec then PyVal.list r.2 else X
    match r.1 with
    | .error e => (.error e, X')
    | .ok AX => (A.post AX listFormat isVec numVecs, X')

end LinOp

end Curvlinops
