import Verif.Model.Py
import Mathlib.Algebra.BigOperators.Group.List.Basic

/-!
# Tensors

A tensor is its shape and its entries in row-major order. Simplification: strides, storage sharing,
dtype and device are not part of the model; the operations below are the functional part of the
torch functions that `/repo/curvlinops/_torch_base.py` calls.
-/

namespace Curvlinops

/-- Row-major tensor (`torch.Tensor`, e.g. `/repo/curvlinops/_torch_base.py:78`). -/
structure Tensor (α : Type _) where
  shape : List Nat
  data : List α
  deriving DecidableEq, Repr

namespace Tensor

variable {α : Type _}

/-- A well-formed tensor has as many entries as its shape says. -/
def WF (t : Tensor α) : Prop := t.data.length = t.shape.prod

/-- `t.ndim`. -/
def ndim (t : Tensor α) : Nat := t.shape.length

/-- `t.reshape(*s)` without `-1` entries (`_torch_base.py:206, 290`): torch raises `RuntimeError` if the
number of entries differs. -/
def reshape (s : List Nat) (t : Tensor α) : Py (Tensor α) :=
  if s.prod = t.shape.prod then .ok ⟨s, t.data⟩ else .error .runtimeError

/-- `t.unsqueeze(-1)` (`_torch_base.py:252`). -/
def unsqueezeLast (t : Tensor α) : Tensor α := ⟨t.shape ++ [1], t.data⟩

/-- `t.squeeze(-1)` (`_torch_base.py:287, 292`): drops the last dimension only if it has size one. -/
def squeezeLast (t : Tensor α) : Tensor α :=
  if t.shape.getLast? = some 1 then ⟨t.shape.dropLast, t.data⟩ else t

/-- Cut a list into consecutive chunks of the given sizes. -/
def chunks : List Nat → List α → List (List α)
  | [], _ => []
  | n :: ns, x => x.take n :: chunks ns (x.drop n)

/-- `t.split(sizes)` along dimension 0 (`_torch_base.py:207`); torch raises `RuntimeError` if the sizes do
not sum to the first dimension and `RuntimeError` for zero-dimensional tensors. -/
def split0 (sizes : List Nat) (t : Tensor α) : Py (List (Tensor α)) :=
  match t.shape with
  | [] => .error .runtimeError
  | d :: rest =>
    if sizes.sum = d then
      .ok ((sizes.zip (chunks (sizes.map (· * rest.prod)) t.data)).map fun p => ⟨p.1 :: rest, p.2⟩)
    else .error .runtimeError

/-- `torch.cat(ts)` along dimension 0 (`_torch_base.py:289`, `jacobian.py:114`): `RuntimeError` for an
empty list, for zero-dimensional tensors, or for differing trailing dimensions.
Simplification: torch's legacy rule that skips empty one-dimensional tensors is not modelled. -/
def cat0 (ts : List (Tensor α)) : Py (Tensor α) :=
  match ts with
  | [] => .error .runtimeError
  | t :: ts' =>
    match t.shape with
    | [] => .error .runtimeError
    | _ :: rest =>
      if (t :: ts').all (fun u => decide (u.shape.length ≥ 1 ∧ u.shape.tail = rest)) then
        .ok ⟨((t :: ts').map fun u => u.shape.headD 0).sum :: rest, ((t :: ts').map (·.data)).flatten⟩
      else .error .runtimeError

end Tensor

/-- The flattened entries of a tensor list, concatenated (`[t.flatten() for t in ts]` and `cat`). -/
def flatData {α : Type _} (ts : List (Tensor α)) : List α := (ts.map (·.data)).flatten

end Curvlinops
