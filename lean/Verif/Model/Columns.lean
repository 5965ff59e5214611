import Verif.Model.Utils
import Verif.Model.Tensor
import Mathlib.Algebra.BigOperators.Intervals
import Mathlib.Data.List.Dedup
import Mathlib.Algebra.Field.Defs

/-!
# Column-wise tensor operations used by the `_matmat_batch` loops, and the autograd primitives
-/

namespace Curvlinops

namespace Tensor

variable {α : Type _}

/-- `zeros_like(t)`. -/
def zerosLike [Zero α] (t : Tensor α) : Tensor α := ⟨t.shape, t.data.map fun _ => 0⟩

/-- `t[..., n]` for `n` below the trailing dimension `K` (`hessian.py:79`, `ggn.py:73`,
`gradient_moments.py:170`, `fisher.py:260`, `jacobian.py:108`). The loops only use `n in range(K)`, so the
`IndexError` of torch cannot occur and is not modelled. -/
def col [Zero α] (n : Nat) (t : Tensor α) : Tensor α :=
  let K := t.shape.getLastD 0
  ⟨t.shape.dropLast, (List.range t.shape.dropLast.prod).map fun i => t.data.getD (i * K + n) 0⟩

/-- `t[..., n].add_(c)` (`hessian.py:82`, `ggn.py:76`, ...). Simplification: torch's broadcasting is not
modelled, a shape mismatch raises `RuntimeError`. -/
def addCol [Zero α] [Add α] (t : Tensor α) (n : Nat) (c : Tensor α) : Py (Tensor α) :=
  let K := t.shape.getLastD 0
  if c.shape = t.shape.dropLast then
    .ok ⟨t.shape, t.data.mapIdx fun j v => if j % K = n then v + c.data.getD (j / K) 0 else v⟩
  else .error .runtimeError

/-- `t.add_(u, alpha=a)` (`_torch_base.py:545, 674`). Simplification: no broadcasting. -/
def addScaled [Mul α] [Add α] (t : Tensor α) (a : α) (u : Tensor α) : Py (Tensor α) :=
  if u.shape = t.shape then .ok ⟨t.shape, List.zipWith (fun x y => x + a * y) t.data u.data⟩
  else .error .runtimeError

end Tensor

section loops

variable {α : Type _}

/-- `(num_vecs,) = {m.shape[-1] for m in M}` (`hessian.py:67`): `ValueError` unless the set has exactly
one element. (A zero-dimensional entry would raise `IndexError`; matrices in tensor list format always have
a trailing dimension.) -/
def numVecs (M : List (Tensor α)) : Py Nat :=
  match (M.map fun x => x.shape.getLastD 0).dedup with
  | [k] => .ok k
  | _ => .error .valueError

/-- `for T_p, c_p in zip(T, C): T_p.op(c_p)` with an in-place operation: like Python's `zip`, the loop stops
at the shorter list, and the remaining tensors of `T` keep their value. -/
def zipUpdate (op : Tensor α → Tensor α → Py (Tensor α)) :
    List (Tensor α) → List (Tensor α) → Py (List (Tensor α))
  | t :: ts, c :: cs =>
    match op t c with
    | .error e => .error e
    | .ok t' =>
      match zipUpdate op ts cs with
      | .error e => .error e
      | .ok ts' => .ok (t' :: ts')
  | ts, _ => .ok ts

/-- The column loop shared by the operators: `for n in range(num_vecs): cols = f([m[..., n] for m in M]);
for T_p, c_p in zip(T, cols): T_p[..., n].add_(c_p)` (`hessian.py:77-82`, `ggn.py:71-76`,
`gradient_moments.py:166-173`, `fisher.py:256-263`, `activation_hessian.py:194-199`). Simplification: the
variants that index with `enumerate` are treated as `zip`; both agree because the primitive returns one
tensor per parameter. -/
def columnLoop [Zero α] [Add α] (f : List (Tensor α) → List (Tensor α)) (M : List (Tensor α)) :
    List Nat → List (Tensor α) → Py (List (Tensor α))
  | [], T => .ok T
  | n :: ns, T =>
    match zipUpdate (fun t c => t.addCol n c) T (f (M.map (Tensor.col n))) with
    | .error e => .error e
    | .ok T' => columnLoop f M ns T'

end loops

/-! ## Autograd primitives

A parameter is identified by its position in the flattened parameter vector and its shape. -/

/-- A block of coordinates of the flattened parameter vector. -/
structure PRef where
  off : Nat
  shape : List Nat
  deriving DecidableEq

/-- The parameters `params` in order, laid out one after another. -/
def prefs : Nat → List (List Nat) → List PRef
  | _, [] => []
  | o, s :: ss => ⟨o, s⟩ :: prefs (o + s.prod) ss

section primitives

variable {α : Type _} [NonUnitalNonAssocSemiring α]

/-- `Σ_q Σ_j h(q, j) v_q[j]`: contraction of a row over the coordinates of the listed parameters with a
vector in tensor list format. -/
def contract (h : Nat → α) : List PRef → List (Tensor α) → α
  | q :: qs, v :: vs => (∑ j ∈ Finset.range q.shape.prod, h (q.off + j) * v.data.getD j 0) +
      contract h qs vs
  | _, _ => 0

/-- BackPACK's `hessian_vector_product(loss, xs, v, grad_params=gs)` (called at `hessian.py:78`): it applies
the Jacobian of the given gradient entries `gs` with respect to `xs` to `v`; `H` is the matrix of second
partial derivatives of the loss in all parameters (trusted meaning of autograd). -/
def hvp (H : Nat → Nat → α) (xs : List PRef) (v : List (Tensor α)) (gs : List PRef) :
    List (Tensor α) :=
  gs.map fun g => ⟨g.shape, (List.range g.shape.prod).map fun i => contract (H (g.off + i)) xs v⟩

/-- BackPACK's `jacobian_vector_product` / `R_op` (called at `jacobian.py:108` and inside the GGN product):
`J` is the matrix of partial derivatives of the flattened output. -/
def jvp (J : Nat → Nat → α) (outShape : List Nat) (xs : List PRef) (v : List (Tensor α)) : Tensor α :=
  ⟨outShape, (List.range outShape.prod).map fun r => contract (J r) xs v⟩

/-- BackPACK's `transposed_jacobian_vector_product` / `L_op` (called at `jacobian.py:232`). -/
def vjp (J : Nat → Nat → α) (xs : List PRef) (u : Tensor α) : List (Tensor α) :=
  xs.map fun x => ⟨x.shape, (List.range x.shape.prod).map fun i =>
    ∑ r ∈ Finset.range u.shape.prod, J r (x.off + i) * u.data.getD r 0⟩

/-- BackPACK's `ggn_vector_product_from_plist(loss, output, plist, v)` (called at `ggn.py:72`,
`gradient_moments.py:169`, `fisher.py:259`): `J` then the Hessian `HL` of the loss with respect to the
output, then `Jᵀ`. -/
def ggnvp (J HL : Nat → Nat → α) (outShape : List Nat) (xs : List PRef) (v : List (Tensor α)) :
    List (Tensor α) :=
  let Jv := jvp J outShape xs v
  let HJv : Tensor α := ⟨outShape, (List.range outShape.prod).map fun r =>
    ∑ s ∈ Finset.range outShape.prod, HL r s * Jv.data.getD s 0⟩
  vjp J xs HJv

end primitives

end Curvlinops
