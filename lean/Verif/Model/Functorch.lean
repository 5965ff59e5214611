import Verif.Model.Columns
import Verif.Model.LossCurvature
import Verif.Model.KfacMapping

/-!
# Model of the layout of the reference matrices in `examples/functorch.py`

`torch.func`'s `hessian` and `jacrev` return one tensor per (pair of) parameters. Their values are taken at their
mathematical meaning: entries of the matrices `H` and `J` of derivatives with respect to the flattened parameters.
-/

namespace Curvlinops

variable {α : Type _}

namespace Tensor

/-- `torch.cat(ts, dim=-1)`, and `torch.cat(ts, dim=1)` for two-dimensional tensors. `RuntimeError` for an empty list, for
zero-dimensional tensors, or for different leading dimensions. -/
def catLast (ts : List (Tensor α)) : Py (Tensor α) :=
  match ts with
  | [] => .error .runtimeError
  | t :: ts' =>
    if t.shape = [] then .error .runtimeError
    else if (t :: ts').all (fun u => decide (u.shape ≠ [] ∧ u.shape.dropLast = t.shape.dropLast)) then
      .ok ⟨t.shape.dropLast ++ [((t :: ts').map fun u => u.shape.getLastD 0).sum],
        (List.range t.shape.dropLast.prod).flatMap fun i => (t :: ts').flatMap fun u =>
          (u.data.drop (i * u.shape.getLastD 0)).take (u.shape.getLastD 0)⟩
    else .error .runtimeError

/-- `t.reshape(rows, -1)`: `RuntimeError` if the inferred dimension is not determined, or not an integer. -/
def reshapeRows (rows : Nat) (t : Tensor α) : Py (Tensor α) :=
  if rows = 0 ∨ t.shape.prod % rows ≠ 0 then .error .runtimeError else .ok ⟨[rows, t.shape.prod / rows], t.data⟩

/-- A possibly negative dimension of a tensor with `n` dimensions; `IndexError` if out of range (a tensor without
dimensions is treated as having one). -/
def normDim (n : Nat) (d : Int) : Py Nat :=
  let m : Int := if n = 0 then 1 else n
  if d < -m ∨ m ≤ d then .error .indexError else .ok (if d < 0 then d + m else d).toNat

/-- `t.flatten(start_dim=start, end_dim=stop)`. -/
def flattenDims (start stop : Int) (t : Tensor α) : Py (Tensor α) := do
  let s ← normDim t.shape.length start
  let e ← normDim t.shape.length stop
  if e < s then .error .runtimeError
  else .ok ⟨t.shape.take s ++ [((t.shape.take (e + 1)).drop s).prod] ++ t.shape.drop (e + 1), t.data⟩

end Tensor

/-- `blocks_to_matrix` (`functorch.py:14-34`). Simplification: `int(sqrt(n))` is exact. -/
def blocksToMatrix (blocks : Dict (Dict (Tensor α))) : Py (Tensor α) := do
  let rowBlocks ← pyMapM (fun e : String × Dict (Tensor α) => do
    match Dict.get e.2 e.1 with
    | none => .error .keyError
    | some diag =>
      let numRows := Nat.sqrt diag.shape.prod
      let colBlocks ← pyMapM (fun n => match Dict.get e.2 n with
        | none => .error .keyError
        | some b => b.reshapeRows numRows) blocks.keys
      Tensor.catLast colBlocks) blocks
  Tensor.cat0 rowBlocks

/-- `name_dict[ptr]` for `name_dict = {p.data_ptr(): name for name, p in model_func.named_parameters()}`
(`functorch.py:366`): the last entry wins. -/
def nameOf (named : List (String × Nat)) (id : Nat) : Option String := (named.reverse.find? fun e => e.2 == id).map Prod.fst

/-- `_make_params_dict` (`functorch.py:354-367`) for parameters with their data pointers. -/
def makeParamsDict (named : List (String × Nat)) : List (Nat × PRef) → Dict PRef → Py (Dict PRef)
  | [], d => .ok d
  | (id, p) :: ps, d =>
    match nameOf named id with
    | none => .error .keyError
    | some name => makeParamsDict named ps (d.set name p)

/-- The result of `hessian(loss, argnums)` for a dictionary of parameters (`functorch.py:74-77`, `146-151`). -/
def hessianDict (H : Nat → Nat → α) (ps : Dict PRef) : Dict (Dict (Tensor α)) :=
  ps.map fun e => (e.1, ps.map fun e' => (e'.1, ⟨e.2.shape ++ e'.2.shape,
    (List.range e.2.shape.prod).flatMap fun i => (List.range e'.2.shape.prod).map fun j => H (e.2.off + i) (e'.2.off + j)⟩))

/-- The returned tensor of `functorch_hessian` and `functorch_ggn` (`functorch.py:61`, `77`, `106`, `151`); `H` is the matrix
of second derivatives of the loss (of the linearized model) on the concatenated data. -/
def functorchMatrix (named : List (String × Nat)) (ids : List Nat) (shapes : List (List Nat)) (H : Nat → Nat → α) :
    Py (Tensor α) := do
  let ps ← makeParamsDict named (ids.zip (prefs 0 shapes)) []
  blocksToMatrix (hessianDict H ps)

/-- `functorch_jacobian` (`functorch.py:281-317`); `J` is the matrix of derivatives of the flattened output, which has shape
`out`. -/
def functorchJacobian (named : List (String × Nat)) (ids : List Nat) (shapes : List (List Nat)) (out : List Nat)
    (J : Nat → Nat → α) : Py (Tensor α) := do
  let ps ← makeParamsDict named (ids.zip (prefs 0 shapes)) []
  let jac ← pyMapM (fun e : String × PRef =>
    Tensor.flattenDims (-(e.2.shape.length : Int)) (-1) ⟨out ++ e.2.shape,
      (List.range out.prod).flatMap fun r => (List.range e.2.shape.prod).map fun i => J r (e.2.off + i)⟩) ps
  let t ← Tensor.catLast jac
  t.flattenDims 0 (-2)

/-- `jac.reshape(n, G, P).sum(1)`: `RuntimeError` if the number of entries differs. -/
noncomputable def sumGroups (n G P : Nat) (t : Tensor ℝ) : Py (Tensor ℝ) :=
  if t.shape.prod ≠ n * G * P then .error .runtimeError
  else .ok ⟨[n, P], (List.range n).flatMap fun i => (List.range P).map fun p =>
    ∑ g ∈ Finset.range G, t.data.getD ((i * G + g) * P + p) 0⟩

/-- `jac.T @ jac / norm` for an `n × P` matrix. -/
noncomputable def gramOver (n P : Nat) (norm : ℝ) (t : Tensor ℝ) : Tensor ℝ :=
  ⟨[P, P], (List.range P).flatMap fun r => (List.range P).map fun c =>
    (∑ i ∈ Finset.range n, t.data.getD (i * P + r) 0 * t.data.getD (i * P + c) 0) / norm⟩

/-- `num_losses` (`functorch.py:260-264`); `y` is the shape of the labels. -/
def numLosses (k : LossKind) (y : List Nat) : Nat :=
  match k with
  | .ce => y.prod
  | _ => y.dropLast.prod

/-- `functorch_empirical_fisher` (`functorch.py:220-278`); `y` is the shape of the concatenated labels, `J l` the gradient
of the `l`-th elementary loss. Simplification: no NaN (for an output dimension of zero). -/
noncomputable def functorchEFTensor (named : List (String × Nat)) (ids : List Nat) (shapes : List (List Nat)) (k : LossKind)
    (mean : Bool) (y : List Nat) (J : Nat → Nat → ℝ) : Py (Tensor ℝ) := do
  let ps ← makeParamsDict named (ids.zip (prefs 0 shapes)) []
  let jac ← pyMapM (fun e : String × PRef => Tensor.flattenDims 1 (-1) ⟨[y.prod] ++ e.2.shape,
    (List.range y.prod).flatMap fun r => (List.range e.2.shape.prod).map fun i => J r (e.2.off + i)⟩) ps
  let jac ← Tensor.catLast jac
  let n := numLosses k y
  let numParams := (shapes.map List.prod).sum
  if n = 0 then .error .zeroDivisionError
  else
    let grouped := y.prod / n
    let jac ← sumGroups n grouped numParams jac
    let jac : Tensor ℝ := if k ≠ .ce ∧ mean then ⟨jac.shape, jac.data.map (· / Real.sqrt grouped)⟩ else jac
    .ok (gramOver n numParams (if mean then n else 1) jac)

/-- Gradients of the elementary losses (`functorch.py:224-256`): one per loss term for `CrossEntropyLoss`, one per entry of
the output for the other losses, computed with the loss function applied to a single element. -/
noncomputable def elementaryGrad {C : Nat} : (k : LossKind) → List (Term k C) → Nat → Nat → ℝ
  | .ce, ts, l, p => match ts[l]? with
    | some t => ∑ c, pderiv (termLoss .ce t.y) c t.f * t.J c p
    | none => 0
  | .mse, ts, l, p => match ts[l / C]? with
    | some t => if h : l % C < C then
        let c : Fin C := ⟨l % C, h⟩
        deriv (fun o => termLoss (C := 1) .mse (fun _ => t.y c) fun _ => o) (t.f c) * t.J c p
      else 0
    | none => 0
  | .bce, ts, l, p => match ts[l / C]? with
    | some t => if h : l % C < C then
        let c : Fin C := ⟨l % C, h⟩
        deriv (fun o => termLoss (C := 1) .bce (fun _ => t.y c) fun _ => o) (t.f c) * t.J c p
      else 0
    | none => 0

/-- `functorch_gradient_and_loss` (`functorch.py:152-195`): the gradient `g` of the loss, as list with the shapes of the
parameters in the dictionary. -/
def functorchGradient (named : List (String × Nat)) (ids : List Nat) (shapes : List (List Nat)) (g : Nat → α) :
    Py (List (Tensor α)) := do
  let ps ← makeParamsDict named (ids.zip (prefs 0 shapes)) []
  .ok (ps.map fun e => ⟨e.2.shape, (List.range e.2.shape.prod).map fun i => g (e.2.off + i)⟩)

end Curvlinops
