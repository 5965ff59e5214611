import Verif.Model.Tensor
import Verif.Model.Losses

/-!
# Model of the conversion of outputs with more than two dimensions, and of the losses on such outputs

`EinopsError` is a subclass of `RuntimeError`.
-/

namespace Curvlinops

variable {α : Type _}

/-- `rearrange(output, "batch c ... -> (batch ...) c")` (`gradient_moments.py:134`, `fisher.py:224`, `kfac.py:481`,
`examples/functorch.py:240`). -/
def rearrangeClass (t : Tensor α) : Py (Tensor α) :=
  match t.shape with
  | n :: c :: rest => .ok ⟨[n * rest.prod, c], (List.range n).flatMap fun b => (List.range rest.prod).flatMap fun r =>
      (List.range c).filterMap fun j => t.data[(b * c + j) * rest.prod + r]?⟩
  | _ => .error .runtimeError

/-- `rearrange(output, "batch ... c -> (batch ...) c")` (`gradient_moments.py:137-138`, `fisher.py:227-228`,
`kfac.py:484-485`). -/
def rearrangeLast (t : Tensor α) : Py (Tensor α) :=
  if t.shape.length < 2 then .error .runtimeError else .ok ⟨[t.shape.dropLast.prod, t.shape.getLastD 0], t.data⟩

/-- `rearrange(y, "batch ... -> (batch ...)")` (`gradient_moments.py:135`, `fisher.py:225`, `kfac.py:482`). -/
def rearrangeFlat (t : Tensor α) : Py (Tensor α) :=
  match t.shape with
  | [] => .error .runtimeError
  | _ => .ok ⟨[t.shape.prod], t.data⟩

/-- Labels: class indices for `CrossEntropyLoss`, otherwise numbers. -/
abbrev LabelEntry (k : LossKind) : Type :=
  match k with
  | .ce => Nat
  | _ => ℝ

/-- Conversion of output and labels (`gradient_moments.py:132-138`, `fisher.py:222-228`, `kfac.py:479-485`). -/
def convert2d (k : LossKind) (output : Tensor ℝ) (y : Tensor (LabelEntry k)) : Py (Tensor ℝ × Tensor (LabelEntry k)) := do
  if k = .ce then
    let output ← rearrangeClass output
    let y ← rearrangeFlat y
    pure (output, y)
  else
    let output ← rearrangeLast output
    let y ← rearrangeLast y
    pure (output, y)

/-- One elementary loss of `MSELoss` or `BCEWithLogitsLoss` (PyTorch documentation). -/
noncomputable def elemLoss (bce : Bool) (f y : ℝ) : ℝ :=
  if bce then -(y * Real.log (Real.sigmoid f) + (1 - y) * Real.log (1 - Real.sigmoid f)) else (f - y) ^ 2

/-- `MSELoss` and `BCEWithLogitsLoss` on outputs of any shape (PyTorch documentation). Simplification: shapes must be equal,
broadcasting of `MSELoss` is outside the model. -/
noncomputable def elemwiseLoss (bce mean : Bool) (output y : Tensor ℝ) : Py ℝ :=
  if output.shape ≠ y.shape then .error .valueError
  else .ok ((List.zipWith (elemLoss bce) output.data y.data).sum / if mean then (output.data.length : ℝ) else 1)

/-- `CrossEntropyLoss` on outputs of shape `(n, c, d₁, ..., dₖ)` with class indices of shape `(n, d₁, ..., dₖ)` (PyTorch
documentation). Out-of-range classes raise `IndexError`. Simplification: a missing batch dimension, which PyTorch accepts, and class
probabilities as labels are outside the model; options of the loss have default values and no label is `ignore_index`. -/
noncomputable def ceLoss (mean : Bool) (output : Tensor ℝ) (y : Tensor Nat) : Py ℝ :=
  match output.shape with
  | n :: c :: rest =>
    if y.shape ≠ n :: rest then .error .valueError
    else if ∃ j ∈ y.data, c ≤ j then .error .indexError
    else
      let at' := fun b j r => output.data.getD ((b * c + j) * rest.prod + r) 0
      .ok ((∑ b ∈ Finset.range n, ∑ r ∈ Finset.range rest.prod,
        -Real.log (Real.exp (at' b (y.data.getD (b * rest.prod + r) 0) r) / ∑ j ∈ Finset.range c, Real.exp (at' b j r))) /
          if mean then ((n * rest.prod : Nat) : ℝ) else 1)
  | _ => .error .valueError

/-- `self._loss_func(output, y)` on outputs of any shape. -/
noncomputable def torchLoss (k : LossKind) (mean : Bool) (output : Tensor ℝ) (y : Tensor (LabelEntry k)) : Py ℝ :=
  match k, y with
  | .ce, y => ceLoss mean output y
  | .mse, y => elemwiseLoss false mean output y
  | .bce, y => elemwiseLoss true mean output y

end Curvlinops
