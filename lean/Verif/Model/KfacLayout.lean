import Verif.Model.KfacFactors

/-!
# Model of KFAC's hooks for layer tensors whose first dimension need not be the batch

`Model/KfacFactors.lean` assumes that the tensors a layer reads and writes have the data of the batch as their first
dimension. The hooks do not know the batch: they take the first dimension of the tensor they see for it
(`kfac.py:640`, `646`, `649`, `702-708`). Here a layer has a layout; everything else is as in `Model/KfacFactors.lean`.
-/

namespace Curvlinops

/-- How the rows that a linear layer maps are arranged in the dimensions before the last of its input and output:
`[batch, S]`; `[batch * R, S / R]`, after `x.flatten(0, 1)` on `[batch, R, S / R]`; `[S, batch]`, the sequence-first
convention of `torch.nn.RNN` and `torch.nn.Transformer`. -/
inductive Layout
  | batchFirst
  | merged (R : Nat)
  | seqFirst

/-- The rows, as pairs of datum and position, grouped by their index in the first dimension. -/
def Layout.groups (lay : Layout) (S : Nat) (batch : List KDatum) : List (List (KDatum × Nat)) :=
  match lay with
  | .batchFirst => batch.map fun d => (List.range S).map fun s => (d, s)
  | .merged R => batch.flatMap fun d => (List.range R).map fun r => (List.range (S / R)).map fun s => (d, r * (S / R) + s)
  | .seqFirst => (List.range S).map fun s => batch.map fun d => (d, s)

/-- `x.shape[1:-1].numel()` (`kfac.py:702`) for a batch with `b` data. -/
def Layout.inner (lay : Layout) (S b : Nat) : Nat :=
  match lay with
  | .batchFirst => S
  | .merged R => S / R
  | .seqFirst => b

/-- Rows of the input matrix of a batch after `rearrange`/`reduce` and `cat` with ones (`kfac.py:700-715`). -/
noncomputable def layoutInputRows (cfg : KfacCfg) (l : KLayer) (lay : Layout) (batch : List KDatum) : List (Nat → ℝ) :=
  let withOne (r : Nat → ℝ) : Nat → ℝ := fun i => if l.joint cfg = true ∧ i = l.din then 1 else r i
  match cfg.approx with
  | .expand => (lay.groups l.S batch).flatten.map fun p => withOne fun i => p.1.x l.name p.2 i
  | .reduce => (lay.groups l.S batch).map fun g => withOne fun i => (g.map fun p => p.1.x l.name p.2 i).sum / lay.inner l.S batch.length

/-- Covariance computed by the forward hook (`kfac.py:700-717`). -/
noncomputable def layoutInputCovariance (cfg : KfacCfg) (l : KLayer) (lay : Layout) (batch : List KDatum) : Factor ℝ :=
  let scale : ℝ := match cfg.approx with
    | .expand => lay.inner l.S batch.length
    | .reduce => 1
  ⟨l.din + (if l.joint cfg then 1 else 0), fun i j => gram (layoutInputRows cfg l lay batch) i j / (cfg.N * scale)⟩

/-- Rows of the gradient matrix of a batch (`kfac.py:644-649`). The back-propagated scalar is that of the network's
outputs, hence of the batch, whatever the layout of the layer. -/
noncomputable def layoutGradRows (cfg : KfacCfg) (l : KLayer) (lay : Layout) (batch : List KDatum) (k : Nat) : List (Nat → ℝ) :=
  match cfg.approx with
  | .expand => (lay.groups l.S batch).flatten.map fun p => outputGrad cfg l batch.length p.1 k p.2
  | .reduce => (lay.groups l.S batch).map fun g o => (g.map fun p => outputGrad cfg l batch.length p.1 k p.2 o).sum

/-- Covariance computed by the tensor hook in backward pass `k`, with `batch_size = g.shape[0]` (`kfac.py:639-660`). -/
noncomputable def layoutGradCovariance (cfg : KfacCfg) (l : KLayer) (lay : Layout) (batch : List KDatum) (k : Nat) : Factor ℝ :=
  ⟨l.dout, fun i j => gram (layoutGradRows cfg l lay batch k) i j * correction cfg (lay.groups l.S batch).length⟩

/-- The backward passes of one batch, in reverse order of the layers, or identity matrices (`kfac.py:487-541`). -/
noncomputable def layoutBackwardEvents (cfg : KfacCfg) (lay : String → Layout) (layers : List KLayer) (batch : List KDatum) :
    List KEvent :=
  match cfg.fisher with
  | .forwardOnly => layers.map fun l => .setGrad l.name ⟨l.dout, fun i j => if i = j then 1 else 0⟩
  | _ => (List.range (numPasses cfg)).flatMap fun k =>
      layers.reverse.map fun l => .grad l.name (layoutGradCovariance cfg l (lay l.name) batch k)

/-- The updates for one batch (`kfac.py:406-427` for the hooks, `434-436`): forward pass, then the backward passes. -/
noncomputable def layoutBatchEvents (cfg : KfacCfg) (lay : String → Layout) (layers : List KLayer) (batch : List KDatum) :
    List KEvent :=
  (layers.filter fun l => l.pos.has "weight").map (fun l => .input l.name (layoutInputCovariance cfg l (lay l.name) batch)) ++
    layoutBackwardEvents cfg lay layers batch

/-- `_compute_kfac` (`kfac.py:434-436`): the loop over the data, from empty dictionaries. -/
noncomputable def layoutFactors (cfg : KfacCfg) (lay : String → Layout) (layers : List KLayer) (batches : List (List KDatum)) :
    Dict (Factor ℝ) × Dict (Factor ℝ) :=
  batches.foldl (fun st b => (layoutBatchEvents cfg lay layers b).foldl applyEvent st) ([], [])

end Curvlinops
