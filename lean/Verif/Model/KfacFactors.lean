import Verif.Model.KfacProduct
import Verif.Model.Losses
import Mathlib.Analysis.SpecialFunctions.Sqrt

/-!
# Model of KFAC's Kronecker factors

Hooks on the layers see the layer's input in the forward pass and the gradient of the back-propagated scalar with
respect to the layer's output in each backward pass. The network enters through its layer inputs and through the
derivatives of its outputs with respect to the layers' outputs. The network processes the data of a batch
independently of each other (no batch normalization in training mode). Other reductions than `sum` and `mean` raise
`KeyError` at the first backward hook and are left out. Conv2d layers enter with the patches of
`extract_patches` as inputs (`kfac.py:686-698`; `extract_averaged_patches` is their mean, see C37), and with output
positions in place of the channel-first layout (`kfac.py:641-642`).
-/

namespace Curvlinops

/-- `FisherType` (`kfac.py:60-66`). -/
inductive FisherType
  | type2
  | mc
  | empirical
  | forwardOnly
  deriving DecidableEq

/-- `KFACType` (`kfac.py:69-73`). -/
inductive KfacApprox
  | expand
  | reduce
  deriving DecidableEq

/-- Settings of the operator: `N` is `_N_data`, `T` is `_num_per_example_loss_terms`, `C` the size of the output
dimension that a loss term is defined over, `mean` whether the loss has reduction `mean` (otherwise `sum`). -/
structure KfacCfg where
  fisher : FisherType
  approx : KfacApprox
  loss : LossKind
  mean : Bool
  mcSamples : Nat
  N : Nat
  T : Nat
  C : Nat
  sep : Bool

/-- A layer of the mapping; `S` is the number of positions that share the weight. -/
structure KLayer where
  name : String
  pos : Dict Nat
  din : Nat
  dout : Nat
  S : Nat

/-- What one datum contributes. `x layer s i`: input of the layer. `jac layer s o t c`: derivative of entry `c` of the
output for loss term `t` with respect to entry `(s, o)` of the layer's output. `sqrt t c k`: entry of
`loss_hessian_matrix_sqrt` for loss term `t`. `lossGrad m t c`: gradient of the unreduced loss term `t` with respect to
the output, for the `m`-th drawn label (or the true label, for the empirical Fisher). -/
structure KDatum where
  x : String → Nat → Nat → ℝ
  jac : String → Nat → Nat → Nat → Nat → ℝ
  sqrt : Nat → Nat → Nat → ℝ
  lossGrad : Nat → Nat → Nat → ℝ

/-- Joint treatment of the layer's weight and bias (`kfac.py:710-714`). -/
def KLayer.joint (cfg : KfacCfg) (l : KLayer) : Bool := l.pos.has "weight" && l.pos.has "bias" && !cfg.sep

/-- Rows of the input matrix of one datum after `rearrange`/`reduce` and `cat` with ones (`kfac.py:700-715`). -/
noncomputable def inputRows (cfg : KfacCfg) (l : KLayer) (d : KDatum) : List (Nat → ℝ) :=
  let withOne (r : Nat → ℝ) : Nat → ℝ := fun i => if l.joint cfg = true ∧ i = l.din then 1 else r i
  match cfg.approx with
  | .expand => (List.range l.S).map fun s => withOne fun i => d.x l.name s i
  | .reduce => [withOne fun i => (∑ s ∈ Finset.range l.S, d.x l.name s i) / l.S]

/-- `einsum(x, x, "b i,b j -> i j")`. -/
noncomputable def gram (rows : List (Nat → ℝ)) : Nat → Nat → ℝ := fun i j => (rows.map fun r => r i * r j).sum

/-- Covariance computed by the forward hook (`kfac.py:700-717`). -/
noncomputable def inputCovariance (cfg : KfacCfg) (l : KLayer) (batch : List KDatum) : Factor ℝ :=
  let scale : ℝ := match cfg.approx with
    | .expand => l.S
    | .reduce => 1
  ⟨l.din + (if l.joint cfg then 1 else 0), fun i j => gram (batch.flatMap (inputRows cfg l)) i j / (cfg.N * scale)⟩

/-- Number of backward passes per batch (`kfac.py:505-506`, `515`, `521-524`, `526`). -/
def numPasses (cfg : KfacCfg) : Nat :=
  match cfg.fisher with
  | .type2 => cfg.C
  | .mc => cfg.mcSamples
  | .empirical => 1
  | .forwardOnly => 0

/-- Derivative of the back-propagated scalar of pass `k` with respect to the output of a datum, for a batch with `b`
data. Type-2: columns of the square root, scaled (`kfac.py:497-509`). Monte-Carlo and empirical: gradient of the
reduced loss (mean over the `b T` loss terms, and over `C` entries for `MSELoss` and `BCEWithLogitsLoss`), times
`sqrt(C)` (`kfac.py:456-463`, `517-519`, `522-524`). -/
noncomputable def cotangent (cfg : KfacCfg) (b : Nat) (d : KDatum) (k t c : Nat) : ℝ :=
  match cfg.fisher with
  | .type2 => d.sqrt t c k * (if cfg.mean then 1 / ((b * cfg.T : Nat) : ℝ) else 1)
  | _ =>
    if cfg.mean then
      match cfg.loss with
      | .ce => d.lossGrad k t c / ((b * cfg.T : Nat) : ℝ)
      | _ => d.lossGrad k t c / ((b * cfg.T * cfg.C : Nat) : ℝ) * Real.sqrt cfg.C
    else d.lossGrad k t c

/-- Gradient with respect to entry `(s, o)` of the layer's output in pass `k`. -/
noncomputable def outputGrad (cfg : KfacCfg) (l : KLayer) (b : Nat) (d : KDatum) (k s o : Nat) : ℝ :=
  ∑ t ∈ Finset.range cfg.T, ∑ c ∈ Finset.range cfg.C, d.jac l.name s o t c * cotangent cfg b d k t c

/-- Rows of the gradient matrix of one datum (`kfac.py:644-649`). -/
noncomputable def gradRows (cfg : KfacCfg) (l : KLayer) (b : Nat) (k : Nat) (d : KDatum) : List (Nat → ℝ) :=
  match cfg.approx with
  | .expand => (List.range l.S).map fun s => outputGrad cfg l b d k s
  | .reduce => [fun o => ∑ s ∈ Finset.range l.S, outputGrad cfg l b d k s o]

/-- Correction of the scale (`kfac.py:651-658`). -/
noncomputable def correction (cfg : KfacCfg) (b : Nat) : ℝ :=
  if cfg.mean then ((b * cfg.T : Nat) : ℝ) ^ 2 / (cfg.N * cfg.mcSamples * cfg.T) else 1 / cfg.mcSamples

/-- Covariance computed by the tensor hook in backward pass `k` (`kfac.py:639-660`). -/
noncomputable def gradCovariance (cfg : KfacCfg) (l : KLayer) (batch : List KDatum) (k : Nat) : Factor ℝ :=
  ⟨l.dout, fun i j => gram (batch.flatMap (gradRows cfg l batch.length k)) i j * correction cfg batch.length⟩

/-- Updates of the two dictionaries. -/
inductive KEvent
  | input (name : String) (cov : Factor ℝ)
  | grad (name : String) (cov : Factor ℝ)
  | setGrad (name : String) (cov : Factor ℝ)

/-- `d[name] = cov` or `d[name].add_(cov)` (`kfac.py:662-665`, `719-722`). -/
def addCov (d : Dict (Factor ℝ)) (name : String) (cov : Factor ℝ) : Dict (Factor ℝ) :=
  match d.get name with
  | none => d.set name cov
  | some f => d.set name ⟨f.dim, fun i j => f.mat i j + cov.mat i j⟩

/-- Apply an update to `(_input_covariances, _gradient_covariances)`. -/
def applyEvent (st : Dict (Factor ℝ) × Dict (Factor ℝ)) : KEvent → Dict (Factor ℝ) × Dict (Factor ℝ)
  | .input name cov => (addCov st.1 name cov, st.2)
  | .grad name cov => (st.1, addCov st.2 name cov)
  | .setGrad name cov => (st.1, st.2.set name cov)

/-- The backward passes of one batch, in reverse order of the layers, or identity matrices (`kfac.py:487-541`). -/
noncomputable def backwardEvents (cfg : KfacCfg) (layers : List KLayer) (batch : List KDatum) : List KEvent :=
  match cfg.fisher with
  | .forwardOnly => layers.map fun l => .setGrad l.name ⟨l.dout, fun i j => if i = j then 1 else 0⟩
  | _ => (List.range (numPasses cfg)).flatMap fun k =>
      layers.reverse.map fun l => .grad l.name (gradCovariance cfg l batch k)

/-- The updates for one batch (`kfac.py:406-427` for the hooks, `434-436`): forward pass, then the backward passes. -/
noncomputable def batchEvents (cfg : KfacCfg) (layers : List KLayer) (batch : List KDatum) : List KEvent :=
  (layers.filter fun l => l.pos.has "weight").map (fun l => .input l.name (inputCovariance cfg l batch)) ++
    backwardEvents cfg layers batch

/-- `_compute_kfac` (`kfac.py:434-436`): the loop over the data, from empty dictionaries. -/
noncomputable def kfacFactors (cfg : KfacCfg) (layers : List KLayer) (batches : List (List KDatum)) :
    Dict (Factor ℝ) × Dict (Factor ℝ) :=
  batches.foldl (fun st b => (batchEvents cfg layers b).foldl applyEvent st) ([], [])

end Curvlinops
