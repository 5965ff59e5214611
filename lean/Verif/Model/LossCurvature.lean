import Verif.Model.Curvature
import Verif.Model.Losses
import Verif.Spec.Calculus
import Mathlib.Logic.Equiv.Fin.Basic
import Mathlib.Analysis.SpecialFunctions.Sqrt

/-!
# Model of the GGN, empirical Fisher and Monte-Carlo Fisher with the supported losses

A mini-batch output is converted to shape `(n, C)` with one row per loss term (`rearrange`). Automatic differentiation
is modelled by mathematical derivatives: gradients and Hessians of losses with respect to the output by `pderiv` and
`hess`, the network by the Jacobian of its output. Real arithmetic.
-/

namespace Curvlinops

/-- One row of the converted output: prediction `f`, its Jacobian `J` in the parameters, target `y`. A datum has one or
more rows. -/
structure Term (k : LossKind) (C : Nat) where
  J : Nat → Nat → ℝ
  f : Fin C → ℝ
  y : TermTarget k C

variable {k : LossKind} {C : Nat}

/-- The output of a mini-batch. -/
def outs (ts : List (Term k C)) : Fin ts.length × Fin C → ℝ := fun x => (ts[x.1]).f x.2

/-- The targets of a mini-batch. -/
def targets (ts : List (Term k C)) : Fin ts.length → TermTarget k C := fun m => (ts[m]).y

/-- Jacobian of the flattened output. -/
def termsJ (ts : List (Term k C)) : Nat → Nat → ℝ := fun s p =>
  if h : s < ts.length * C then
    let x := finProdFinEquiv.symm (⟨s, h⟩ : Fin (ts.length * C))
    (ts[x.1]).J x.2 p
  else 0

/-- A matrix on the output in terms of flattened (row-major) indices. -/
def flat2 {n C : Nat} (H : Fin n × Fin C → Fin n × Fin C → ℝ) : Nat → Nat → ℝ := fun s s' =>
  if h : s < n * C ∧ s' < n * C then
    H (finProdFinEquiv.symm (⟨s, h.1⟩ : Fin (n * C))) (finProdFinEquiv.symm (⟨s', h.2⟩ : Fin (n * C)))
  else 0

/-- A vector on the output in terms of flattened (row-major) indices. -/
def flat1 {n C : Nat} (v : Fin n × Fin C → ℝ) : Nat → ℝ := fun s =>
  if h : s < n * C then v (finProdFinEquiv.symm (⟨s, h⟩ : Fin (n * C))) else 0

/-- Loss of a mini-batch and its gradient in the parameters (`_torch_base.py:638-645`), without the normalization factor:
`grad` back-propagates the gradient of the loss in the prediction through the network (simplification: the prediction
is already converted to shape `(n, C)`). -/
noncomputable def lossGradBatch (shapes : List (List Nat)) (mean : Bool) (ts : List (Term k C)) :
    ℝ × List (Tensor ℝ) :=
  (batchLoss k mean (targets ts) (outs ts),
    vjp (termsJ ts) (prefs 0 shapes) ⟨[ts.length, C], (List.range (ts.length * C)).map
      (flat1 fun x => pderiv (batchLoss k mean (targets ts)) x (outs ts))⟩)

/-- `GGNLinearOperator._matmat_batch` (`ggn.py:47-78`) for a supported loss. -/
noncomputable def ggnLossBatch (shapes : List (List Nat)) (mean : Bool) (ts : List (Term k C))
    (M : List (Tensor ℝ)) : Py (List (Tensor ℝ)) :=
  ggnMatmatBatch shapes (termsJ ts) (flat2 (hess (batchLoss k mean (targets ts)) (outs ts))) [ts.length, C] M

/-- `reduction_factor` of the empirical Fisher (`gradient_moments.py:142-149`), for `n` loss terms. Simplification: without
loss terms and with reduction 'mean', the division by it (158-162) raises `ZeroDivisionError`; the model multiplies with zero. -/
def efReductionFactor (k : LossKind) (mean : Bool) (n C : Nat) : ℝ :=
  match mean, k with
  | true, .ce => n
  | true, _ => ((n * C : Nat) : ℝ)
  | false, _ => 1

/-- `grad_output` (`gradient_moments.py:151-153`): gradient of the reduced loss, times the reduction factor. -/
noncomputable def efGradOutput (mean : Bool) (ts : List (Term k C)) : Fin ts.length × Fin C → ℝ := fun x =>
  pderiv (batchLoss k mean (targets ts)) x (outs ts) * efReductionFactor k mean ts.length C

/-- Pseudo-loss of the empirical Fisher (`gradient_moments.py:158-162`). -/
noncomputable def efPseudoLoss (red : ℝ) {n C : Nat} (g : Fin n × Fin C → ℝ) (f : Fin n × Fin C → ℝ) : ℝ :=
  0.5 / red * ∑ m, (∑ c, f (m, c) * g (m, c)) ^ 2

/-- `EFLinearOperator._matmat_batch` (`gradient_moments.py:114-175`). -/
noncomputable def efBatch (shapes : List (List Nat)) (mean : Bool) (ts : List (Term k C))
    (M : List (Tensor ℝ)) : Py (List (Tensor ℝ)) :=
  ggnMatmatBatch shapes (termsJ ts)
    (flat2 (hess (efPseudoLoss (efReductionFactor k mean ts.length C) (efGradOutput mean ts)) (outs ts))) [ts.length, C] M

/-- Gradient of one group of elementary losses in the parameters (`functorch.py:224-275`): the elementary losses of a
term are the squared errors/binary cross-entropies of its entries, or the term's cross-entropy; they are computed with
the loss function applied to a single element. -/
noncomputable def refGroupGrad : (k : LossKind) → Term k C → Nat → ℝ
  | .ce, t => fun p => ∑ c, pderiv (termLoss .ce t.y) c t.f * t.J c p
  | .mse, t => fun p => ∑ c, deriv (fun o => termLoss (C := 1) .mse (fun _ => t.y c) fun _ => o) (t.f c) * t.J c p
  | .bce, t => fun p => ∑ c, deriv (fun o => termLoss (C := 1) .bce (fun _ => t.y c) fun _ => o) (t.f c) * t.J c p

/-- `functorch_empirical_fisher` (`examples/functorch.py:198-278`) on the concatenated data; `ts` are the loss terms
of all data. -/
noncomputable def functorchEF (mean : Bool) (ts : List (Term k C)) : Nat → Nat → ℝ :=
  let jac : List (Nat → ℝ) := ts.map fun t p =>
    if mean = true ∧ k ≠ .ce then refGroupGrad k t p / Real.sqrt C else refGroupGrad k t p
  fun r c => (jac.map fun g => g r * g c).sum / (if mean then (ts.length : ℝ) else 1)

/-- What the random number generator yields for one sample and one row: standard normals for `MSELoss`, a class for
`CrossEntropyLoss`, bits for `BCEWithLogitsLoss`. -/
def TermDraw (k : LossKind) (C : Nat) : Type :=
  match k with
  | .mse => Fin C → ℝ
  | .ce => Fin C
  | .bce => Fin C → Bool

/-- One would-be gradient (`sample_grad_output`, `fisher.py:300-330`). `normal(0, std)` is `std` times a standard
normal. -/
noncomputable def wouldBeGrad : (k : LossKind) → (Fin C → ℝ) → TermDraw k C → Fin C → ℝ
  | .mse, _, z => fun c => 2 * (0 + Real.sqrt 0.5 * z c)
  | .ce, f, (s : Fin C) => fun c => softmax f c - if c = s then 1 else 0
  | .bce, f, (b : Fin C → Bool) => fun c => Real.sigmoid (f c) - if b c then 1 else 0

/-- Are all targets 0 or 1 (`fisher.py:318-323`)? -/
def BinaryTargets : (k : LossKind) → List (Term k C) → Prop
  | .bce, ts => ∀ t ∈ ts, ∀ c, t.y c = 0 ∨ t.y c = 1
  | _, _ => True

/-- `reduction_factor` of the Monte-Carlo Fisher (`fisher.py:233-241`). -/
def mcReductionFactor (k : LossKind) (mean : Bool) (n C : Nat) : ℝ :=
  match mean, k with
  | true, .ce => n
  | true, _ => ((n * C : Nat) : ℝ)
  | false, _ => 1

/-- Pseudo-loss of the Monte-Carlo Fisher (`fisher.py:247-252`). -/
noncomputable def mcPseudoLoss (red : ℝ) {S n C : Nat} (g : Fin S → Fin n × Fin C → ℝ) (f : Fin n × Fin C → ℝ) : ℝ :=
  0.5 / red / S * ∑ s, ∑ m, (∑ c, f (m, c) * g s (m, c)) ^ 2

/-- `FisherMCLinearOperator._matmat_batch` (`fisher.py:202-265`) for given draws. -/
noncomputable def mcBatch (shapes : List (List Nat)) (mean : Bool) (S : Nat) (ts : List (Term k C))
    (draws : Fin S → Fin ts.length → TermDraw k C) (M : List (Tensor ℝ)) : Py (List (Tensor ℝ)) :=
  ggnMatmatBatch shapes (termsJ ts)
    (flat2 (hess (mcPseudoLoss (mcReductionFactor k mean ts.length C)
      fun s x => wouldBeGrad k (ts[x.1]).f (draws s x.1) x.2) (outs ts))) [ts.length, C] M

/-- A source of pseudo-random numbers: `seed dev s` is the state of a `Generator` on device `dev` after
`manual_seed(s)`; `draw` yields the samples for a batch (`fisher.py:300-330`), which may depend on the predictions. -/
structure Rng (k : LossKind) (C : Nat) where
  G : Type
  seed : String → Int → G
  draw : G → (S : Nat) → (ts : List (Term k C)) → (Fin S → Fin ts.length → TermDraw k C) × G

/-- The loop over the data (`_torch_base.py:542-545`) with the generator's state; a datum is a list of loss terms. The
targets are checked before drawing (`fisher.py:318-324`). Without samples, `multinomial` raises `RuntimeError` for
`CrossEntropyLoss` (`fisher.py:309-311`), the other losses draw nothing and divide by zero (`fisher.py:247-252`).
Simplification: the number of samples is not negative (PyTorch raises `RuntimeError`), and mini-batches without loss terms
(`ZeroDivisionError` for reduction 'mean') multiply with zero. -/
noncomputable def mcLoop (rng : Rng k C) (shapes : List (List Nat)) (mean : Bool) (S nData : Nat)
    (M : List (Tensor ℝ)) : List (List (List (Term k C))) → rng.G → List (Tensor ℝ) →
      Py (List (Tensor ℝ)) × rng.G
  | [], g, AM => (.ok AM, g)
  | b :: bs, g, AM =>
    match (normalizationFactor (if mean then .mean else .sum) b.length nData : Py ℝ) with
    | .error e => (.error e, g)
    | .ok c =>
      open Classical in
      if BinaryTargets k b.flatten then
        if S = 0 then (.error (if k = .ce then .runtimeError else .zeroDivisionError), g)
        else
        let (draws, g) := rng.draw g S b.flatten
        match mcBatch shapes mean S b.flatten draws M with
        | .error e => (.error e, g)
        | .ok cur =>
          match zipUpdate (fun t u => t.addScaled c u) AM cur with
          | .error e => (.error e, g)
          | .ok AM' => mcLoop rng shapes mean S nData M bs g AM'
      else (.error .notImplementedError, g)

/-- The attributes of a Monte-Carlo Fisher operator that change: its device, and its generator with its device. -/
structure McState (rng : Rng k C) where
  device : String
  generator : Option (String × rng.G)

/-- Attributes that do not change. -/
structure McConfig (k : LossKind) (C : Nat) where
  shapes : List (List Nat)
  mean : Bool
  seed : Int
  mcSamples : Nat
  nData : Nat
  data : List (List (List (Term k C)))

/-- Device of the generator after `fisher.py:196-197`: a new generator on the operator's device if there is none, or on
another device; otherwise the old one. -/
def McState.genDevice {rng : Rng k C} (st : McState rng) : String :=
  match st.generator with
  | none => st.device
  | some (d, _) => if d ≠ st.device then st.device else d

/-- `FisherMCLinearOperator._matmat` (`fisher.py:185-200`). -/
noncomputable def mcMatmat (rng : Rng k C) (cfg : McConfig k C) (st : McState rng) (M : List (Tensor ℝ)) :
    Py (List (Tensor ℝ)) × McState rng :=
  let g := rng.seed st.genDevice cfg.seed
  let (res, g) := mcLoop rng cfg.shapes cfg.mean cfg.mcSamples cfg.nData M cfg.data g (M.map Tensor.zerosLike)
  (res, { st with generator := some (st.genDevice, g) })

/-- Calls on the operator that change its state: products, `sample_grad_output` (`fisher.py:267-332`) on some
predictions, and `to_device`. Before the first product, `sample_grad_output` uses PyTorch's global generator, which is
not part of the operator. -/
inductive McCall (k : LossKind) (C : Nat)
  | matmat (M : List (Tensor ℝ))
  | sampleGradOutput (S : Nat) (ts : List (Term k C))
  | toDevice (d : String)

/-- Effect of a call on the operator's state. -/
noncomputable def mcStep (rng : Rng k C) (cfg : McConfig k C) (st : McState rng) :
    McCall k C → McState rng
  | .matmat M => (mcMatmat rng cfg st M).2
  | .sampleGradOutput S ts =>
    match st.generator with
    | none => st
    | some (d, g) =>
      open Classical in
      if BinaryTargets k ts then { st with generator := some (d, (rng.draw g S ts).2) } else st
  | .toDevice d => { st with device := d }

end Curvlinops
