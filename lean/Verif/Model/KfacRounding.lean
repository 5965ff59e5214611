import Verif.Model.Rounding
import Verif.Model.KfacFactors

/-!
# Model of the accumulation of KFAC's factors in floating point arithmetic

The hooks of `Model/KfacFactors.lean` with rounded operations. The layer's inputs and the gradients with respect to its
outputs are computed by torch and enter as numbers (external code); everything that the hooks do with them is rounded.
Simplifications: those of `Model/Rounding.lean`; Conv2d layers enter through their patches.
-/

namespace Curvlinops

variable {ρ : Rounding}

/-- Sums inside torch's kernels (external code: `einsum`, `reduce`). The order of the additions is not specified; in any order
a sum of `n` numbers has a relative error of at most `(1 + u)^(n - 1) - 1`, relative to the sum of the absolute values. -/
structure FlSum (ρ : Rounding) where
  sum : List (Fl ρ) → Fl ρ
  close : ∀ l, |(sum l).val - (l.map Fl.val).sum| ≤ ((1 + ρ.u) ^ (l.length - 1) - 1) * (l.map fun x => |x.val|).sum

/-- What the hooks see of one datum. `x layer s i`: entry of the layer's input (`kfac.py:684`). `g layer k s o`: entry of the
gradient with respect to the layer's output in backward pass `k` (`kfac.py:639`). -/
structure FlDatum (ρ : Rounding) where
  x : String → Nat → Nat → Fl ρ
  g : String → Nat → Nat → Nat → Fl ρ

/-- Rows of the input matrix of one datum after `rearrange`/`reduce` and `cat` with ones (`kfac.py:700-715`). The mean over
the positions is a sum and a division. -/
noncomputable def inputRowsFl (σ : FlSum ρ) (cfg : KfacCfg) (l : KLayer) (d : FlDatum ρ) : List (Nat → Fl ρ) :=
  let withOne (r : Nat → Fl ρ) : Nat → Fl ρ := fun i => if l.joint cfg = true ∧ i = l.din then 1 else r i
  match cfg.approx with
  | .expand => (List.range l.S).map fun s => withOne fun i => d.x l.name s i
  | .reduce => [withOne fun i => σ.sum ((List.range l.S).map fun s => d.x l.name s i) / (l.S : Fl ρ)]

/-- `einsum(x, x, "b i,b j -> i j")` (`kfac.py:660`, `717`): rounded products, and a sum. -/
noncomputable def gramFl (σ : FlSum ρ) (rows : List (Nat → Fl ρ)) : Nat → Nat → Fl ρ := fun i j =>
  σ.sum (rows.map fun r => r i * r j)

/-- Covariance computed by the forward hook (`kfac.py:700-717`). The divisor is a Python number that is converted to the type
of the tensor. -/
noncomputable def inputCovarianceFl (σ : FlSum ρ) (cfg : KfacCfg) (l : KLayer) (batch : List (FlDatum ρ)) : Factor (Fl ρ) :=
  let scale : Nat := match cfg.approx with
    | .expand => l.S
    | .reduce => 1
  ⟨l.din + (if l.joint cfg then 1 else 0), fun i j =>
    gramFl σ (batch.flatMap (inputRowsFl σ cfg l)) i j / ((cfg.N * scale : Nat) : Fl ρ)⟩

/-- Rows of the gradient matrix of one datum (`kfac.py:644-649`). -/
noncomputable def gradRowsFl (σ : FlSum ρ) (cfg : KfacCfg) (l : KLayer) (k : Nat) (d : FlDatum ρ) : List (Nat → Fl ρ) :=
  match cfg.approx with
  | .expand => (List.range l.S).map fun s => d.g l.name k s
  | .reduce => [fun o => σ.sum ((List.range l.S).map fun s => d.g l.name k s o)]

/-- Correction of the scale (`kfac.py:651-658`): the quotient of two Python integers is rounded to a Python `float` (`π`), and
then to the type of the tensor. -/
noncomputable def correctionFl (ρ π : Rounding) (cfg : KfacCfg) (b : Nat) : Fl ρ :=
  Fl.of ρ (π.rnd (if cfg.mean then ((b * cfg.T : Nat) : ℝ) ^ 2 / (cfg.N * cfg.mcSamples * cfg.T) else 1 / cfg.mcSamples))

/-- Covariance computed by the tensor hook in backward pass `k` (`kfac.py:639-660`). -/
noncomputable def gradCovarianceFl (π : Rounding) (σ : FlSum ρ) (cfg : KfacCfg) (l : KLayer) (batch : List (FlDatum ρ))
    (k : Nat) : Factor (Fl ρ) :=
  ⟨l.dout, fun i j => gramFl σ (batch.flatMap (gradRowsFl σ cfg l k)) i j * correctionFl ρ π cfg batch.length⟩

/-- `d[name] = cov` or `d[name].add_(cov)` (`kfac.py:662-665`, `719-722`). -/
noncomputable def addCovFl (d : Dict (Factor (Fl ρ))) (name : String) (cov : Factor (Fl ρ)) : Dict (Factor (Fl ρ)) :=
  match d.get name with
  | none => d.set name cov
  | some f => d.set name ⟨f.dim, fun i j => f.mat i j + cov.mat i j⟩

/-- The forward pass of one batch updates `_input_covariances` (`kfac.py:409-427`, `435`). -/
noncomputable def forwardFl (σ : FlSum ρ) (cfg : KfacCfg) (layers : List KLayer) (batch : List (FlDatum ρ))
    (A : Dict (Factor (Fl ρ))) : Dict (Factor (Fl ρ)) :=
  (layers.filter fun l => l.pos.has "weight").foldl (fun A l => addCovFl A l.name (inputCovarianceFl σ cfg l batch)) A

/-- The backward passes of one batch update `_gradient_covariances`, in reverse order of the layers; identity matrices are
exact (`kfac.py:487-541`). -/
noncomputable def backwardFl (π : Rounding) (σ : FlSum ρ) (cfg : KfacCfg) (layers : List KLayer) (batch : List (FlDatum ρ))
    (G : Dict (Factor (Fl ρ))) : Dict (Factor (Fl ρ)) :=
  match cfg.fisher with
  | .forwardOnly => layers.foldl (fun G l => G.set l.name ⟨l.dout, fun i j => if i = j then 1 else 0⟩) G
  | _ => (List.range (numPasses cfg)).foldl (fun G k =>
      layers.reverse.foldl (fun G l => addCovFl G l.name (gradCovarianceFl π σ cfg l batch k)) G) G

/-- `_compute_kfac` (`kfac.py:434-436`) in floating point arithmetic: the loop over the data, from empty dictionaries. -/
noncomputable def kfacFactorsFl (π : Rounding) (σ : FlSum ρ) (cfg : KfacCfg) (layers : List KLayer)
    (batches : List (List (FlDatum ρ))) : Dict (Factor (Fl ρ)) × Dict (Factor (Fl ρ)) :=
  batches.foldl (fun st b => (forwardFl σ cfg layers b st.1, backwardFl π σ cfg layers b st.2)) ([], [])

end Curvlinops
