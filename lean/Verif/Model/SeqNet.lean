import Verif.Model.KfacFactors
import Verif.Model.LossCurvature
import Verif.Spec.KfacLayers

/-!
# Model of feed-forward networks, as seen by KFAC's hooks

A network is a sequence of linear layers with parameter-free code before and after each of them (activations, residual
connections, unfolding for convolutions, pooling). All tensors that are alive between two layers form the state, a vector of
fixed length `D`. The parameters are a function of the position in the flattened parameter list. Each layer is evaluated once
per forward pass. Automatic differentiation is modelled by mathematical derivatives.
-/

namespace Curvlinops

/-- A `Linear` layer (or a `Conv2d` layer, with unfolded inputs) inside a network. `S` is the number of positions at which the
layer is evaluated, `W` and `b` are the values of the weight or bias if it is not among the parameters. -/
structure Stage (D : Nat) where
  name : String
  pos : LayerPos
  S : Nat
  din : Nat
  dout : Nat
  W : Fin dout → Fin din → ℝ
  b : Fin dout → ℝ
  pre : (Fin D → ℝ) → Fin S × Fin din → ℝ
  post : (Fin D → ℝ) × (Fin S × Fin dout → ℝ) → Fin D → ℝ

variable {D : Nat}

/-- Entry of the weight. A parameter of shape `(d_out, ...)` is flattened to a matrix with `d_out` rows
(`kfac.py:368-372`). -/
def Stage.weight (shapes : List (List Nat)) (θ : Nat → ℝ) (st : Stage D) (o : Fin st.dout) (i : Fin st.din) : ℝ :=
  match st.pos with
  | .both w _ => θ (offset shapes w + (o * st.din + i))
  | .weight w => θ (offset shapes w + (o * st.din + i))
  | .bias _ => st.W o i

/-- Entry of the bias. -/
def Stage.bias (shapes : List (List Nat)) (θ : Nat → ℝ) (st : Stage D) (o : Fin st.dout) : ℝ :=
  match st.pos with
  | .both _ b => θ (offset shapes b + o)
  | .weight _ => st.b o
  | .bias b => θ (offset shapes b + o)

/-- Output of the layer. -/
def Stage.layerOut (shapes : List (List Nat)) (θ : Nat → ℝ) (st : Stage D) (x : Fin st.S × Fin st.din → ℝ) :
    Fin st.S × Fin st.dout → ℝ := fun z =>
  ∑ i, st.weight shapes θ z.2 i * x (z.1, i) + st.bias shapes θ z.2

/-- The state after the layer. -/
def Stage.step (shapes : List (List Nat)) (θ : Nat → ℝ) (st : Stage D) (h : Fin D → ℝ) : Fin D → ℝ :=
  st.post (h, st.layerOut shapes θ (st.pre h))

/-- The forward pass through some layers. -/
def forward (shapes : List (List Nat)) (θ : Nat → ℝ) : List (Stage D) → (Fin D → ℝ) → Fin D → ℝ
  | [], h => h
  | st :: rest, h => forward shapes θ rest (st.step shapes θ h)

/-- What the forward pre-hook of a layer sees (`kfac.py:410-419`, `684`): the layer's input. -/
def hookInput (shapes : List (List Nat)) (θ : Nat → ℝ) : List (Stage D) → (Fin D → ℝ) → String → Nat → Nat → ℝ
  | [], _, _, _, _ => 0
  | st :: rest, h, name, s, i =>
    if st.name = name then (if hsi : s < st.S ∧ i < st.din then st.pre h (⟨s, hsi.1⟩, ⟨i, hsi.2⟩) else 0)
    else hookInput shapes θ rest (st.step shapes θ h) name s i

/-- What the hook on a layer's output sees when back-propagating from the scalar `R` of the last state
(`kfac.py:421-427`, `622-625`, `639`): the derivative with respect to the layer's output. -/
noncomputable def hookGrad (shapes : List (List Nat)) (θ : Nat → ℝ) (R : (Fin D → ℝ) → ℝ) :
    List (Stage D) → (Fin D → ℝ) → String → Nat → Nat → ℝ
  | [], _, _, _, _ => 0
  | st :: rest, h, name, s, o =>
    if st.name = name then (if hso : s < st.S ∧ o < st.dout then
      pderiv (fun z => R (forward shapes θ rest (st.post (h, z)))) (⟨s, hso.1⟩, ⟨o, hso.2⟩) (st.layerOut shapes θ (st.pre h))
      else 0)
    else hookGrad shapes θ R rest (st.step shapes θ h) name s o

/-- A network: its layers, and the prediction (`T` loss terms per datum, output dimension `C`) as function of the last
state. -/
structure SeqNet (D T C : Nat) where
  stages : List (Stage D)
  out : (Fin D → ℝ) → Fin T → Fin C → ℝ

variable {T C : Nat} {k : LossKind}

/-- The prediction for the input `h` (the first state). -/
def SeqNet.predict (shapes : List (List Nat)) (net : SeqNet D T C) (h : Fin D → ℝ) (θ : Nat → ℝ) : Fin T → Fin C → ℝ :=
  net.out (forward shapes θ net.stages h)

/-- What KFAC's hooks see of a datum (`KDatum`), for given square roots of the loss Hessian and gradients of the loss. -/
noncomputable def SeqNet.datum (shapes : List (List Nat)) (net : SeqNet D T C) (θ : Nat → ℝ) (h : Fin D → ℝ)
    (sqrt lossGrad : Nat → Nat → Nat → ℝ) : KDatum where
  x := hookInput shapes θ net.stages h
  jac := fun name s o t c => if htc : t < T ∧ c < C then
    hookGrad shapes θ (fun z => net.out z ⟨t, htc.1⟩ ⟨c, htc.2⟩) net.stages h name s o else 0
  sqrt := sqrt
  lossGrad := lossGrad

/-- The loss terms of a datum with labels `y`, with the Jacobians of the predictions in the parameters. -/
noncomputable def SeqNet.terms (shapes : List (List Nat)) (net : SeqNet D T C) (θ : Nat → ℝ) (h : Fin D → ℝ)
    (y : Fin T → TermTarget k C) : List (Term k C) :=
  List.ofFn fun t => ⟨fun c p => if hc : c < C then pderiv (fun θ => net.predict shapes h θ t ⟨c, hc⟩) p θ else 0,
    net.predict shapes h θ t, y t⟩

end Curvlinops
