import Verif.Spec.Kron
import Verif.Model.KfacProduct

/-!
# Specification: the blocks of KFAC

A supported layer has a weight, a bias, or both; the first dimension of the weight is the output dimension. The
layers' parameters are given by their positions in the parameter list.
-/

namespace Curvlinops

/-- Which parameters of a layer are in the parameter list, and where. -/
inductive LayerPos
  | both (w b : Nat)
  | weight (w : Nat)
  | bias (b : Nat)

/-- The entry of the mapping, in the order in which modules list their parameters. -/
def LayerPos.dict : LayerPos → Dict Nat
  | .both w b => [("weight", w), ("bias", b)]
  | .weight w => [("weight", w)]
  | .bias b => [("bias", b)]

/-- The positions. -/
def LayerPos.positions : LayerPos → List Nat
  | .both w b => [w, b]
  | .weight w => [w]
  | .bias b => [b]

/-- The layer has a weight in the parameter list. -/
def LayerPos.hasWeight : LayerPos → Bool
  | .both _ _ => true
  | .weight _ => true
  | .bias _ => false

/-- A layer with its Kronecker factors `A` (input) and `B` (gradient). -/
structure Layer (α : Type _) where
  name : String
  pos : LayerPos
  A : Factor α
  B : Factor α

variable {α : Type _}

/-- The number of columns of a weight seen as a matrix. -/
def wCols (shapes : List (List Nat)) (w : Nat) : Nat := ((shapes.getD w []).tail).prod

/-- The shapes of the parameters and factors fit together. The joint treatment adds one column for the bias. -/
def Layer.Fits (sep : Bool) (shapes : List (List Nat)) (l : Layer α) : Prop :=
  match l.pos with
  | .both w b => (shapes.getD w []).head? = some l.B.dim ∧ shapes.getD b [] = [l.B.dim] ∧
      l.A.dim = wCols shapes w + (if sep then 0 else 1)
  | .weight w => (shapes.getD w []).head? = some l.B.dim ∧ l.A.dim = wCols shapes w
  | .bias b => shapes.getD b [] = [l.B.dim]

/-- A weight: `W ↦ B W A`. -/
def Layer.wBlock (shapes : List (List Nat)) (l : Layer α) (w : Nat) : KBlock α :=
  ⟨l.B.dim, wCols shapes w, l.A.mat, l.B.mat, fun i j => offset shapes w + (i * wCols shapes w + j)⟩

/-- A bias, as a matrix with one column: `b ↦ B b`. -/
def Layer.bBlock [One α] (shapes : List (List Nat)) (l : Layer α) (b : Nat) : KBlock α :=
  ⟨l.B.dim, 1, fun _ _ => 1, l.B.mat, fun i _ => offset shapes b + i⟩

/-- Joint weight and bias: `[W b] ↦ B [W b] A`, with the bias as last column. -/
def Layer.jBlock (shapes : List (List Nat)) (l : Layer α) (w b : Nat) : KBlock α :=
  ⟨l.B.dim, wCols shapes w + 1, l.A.mat, l.B.mat, fun i j =>
    if j < wCols shapes w then offset shapes w + (i * wCols shapes w + j) else offset shapes b + i⟩

/-- The blocks of a layer. -/
def Layer.blocks [One α] (sep : Bool) (shapes : List (List Nat)) (l : Layer α) : List (KBlock α) :=
  match l.pos with
  | .both w b => if sep then [l.wBlock shapes w, l.bBlock shapes b] else [l.jBlock shapes w b]
  | .weight w => [l.wBlock shapes w]
  | .bias b => [l.bBlock shapes b]

/-- The layers describe the operator's mapping and factors: every parameter belongs to exactly one layer, the
dictionaries have the factors under the layers' names, and shapes fit. An input covariance is needed only for layers
with a weight. -/
structure KfacLayers (sep : Bool) (shapes : List (List Nat)) (mapping : Dict (Dict Nat)) (inCov gradCov : Dict (Factor α))
    (layers : List (Layer α)) : Prop where
  mapping_eq : mapping = layers.map fun l => (l.name, l.pos.dict)
  perm : (layers.flatMap fun l => l.pos.positions).Perm (List.range shapes.length)
  inCov_get : ∀ l ∈ layers, l.pos.hasWeight = true → inCov.get l.name = some l.A
  gradCov_get : ∀ l ∈ layers, gradCov.get l.name = some l.B
  fits : ∀ l ∈ layers, l.Fits sep shapes

/-- All blocks. -/
def kfacBlocks [One α] (sep : Bool) (shapes : List (List Nat)) (layers : List (Layer α)) : List (KBlock α) :=
  layers.flatMap fun l => l.blocks sep shapes

end Curvlinops
