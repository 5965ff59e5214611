import Mathlib.Data.Rat.Defs
import Mathlib.Algebra.BigOperators.Group.List.Basic

/-!
# Model of the example program that shows curvature matrices

`docs/examples/basic_usage/example_visual_tour.py:66-71, 98, 163-175`. The model is a sequence of children; a child is the list of its
parameters, each with its shape and with `requires_grad`. Simplifications: no parameter is shared by two children, so that
`model.parameters()` is the concatenation over the children; drawing is not modelled.
-/

namespace Curvlinops

/-- A child: shapes of the parameters and whether they require gradients. -/
abbrev Child := List (List Nat × Bool)

/-- The shapes of `[p for p in model.parameters() if p.requires_grad]` (`example_visual_tour.py:66`). -/
def tourParams (children : List Child) : List (List Nat) := (children.flatten.filter fun p => p.2).map fun p => p.1

/-- `num_params` (`example_visual_tour.py:67`). -/
def tourNumParams (children : List Child) : Nat := ((tourParams children).map List.prod).sum

/-- `num_params_layer` (`example_visual_tour.py:68-70`). -/
def numParamsLayer (children : List Child) : List Nat := children.map fun c => (c.map fun p => p.1.prod).sum

/-- `num_tensors_layer` (`example_visual_tour.py:71`). -/
def numTensorsLayer (children : List Child) : List Nat := children.map List.length

/-- `[s for s in num_tensors_layer if s != 0]` (`example_visual_tour.py:98`). -/
def tourBlockSizes (children : List Child) : List Int := ((numTensorsLayer children).filter fun s => s ≠ 0).map fun s : Nat => (s : Int)

/-- `numpy.cumsum`, continued from a partial sum. -/
def cumsumFrom (s : Nat) : List Nat → List Nat
  | [] => []
  | d :: ds => (s + d) :: cumsumFrom (s + d) ds

/-- `boundaries` (`example_visual_tour.py:163`). -/
def tourBoundaries (children : List Child) : List Nat := 0 :: cumsumFrom 0 (numParamsLayer children)

/-- The positions of lines between layers (`example_visual_tour.py:164-168`). -/
def tourLines (children : List Child) : List Nat :=
  ((tourBoundaries children).filter fun pos => pos ≠ 0 ∧ pos ≠ tourNumParams children).map fun pos => pos - 1

/-- `label_positions` (`example_visual_tour.py:171-175`). -/
def tourLabels (children : List Child) : List ℚ :=
  (List.range ((tourBoundaries children).length - 1)).filterMap fun i =>
    let a := (tourBoundaries children).getD i 0
    let b := (tourBoundaries children).getD (i + 1) 0
    if a ≠ b then some (((a : ℚ) + (b : ℚ)) / 2) else none

end Curvlinops
