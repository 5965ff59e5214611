import Verif.Spec.Kron
import Verif.Lemmas.Columns

/-!
# Specification: operators on some of the parameters

A selection is a list of positions in the parameter list, each at most once and in any order.
-/

namespace Curvlinops

/-- The positions exist and are different. -/
structure Selects (shapes : List (List Nat)) (sel : List Nat) : Prop where
  nodup : sel.Nodup
  lt : ∀ p ∈ sel, p < shapes.length

/-- The shapes of the selected parameters. -/
def selShapes (shapes : List (List Nat)) (sel : List Nat) : List (List Nat) := sel.map fun p => shapes.getD p []

/-- Where coordinate `r` of the concatenated selected parameters is in the concatenation of all parameters. -/
def selIndex (shapes : List (List Nat)) : List Nat → Nat → Nat
  | [], _ => total shapes
  | p :: sel, r => if r < (shapes.getD p []).prod then offset shapes p + r
      else selIndex shapes sel (r - (shapes.getD p []).prod)

/-- The selected tensors. -/
def pickParams {α : Type _} (sel : List Nat) (Y : List (Tensor α)) : List (Tensor α) := sel.map fun p => Y.getD p ⟨[], []⟩

/-- The given tensors at the selected positions, zeros for the other parameters. -/
def padParams {α : Type _} [Zero α] (shapes : List (List Nat)) (sel : List Nat) (K : Nat) (M : List (Tensor α)) :
    List (Tensor α) :=
  (List.range shapes.length).map fun p => if p ∈ sel then M.getD (sel.idxOf p) ⟨[], []⟩
    else ⟨shapes.getD p [] ++ [K], List.replicate ((shapes.getD p [] ++ [K]).prod) 0⟩

/-- The sub-matrix of the selected parameters. -/
def subMatrix {α : Type _} (shapes : List (List Nat)) (sel : List Nat) (A : Mat α) : Mat α := fun r c =>
  A (selIndex shapes sel r) (selIndex shapes sel c)

end Curvlinops
