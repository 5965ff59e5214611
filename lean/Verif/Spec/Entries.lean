import Verif.Model.Tensor

/-!
# Specification: entries of a tensor by their multi-index
-/

namespace Curvlinops

/-- Row-major position of a multi-index. -/
def ravelIdx : List Nat → List Nat → Nat
  | _ :: ds, i :: is => i * ds.prod + ravelIdx ds is
  | _, _ => 0

/-- A multi-index of a shape. -/
def IsIdx (shape idx : List Nat) : Prop := List.Forall₂ (fun i d => i < d) idx shape

/-- The entry at a multi-index. -/
def Tensor.entryAt {α : Type _} (t : Tensor α) (idx : List Nat) : Option α := t.data[ravelIdx t.shape idx]?

end Curvlinops
