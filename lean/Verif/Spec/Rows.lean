import Verif.Spec.Dense

/-!
# Specification: rows of per-datum matrices in data order
-/

namespace Curvlinops

variable {α : Type _}

/-- The matrix whose row `n * C + c` is row `c` of the `n`-th matrix. -/
def rowsOf [Zero α] (C : Nat) (Js : List (Mat α)) : Mat α := fun s p =>
  match Js[s / C]? with
  | some J => J (s % C) p
  | none => 0

end Curvlinops
