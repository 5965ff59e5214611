import Verif.Spec.Dense
import Mathlib.Algebra.Field.Defs
import Mathlib.Algebra.BigOperators.Group.List.Basic

/-!
# Specification: scaled sums over data and block structure
-/

namespace Curvlinops

/-- The sum over the data of the per-datum matrices, scaled: `c = 1` for 'sum', `c = 1/N` for 'mean'. -/
def sumMatrix {α : Type _} [AddMonoid α] (as : List (Mat α)) : Mat α := fun r c =>
  (as.map fun a => a r c).sum

/-- Index of the block that contains a coordinate, for consecutive blocks of the given dimensions. -/
def blockIndex : List Nat → Nat → Nat
  | [], _ => 0
  | d :: ds, r => if r < d then 0 else blockIndex ds (r - d) + 1

/-- The block-diagonal part of a matrix: entries whose row and column lie in different blocks are zero. -/
def blockDiagonal {α : Type _} [Zero α] (dims : List Nat) (H : Mat α) : Mat α := fun r c =>
  if blockIndex dims r = blockIndex dims c then H r c else 0

end Curvlinops
