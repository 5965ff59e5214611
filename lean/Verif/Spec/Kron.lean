import Verif.Spec.Dense
import Mathlib.Data.Fintype.BigOperators

/-!
# Specification: block-diagonal matrices with Kronecker-structured blocks

A block acts on a matrix-shaped variable with `rows × cols` entries; `idx i j` is the coordinate of entry `(i, j)` in
the flattened parameter vector. It maps the variable `W` to `B W A`.
-/

namespace Curvlinops

/-- One Kronecker block `W ↦ B W A` and where the entries of `W` sit in the parameter vector. -/
structure KBlock (α : Type _) where
  rows : Nat
  cols : Nat
  A : Nat → Nat → α
  B : Nat → Nat → α
  idx : Nat → Nat → Nat

/-- Coordinates `(block, (i, j))`. -/
abbrev KIdx {α : Type _} (bs : List (KBlock α)) :=
  Σ l : Fin bs.length, Fin (bs[l]).rows × Fin (bs[l]).cols

/-- The coordinate in the parameter vector. -/
def KIdx.pos {α : Type _} {bs : List (KBlock α)} (x : KIdx bs) : Nat := (bs[x.1]).idx x.2.1 x.2.2

/-- Entry of the block-diagonal matrix: zero between different blocks, `B i i' * A j' j` inside a block. -/
def KIdx.entry {α : Type _} [Mul α] [Zero α] {bs : List (KBlock α)} (x y : KIdx bs) : α :=
  if x.1 = y.1 then (bs[x.1]).B x.2.1 y.2.1 * (bs[x.1]).A y.2.2 x.2.2 else 0

/-- The blocks tile the parameter vector of dimension `N`: every coordinate belongs to exactly one entry of one
block. -/
def Tiles {α : Type _} (bs : List (KBlock α)) (N : Nat) : Prop :=
  (∀ x : KIdx bs, x.pos < N) ∧ ∀ r < N, ∃! x : KIdx bs, x.pos = r

/-- `K` is the block-diagonal matrix of the blocks. -/
def IsKron {α : Type _} [Mul α] [Zero α] (bs : List (KBlock α)) (K : Mat α) : Prop :=
  ∀ x y : KIdx bs, K x.pos y.pos = x.entry y

/-- Offset of parameter `p` in the flattened parameter vector. -/
def offset (shapes : List (List Nat)) (p : Nat) : Nat := ((shapes.take p).map List.prod).sum

end Curvlinops
