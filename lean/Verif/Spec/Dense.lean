import Verif.Model.TorchBase
import Mathlib.Algebra.BigOperators.Intervals

/-!
# Specification: dense matrices acting on row-major lists

Independent of the model of `__matmul__`; only the tensor type and the operator record are used.
-/

namespace Curvlinops

/-- A dense matrix given by its entries; dimensions are stated separately. -/
abbrev Mat (α : Type _) := Nat → Nat → α

/-- `y` is the row-major list of the `M × K` product of the `M × N` matrix `A` with the `N × K` matrix whose
row-major list is `x`. -/
def IsProduct {α : Type _} [NonUnitalNonAssocSemiring α] (A : Mat α) (M N K : Nat) (x y : List α) :
    Prop :=
  y.length = M * K ∧
    ∀ r < M, ∀ k < K,
      y.getD (r * K + k) 0 = ∑ c ∈ Finset.range N, A r c * x.getD (c * K + k) 0

/-- The tensors are well-formed and have the given shapes with a trailing dimension `K`. -/
def HasShapes {α : Type _} (ts : List (Tensor α)) (shapes : List (List Nat)) (K : Nat) : Prop :=
  ts.map (·.shape) = shapes.map (· ++ [K]) ∧ ∀ t ∈ ts, t.WF

/-- The operator's `_matmat` multiplies with the dense matrix `A` on matrices with `K` columns. -/
def RepresentsAt {α : Type _} [NonUnitalNonAssocSemiring α] (op : LinOp α) (A : Mat α) (K : Nat) :
    Prop :=
  ∀ Xs : List (Tensor α), HasShapes Xs op.inShape K →
    ∃ Ys, (op.matmat Xs).1 = .ok Ys ∧ HasShapes Ys op.outShape K ∧
      IsProduct A op.nrows op.ncols K (flatData Xs) (flatData Ys)

/-- The operator's `_matmat` multiplies with the dense matrix `A` on every matrix in tensor list format. -/
def Represents {α : Type _} [NonUnitalNonAssocSemiring α] (op : LinOp α) (A : Mat α) : Prop :=
  ∀ K, RepresentsAt op A K

/-- Vector or matrix with `K` columns. -/
inductive Fmt
  | vec
  | mat (K : Nat)

/-- Trailing dimensions of a vector/matrix. -/
def Fmt.dims : Fmt → List Nat
  | .vec => []
  | .mat K => [K]

/-- Number of columns; a vector is a single column. -/
def Fmt.cols : Fmt → Nat
  | .vec => 1
  | .mat K => K

/-- `X` is a tensor of total dimension `n`, or a tensor list with the given shapes, with the trailing
dimensions of the format (docstring `_torch_base.py:81-96`). -/
def InSpace {α : Type _} (shapes : List (List Nat)) (f : Fmt) : PyVal α → Prop
  | .tensor t => t.shape = (shapes.map List.prod).sum :: f.dims
  | .list ts => ts.map (·.shape) = shapes.map (· ++ f.dims)
  | .other => False

/-- Both are tensors, or both are lists. -/
def SameKind {α : Type _} : PyVal α → PyVal α → Prop
  | .tensor _, .tensor _ => True
  | .list _, .list _ => True
  | _, _ => False

/-- The documented inputs of `@`. -/
def Accepted {α : Type _} (op : LinOp α) (X : PyVal α) : Prop := ∃ f, InSpace op.inShape f X

/-- Flattened entries of a tensor or tensor list. -/
def PyVal.entries {α : Type _} : PyVal α → List α
  | .tensor t => t.data
  | .list ts => flatData ts
  | .other => []

/-- All tensors in the value are well-formed. -/
def PyVal.WF {α : Type _} : PyVal α → Prop
  | .tensor t => t.WF
  | .list ts => ∀ t ∈ ts, t.WF
  | .other => True

end Curvlinops
