import Verif.Model.Py
import Mathlib.Algebra.BigOperators.Group.Finset.Basic
import Mathlib.Algebra.Field.Defs

/-!
# Model of `extract_patches` and `extract_averaged_patches` (`/repo/curvlinops/kfac_utils.py:144-246`)

Both functions treat the samples of a batch independently; the model is for one sample. PyTorch's `unfold` and the
functions `get_conv_paddings` and `index_pattern` of the package `einconv` are modelled from their documentation.
-/

namespace Curvlinops

/-- An integer or a 2-tuple. -/
inductive IntOrPair
  | int (n : Nat)
  | pair (a b : Nat)

/-- `_pair`. -/
def IntOrPair.both : IntOrPair → Nat × Nat
  | .int n => (n, n)
  | .pair a b => (a, b)

/-- The `padding` argument. -/
inductive Padding
  | ints (p : IntOrPair)
  | str (s : String)

/-- An image with `C` channels of size `I1 × I2`. -/
structure Image (α : Type _) where
  C : Nat
  I1 : Nat
  I2 : Nat
  val : Nat → Nat → Nat → α

/-- A matrix with its dimensions. -/
structure DMat (α : Type _) where
  rows : Nat
  cols : Nat
  val : Nat → Nat → α

variable {α : Type _} [Field α]

/-- `einconv.utils.get_conv_paddings` for a string. -/
def getConvPaddings (k s : Nat) (padding : String) (d : Nat) : Py (Nat × Nat) :=
  if padding = "valid" then .ok (0, 0)
  else if padding = "same" then
    if s ≠ 1 then .error .valueError
    else .ok (d * (k - 1) / 2, d * (k - 1) - d * (k - 1) / 2)
  else .error .valueError

/-- `rearrange(x, "b (g c_in) i1 i2 -> b g c_in i1 i2", g=groups)` and `reduce(..., "mean")` (`kfac_utils.py:183-184`,
`219-220`). Raises if the number of channels is not divisible. -/
def averageGroups (groups : Nat) (x : Image α) : Py (Image α) :=
  if groups = 0 ∨ x.C % groups ≠ 0 then .error .runtimeError
  else .ok ⟨x.C / groups, x.I1, x.I2, fun c i j =>
    (∑ g ∈ Finset.range groups, x.val (g * (x.C / groups) + c) i j) / groups⟩

/-- The image, surrounded by zeros. -/
def Image.padded (x : Image α) (c : Nat) (i j : Int) : α :=
  if 0 ≤ i ∧ i < x.I1 ∧ 0 ≤ j ∧ j < x.I2 then x.val c i.toNat j.toNat else 0

/-- Number of output locations along a dimension of size `i`. Kernels that do not fit raise. -/
def convOutSize (i k s pl pr d : Nat) : Py Nat :=
  if k = 0 ∨ s = 0 ∨ i + pl + pr < d * (k - 1) + 1 then .error .runtimeError
  else .ok ((i + pl + pr - (d * (k - 1) + 1)) / s + 1)

/-- `torch.nn.functional.unfold`: rows are indexed by channel and kernel position, columns by output location, both in
row-major order. -/
def unfold (x : Image α) (K D P S : Nat × Nat) : Py (DMat α) := do
  let O1 ← convOutSize x.I1 K.1 S.1 P.1 P.1 D.1
  let O2 ← convOutSize x.I2 K.2 S.2 P.2 P.2 D.2
  .ok ⟨x.C * (K.1 * K.2), O1 * O2, fun f o => x.padded (f / (K.1 * K.2))
    (((o / O2 * S.1 + f / K.2 % K.1 * D.1 : Nat) : Int) - P.1) (((o % O2 * S.2 + f % K.2 * D.2 : Nat) : Int) - P.2)⟩

/-- The padding of one dimension in the loop of `extract_patches` (`kfac_utils.py:175-179`). -/
def equalPadding (k s : Nat) (padding : String) (d : Nat) : Py Nat := do
  let (l, r) ← getConvPaddings k s padding d
  if l ≠ r then .error .notImplementedError else .ok l

/-- The padding as integers (`kfac_utils.py:173-180`). -/
def paddingInts (K S : Nat × Nat) (D : Nat × Nat) : Padding → Py (Nat × Nat)
  | .ints p => .ok p.both
  | .str s => do
    let p1 ← equalPadding K.1 S.1 s D.1
    let p2 ← equalPadding K.2 S.2 s D.2
    .ok (p1, p2)

/-- `extract_patches` (`kfac_utils.py:144-187`): rows are output locations. -/
def extractPatches (x : Image α) (kernel stride : IntOrPair) (padding : Padding) (dilation : IntOrPair) (groups : Nat) :
    Py (DMat α) := do
  let P ← paddingInts kernel.both stride.both dilation.both padding
  let x ← averageGroups groups x
  let u ← unfold x kernel.both dilation.both P stride.both
  .ok ⟨u.cols, u.rows, fun o f => u.val f o⟩

/-- The left and right padding that `index_pattern` uses along a dimension; an integer is used on both sides. -/
def sidePadding (k s d : Nat) (first : Bool) : Padding → Py (Nat × Nat)
  | .ints p => .ok (if first then (p.both.1, p.both.1) else (p.both.2, p.both.2))
  | .str t => getConvPaddings k s t d

/-- `einconv.index_pattern`: number of output locations, and
the tensor that is one if the kernel element `k` touches the input element `i` at the output location `o`. -/
def indexPattern (i k s d pl pr : Nat) : Py (Nat × (Nat → Nat → Nat → α)) := do
  let O ← convOutSize i k s pl pr d
  .ok (O, fun k o i => if (i : Int) = ((k * d + o * s : Nat) : Int) - pl then 1 else 0)

/-- `reduce(pi, "k o i -> k i", "mean")` of the index pattern (`kfac_utils.py:239-242`). -/
def meanPattern (i k s d pl pr : Nat) : Py (Nat → Nat → α) := do
  let (O, pi) ← indexPattern i k s d pl pr
  .ok fun k i => (∑ o ∈ Finset.range O, pi k o i) / O

/-- `extract_averaged_patches` (`kfac_utils.py:190-246`): number of features, and the averaged patch. -/
def extractAveragedPatches (x : Image α) (kernel stride : IntOrPair) (padding : Padding) (dilation : IntOrPair)
    (groups : Nat) : Py (Nat × (Nat → α)) := do
  let x ← averageGroups groups x
  let K := kernel.both
  let (l1, r1) ← sidePadding K.1 stride.both.1 dilation.both.1 true padding
  let pi1 ← meanPattern x.I1 K.1 stride.both.1 dilation.both.1 l1 r1
  let (l2, r2) ← sidePadding K.2 stride.both.2 dilation.both.2 false padding
  let pi2 ← meanPattern x.I2 K.2 stride.both.2 dilation.both.2 l2 r2
  .ok (x.C * (K.1 * K.2), fun f => ∑ i1 ∈ Finset.range x.I1, ∑ i2 ∈ Finset.range x.I2,
    x.val (f / (K.1 * K.2)) i1 i2 * pi1 (f / K.2 % K.1) i1 * pi2 (f % K.2) i2)

end Curvlinops
