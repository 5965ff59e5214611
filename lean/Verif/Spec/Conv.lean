import Verif.Model.Patches
import Verif.Model.Tensor

/-!
# Specification: two-dimensional convolution

From the documentation of `torch.nn.Conv2d`, for one group and one sample.
-/

namespace Curvlinops

/-- The parameter `padding_mode`: how the image is continued. -/
inductive PadMode
  | zeros
  | circular

variable {α : Type _} [Field α]

/-- The continued image. -/
def Image.read (x : Image α) (c : Nat) (i j : Int) : PadMode → α
  | .zeros => if (0 ≤ i ∧ i < x.I1) ∧ 0 ≤ j ∧ j < x.I2 then x.val c i.toNat j.toNat else 0
  | .circular => x.val c (i % x.I1).toNat (j % x.I2).toNat

/-- Entry `(o, o1, o2)` of the output of a convolution (without bias) whose weight has the shape `[O, C, K1, K2]`, with the
given padding at the start of the two dimensions. -/
def conv2d (mode : PadMode) (x : Image α) (W : Nat → Nat → Nat → Nat → α) (K S D P : Nat × Nat) (o o1 o2 : Nat) : α :=
  ∑ c ∈ Finset.range x.C, ∑ k1 ∈ Finset.range K.1, ∑ k2 ∈ Finset.range K.2,
    W o c k1 k2 * x.read c ((o1 : Int) * S.1 + k1 * D.1 - P.1) ((o2 : Int) * S.2 + k2 * D.2 - P.2) mode

/-- Number of output locations of a convolution, from the documentation:
`floor((I + 2 * padding - dilation * (kernel_size - 1) - 1) / stride + 1)`. -/
def convLocations (I k s p d : Nat) : Int := ((I : Int) + 2 * p - d * (k - 1) - 1) / s + 1

end Curvlinops
