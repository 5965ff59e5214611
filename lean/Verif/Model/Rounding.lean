import Mathlib.Data.Real.Basic

/-!
# Floating point arithmetic

The standard model: the result of an operation is the exact result, rounded with a relative error of at most the unit
round-off (IEEE 754; external code). Simplification: no overflow, no underflow, no infinities and `nan`; one precision (the
normalization factor is a Python `float` that torch converts to the type of the tensors); `add_` with `alpha` rounds the
product and the sum.
-/

namespace Curvlinops

/-- A rounding of the real numbers to the representable ones. -/
structure Rounding where
  /-- unit round-off -/
  u : ℝ
  rnd : ℝ → ℝ
  nonneg : 0 ≤ u
  close : ∀ x, |rnd x - x| ≤ u * |x|
  idem : ∀ x, rnd (rnd x) = rnd x
  one : rnd 1 = 1

/-- The representable numbers: entries of tensors in the loop over the mini-batches (`_torch_base.py:540-547`,
`664-676`). -/
def Fl (ρ : Rounding) : Type := { x : ℝ // ρ.rnd x = x }

namespace Fl

variable {ρ : Rounding}

/-- The real number. -/
def val (x : Fl ρ) : ℝ := x.1

/-- Round a real number. -/
noncomputable def of (ρ : Rounding) (x : ℝ) : Fl ρ := ⟨ρ.rnd x, ρ.idem x⟩

theorem rnd_zero : ρ.rnd 0 = 0 := by simpa using ρ.close 0

/-- Constants and rounded operations of torch, NumPy and Python (external code). -/
noncomputable instance : Zero (Fl ρ) := ⟨⟨0, rnd_zero⟩⟩
noncomputable instance : One (Fl ρ) := ⟨⟨1, ρ.one⟩⟩
noncomputable instance : NatCast (Fl ρ) := ⟨fun n => of ρ n⟩
noncomputable instance : Add (Fl ρ) := ⟨fun a b => of ρ (a.val + b.val)⟩
noncomputable instance : Sub (Fl ρ) := ⟨fun a b => of ρ (a.val - b.val)⟩
noncomputable instance : Mul (Fl ρ) := ⟨fun a b => of ρ (a.val * b.val)⟩
noncomputable instance : Div (Fl ρ) := ⟨fun a b => of ρ (a.val / b.val)⟩

@[simp] theorem val_zero : (0 : Fl ρ).val = 0 := rfl
@[simp] theorem val_one : (1 : Fl ρ).val = 1 := rfl
theorem val_natCast (n : Nat) : (n : Fl ρ).val = ρ.rnd n := rfl
theorem val_add (a b : Fl ρ) : (a + b).val = ρ.rnd (a.val + b.val) := rfl
theorem val_sub (a b : Fl ρ) : (a - b).val = ρ.rnd (a.val - b.val) := rfl
theorem val_mul (a b : Fl ρ) : (a * b).val = ρ.rnd (a.val * b.val) := rfl
theorem val_div (a b : Fl ρ) : (a / b).val = ρ.rnd (a.val / b.val) := rfl
theorem rnd_val (a : Fl ρ) : ρ.rnd a.val = a.val := a.2

theorem ext {a b : Fl ρ} (h : a.val = b.val) : a = b := Subtype.ext h

theorem zero_add' (a : Fl ρ) : 0 + a = a := ext (by rw [val_add, val_zero, zero_add, rnd_val])
theorem one_mul' (a : Fl ρ) : 1 * a = a := ext (by rw [val_mul, val_one, one_mul, rnd_val])

end Fl

end Curvlinops
