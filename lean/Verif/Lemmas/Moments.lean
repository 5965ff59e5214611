import Mathlib.MeasureTheory.Integral.Pi
import Mathlib.Probability.Distributions.Gaussian.Real
import Mathlib.Data.Matrix.Mul
import Mathlib.LinearAlgebra.Matrix.Trace

/-!
# Second moments of Rademacher and standard normal vectors
-/

namespace Curvlinops

open Matrix MeasureTheory ProbabilityTheory

variable {n : Nat}

/-- `±1` for a boolean. -/
def sgn {α : Type _} [Ring α] (b : Bool) : α := if b then 1 else -1

/-- Average over all `2 ^ n` sign vectors, i.e. the expectation for i.i.d. fair bits. -/
noncomputable def signMean {α : Type _} [Field α] {n : Nat} (F : (Fin n → Bool) → α) : α :=
  (∑ b, F b) / 2 ^ n

theorem signMean_moment {α : Type _} [Field α] [CharZero α] (i j : Fin n) :
    signMean (fun b => sgn (b i) * sgn (b j) : (Fin n → Bool) → α) = if i = j then 1 else 0 := by
  unfold signMean
  split_ifs with h
  · subst h
    have : ∀ b : Fin n → Bool, (sgn (b i) * sgn (b i) : α) = 1 := fun b => by
      unfold sgn; split_ifs <;> ring
    simp only [this, Finset.sum_const, Finset.card_univ, Fintype.card_fun, Fintype.card_bool,
      Fintype.card_fin, nsmul_eq_mul, mul_one, Nat.cast_pow, Nat.cast_ofNat]
    exact div_self (pow_ne_zero _ two_ne_zero)
  · have hflip : ∑ b : Fin n → Bool, (sgn (b i) * sgn (b j) : α) =
        ∑ b : Fin n → Bool, -(sgn (b i) * sgn (b j) : α) := by
      refine Finset.sum_bij' (fun b _ => Function.update b i (!b i)) (fun b _ => Function.update b i (!b i))
        (by simp) (by simp) ?_ ?_ ?_
      · intro b _
        funext k
        by_cases hk : k = i
        · subst hk; simp
        · simp [hk]
      · intro b _
        funext k
        by_cases hk : k = i
        · subst hk; simp
        · simp [hk]
      · intro b _
        rw [Function.update_self, Function.update_of_ne (Ne.symm h)]
        unfold sgn
        cases b i <;> cases b j <;> simp
    rw [Finset.sum_neg_distrib] at hflip
    have : (2 : α) * ∑ b : Fin n → Bool, (sgn (b i) * sgn (b j) : α) = 0 := by
      rw [two_mul]; nth_rewrite 1 [hflip]; ring
    rw [(mul_eq_zero.mp this).resolve_left two_ne_zero, zero_div]

/-- The expectation of a quadratic form in a Rademacher vector is the trace. -/
theorem signMean_quad {α : Type _} [Field α] [CharZero α] (B : Matrix (Fin n) (Fin n) α) :
    signMean (fun b => (fun i => sgn (b i)) ⬝ᵥ (B *ᵥ fun i => sgn (b i))) = B.trace := by
  have h : ∀ b : Fin n → Bool, ((fun i => sgn (b i)) ⬝ᵥ (B *ᵥ fun i => sgn (b i)) : α) =
      ∑ i, ∑ j, B i j * (sgn (b i) * sgn (b j)) := fun b => by
    simp only [dotProduct, mulVec, Finset.mul_sum]
    exact Finset.sum_congr rfl fun _ _ => Finset.sum_congr rfl fun _ _ => by ring
  have key : signMean (fun b => ∑ i, ∑ j, B i j * (sgn (b i) * sgn (b j) : α)) =
      ∑ i, ∑ j, B i j * signMean (fun b : Fin n → Bool => (sgn (b i) * sgn (b j) : α)) := by
    unfold signMean
    rw [Finset.sum_comm, Finset.sum_div]
    refine Finset.sum_congr rfl fun i _ => ?_
    rw [Finset.sum_comm, Finset.sum_div]
    refine Finset.sum_congr rfl fun j _ => ?_
    rw [← Finset.mul_sum, mul_div_assoc]
  simp only [h]
  rw [key]
  simp [signMean_moment, Matrix.trace]

/-- The law of `randn(n)`: i.i.d. standard normal entries. -/
noncomputable def stdNormal (n : Nat) : Measure (Fin n → ℝ) := Measure.pi fun _ => gaussianReal 0 1

instance : IsProbabilityMeasure (stdNormal n) := by
  unfold stdNormal; infer_instance

theorem integral_sq_gaussian : ∫ x, x * x ∂gaussianReal 0 1 = 1 := by
  have h := variance_fun_id_gaussianReal (μ := 0) (v := 1)
  rw [variance_eq_integral (by fun_prop)] at h
  simp only [integral_id_gaussianReal, sub_zero] at h
  simpa [sq] using h

theorem integrable_id_gaussian : Integrable (fun x => x) (gaussianReal 0 1) :=
  (memLp_id_gaussianReal 1).integrable (le_refl _)

theorem integrable_sq_gaussian : Integrable (fun x => x * x) (gaussianReal 0 1) := by
  have := (memLp_id_gaussianReal (μ := 0) (v := 1) 2).integrable_sq
  simpa [sq] using this

/-- `v i * v j` as product of functions of the single coordinates. -/
theorem prod_form (i j : Fin n) (v : Fin n → ℝ) :
    v i * v j = ∏ k, ((if k = i then v k else 1) * (if k = j then v k else 1)) := by
  rw [Finset.prod_mul_distrib]
  simp

theorem gaussian_factor_integral (i j k : Fin n) :
    ∫ x, ((if k = i then x else 1) * (if k = j then x else 1)) ∂gaussianReal 0 1 =
      if k = i then (if k = j then 1 else 0) else (if k = j then 0 else 1) := by
  split_ifs <;> simp [integral_sq_gaussian, integral_id_gaussianReal]

theorem gaussian_factor_integrable (i j k : Fin n) :
    Integrable (fun x : ℝ => (if k = i then x else 1) * (if k = j then x else 1)) (gaussianReal 0 1) := by
  split_ifs
  · exact integrable_sq_gaussian
  · simpa using integrable_id_gaussian
  · simpa using integrable_id_gaussian
  · simp

theorem stdNormal_integrable (i j : Fin n) : Integrable (fun v => v i * v j) (stdNormal n) := by
  simp only [prod_form i j]
  exact Integrable.fintype_prod (f := fun k x => (if k = i then x else 1) * (if k = j then x else 1))
    fun k => gaussian_factor_integrable i j k

theorem stdNormal_moment (i j : Fin n) :
    ∫ v, v i * v j ∂stdNormal n = if i = j then 1 else 0 := by
  simp only [prod_form i j]
  have := integral_fintype_prod_eq_prod (μ := fun _ : Fin n => gaussianReal 0 1)
    (fun (k : Fin n) (x : ℝ) => (if k = i then x else 1) * (if k = j then x else 1))
  rw [stdNormal, this]
  simp only [gaussian_factor_integral]
  split_ifs with h
  · subst h
    refine Finset.prod_eq_one fun k _ => ?_
    split_ifs <;> rfl
  · refine Finset.prod_eq_zero (Finset.mem_univ i) ?_
    simp [h]

/-- The expectation of a quadratic form in a standard normal vector is the trace. -/
theorem stdNormal_quad (B : Matrix (Fin n) (Fin n) ℝ) :
    Integrable (fun v => v ⬝ᵥ (B *ᵥ v)) (stdNormal n) ∧
    ∫ v, v ⬝ᵥ (B *ᵥ v) ∂stdNormal n = B.trace := by
  have h : ∀ v : Fin n → ℝ, v ⬝ᵥ (B *ᵥ v) = ∑ i, ∑ j, B i j * (v i * v j) := fun v => by
    simp only [dotProduct, mulVec, Finset.mul_sum]
    exact Finset.sum_congr rfl fun _ _ => Finset.sum_congr rfl fun _ _ => by ring
  simp only [h]
  have hint : ∀ i j, Integrable (fun v : Fin n → ℝ => B i j * (v i * v j)) (stdNormal n) :=
    fun i j => (stdNormal_integrable i j).const_mul _
  constructor
  · exact integrable_finsetSum _ fun i _ => integrable_finsetSum _ fun j _ => hint i j
  · rw [integral_finsetSum _ fun i _ => integrable_finsetSum _ fun j _ => hint i j]
    simp only [integral_finsetSum _ fun j _ => hint _ j, integral_const_mul, stdNormal_moment]
    simp [Matrix.trace]

/-- The expectation of `v i * (B v) i`. -/
theorem stdNormal_diag {m : Nat} (B : Matrix (Fin m) (Fin m) ℝ) (i : Fin m) :
    Integrable (fun v => v i * (B *ᵥ v) i) (stdNormal m) ∧
    ∫ v, v i * (B *ᵥ v) i ∂stdNormal m = B i i := by
  have h : ∀ v : Fin m → ℝ, v i * (B *ᵥ v) i = ∑ j, B i j * (v i * v j) := fun v => by
    simp only [dotProduct, mulVec, Finset.mul_sum]
    exact Finset.sum_congr rfl fun _ _ => by ring
  simp only [h]
  have hint : ∀ j, Integrable (fun v : Fin m → ℝ => B i j * (v i * v j)) (stdNormal m) :=
    fun j => (stdNormal_integrable i j).const_mul _
  constructor
  · exact integrable_finsetSum _ fun j _ => hint j
  · rw [integral_finsetSum _ fun j _ => hint j]
    simp [integral_const_mul, stdNormal_moment]

theorem signMean_diag {α : Type _} [Field α] [CharZero α] (B : Matrix (Fin n) (Fin n) α) (i : Fin n) :
    signMean (fun b => sgn (b i) * (B *ᵥ fun i => sgn (b i)) i) = B i i := by
  have h : ∀ b : Fin n → Bool, (sgn (b i) * (B *ᵥ fun i => sgn (b i)) i : α) =
      ∑ j, B i j * (sgn (b i) * sgn (b j)) := fun b => by
    simp only [dotProduct, mulVec, Finset.mul_sum]
    exact Finset.sum_congr rfl fun _ _ => by ring
  have key : signMean (fun b => ∑ j, B i j * (sgn (b i) * sgn (b j) : α)) =
      ∑ j, B i j * signMean (fun b : Fin n → Bool => (sgn (b i) * sgn (b j) : α)) := by
    unfold signMean
    rw [Finset.sum_comm, Finset.sum_div]
    refine Finset.sum_congr rfl fun j _ => ?_
    rw [← Finset.mul_sum, mul_div_assoc]
  simp only [h]
  rw [key]
  simp [signMean_moment]

end Curvlinops
