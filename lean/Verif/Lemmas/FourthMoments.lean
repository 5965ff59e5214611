import Verif.Lemmas.Moments
import Mathlib.Probability.Moments.MGFAnalytic
import Mathlib.Analysis.SpecialFunctions.ExpDeriv
import Mathlib.Tactic.Ring
import Mathlib.Tactic.Linarith

/-!
# Fourth moments of Rademacher and standard normal vectors
-/

namespace Curvlinops

open Matrix MeasureTheory ProbabilityTheory

variable {n : Nat}

/-- How often `m` occurs among four indices. -/
def occ (i j k l m : Fin n) : Nat :=
  (if m = i then 1 else 0) + (if m = j then 1 else 0) + (if m = k then 1 else 0) + (if m = l then 1 else 0)

theorem pow_occ {α : Type _} [CommMonoid α] (v : Fin n → α) (i j k l : Fin n) :
    ∏ m, v m ^ occ i j k l m = v i * v j * v k * v l := by
  simp only [occ, pow_add, Finset.prod_mul_distrib, pow_ite, pow_one, pow_zero]
  simp

/-- The sum over the pairings of four indices, with the correction `e - 3` if all are equal. -/
def pairings {α : Type _} [Ring α] (e : α) (i j k l : Fin n) : α :=
  (if i = j ∧ k = l then 1 else 0) + (if i = k ∧ j = l then 1 else 0) + (if i = l ∧ j = k then 1 else 0) +
    (if i = j ∧ i = k ∧ i = l then e - 3 else 0)

theorem prod_moments {α : Type _} [CommRing α] (e : Nat → α) (h0 : e 0 = 1) (h1 : e 1 = 0) (h2 : e 2 = 1)
    (i j k l : Fin n) : ∏ m, e (occ i j k l m) = pairings (e 4) i j k l := by
  have zero : ∀ m, e (occ i j k l m) = 0 → ∏ m, e (occ i j k l m) = 0 := fun m hm =>
    Finset.prod_eq_zero (Finset.mem_univ m) hm
  by_cases hij : i = j
  · subst hij
    by_cases hkl : k = l
    · subst hkl
      by_cases hik : i = k
      · subst hik
        rw [Finset.prod_eq_single i]
        · simp [occ, pairings]; ring
        · intro m _ hm; simp [occ, hm, h0]
        · simp
      · rw [Finset.prod_eq_one]
        · simp [pairings, hik]
        · intro m _
          by_cases hm : m = i
          · subst hm; simp [occ, hik, h2]
          · by_cases hm' : m = k
            · subst hm'; simp [occ, hm, h2]
            · simp [occ, hm, hm', h0]
    · by_cases hik : i = k
      · subst hik
        rw [zero l (by simp [occ, Ne.symm hkl, h1])]
        simp [pairings, hkl]
      · rw [zero k (by simp [occ, Ne.symm hik, hkl, h1])]
        simp [pairings, hkl, hik]
  · by_cases hik : i = k
    · subst hik
      by_cases hjl : j = l
      · subst hjl
        rw [Finset.prod_eq_one]
        · simp [pairings, hij, Ne.symm hij]
        · intro m _
          by_cases hm : m = i
          · subst hm; simp [occ, hij, h2]
          · by_cases hm' : m = j
            · subst hm'; simp [occ, hm, h2]
            · simp [occ, hm, hm', h0]
      · rw [zero j (by simp [occ, Ne.symm hij, hjl, h1])]
        simp [pairings, hij, hjl, Ne.symm hij]
    · by_cases hil : i = l
      · subst hil
        by_cases hjk : j = k
        · subst hjk
          rw [Finset.prod_eq_one]
          · simp [pairings, hij]
          · intro m _
            by_cases hm : m = i
            · subst hm; simp [occ, hij, h2]
            · by_cases hm' : m = j
              · subst hm'; simp [occ, hm, h2]
              · simp [occ, hm, hm', h0]
        · rw [zero j (by simp [occ, Ne.symm hij, hjk, h1])]
          simp [pairings, hij, hik, hjk]
      · rw [zero i (by simp [occ, hij, hik, hil, h1])]
        simp [pairings, hij, hik, hil]

/-! ## Rademacher vectors -/

theorem signMean_fourth {α : Type _} [Field α] [CharZero α] (i j k l : Fin n) :
    signMean (fun b => sgn (b i) * sgn (b j) * sgn (b k) * sgn (b l) : (Fin n → Bool) → α) = pairings 1 i j k l := by
  have hprod : ∀ b : Fin n → Bool, (sgn (b i) * sgn (b j) * sgn (b k) * sgn (b l) : α) =
      ∏ m, (sgn (b m) : α) ^ occ i j k l m := fun b => (pow_occ (fun m => (sgn (b m) : α)) i j k l).symm
  have hsum : ∑ b : Fin n → Bool, ∏ m, (sgn (b m) : α) ^ occ i j k l m =
      ∏ m, ∑ x : Bool, (sgn x : α) ^ occ i j k l m := by
    rw [Finset.prod_univ_sum, Fintype.piFinset_univ]
  have he : ∀ m, ∑ x : Bool, (sgn x : α) ^ occ i j k l m = 2 * (if Even (occ i j k l m) then 1 else 0) := by
    intro m
    simp only [Fintype.sum_bool, sgn, if_true, one_pow, Bool.false_eq_true, if_false]
    split_ifs with h
    · rw [h.neg_one_pow]; norm_num
    · rw [(Nat.not_even_iff_odd.mp h).neg_one_pow]; norm_num
  unfold signMean
  simp only [hprod, hsum, he]
  rw [Finset.prod_mul_distrib, Finset.prod_const, Finset.card_univ, Fintype.card_fin,
    prod_moments (fun c => if Even c then (1 : α) else 0) (by simp) (by simp) (by simp) i j k l,
    mul_div_cancel_left₀ _ (pow_ne_zero _ two_ne_zero)]
  congr 1

/-! ## Normal vectors -/

theorem gaussian_moment_aux (p p' : ℝ → ℝ) (hp : ∀ t, HasDerivAt p (p' t) t) (t : ℝ) :
    HasDerivAt (fun t => p t * Real.exp (t ^ 2 / 2)) ((p' t + t * p t) * Real.exp (t ^ 2 / 2)) t := by
  have h1 : HasDerivAt (fun t : ℝ => t ^ 2 / 2) t t := by
    have := (hasDerivAt_pow 2 t).div_const 2
    simpa using this
  have := (hp t).mul h1.exp
  refine this.congr_deriv ?_
  ring

theorem mgf_gaussian : mgf (fun x => x) (gaussianReal 0 1) = fun t => Real.exp (t ^ 2 / 2) := by
  rw [mgf_fun_id_gaussianReal]
  funext t
  simp

theorem gaussian_derivs :
    iteratedDeriv 4 (fun t : ℝ => Real.exp (t ^ 2 / 2)) 0 = 3 := by
  have d1 : deriv (fun t : ℝ => Real.exp (t ^ 2 / 2)) = fun t => t * Real.exp (t ^ 2 / 2) := by
    funext t
    have := gaussian_moment_aux (fun _ => 1) (fun _ => 0) (fun t => hasDerivAt_const _ _) t
    simpa using this.deriv
  have d2 : deriv (fun t : ℝ => t * Real.exp (t ^ 2 / 2)) = fun t => (1 + t ^ 2) * Real.exp (t ^ 2 / 2) := by
    funext t
    have := gaussian_moment_aux (fun t => t) (fun _ => 1) (fun t => hasDerivAt_id' _) t
    rw [this.deriv]; ring
  have d3 : deriv (fun t : ℝ => (1 + t ^ 2) * Real.exp (t ^ 2 / 2)) =
      fun t => (3 * t + t ^ 3) * Real.exp (t ^ 2 / 2) := by
    funext t
    have := gaussian_moment_aux (fun t => 1 + t ^ 2) (fun t => 2 * t)
      (fun t => by simpa using (hasDerivAt_pow 2 t).const_add 1) t
    rw [this.deriv]; ring
  have d4 : deriv (fun t : ℝ => (3 * t + t ^ 3) * Real.exp (t ^ 2 / 2)) =
      fun t => (3 + 6 * t ^ 2 + t ^ 4) * Real.exp (t ^ 2 / 2) := by
    funext t
    have := gaussian_moment_aux (fun t => 3 * t + t ^ 3) (fun t => 3 + 3 * t ^ 2)
      (fun t => (((hasDerivAt_id' t).const_mul 3).add (hasDerivAt_pow 3 t)).congr_deriv (by norm_num)) t
    rw [this.deriv]; ring
  simp only [iteratedDeriv_succ, iteratedDeriv_zero, d1, d2, d3, d4]
  simp

theorem integral_pow_gaussian : ∫ x, x ^ 4 ∂gaussianReal 0 1 = 3 := by
  have h : ∀ m, iteratedDeriv m (fun t : ℝ => Real.exp (t ^ 2 / 2)) 0 = ∫ x, x ^ m ∂gaussianReal 0 1 := by
    intro m
    rw [← mgf_gaussian, iteratedDeriv_mgf_zero (by simp)]
    rfl
  rw [← h 4]
  exact gaussian_derivs

theorem integrable_pow_gaussian (m : Nat) : Integrable (fun x : ℝ => x ^ m) (gaussianReal 0 1) := by
  have h : MemLp id (m : ENNReal) (gaussianReal 0 1) := memLp_id_gaussianReal' _ (by simp)
  have := h.integrable_norm_pow'
  refine (integrable_norm_iff (by fun_prop)).mp ?_
  simpa using this

theorem stdNormal_fourth (i j k l : Fin n) :
    Integrable (fun v => v i * v j * v k * v l) (stdNormal n) ∧
    ∫ v, v i * v j * v k * v l ∂stdNormal n = pairings 3 i j k l := by
  simp only [← pow_occ _ i j k l]
  constructor
  · exact Integrable.fintype_prod (f := fun m x => x ^ occ i j k l m) fun m => integrable_pow_gaussian _
  · have := integral_fintype_prod_eq_prod (μ := fun _ : Fin n => gaussianReal 0 1)
      (fun (m : Fin n) (x : ℝ) => x ^ occ i j k l m)
    rw [stdNormal, this, prod_moments (fun c => ∫ x, x ^ c ∂gaussianReal 0 1)]
    · simp only [integral_pow_gaussian]
    · simp
    · simp [integral_id_gaussianReal]
    · simpa [sq] using integral_sq_gaussian

/-! ## Variance of quadratic forms -/

/-- The variance of `vᵀ B v` for a vector `v` with independent entries of mean 0, variance 1, third moment 0 and fourth
moment `e`. -/
def quadVar {α : Type _} [Ring α] (e : α) (B : Matrix (Fin n) (Fin n) α) : α :=
  ∑ i, ∑ j, B i j * (B i j + B j i) + (e - 3) * ∑ i, B i i * B i i

theorem quad_expand {α : Type _} [CommRing α] (B : Matrix (Fin n) (Fin n) α) (v : Fin n → α) :
    (v ⬝ᵥ (B *ᵥ v)) ^ 2 = ∑ i, ∑ j, ∑ k, ∑ l, B i j * B k l * (v i * v j * v k * v l) := by
  have h : v ⬝ᵥ (B *ᵥ v) = ∑ i, ∑ j, B i j * (v i * v j) := by
    simp only [dotProduct, mulVec, Finset.mul_sum]
    exact Finset.sum_congr rfl fun _ _ => Finset.sum_congr rfl fun _ _ => by ring
  rw [h, sq, Finset.sum_mul]
  refine Finset.sum_congr rfl fun i _ => ?_
  rw [Finset.sum_mul]
  refine Finset.sum_congr rfl fun j _ => ?_
  rw [Finset.mul_sum]
  refine Finset.sum_congr rfl fun k _ => ?_
  rw [Finset.mul_sum]
  exact Finset.sum_congr rfl fun l _ => by ring

theorem sum_pairings {α : Type _} [CommRing α] (e : α) (B : Matrix (Fin n) (Fin n) α) :
    ∑ i, ∑ j, ∑ k, ∑ l, B i j * B k l * pairings e i j k l = B.trace ^ 2 + quadVar e B := by
  simp only [pairings, mul_add, Finset.sum_add_distrib, ite_and, mul_ite, mul_one, mul_zero, Finset.sum_ite_eq,
    Finset.mem_univ, if_true, Finset.sum_ite_irrel, Finset.sum_const_zero, quadVar, Matrix.trace, Matrix.diag_apply]
  rw [sq, Finset.sum_mul]
  simp only [Finset.mul_sum]
  have : ∀ i, B i i * B i i * (e - 3) = (e - 3) * (B i i * B i i) := fun i => by ring
  simp only [this]
  ring

theorem signMean_sum {α : Type _} [Field α] {ι : Type _} (s : Finset ι) (f : ι → (Fin n → Bool) → α) :
    signMean (fun b => ∑ i ∈ s, f i b) = ∑ i ∈ s, signMean (f i) := by
  unfold signMean
  rw [Finset.sum_comm, Finset.sum_div]

theorem signMean_mul {α : Type _} [Field α] (c : α) (f : (Fin n → Bool) → α) :
    signMean (fun b => c * f b) = c * signMean f := by
  unfold signMean
  rw [← Finset.mul_sum, mul_div_assoc]

theorem signMean_add {α : Type _} [Field α] (f g : (Fin n → Bool) → α) :
    signMean (fun b => f b + g b) = signMean f + signMean g := by
  unfold signMean
  rw [Finset.sum_add_distrib, add_div]

theorem signMean_const {α : Type _} [Field α] [CharZero α] (c : α) : signMean (fun _ : Fin n → Bool => c) = c := by
  unfold signMean
  simp only [Finset.sum_const, Finset.card_univ, Fintype.card_fun, Fintype.card_bool, Fintype.card_fin, nsmul_eq_mul,
    Nat.cast_pow, Nat.cast_ofNat]
  exact mul_div_cancel_left₀ _ (pow_ne_zero _ two_ne_zero)

/-- Variance of a quadratic form in a Rademacher vector. -/
theorem signMean_quad_var {α : Type _} [Field α] [CharZero α] (B : Matrix (Fin n) (Fin n) α) :
    signMean (fun b => ((fun i => sgn (b i)) ⬝ᵥ (B *ᵥ fun i => sgn (b i)) - B.trace) ^ 2) = quadVar 1 B := by
  have hsq : signMean (fun b => ((fun i => sgn (b i)) ⬝ᵥ (B *ᵥ fun i => sgn (b i)) : α) ^ 2) =
      B.trace ^ 2 + quadVar 1 B := by
    simp only [quad_expand, signMean_sum, signMean_mul, signMean_fourth]
    exact sum_pairings 1 B
  have h : ∀ q : α, (q - B.trace) ^ 2 = q ^ 2 + ((-2 * B.trace) * q + B.trace ^ 2) := fun q => by ring
  simp only [h]
  rw [signMean_add, signMean_add, hsq, signMean_mul, signMean_quad, signMean_const]
  ring

/-- Variance of a quadratic form in a standard normal vector. -/
theorem stdNormal_quad_var (B : Matrix (Fin n) (Fin n) ℝ) :
    Integrable (fun v => (v ⬝ᵥ (B *ᵥ v) - B.trace) ^ 2) (stdNormal n) ∧
    ∫ v, (v ⬝ᵥ (B *ᵥ v) - B.trace) ^ 2 ∂stdNormal n = quadVar 3 B := by
  have hint : ∀ i j k l, Integrable (fun v : Fin n → ℝ => B i j * B k l * (v i * v j * v k * v l)) (stdNormal n) :=
    fun i j k l => (stdNormal_fourth i j k l).1.const_mul _
  have i1 : ∀ i j k, Integrable (fun v : Fin n → ℝ => ∑ l, B i j * B k l * (v i * v j * v k * v l)) (stdNormal n) :=
    fun i j k => integrable_finsetSum _ fun l _ => hint i j k l
  have i2 : ∀ i j, Integrable (fun v : Fin n → ℝ => ∑ k, ∑ l, B i j * B k l * (v i * v j * v k * v l)) (stdNormal n) :=
    fun i j => integrable_finsetSum _ fun k _ => i1 i j k
  have i3 : ∀ i, Integrable (fun v : Fin n → ℝ => ∑ j, ∑ k, ∑ l, B i j * B k l * (v i * v j * v k * v l))
      (stdNormal n) := fun i => integrable_finsetSum _ fun j _ => i2 i j
  have hsqi : Integrable (fun v => (v ⬝ᵥ (B *ᵥ v)) ^ 2) (stdNormal n) := by
    simp only [quad_expand]
    exact integrable_finsetSum _ fun i _ => i3 i
  have hsq : ∫ v, (v ⬝ᵥ (B *ᵥ v)) ^ 2 ∂stdNormal n = B.trace ^ 2 + quadVar 3 B := by
    simp only [quad_expand]
    rw [integral_finsetSum _ fun i _ => i3 i, ← sum_pairings 3 B]
    refine Finset.sum_congr rfl fun i _ => ?_
    rw [integral_finsetSum _ fun j _ => i2 i j]
    refine Finset.sum_congr rfl fun j _ => ?_
    rw [integral_finsetSum _ fun k _ => i1 i j k]
    refine Finset.sum_congr rfl fun k _ => ?_
    rw [integral_finsetSum _ fun l _ => hint i j k l]
    refine Finset.sum_congr rfl fun l _ => ?_
    rw [integral_const_mul, (stdNormal_fourth i j k l).2]
  have h : ∀ q : ℝ, (q - B.trace) ^ 2 = q ^ 2 + ((-2 * B.trace) * q + B.trace ^ 2) := fun q => by ring
  obtain ⟨q1, q2⟩ := stdNormal_quad B
  have hl : Integrable (fun v => (-2 * B.trace) * (v ⬝ᵥ (B *ᵥ v)) + B.trace ^ 2) (stdNormal n) :=
    (q1.const_mul _).add (integrable_const _)
  simp only [h]
  refine ⟨hsqi.add hl, ?_⟩
  rw [integral_add hsqi hl, integral_add (q1.const_mul _) (integrable_const _), hsq, integral_const_mul, q2,
    integral_const]
  simp
  ring

end Curvlinops
