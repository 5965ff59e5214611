import Verif.Lemmas.Averages
import Mathlib.Probability.Distributions.Gaussian.Multivariate

/-!
# The direction of a standard normal vector

Moments of the squared coordinates of `r / ‖r‖` in any orthonormal basis, and averages of independent numbers with finite
variance.
-/

namespace Curvlinops

open MeasureTheory ProbabilityTheory Filter Topology
open scoped RealInnerProductSpace

variable {d : Nat}

/-- The normalized vector (zero for zero). -/
noncomputable def direction (x : EuclideanSpace ℝ (Fin d)) : EuclideanSpace ℝ (Fin d) := ‖x‖⁻¹ • x

theorem direction_measurable : Measurable (direction (d := d)) := by
  unfold direction
  fun_prop

theorem direction_norm_le (x : EuclideanSpace ℝ (Fin d)) : ‖direction x‖ ≤ 1 := by
  unfold direction
  rw [norm_smul, norm_inv, norm_norm]
  by_cases h : ‖x‖ = 0
  · rw [h]; simp
  · rw [inv_mul_cancel₀ h]

theorem direction_norm {x : EuclideanSpace ℝ (Fin d)} (hx : x ≠ 0) : ‖direction x‖ = 1 := by
  unfold direction
  rw [norm_smul, norm_inv, norm_norm, inv_mul_cancel₀ (norm_ne_zero_iff.2 hx)]

theorem direction_inner_le {u : EuclideanSpace ℝ (Fin d)} (hu : ‖u‖ = 1) (x : EuclideanSpace ℝ (Fin d)) :
    |⟪u, direction x⟫| ≤ 1 := by
  refine (abs_real_inner_le_norm _ _).trans ?_
  rw [hu, one_mul]
  exact direction_norm_le x

theorem direction_map (f : EuclideanSpace ℝ (Fin d) ≃ₗᵢ[ℝ] EuclideanSpace ℝ (Fin d)) (x : EuclideanSpace ℝ (Fin d)) :
    direction (f x) = f (direction x) := by
  unfold direction
  rw [f.norm_map, map_smul]

/-- A standard normal vector lies in no hyperplane. -/
theorem stdGaussian_hyperplane {u : EuclideanSpace ℝ (Fin d)} (hu : ‖u‖ = 1) :
    ∀ᵐ x ∂stdGaussian (EuclideanSpace ℝ (Fin d)), ⟪u, x⟫ ≠ 0 := by
  have hL : ‖innerSL ℝ u‖ = 1 := by rw [innerSL_apply_norm, hu]
  have hmap := IsGaussian.map_eq_gaussianReal (μ := stdGaussian (EuclideanSpace ℝ (Fin d))) (innerSL ℝ u)
  rw [variance_dual_stdGaussian, hL] at hmap
  have hna := nullSingletonClass_gaussianReal (μ := (stdGaussian (EuclideanSpace ℝ (Fin d)))[innerSL ℝ u]) (v := Real.toNNReal (1 ^ 2))
    (by simp)
  have h0 : (stdGaussian (EuclideanSpace ℝ (Fin d))).map (innerSL ℝ u) {0} = 0 := by
    rw [hmap]
    exact measure_singleton 0
  rw [Measure.map_apply (by fun_prop) (measurableSet_singleton 0)] at h0
  rw [ae_iff]
  refine Eq.trans ?_ h0
  congr 1
  ext x
  simp

theorem stdGaussian_ne_zero (hd : 0 < d) : ∀ᵐ x ∂stdGaussian (EuclideanSpace ℝ (Fin d)), x ≠ 0 := by
  have hu : ‖EuclideanSpace.single (⟨0, hd⟩ : Fin d) (1 : ℝ)‖ = 1 := by simp
  filter_upwards [stdGaussian_hyperplane hu] with x hx h
  rw [h, inner_zero_right] at hx
  exact hx rfl

/-- The law of a coordinate of the direction is the same for all unit vectors. -/
theorem direction_integral (i : Fin d) (F : ℝ → ℝ) {u : EuclideanSpace ℝ (Fin d)} (hF : Measurable F) (hu : ‖u‖ = 1) :
    ∫ x, F ⟪u, direction x⟫ ∂stdGaussian (EuclideanSpace ℝ (Fin d)) =
      ∫ x, F (direction x i) ∂stdGaussian (EuclideanSpace ℝ (Fin d)) := by
  have horth : Orthonormal ℝ (({i} : Set (Fin d)).domRestrict fun _ => u) := by
    constructor
    · intro j
      exact hu
    · intro j k hjk
      exact absurd (Subtype.ext (j.2.trans k.2.symm)) hjk
  obtain ⟨b, hb⟩ := horth.exists_orthonormalBasis_extension_of_card_eq (by simp)
  have hbi : b i = u := hb i rfl
  have h := stdGaussian_map (E := EuclideanSpace ℝ (Fin d)) b.repr
  have hm : Measurable fun x : EuclideanSpace ℝ (Fin d) => F (direction x i) := by
    refine hF.comp ?_
    have := direction_measurable (d := d)
    fun_prop
  have h2 := integral_map (μ := stdGaussian (EuclideanSpace ℝ (Fin d))) (φ := b.repr) (by fun_prop) hm.aestronglyMeasurable
  rw [h] at h2
  rw [h2]
  refine integral_congr_ae (Eventually.of_forall fun x => ?_)
  show F _ = F _
  rw [direction_map, b.repr_apply_apply, hbi]

theorem direction_integrable (F : ℝ → ℝ) (u : EuclideanSpace ℝ (Fin d)) (hF : Continuous F) (hu : ‖u‖ = 1) :
    Integrable (fun x => F ⟪u, direction x⟫) (stdGaussian (EuclideanSpace ℝ (Fin d))) := by
  obtain ⟨K, hK⟩ := (isCompact_Icc (a := (-1 : ℝ)) (b := 1)).exists_bound_of_continuousOn hF.continuousOn
  have := direction_measurable (d := d)
  refine Integrable.of_bound (by fun_prop) K (Eventually.of_forall fun x => hK _ ?_)
  exact abs_le.1 (direction_inner_le hu x)

variable (b : OrthonormalBasis (Fin d) ℝ (EuclideanSpace ℝ (Fin d)))

/-- The squared coordinate of the direction. -/
noncomputable def share (i : Fin d) (x : EuclideanSpace ℝ (Fin d)) : ℝ := ⟪b i, direction x⟫ ^ 2

theorem share_nonneg (i : Fin d) (x : EuclideanSpace ℝ (Fin d)) : 0 ≤ share b i x := sq_nonneg _

theorem share_le (i : Fin d) (x : EuclideanSpace ℝ (Fin d)) : share b i x ≤ 1 := by
  unfold share
  rw [sq_le_one_iff_abs_le_one]
  exact direction_inner_le (b.orthonormal.1 i) x

theorem share_measurable (i : Fin d) : Measurable (share b i) := by
  have := direction_measurable (d := d)
  unfold share
  fun_prop

theorem share_sum {x : EuclideanSpace ℝ (Fin d)} (hx : x ≠ 0) : ∑ i, share b i x = 1 := by
  have h := b.sum_sq_inner_right (direction x)
  rw [direction_norm hx, one_pow] at h
  exact h

theorem share_integrable (i : Fin d) : Integrable (share b i) (stdGaussian (EuclideanSpace ℝ (Fin d))) :=
  direction_integrable (fun t => t ^ 2) (b i) (by fun_prop) (b.orthonormal.1 i)

theorem share_mul_integrable (i j : Fin d) :
    Integrable (fun x => share b i x * share b j x) (stdGaussian (EuclideanSpace ℝ (Fin d))) := by
  refine Integrable.of_bound ((share_measurable b i).mul (share_measurable b j)).aestronglyMeasurable 1
    (Eventually.of_forall fun x => ?_)
  rw [Real.norm_eq_abs, abs_mul, abs_of_nonneg (share_nonneg b i x), abs_of_nonneg (share_nonneg b j x)]
  exact mul_le_one₀ (share_le b i x) (share_nonneg b j x) (share_le b j x)

/-- The expected share of every direction is the same. -/
theorem share_mean (i : Fin d) : ∫ x, share b i x ∂stdGaussian (EuclideanSpace ℝ (Fin d)) = 1 / d := by
  have hd : 0 < d := i.pos
  have hsame : ∀ j, ∫ x, share b j x ∂stdGaussian (EuclideanSpace ℝ (Fin d)) =
      ∫ x, share b i x ∂stdGaussian (EuclideanSpace ℝ (Fin d)) := fun j =>
    (direction_integral i (fun t => t ^ 2) (by fun_prop) (b.orthonormal.1 j)).trans
      (direction_integral i (fun t => t ^ 2) (by fun_prop) (b.orthonormal.1 i)).symm
  have hsum : ∫ x, ∑ j, share b j x ∂stdGaussian (EuclideanSpace ℝ (Fin d)) = 1 := by
    rw [integral_congr_ae (g := fun _ => (1 : ℝ))]
    · simp
    · filter_upwards [stdGaussian_ne_zero hd] with x hx
      exact share_sum b hx
  rw [integral_finsetSum _ fun j _ => share_integrable b j, Finset.sum_congr rfl fun j _ => hsame j, Finset.sum_const,
    Finset.card_univ, Fintype.card_fin, nsmul_eq_mul] at hsum
  have : (d : ℝ) ≠ 0 := by positivity
  field_simp
  linarith

/-- The second moments of the shares. -/
theorem share_second (i j : Fin d) : ∫ x, share b i x * share b j x ∂stdGaussian (EuclideanSpace ℝ (Fin d)) =
    (if i = j then 3 else 1) / (d * (d + 2)) := by
  have hd : 0 < d := i.pos
  set m : ℝ := ∫ x, direction x i ^ 4 ∂stdGaussian (EuclideanSpace ℝ (Fin d)) with hm
  have hint : ∀ u : EuclideanSpace ℝ (Fin d), ‖u‖ = 1 →
      Integrable (fun x => ⟪u, direction x⟫ ^ 4) (stdGaussian (EuclideanSpace ℝ (Fin d))) :=
    fun u hu => direction_integrable (fun t => t ^ 4) u (by fun_prop) hu
  have h4 : ∀ u : EuclideanSpace ℝ (Fin d), ‖u‖ = 1 →
      ∫ x, ⟪u, direction x⟫ ^ 4 ∂stdGaussian (EuclideanSpace ℝ (Fin d)) = m :=
    fun u hu => direction_integral i (fun t => t ^ 4) (by fun_prop) hu
  have hdiag : ∀ k, ∫ x, share b k x * share b k x ∂stdGaussian (EuclideanSpace ℝ (Fin d)) = m := by
    intro k
    rw [← h4 (b k) (b.orthonormal.1 k)]
    refine integral_congr_ae (Eventually.of_forall fun x => ?_)
    show ⟪b k, direction x⟫ ^ 2 * ⟪b k, direction x⟫ ^ 2 = _
    ring
  have hoff : ∀ k l, k ≠ l → ∫ x, share b k x * share b l x ∂stdGaussian (EuclideanSpace ℝ (Fin d)) = m / 3 := by
    intro k l hkl
    have hs2 : (Real.sqrt 2)⁻¹ * (Real.sqrt 2)⁻¹ = 1 / 2 := by
      rw [← mul_inv, Real.mul_self_sqrt (by norm_num)]
      norm_num
    have hkl0 : ⟪b k, b l⟫ = 0 := b.orthonormal.2 hkl
    have hk1 : ⟪b k, b k⟫ = 1 := by rw [real_inner_self_eq_norm_sq, b.orthonormal.1 k, one_pow]
    have hl1 : ⟪b l, b l⟫ = 1 := by rw [real_inner_self_eq_norm_sq, b.orthonormal.1 l, one_pow]
    have hunit : ∀ s : ℝ, s * s = 1 → ‖(Real.sqrt 2)⁻¹ • (b k + s • b l)‖ = 1 := by
      intro s hs
      have : ‖(Real.sqrt 2)⁻¹ • (b k + s • b l)‖ ^ 2 = 1 := by
        rw [← real_inner_self_eq_norm_sq]
        simp only [inner_smul_left, inner_smul_right, inner_add_left, inner_add_right, hkl0, hk1, hl1,
          real_inner_comm (b k) (b l), RCLike.conj_to_real]
        rw [show (√2)⁻¹ * ((√2)⁻¹ * (1 + s * 0) + s * ((√2)⁻¹ * (0 + s * 1))) = ((√2)⁻¹ * (√2)⁻¹) * (1 + s * s) by ring,
          hs2, hs]
        norm_num
      have h0 := norm_nonneg ((Real.sqrt 2)⁻¹ • (b k + s • b l))
      nlinarith
    have hp := h4 _ (hunit 1 (by norm_num))
    have hq := h4 _ (hunit (-1) (by norm_num))
    have hadd := integral_add (hint _ (hunit 1 (by norm_num))) (hint _ (hunit (-1) (by norm_num)))
    rw [hp, hq] at hadd
    have hpoint : (fun x => ⟪(√2)⁻¹ • (b k + (1 : ℝ) • b l), direction x⟫ ^ 4 +
        ⟪(√2)⁻¹ • (b k + (-1 : ℝ) • b l), direction x⟫ ^ 4) =
        fun x => 1 / 2 * (share b k x * share b k x) +
          (3 * (share b k x * share b l x) + 1 / 2 * (share b l x * share b l x)) := by
      funext x
      simp only [inner_smul_left, inner_add_left, RCLike.conj_to_real, share]
      have hs4 : ((√2)⁻¹) ^ 4 = 1 / 4 := by
        rw [show ((√2)⁻¹) ^ 4 = ((√2)⁻¹ * (√2)⁻¹) * ((√2)⁻¹ * (√2)⁻¹) by ring, hs2]
        norm_num
      rw [mul_pow, mul_pow, hs4]
      ring
    have i1 := (share_mul_integrable b k k).const_mul (1 / 2)
    have i2 := (share_mul_integrable b k l).const_mul 3
    have i3 := (share_mul_integrable b l l).const_mul (1 / 2)
    have i23 : Integrable (fun x => 3 * (share b k x * share b l x) + 1 / 2 * (share b l x * share b l x))
        (stdGaussian (EuclideanSpace ℝ (Fin d))) := i2.add i3
    rw [hpoint, integral_add i1 i23, integral_add i2 i3, integral_const_mul, integral_const_mul, integral_const_mul,
      hdiag, hdiag] at hadd
    linarith
  have htot : ∫ x, ∑ k, ∑ l, share b k x * share b l x ∂stdGaussian (EuclideanSpace ℝ (Fin d)) = 1 := by
    rw [integral_congr_ae (g := fun _ => (1 : ℝ))]
    · simp
    · filter_upwards [stdGaussian_ne_zero hd] with x hx
      rw [← Finset.sum_mul_sum, share_sum b hx, one_mul]
  have hval : ∀ k l, ∫ x, share b k x * share b l x ∂stdGaussian (EuclideanSpace ℝ (Fin d)) =
      m / 3 + if k = l then 2 * m / 3 else 0 := by
    intro k l
    by_cases h : k = l
    · subst h
      rw [hdiag, if_pos rfl]
      ring
    · rw [hoff k l h, if_neg h, add_zero]
  rw [integral_finsetSum _ fun k _ => integrable_finsetSum _ fun l _ => share_mul_integrable b k l] at htot
  simp only [integral_finsetSum _ fun l _ => share_mul_integrable b _ l, hval, Finset.sum_add_distrib, Finset.sum_ite_eq,
    Finset.mem_univ, if_true, Finset.sum_const, Finset.card_univ, Fintype.card_fin, nsmul_eq_mul] at htot
  have hd' : (0 : ℝ) < d := by exact_mod_cast hd
  have hmv : m = 3 / (d * (d + 2)) := by
    rw [eq_div_iff (by positivity)]
    linarith
  rw [hval, hmv]
  split_ifs <;> field_simp <;> ring

/-- Mean and variance of a weighted sum of the shares. -/
theorem share_weighted (hd : 0 < d) (f : Fin d → ℝ) :
    ∫ x, ∑ i, f i * share b i x ∂stdGaussian (EuclideanSpace ℝ (Fin d)) = (∑ i, f i) / d ∧
    ∫ x, (∑ i, f i * share b i x - (∑ i, f i) / d) ^ 2 ∂stdGaussian (EuclideanSpace ℝ (Fin d)) =
      2 / (d * (d + 2)) * (∑ i, f i ^ 2 - (∑ i, f i) ^ 2 / d) := by
  have i1 : ∀ i, Integrable (fun x => f i * share b i x) (stdGaussian (EuclideanSpace ℝ (Fin d))) :=
    fun i => (share_integrable b i).const_mul _
  have hmean : ∫ x, ∑ i, f i * share b i x ∂stdGaussian (EuclideanSpace ℝ (Fin d)) = (∑ i, f i) / d := by
    rw [integral_finsetSum _ fun i _ => i1 i]
    simp only [integral_const_mul, share_mean]
    rw [← Finset.sum_mul]
    ring
  refine ⟨hmean, ?_⟩
  have i2 : ∀ i j, Integrable (fun x => f i * f j * (share b i x * share b j x)) (stdGaussian (EuclideanSpace ℝ (Fin d))) :=
    fun i j => (share_mul_integrable b i j).const_mul _
  have i3 : Integrable (fun x => ∑ i, ∑ j, f i * f j * (share b i x * share b j x))
      (stdGaussian (EuclideanSpace ℝ (Fin d))) := integrable_finsetSum _ fun i _ => integrable_finsetSum _ fun j _ => i2 i j
  have i4 : Integrable (fun x => ∑ i, f i * share b i x) (stdGaussian (EuclideanSpace ℝ (Fin d))) :=
    integrable_finsetSum _ fun i _ => i1 i
  set t : ℝ := (∑ i, f i) / d with ht
  have hexp : (fun x => (∑ i, f i * share b i x - t) ^ 2) = fun x =>
      (∑ i, ∑ j, f i * f j * (share b i x * share b j x)) + (t ^ 2 - 2 * t * ∑ i, f i * share b i x) := by
    funext x
    have : ∑ i, ∑ j, f i * f j * (share b i x * share b j x) = (∑ i, f i * share b i x) ^ 2 := by
      rw [sq, Finset.sum_mul_sum]
      exact Finset.sum_congr rfl fun i _ => Finset.sum_congr rfl fun j _ => by ring
    rw [this]
    ring
  have i5 : Integrable (fun x => 2 * t * ∑ i, f i * share b i x) (stdGaussian (EuclideanSpace ℝ (Fin d))) := i4.const_mul _
  have i6 : Integrable (fun x => t ^ 2 - 2 * t * ∑ i, f i * share b i x) (stdGaussian (EuclideanSpace ℝ (Fin d))) :=
    (integrable_const _).sub i5
  have hsq : ∫ x, ∑ i, ∑ j, f i * f j * (share b i x * share b j x) ∂stdGaussian (EuclideanSpace ℝ (Fin d)) =
      ((∑ i, f i) ^ 2 + 2 * ∑ i, f i ^ 2) / (d * (d + 2)) := by
    rw [integral_finsetSum _ fun i _ => integrable_finsetSum _ fun j _ => i2 i j]
    simp only [integral_finsetSum _ fun j _ => i2 _ j, integral_const_mul, share_second]
    have : ∀ i j, f i * f j * ((if i = j then (3 : ℝ) else 1) / (d * (d + 2))) =
        (f i * f j + if i = j then 2 * (f i * f j) else 0) / (d * (d + 2)) := by
      intro i j
      split_ifs <;> ring
    simp only [this, ← Finset.sum_div, Finset.sum_add_distrib, Finset.sum_ite_eq, Finset.mem_univ, if_true]
    congr 2
    · rw [sq, Finset.sum_mul_sum]
    · rw [Finset.mul_sum]
      exact Finset.sum_congr rfl fun i _ => by ring
  rw [hexp, integral_add i3 i6, integral_sub (integrable_const _) i5, integral_const_mul, hmean, hsq, integral_const]
  simp only [probReal_univ, one_smul, ht]
  have hd' : (0 : ℝ) < d := by exact_mod_cast hd
  field_simp
  ring

/-! ## Averages of independent numbers -/

/-- Independent numbers with the same law, mean and variance. -/
theorem iid_good {Ω : Type _} [MeasurableSpace Ω] {P : Measure Ω} [IsProbabilityMeasure P] (X : Nat → Ω → ℝ) (t σ K : ℝ)
    (hmeas : ∀ i, Measurable (X i)) (hK : ∀ i ω, |X i ω| ≤ K) (hind : Pairwise fun i j => IndepFun (X i) (X j) P)
    (hid : ∀ i, IdentDistrib (X i) (X 0) P P) (hmean : ∫ ω, X 0 ω ∂P = t) (hvar : ∫ ω, (X 0 ω - t) ^ 2 ∂P = σ) :
    GoodAverages P X t σ := by
  have hXi : ∀ i, Integrable (X i) P := fun i =>
    Integrable.of_bound (hmeas i).aestronglyMeasurable K (Eventually.of_forall fun ω => hK i ω)
  set Y : Nat → Ω → ℝ := fun i ω => X i ω - t with hY
  have hYm : ∀ i, Measurable (Y i) := fun i => (hmeas i).sub_const _
  have hYb : ∀ i ω, |Y i ω| ≤ K + |t| := fun i ω => (abs_sub _ _).trans (by linarith [hK i ω])
  have hYi : ∀ i, Integrable (Y i) P := fun i => (hXi i).sub (integrable_const _)
  have hY0 : ∀ i, ∫ ω, Y i ω ∂P = 0 := by
    intro i
    have h : ∫ ω, X i ω ∂P = t := (hid i).integral_eq.trans hmean
    show ∫ ω, (X i ω - t) ∂P = 0
    rw [integral_sub (hXi i) (integrable_const _), h, integral_const]
    simp
  have hYY : ∀ i j, Integrable (fun ω => Y i ω * Y j ω) P ∧ ∫ ω, Y i ω * Y j ω ∂P = if i = j then σ else 0 := by
    intro i j
    constructor
    · refine Integrable.of_bound ((hYm i).mul (hYm j)).aestronglyMeasurable ((K + |t|) * (K + |t|))
        (Eventually.of_forall fun ω => ?_)
      rw [Real.norm_eq_abs, abs_mul]
      exact mul_le_mul (hYb i ω) (hYb j ω) (abs_nonneg _) ((abs_nonneg _).trans (hYb i ω))
    · by_cases h : i = j
      · subst h
        rw [if_pos rfl, ← hvar]
        have hm : Measurable fun x : ℝ => (x - t) ^ 2 := by fun_prop
        have := ((hid i).comp hm).integral_eq
        refine Eq.trans ?_ this
        refine integral_congr_ae (Eventually.of_forall fun ω => ?_)
        show Y i ω * Y i ω = (X i ω - t) ^ 2
        rw [sq]
      · rw [if_neg h]
        have hm : Measurable fun x : ℝ => x - t := by fun_prop
        have hi := ((hind h).comp hm hm).integral_mul_eq_mul_integral (hYm i).aestronglyMeasurable (hYm j).aestronglyMeasurable
        have e1 : ∫ ω, ((fun x => x - t) ∘ X i) ω ∂P = 0 := hY0 i
        rw [e1, zero_mul] at hi
        exact hi
  have hsum : ∀ m, Integrable (average Y m) P ∧ ∫ ω, average Y m ω ∂P = 0 := by
    intro m
    have hs : Integrable (fun ω => ∑ i ∈ Finset.range m, Y i ω) P := integrable_finsetSum _ fun i _ => hYi i
    refine ⟨hs.div_const _, ?_⟩
    unfold average
    rw [integral_div, integral_finsetSum _ fun i _ => hYi i, Finset.sum_eq_zero fun i _ => hY0 i, zero_div]
  have hYs : ∀ m, 0 < m → Integrable (fun ω => average Y m ω ^ 2) P ∧ ∫ ω, average Y m ω ^ 2 ∂P = σ / m := by
    intro m hm
    have hsq : (fun ω => average Y m ω ^ 2) =
        fun ω => (∑ i ∈ Finset.range m, ∑ j ∈ Finset.range m, Y i ω * Y j ω) / (m : ℝ) ^ 2 := by
      funext ω
      unfold average
      rw [div_pow, sq (∑ i ∈ Finset.range m, Y i ω), Finset.sum_mul_sum]
    have i2 : ∀ i, Integrable (fun ω => ∑ j ∈ Finset.range m, Y i ω * Y j ω) P :=
      fun i => integrable_finsetSum _ fun j _ => (hYY i j).1
    rw [hsq]
    refine ⟨(integrable_finsetSum _ fun i _ => i2 i).div_const _, ?_⟩
    rw [integral_div, integral_finsetSum _ fun i _ => i2 i]
    have : ∀ i ∈ Finset.range m, ∫ ω, ∑ j ∈ Finset.range m, Y i ω * Y j ω ∂P = σ := by
      intro i hi
      rw [integral_finsetSum _ fun j _ => (hYY i j).1, Finset.sum_congr rfl fun j _ => (hYY i j).2, Finset.sum_ite_eq,
        if_pos hi]
    rw [Finset.sum_congr rfl this, Finset.sum_const, Finset.card_range, nsmul_eq_mul]
    have h : (m : ℝ) ≠ 0 := by positivity
    field_simp
  have hav : ∀ m, 0 < m → ∀ ω, average X m ω = t + average Y m ω := fun m hm ω => average_sub hm ω
  have hdev : ∀ m, 0 < m → (fun ω => average X m ω - t) = average Y m := by
    intro m hm
    funext ω
    rw [hav m hm ω, add_sub_cancel_left]
  refine ⟨fun m hm => ?_, fun m hm => ?_, fun m hm ε hε => ?_, ?_⟩
  · have : average X m = fun ω => t + average Y m ω := funext fun ω => hav m hm ω
    rw [this]
    refine ⟨(integrable_const _).add (hsum m).1, ?_⟩
    rw [integral_add (integrable_const _) (hsum m).1, (hsum m).2, integral_const]
    simp
  · have : (fun ω => (average X m ω - t) ^ 2) = fun ω => average Y m ω ^ 2 := by
      funext ω
      rw [← hdev m hm]
    rw [this]
    exact hYs m hm
  · have hset : {ω | ε ≤ |average X m ω - t|} = {ω | ε ^ 2 ≤ average Y m ω ^ 2} := by
      ext ω
      simp only [Set.mem_ofPred_eq, ← hdev m hm]
      rw [← sq_abs (average X m ω - t)]
      exact (pow_le_pow_iff_left₀ hε.le (abs_nonneg _) two_ne_zero).symm
    have hmk := mul_meas_ge_le_integral_of_nonneg (μ := P) (f := fun ω => average Y m ω ^ 2)
      (Eventually.of_forall fun ω => sq_nonneg _) (hYs m hm).1 (ε ^ 2)
    rw [(hYs m hm).2] at hmk
    rw [hset, le_div_iff₀ (by positivity)]
    have hm' : (0 : ℝ) < m := by exact_mod_cast hm
    rw [le_div_iff₀ hm'] at hmk
    linarith
  · have h := strong_law_ae_real X (hXi 0) hind hid
    rw [hmean] at h
    exact h

end Curvlinops
