import Verif.Lemmas.FourthMoments
import Mathlib.Probability.StrongLaw
import Mathlib.Probability.Moments.Variance
import Mathlib.Probability.Independence.Integration
import Mathlib.Probability.Independence.InfinitePi

/-!
# Averages of quadratic forms in independent random vectors

The matrix of the form may itself be random, as long as it is independent of the vectors and bounded (this is the
situation of Hutch++, whose basis is drawn from the same generator).
-/

namespace Curvlinops

open Matrix MeasureTheory ProbabilityTheory Filter Topology

variable {n : Nat} {Ω : Type _} [MeasurableSpace Ω] {P : Measure Ω}

/-- The average of the first `m` numbers. -/
noncomputable def average (X : Nat → Ω → ℝ) (m : Nat) (ω : Ω) : ℝ := (∑ i ∈ Finset.range m, X i ω) / m

/-- `v 0, v 1, …` are independent with the same law; their moments up to order four are those of independent entries of
mean 0, variance 1, third moment 0 and fourth moment `e`. -/
structure IidVectors (P : Measure Ω) (e : ℝ) (v : Nat → Ω → Fin n → ℝ) : Prop where
  meas : ∀ i, Measurable (v i)
  indep : Pairwise fun i j => IndepFun (v i) (v j) P
  ident : ∀ i, IdentDistrib (v i) (v 0) P P
  second : ∀ i a b, Integrable (fun ω => v i ω a * v i ω b) P ∧
    ∫ ω, v i ω a * v i ω b ∂P = if a = b then 1 else 0
  fourth : ∀ i a b c d, Integrable (fun ω => v i ω a * v i ω b * v i ω c * v i ω d) P ∧
    ∫ ω, v i ω a * v i ω b * v i ω c * v i ω d ∂P = pairings e a b c d

/-- Entry `(a, b)` of `x xᵀ - I`. -/
def outerDev (a b : Fin n) (x : Fin n → ℝ) : ℝ := x a * x b - if a = b then 1 else 0

theorem outerDev_measurable (a b : Fin n) : Measurable (outerDev a b) :=
  ((measurable_pi_apply a).mul (measurable_pi_apply b)).sub_const _

section

variable [IsProbabilityMeasure P] {e : ℝ} {v : Nat → Ω → Fin n → ℝ}

theorem IidVectors.dev_mean (hv : IidVectors P e v) (i : Nat) (a b : Fin n) :
    Integrable (fun ω => outerDev a b (v i ω)) P ∧ ∫ ω, outerDev a b (v i ω) ∂P = 0 := by
  obtain ⟨h1, h2⟩ := hv.second i a b
  refine ⟨h1.sub (integrable_const _), ?_⟩
  unfold outerDev
  rw [integral_sub h1 (integrable_const _), h2, integral_const]
  simp

theorem IidVectors.dev_mul (hv : IidVectors P e v) (i : Nat) (a b c d : Fin n) :
    Integrable (fun ω => outerDev a b (v i ω) * outerDev c d (v i ω)) P ∧
    ∫ ω, outerDev a b (v i ω) * outerDev c d (v i ω) ∂P =
      pairings e a b c d - (if a = b then 1 else 0) * (if c = d then 1 else 0) := by
  obtain ⟨h1, h2⟩ := hv.fourth i a b c d
  obtain ⟨s1, s2⟩ := hv.second i a b
  obtain ⟨t1, t2⟩ := hv.second i c d
  have hexp : (fun ω => outerDev a b (v i ω) * outerDev c d (v i ω)) = fun ω =>
      v i ω a * v i ω b * v i ω c * v i ω d - ((if c = d then 1 else 0) * (v i ω a * v i ω b) +
        ((if a = b then 1 else 0) * (v i ω c * v i ω d) - (if a = b then 1 else 0) * (if c = d then 1 else 0))) := by
    funext ω
    unfold outerDev
    ring
  have i1 := s1.const_mul (if c = d then (1 : ℝ) else 0)
  have i2 := t1.const_mul (if a = b then (1 : ℝ) else 0)
  have i3 : Integrable (fun ω => (if a = b then 1 else 0) * (v i ω c * v i ω d) -
      (if a = b then (1 : ℝ) else 0) * (if c = d then 1 else 0)) P := i2.sub (integrable_const _)
  have i4 : Integrable (fun ω => (if c = d then 1 else 0) * (v i ω a * v i ω b) +
      ((if a = b then 1 else 0) * (v i ω c * v i ω d) -
        (if a = b then (1 : ℝ) else 0) * (if c = d then 1 else 0))) P := i1.add i3
  rw [hexp]
  refine ⟨h1.sub i4, ?_⟩
  rw [integral_sub h1 i4, h2, integral_add i1 i3, integral_sub i2 (integrable_const _), integral_const_mul,
    integral_const_mul, s2, t2, integral_const]
  simp only [probReal_univ, one_smul]
  ring

theorem IidVectors.dev_cross (hv : IidVectors P e v) {i j : Nat} (hij : i ≠ j) (a b c d : Fin n) :
    Integrable (fun ω => outerDev a b (v i ω) * outerDev c d (v j ω)) P ∧
    ∫ ω, outerDev a b (v i ω) * outerDev c d (v j ω) ∂P = 0 := by
  obtain ⟨h1, h2⟩ := hv.dev_mean i a b
  obtain ⟨s1, s2⟩ := hv.dev_mean j c d
  have hind : IndepFun (fun ω => outerDev a b (v i ω)) (fun ω => outerDev c d (v j ω)) P :=
    (hv.indep hij).comp (outerDev_measurable a b) (outerDev_measurable c d)
  refine ⟨hind.integrable_mul h1 s1, ?_⟩
  have := hind.integral_mul_eq_mul_integral h1.aestronglyMeasurable s1.aestronglyMeasurable
  simp only [Pi.mul_apply] at this
  rw [h2, s2] at this
  simpa using this

/-- The deviation of the quadratic form from the trace. -/
def quadDev (B : Matrix (Fin n) (Fin n) ℝ) (x : Fin n → ℝ) : ℝ := ∑ a, ∑ b, B a b * outerDev a b x

theorem quadDev_eq (B : Matrix (Fin n) (Fin n) ℝ) (x : Fin n → ℝ) : quadDev B x = x ⬝ᵥ (B *ᵥ x) - B.trace := by
  have h : x ⬝ᵥ (B *ᵥ x) = ∑ a, ∑ b, B a b * (x a * x b) := by
    simp only [dotProduct, mulVec, Finset.mul_sum]
    exact Finset.sum_congr rfl fun _ _ => Finset.sum_congr rfl fun _ _ => by ring
  rw [h]
  simp only [quadDev, outerDev, mul_sub, Finset.sum_sub_distrib, mul_ite, mul_one, mul_zero, Finset.sum_ite_eq,
    Finset.mem_univ, if_true, Matrix.trace, Matrix.diag_apply]

/-- A random matrix that is bounded and independent of all the vectors. -/
structure IndepMatrix (P : Measure Ω) (B : Ω → Matrix (Fin n) (Fin n) ℝ) (v : Nat → Ω → Fin n → ℝ) : Prop where
  meas : ∀ a b, Measurable fun ω => B ω a b
  bound : ∃ K, ∀ ω a b, |B ω a b| ≤ K
  indep : ∀ i j, IndepFun (fun ω (p : Fin n × Fin n) => B ω p.1 p.2) (fun ω => (v i ω, v j ω)) P

variable {B : Ω → Matrix (Fin n) (Fin n) ℝ}

theorem IndepMatrix.entry_integrable (hB : IndepMatrix P B v) (a b : Fin n) : Integrable (fun ω => B ω a b) P := by
  obtain ⟨K, hK⟩ := hB.bound
  exact Integrable.of_bound (hB.meas a b).aestronglyMeasurable K (Eventually.of_forall fun ω => hK ω a b)

theorem IndepMatrix.mul_integrable (hB : IndepMatrix P B v) (a b c d : Fin n) :
    Integrable (fun ω => B ω a b * B ω c d) P := by
  obtain ⟨K, hK⟩ := hB.bound
  refine Integrable.of_bound ((hB.meas a b).mul (hB.meas c d)).aestronglyMeasurable (K * K)
    (Eventually.of_forall fun ω => ?_)
  rw [Real.norm_eq_abs, abs_mul]
  exact mul_le_mul (hK ω a b) (hK ω c d) (abs_nonneg _) ((abs_nonneg _).trans (hK ω a b))

theorem quadDev_mean (hv : IidVectors P e v) (hB : IndepMatrix P B v) (i : Nat) :
    Integrable (fun ω => quadDev (B ω) (v i ω)) P ∧ ∫ ω, quadDev (B ω) (v i ω) ∂P = 0 := by
  have key : ∀ a b, Integrable (fun ω => B ω a b * outerDev a b (v i ω)) P ∧
      ∫ ω, B ω a b * outerDev a b (v i ω) ∂P = 0 := by
    intro a b
    obtain ⟨h1, h2⟩ := hv.dev_mean i a b
    have hind : IndepFun (fun ω => B ω a b) (fun ω => outerDev a b (v i ω)) P :=
      (hB.indep i i).comp (measurable_pi_apply (a, b)) ((outerDev_measurable a b).comp measurable_fst)
    refine ⟨hind.integrable_mul (hB.entry_integrable a b) h1, ?_⟩
    have := hind.integral_mul_eq_mul_integral (hB.entry_integrable a b).aestronglyMeasurable h1.aestronglyMeasurable
    simp only [Pi.mul_apply] at this
    rw [this, h2, mul_zero]
  unfold quadDev
  refine ⟨integrable_finsetSum _ fun a _ => integrable_finsetSum _ fun b _ => (key a b).1, ?_⟩
  rw [integral_finsetSum _ fun a _ => integrable_finsetSum _ fun b _ => (key a b).1]
  refine Finset.sum_eq_zero fun a _ => ?_
  rw [integral_finsetSum _ fun b _ => (key a b).1]
  exact Finset.sum_eq_zero fun b _ => (key a b).2

theorem quadDev_mul_expand (B : Matrix (Fin n) (Fin n) ℝ) (x y : Fin n → ℝ) :
    quadDev B x * quadDev B y =
      ∑ a, ∑ b, ∑ c, ∑ d, B a b * B c d * (outerDev a b x * outerDev c d y) := by
  unfold quadDev
  rw [Finset.sum_mul]
  refine Finset.sum_congr rfl fun a _ => ?_
  rw [Finset.sum_mul]
  refine Finset.sum_congr rfl fun b _ => ?_
  rw [Finset.mul_sum]
  refine Finset.sum_congr rfl fun c _ => ?_
  rw [Finset.mul_sum]
  exact Finset.sum_congr rfl fun d _ => by ring

omit [IsProbabilityMeasure P] in
theorem integral_sum4 {f : Fin n → Fin n → Fin n → Fin n → Ω → ℝ} (hf : ∀ a b c d, Integrable (f a b c d) P) :
    Integrable (fun ω => ∑ a, ∑ b, ∑ c, ∑ d, f a b c d ω) P ∧
    ∫ ω, ∑ a, ∑ b, ∑ c, ∑ d, f a b c d ω ∂P = ∑ a, ∑ b, ∑ c, ∑ d, ∫ ω, f a b c d ω ∂P := by
  have i1 : ∀ a b c, Integrable (fun ω => ∑ d, f a b c d ω) P :=
    fun a b c => integrable_finsetSum _ fun d _ => hf a b c d
  have i2 : ∀ a b, Integrable (fun ω => ∑ c, ∑ d, f a b c d ω) P :=
    fun a b => integrable_finsetSum _ fun c _ => i1 a b c
  have i3 : ∀ a, Integrable (fun ω => ∑ b, ∑ c, ∑ d, f a b c d ω) P :=
    fun a => integrable_finsetSum _ fun b _ => i2 a b
  refine ⟨integrable_finsetSum _ fun a _ => i3 a, ?_⟩
  rw [integral_finsetSum _ fun a _ => i3 a]
  refine Finset.sum_congr rfl fun a _ => ?_
  rw [integral_finsetSum _ fun b _ => i2 a b]
  refine Finset.sum_congr rfl fun b _ => ?_
  rw [integral_finsetSum _ fun c _ => i1 a b c]
  refine Finset.sum_congr rfl fun c _ => ?_
  rw [integral_finsetSum _ fun d _ => hf a b c d]

theorem quadDev_term (hv : IidVectors P e v) (hB : IndepMatrix P B v) (i j : Nat) (a b c d : Fin n) :
    Integrable (fun ω => B ω a b * B ω c d * (outerDev a b (v i ω) * outerDev c d (v j ω))) P ∧
    ∫ ω, B ω a b * B ω c d * (outerDev a b (v i ω) * outerDev c d (v j ω)) ∂P =
      (∫ ω, B ω a b * B ω c d ∂P) * ∫ ω, outerDev a b (v i ω) * outerDev c d (v j ω) ∂P := by
  have h1 : Integrable (fun ω => outerDev a b (v i ω) * outerDev c d (v j ω)) P := by
    by_cases hij : i = j
    · subst hij; exact (hv.dev_mul i a b c d).1
    · exact (hv.dev_cross hij a b c d).1
  have hψ : Measurable fun x : (Fin n → ℝ) × (Fin n → ℝ) => outerDev a b x.1 * outerDev c d x.2 :=
    ((outerDev_measurable a b).comp measurable_fst).mul ((outerDev_measurable c d).comp measurable_snd)
  have hφ : Measurable fun p : Fin n × Fin n → ℝ => p (a, b) * p (c, d) :=
    (measurable_pi_apply (a, b)).mul (measurable_pi_apply (c, d))
  have hind : IndepFun (fun ω => B ω a b * B ω c d) (fun ω => outerDev a b (v i ω) * outerDev c d (v j ω)) P :=
    (hB.indep i j).comp hφ hψ
  exact ⟨hind.integrable_mul (hB.mul_integrable a b c d) h1,
    hind.integral_mul_eq_mul_integral (hB.mul_integrable a b c d).aestronglyMeasurable h1.aestronglyMeasurable⟩

theorem sum_dev_pairings (e : ℝ) (B : Matrix (Fin n) (Fin n) ℝ) :
    ∑ a, ∑ b, ∑ c, ∑ d, B a b * B c d * (pairings e a b c d - (if a = b then 1 else 0) * (if c = d then 1 else 0)) =
      quadVar e B := by
  have h2 : ∑ a, ∑ b, ∑ c, ∑ d, B a b * B c d * ((if a = b then (1 : ℝ) else 0) * (if c = d then 1 else 0)) =
      B.trace ^ 2 := by
    simp only [mul_ite, mul_one, mul_zero, Finset.sum_ite_eq, Finset.mem_univ, if_true,
      Matrix.trace, Matrix.diag_apply]
    rw [sq, Finset.sum_mul]
    refine Finset.sum_congr rfl fun a _ => ?_
    rw [Finset.mul_sum, Finset.sum_comm]
    refine Finset.sum_congr rfl fun c _ => ?_
    simp
  simp only [mul_sub, Finset.sum_sub_distrib]
  rw [sum_pairings, h2]
  ring

theorem quadDev_mul (hv : IidVectors P e v) (hB : IndepMatrix P B v) (i j : Nat) :
    Integrable (fun ω => quadDev (B ω) (v i ω) * quadDev (B ω) (v j ω)) P ∧
    Integrable (fun ω => quadVar e (B ω)) P ∧
    ∫ ω, quadDev (B ω) (v i ω) * quadDev (B ω) (v j ω) ∂P = if i = j then ∫ ω, quadVar e (B ω) ∂P else 0 := by
  have h := integral_sum4 fun a b c d => (quadDev_term hv hB i j a b c d).1
  have h' := integral_sum4 (P := P) fun a b c d => (hB.mul_integrable a b c d).mul_const
    (pairings e a b c d - (if a = b then 1 else 0) * (if c = d then 1 else 0))
  simp only [quadDev_mul_expand]
  refine ⟨h.1, by simpa only [sum_dev_pairings] using h'.1, h.2.trans ?_⟩
  simp only [fun a b c d => (quadDev_term hv hB i j a b c d).2]
  split_ifs with hij
  · subst hij
    simp only [fun a b c d => (hv.dev_mul i a b c d).2]
    simp only [sum_dev_pairings] at h'
    rw [h'.2]
    simp only [integral_mul_const]
  · simp only [fun a b c d => (hv.dev_cross hij a b c d).2, mul_zero, Finset.sum_const_zero]

/-- Everything about the averages of `X 0, X 1, …` as estimates of `t`, with variance `σ` of a single sample. -/
structure GoodAverages (P : Measure Ω) (X : Nat → Ω → ℝ) (t σ : ℝ) : Prop where
  mean : ∀ m, 0 < m → Integrable (average X m) P ∧ ∫ ω, average X m ω ∂P = t
  mse : ∀ m, 0 < m → Integrable (fun ω => (average X m ω - t) ^ 2) P ∧
    ∫ ω, (average X m ω - t) ^ 2 ∂P = σ / m
  tail : ∀ m, 0 < m → ∀ ε, 0 < ε → P.real {ω | ε ≤ |average X m ω - t|} ≤ σ / (m * ε ^ 2)
  limit : ∀ᵐ ω ∂P, Tendsto (fun m => average X m ω) atTop (𝓝 t)

omit [IsProbabilityMeasure P] [MeasurableSpace Ω] in
theorem average_sub {X : Nat → Ω → ℝ} {t : ℝ} {m : Nat} (hm : 0 < m) (ω : Ω) :
    average X m ω = t + average (fun i ω => X i ω - t) m ω := by
  have h : (m : ℝ) ≠ 0 := by positivity
  unfold average
  rw [Finset.sum_sub_distrib, Finset.sum_const, Finset.card_range, nsmul_eq_mul]
  field_simp
  ring

/-- Almost surely, the averages of the quadratic forms tend to the trace — for every matrix at once, so that the matrix may
depend on the outcome in any way. -/
theorem quadDev_limit (hv : IidVectors P e v) :
    ∀ᵐ ω ∂P, ∀ B : Matrix (Fin n) (Fin n) ℝ, Tendsto (fun m : Nat => (∑ i ∈ Finset.range m, quadDev B (v i ω)) / m) atTop (𝓝 0) := by
  have key : ∀ a b, ∀ᵐ ω ∂P, Tendsto (fun m : Nat => (∑ i ∈ Finset.range m, outerDev a b (v i ω)) / m) atTop (𝓝 0) := by
    intro a b
    have h := strong_law_ae_real (μ := P) (fun i ω => outerDev a b (v i ω)) (hv.dev_mean 0 a b).1
      (fun i j hij => (hv.indep hij).comp (outerDev_measurable a b) (outerDev_measurable a b))
      (fun i => (hv.ident i).comp (outerDev_measurable a b))
    rw [(hv.dev_mean 0 a b).2] at h
    exact h
  have hall : ∀ᵐ ω ∂P, ∀ a b, Tendsto (fun m : Nat => (∑ i ∈ Finset.range m, outerDev a b (v i ω)) / m) atTop (𝓝 0) :=
    ae_all_iff.2 fun a => ae_all_iff.2 fun b => key a b
  filter_upwards [hall] with ω hω B
  have h : (fun m : Nat => (∑ i ∈ Finset.range m, quadDev B (v i ω)) / m) = fun m : Nat =>
      ∑ a, ∑ b, B a b * ((∑ i ∈ Finset.range m, outerDev a b (v i ω)) / m) := by
    funext m
    unfold quadDev
    rw [Finset.sum_comm, Finset.sum_div]
    refine Finset.sum_congr rfl fun a _ => ?_
    rw [Finset.sum_comm, Finset.sum_div]
    refine Finset.sum_congr rfl fun b _ => ?_
    rw [← Finset.mul_sum, mul_div_assoc]
  rw [h]
  have h0 : (0 : ℝ) = ∑ a : Fin n, ∑ b : Fin n, B a b * 0 := by simp
  rw [h0]
  exact tendsto_finsetSum _ fun a _ => tendsto_finsetSum _ fun b _ => (hω a b).const_mul _

/-- Averages of numbers that deviate from `t` by a quadratic form in independent vectors. -/
theorem quadDev_good (hv : IidVectors P e v) (hB : IndepMatrix P B v) (X : Nat → Ω → ℝ) (t : ℝ)
    (hX : ∀ i ω, X i ω = t + quadDev (B ω) (v i ω)) :
    GoodAverages P X t (∫ ω, quadVar e (B ω) ∂P) := by
  set Y : Nat → Ω → ℝ := fun i ω => quadDev (B ω) (v i ω) with hY
  have hYi : ∀ m, Integrable (average Y m) P ∧ ∫ ω, average Y m ω ∂P = 0 := by
    intro m
    have hs : Integrable (fun ω => ∑ i ∈ Finset.range m, Y i ω) P :=
      integrable_finsetSum _ fun i _ => (quadDev_mean hv hB i).1
    refine ⟨hs.div_const _, ?_⟩
    unfold average
    rw [integral_div, integral_finsetSum _ fun i _ => (quadDev_mean hv hB i).1,
      Finset.sum_eq_zero fun i _ => (quadDev_mean hv hB i).2, zero_div]
  have hsq : ∀ m, (fun ω => average Y m ω ^ 2) =
      fun ω => (∑ i ∈ Finset.range m, ∑ j ∈ Finset.range m, Y i ω * Y j ω) / (m : ℝ) ^ 2 := by
    intro m
    funext ω
    unfold average
    rw [div_pow, sq (∑ i ∈ Finset.range m, Y i ω), Finset.sum_mul_sum]
  have hYs : ∀ m, 0 < m → Integrable (fun ω => average Y m ω ^ 2) P ∧
      ∫ ω, average Y m ω ^ 2 ∂P = (∫ ω, quadVar e (B ω) ∂P) / m := by
    intro m hm
    have i1 : ∀ i j, Integrable (fun ω => Y i ω * Y j ω) P := fun i j => (quadDev_mul hv hB i j).1
    have i2 : ∀ i, Integrable (fun ω => ∑ j ∈ Finset.range m, Y i ω * Y j ω) P :=
      fun i => integrable_finsetSum _ fun j _ => i1 i j
    rw [hsq]
    refine ⟨(integrable_finsetSum _ fun i _ => i2 i).div_const _, ?_⟩
    rw [integral_div, integral_finsetSum _ fun i _ => i2 i]
    have : ∀ i ∈ Finset.range m, ∫ ω, ∑ j ∈ Finset.range m, Y i ω * Y j ω ∂P = ∫ ω, quadVar e (B ω) ∂P := by
      intro i hi
      rw [integral_finsetSum _ fun j _ => i1 i j]
      simp only [hY, fun j => (quadDev_mul hv hB i j).2.2]
      rw [Finset.sum_ite_eq, if_pos hi]
    rw [Finset.sum_congr rfl this, Finset.sum_const, Finset.card_range, nsmul_eq_mul]
    have h : (m : ℝ) ≠ 0 := by positivity
    field_simp
  have hav : ∀ m, 0 < m → ∀ ω, average X m ω = t + average Y m ω := by
    intro m hm ω
    rw [average_sub (t := t) hm ω]
    simp only [hX, add_sub_cancel_left, hY]
  have hdev : ∀ m, 0 < m → (fun ω => average X m ω - t) = average Y m := by
    intro m hm
    funext ω
    rw [hav m hm ω, add_sub_cancel_left]
  refine ⟨fun m hm => ?_, fun m hm => ?_, fun m hm ε hε => ?_, ?_⟩
  · have : average X m = fun ω => t + average Y m ω := funext fun ω => hav m hm ω
    rw [this]
    refine ⟨(integrable_const _).add (hYi m).1, ?_⟩
    rw [integral_add (integrable_const _) (hYi m).1, (hYi m).2, integral_const]
    simp
  · have : (fun ω => (average X m ω - t) ^ 2) = fun ω => average Y m ω ^ 2 := by
      funext ω
      rw [← hdev m hm]
    rw [this]
    exact hYs m hm
  · have hset : {ω | ε ≤ |average X m ω - t|} = {ω | ε ^ 2 ≤ average Y m ω ^ 2} := by
      ext ω
      simp only [Set.mem_ofPred_eq, ← hdev m hm]
      rw [← sq_abs (average X m ω - t)]
      exact (pow_le_pow_iff_left₀ hε.le (abs_nonneg _) two_ne_zero).symm
    have hmk := mul_meas_ge_le_integral_of_nonneg (μ := P) (f := fun ω => average Y m ω ^ 2)
      (Eventually.of_forall fun ω => sq_nonneg _) (hYs m hm).1 (ε ^ 2)
    rw [(hYs m hm).2] at hmk
    rw [hset, le_div_iff₀ (by positivity)]
    have hm' : (0 : ℝ) < m := by exact_mod_cast hm
    rw [le_div_iff₀ hm'] at hmk
    linarith
  · filter_upwards [quadDev_limit hv] with ω hω
    have h := (hω (B ω)).const_add t
    rw [add_zero] at h
    refine h.congr' ?_
    filter_upwards [eventually_gt_atTop 0] with m hm
    exact (hav m hm ω).symm

/-- A fixed matrix is independent of everything. -/
theorem IndepMatrix.const (C : Matrix (Fin n) (Fin n) ℝ) : IndepMatrix P (fun _ => C) v := by
  refine ⟨fun _ _ => measurable_const, ?_, fun i j => indepFun_const_left _ _⟩
  obtain ⟨K, hK⟩ := (Set.finite_range fun p : Fin n × Fin n => |C p.1 p.2|).bddAbove
  exact ⟨K, fun _ a b => hK ⟨(a, b), rfl⟩⟩

theorem quadDev_good_const (hv : IidVectors P e v) (C : Matrix (Fin n) (Fin n) ℝ) (X : Nat → Ω → ℝ) (t : ℝ)
    (hX : ∀ i ω, X i ω = t + quadDev C (v i ω)) : GoodAverages P X t (quadVar e C) := by
  have h := quadDev_good hv (IndepMatrix.const C) X t hX
  simpa using h

end

end Curvlinops
