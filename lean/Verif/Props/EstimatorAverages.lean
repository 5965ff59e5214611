import Verif.Props.EstimatorVariance
import Verif.Lemmas.Averages

/-!
# C94: averages of the stochastic estimators

The caller evaluates `[estimator.sample() for _ in range(m)]` and averages. All calls read the same generator, one
after the other. The outcome `ω` determines the state `w ω` of the world before the first call.
-/

namespace Curvlinops

open Matrix MeasureTheory ProbabilityTheory Filter Topology

variable {α β W : Type _}

/-- `[f() for _ in range(m)]` for a call `f` that may raise (the exceptions are collected) and that changes the state. -/
def repeatCalls (f : W → Py β × W) : Nat → W → List (Py β) × W
  | 0, w => ([], w)
  | m + 1, w =>
    let r := f w
    let rs := repeatCalls f m r.2
    (r.1 :: rs.1, rs.2)

/-- The state before call number `i` (counted from 0). -/
def stateBefore (f : W → Py β × W) : Nat → W → W
  | 0, w => w
  | i + 1, w => stateBefore f i (f w).2

theorem repeatCalls_eq (f : W → Py β × W) (m : Nat) (w : W) :
    (repeatCalls f m w).1 = List.ofFn fun i : Fin m => (f (stateBefore f i w)).1 := by
  induction m generalizing w with
  | zero => rfl
  | succ m ih =>
    rw [List.ofFn_succ]
    simp only [repeatCalls, ih]
    rfl

section

variable {Ω : Type _} [MeasurableSpace Ω]

/-- In the worlds `world 0, world 1, …` the generator returns bits that are fair and, for different worlds,
independent. -/
structure FairDraws (P : Measure Ω) (E : Ext ℝ W) (n : Nat) (world : Nat → Ω → W) (b : Nat → Ω → Fin n → Bool) :
    Prop where
  drawn : ∀ i ω, (E.bits n (world i ω)).1 = List.ofFn (b i ω)
  meas : ∀ i, Measurable (b i)
  fair : ∀ i x, P.real {ω | b i ω = x} = 1 / 2 ^ n
  indep : Pairwise fun i j => IndepFun (b i) (b j) P

/-- In the worlds `world 0, world 1, …` the generator returns standard normal vectors that are independent for different
worlds. -/
structure NormalDraws (P : Measure Ω) (E : Ext ℝ W) (n : Nat) (world : Nat → Ω → W) (v : Nat → Ω → Fin n → ℝ) :
    Prop where
  drawn : ∀ i ω, (E.randn n (world i ω)).1 = List.ofFn (v i ω)
  meas : ∀ i, Measurable (v i)
  law : ∀ i, P.map (v i) = stdNormal n
  indep : Pairwise fun i j => IndepFun (v i) (v j) P

variable {P : Measure Ω} [IsProbabilityMeasure P] {n : Nat} {E : Ext ℝ W} {world : Nat → Ω → W}

theorem fair_integral {b : Nat → Ω → Fin n → Bool} (hb : FairDraws P E n world b) (i : Nat)
    (F : (Fin n → Bool) → ℝ) : Integrable (fun ω => F (b i ω)) P ∧ ∫ ω, F (b i ω) ∂P = signMean F := by
  have hF : Measurable F := measurable_of_finite F
  have : IsProbabilityMeasure (P.map (b i)) := Measure.isProbabilityMeasure_map (hb.meas i).aemeasurable
  have hint : Integrable F (P.map (b i)) := Integrable.of_finite
  refine ⟨(integrable_map_measure hF.aestronglyMeasurable (hb.meas i).aemeasurable).1 hint, ?_⟩
  have h := integral_map (hb.meas i).aemeasurable (μ := P) hF.aestronglyMeasurable
  rw [← h, integral_fintype hint]
  unfold signMean
  rw [Finset.sum_div]
  refine Finset.sum_congr rfl fun x _ => ?_
  have hx : (P.map (b i)).real {x} = 1 / 2 ^ n := by
    rw [map_measureReal_apply (hb.meas i) (measurableSet_singleton x), ← hb.fair i x]
    rfl
  rw [hx, smul_eq_mul]
  ring

theorem FairDraws.iid {b : Nat → Ω → Fin n → Bool} (hb : FairDraws P E n world b) :
    IidVectors P 1 fun i ω a => sgn (b i ω a) := by
  have hm : Measurable fun (x : Fin n → Bool) (a : Fin n) => (sgn (x a) : ℝ) := measurable_of_finite _
  refine ⟨fun i => hm.comp (hb.meas i), fun i j hij => (hb.indep hij).comp hm hm, fun i => ?_, fun i a b' => ?_,
    fun i a b' c d => ?_⟩
  · have hid : IdentDistrib (b i) (b 0) P P := by
      refine ⟨(hb.meas i).aemeasurable, (hb.meas 0).aemeasurable, ?_⟩
      refine Measure.ext_of_singleton fun x => ?_
      rw [Measure.map_apply (hb.meas i) (measurableSet_singleton x),
        Measure.map_apply (hb.meas 0) (measurableSet_singleton x)]
      exact (measureReal_eq_measureReal_iff).1 ((hb.fair i x).trans (hb.fair 0 x).symm)
    exact hid.comp hm
  · obtain ⟨h1, h2⟩ := fair_integral hb i fun x => (sgn (x a) : ℝ) * sgn (x b')
    exact ⟨h1, h2.trans (signMean_moment a b')⟩
  · obtain ⟨h1, h2⟩ := fair_integral hb i fun x => (sgn (x a) : ℝ) * sgn (x b') * sgn (x c) * sgn (x d)
    exact ⟨h1, h2.trans (signMean_fourth a b' c d)⟩

omit [IsProbabilityMeasure P] in
theorem NormalDraws.iid {v : Nat → Ω → Fin n → ℝ} (hv : NormalDraws P E n world v) : IidVectors P 3 v := by
  have key : ∀ i (F : (Fin n → ℝ) → ℝ), Measurable F → Integrable F (stdNormal n) →
      Integrable (fun ω => F (v i ω)) P ∧ ∫ ω, F (v i ω) ∂P = ∫ x, F x ∂stdNormal n := by
    intro i F hF hint
    rw [← hv.law i] at hint ⊢
    exact ⟨(integrable_map_measure hF.aestronglyMeasurable (hv.meas i).aemeasurable).1 hint,
      (integral_map (hv.meas i).aemeasurable hF.aestronglyMeasurable).symm⟩
  refine ⟨hv.meas, hv.indep, fun i => ⟨(hv.meas i).aemeasurable, (hv.meas 0).aemeasurable, ?_⟩, fun i a b => ?_,
    fun i a b c d => ?_⟩
  · rw [hv.law i, hv.law 0]
  · obtain ⟨h1, h2⟩ := key i (fun x => x a * x b) (by fun_prop) (stdNormal_integrable a b)
    exact ⟨h1, h2.trans (stdNormal_moment a b)⟩
  · obtain ⟨h1, h2⟩ := key i (fun x => x a * x b * x c * x d) (by fun_prop) (stdNormal_fourth a b c d).1
    exact ⟨h1, h2.trans (stdNormal_fourth a b c d).2⟩

omit [IsProbabilityMeasure P] in
/-- C94: the number of samples that suffices for an error below `ε` with probability `1 - δ`. -/
theorem GoodAverages.enough {X : Nat → Ω → ℝ} {t σ : ℝ} (h : GoodAverages P X t σ) (ε δ : ℝ) (hε : 0 < ε)
    (hδ : 0 < δ) (m : Nat) (hm : 0 < m) (hmσ : σ / (δ * ε ^ 2) ≤ m) : P.real {ω | ε ≤ |average X m ω - t|} ≤ δ := by
  refine (h.tail m hm ε hε).trans ?_
  have hm' : (0 : ℝ) < m := by exact_mod_cast hm
  rw [div_le_iff₀ (by positivity)] at hmσ ⊢
  linarith

/-! ## Hutchinson's estimators -/

/-- C94: averages of the trace estimator, Rademacher. -/
theorem hutchTrace_average_rademacher (M : Matrix (Fin n) (Fin n) ℝ) (hM : Multiplies E M) (w : Ω → W)
    (b : Nat → Ω → Fin n → Bool)
    (hb : FairDraws P E n (fun i ω => stateBefore (hutchTrace E n (.str "rademacher")) i (w ω)) b) :
    ∃ X : Nat → Ω → ℝ,
      (∀ m ω, (repeatCalls (hutchTrace E n (.str "rademacher")) m (w ω)).1 = List.ofFn fun i : Fin m => .ok (X i ω)) ∧
      GoodAverages P X M.trace (∑ i, ∑ j, if i = j then 0 else M i j * (M i j + M j i)) := by
  refine ⟨fun i ω => (fun a => sgn (b i ω a)) ⬝ᵥ (M *ᵥ fun a => sgn (b i ω a)), fun m ω => ?_, ?_⟩
  · rw [repeatCalls_eq]
    congr 1
    funext i
    exact hutchTrace_eq E M hM _ _ _ (rademacher_ofFn E _ _ (hb.drawn i ω))
  · rw [← quadVar_one]
    exact quadDev_good_const hb.iid M _ _ fun i ω => by rw [quadDev_eq]; ring

/-- C94: averages of the trace estimator, normal. -/
theorem hutchTrace_average_normal (M : Matrix (Fin n) (Fin n) ℝ) (hM : Multiplies E M) (w : Ω → W)
    (v : Nat → Ω → Fin n → ℝ)
    (hv : NormalDraws P E n (fun i ω => stateBefore (hutchTrace E n (.str "normal")) i (w ω)) v) :
    ∃ X : Nat → Ω → ℝ,
      (∀ m ω, (repeatCalls (hutchTrace E n (.str "normal")) m (w ω)).1 = List.ofFn fun i : Fin m => .ok (X i ω)) ∧
      GoodAverages P X M.trace (∑ i, ∑ j, M i j * (M i j + M j i)) := by
  refine ⟨fun i ω => v i ω ⬝ᵥ (M *ᵥ v i ω), fun m ω => ?_, ?_⟩
  · rw [repeatCalls_eq]
    congr 1
    funext i
    exact hutchTrace_eq E M hM _ _ _ (normal_ofFn E _ _ (hv.drawn i ω))
  · rw [← quadVar_three]
    exact quadDev_good_const hv.iid M _ _ fun i ω => by rw [quadDev_eq]; ring

/-- C94: averages of every entry of the diagonal estimator, Rademacher. -/
theorem hutchDiag_average_rademacher (M : Matrix (Fin n) (Fin n) ℝ) (hM : Multiplies E M) (w : Ω → W)
    (b : Nat → Ω → Fin n → Bool)
    (hb : FairDraws P E n (fun i ω => stateBefore (hutchDiag E n (.str "rademacher")) i (w ω)) b) :
    ∃ X : Nat → Ω → Fin n → ℝ,
      (∀ m ω, (repeatCalls (hutchDiag E n (.str "rademacher")) m (w ω)).1 =
        List.ofFn fun i : Fin m => .ok (List.ofFn (X i ω))) ∧
      ∀ a, GoodAverages P (fun i ω => X i ω a) (M a a) (∑ j, if j = a then 0 else M a j ^ 2) := by
  refine ⟨fun i ω a => sgn (b i ω a) * (M *ᵥ fun c => sgn (b i ω c)) a, fun m ω => ?_, fun a => ?_⟩
  · rw [repeatCalls_eq]
    congr 1
    funext i
    exact hutchDiag_eq E M hM _ _ _ (rademacher_ofFn E _ _ (hb.drawn i ω))
  · have h := quadDev_good_const hb.iid (onlyRow M a) (fun i ω => sgn (b i ω a) * (M *ᵥ fun c => sgn (b i ω c)) a)
      (M a a) fun i ω => by
        rw [quadDev_eq, (quad_onlyRow M a _).1, (quad_onlyRow M a (fun _ => 0)).2]; ring
    rw [quadVar_onlyRow] at h
    have hs : (∑ j, if j = a then 0 else M a j ^ 2) = ∑ j, M a j ^ 2 + (1 - 2) * M a a ^ 2 := by
      have : ∀ j, (if j = a then 0 else M a j ^ 2) = M a j ^ 2 + if j = a then -(M a a ^ 2) else 0 := by
        intro j
        split_ifs with hj
        · rw [hj]; ring
        · ring
      simp only [this, Finset.sum_add_distrib, Finset.sum_ite_eq', Finset.mem_univ, if_true]
      ring
    rwa [hs]

/-- C94: averages of every entry of the diagonal estimator, normal. -/
theorem hutchDiag_average_normal (M : Matrix (Fin n) (Fin n) ℝ) (hM : Multiplies E M) (w : Ω → W)
    (v : Nat → Ω → Fin n → ℝ)
    (hv : NormalDraws P E n (fun i ω => stateBefore (hutchDiag E n (.str "normal")) i (w ω)) v) :
    ∃ X : Nat → Ω → Fin n → ℝ,
      (∀ m ω, (repeatCalls (hutchDiag E n (.str "normal")) m (w ω)).1 =
        List.ofFn fun i : Fin m => .ok (List.ofFn (X i ω))) ∧
      ∀ a, GoodAverages P (fun i ω => X i ω a) (M a a) (∑ j, M a j ^ 2 + M a a ^ 2) := by
  refine ⟨fun i ω a => v i ω a * (M *ᵥ v i ω) a, fun m ω => ?_, fun a => ?_⟩
  · rw [repeatCalls_eq]
    congr 1
    funext i
    exact hutchDiag_eq E M hM _ _ _ (normal_ofFn E _ _ (hv.drawn i ω))
  · have h := quadDev_good_const hv.iid (onlyRow M a) (fun i ω => v i ω a * (M *ᵥ v i ω) a) (M a a) fun i ω => by
      rw [quadDev_eq, (quad_onlyRow M a _).1, (quad_onlyRow M a (fun _ => 0)).2]; ring
    rw [quadVar_onlyRow] at h
    have hs : ∑ j, M a j ^ 2 + M a a ^ 2 = ∑ j, M a j ^ 2 + (3 - 2) * M a a ^ 2 := by ring
    rwa [hs]

/-- C94: averages of the estimator of the squared Frobenius norm, Rademacher. -/
theorem hutchNorm_average_rademacher {r : Nat} (M : Matrix (Fin r) (Fin n) ℝ) (hM : Multiplies E M) (w : Ω → W)
    (b : Nat → Ω → Fin n → Bool)
    (hb : FairDraws P E n (fun i ω => stateBefore (hutchNorm E n (.str "rademacher")) i (w ω)) b) :
    ∃ X : Nat → Ω → ℝ,
      (∀ m ω, (repeatCalls (hutchNorm E n (.str "rademacher")) m (w ω)).1 = List.ofFn fun i : Fin m => .ok (X i ω)) ∧
      GoodAverages P X (∑ i, ∑ j, M i j ^ 2) (2 * ∑ i, ∑ j, if i = j then 0 else (∑ k, M k i * M k j) ^ 2) := by
  refine ⟨fun i ω => (M *ᵥ fun a => sgn (b i ω a)) ⬝ᵥ (M *ᵥ fun a => sgn (b i ω a)), fun m ω => ?_, ?_⟩
  · rw [repeatCalls_eq]
    congr 1
    funext i
    exact hutchNorm_eq E M hM _ _ _ (rademacher_ofFn E _ _ (hb.drawn i ω))
  · have h := quadDev_good_const hb.iid (Mᵀ * M) _ _ fun i ω => (sub_eq_iff_eq_add'.1 (quadDev_eq _ _).symm)
    rw [trace_gram, quadVar_one] at h
    simpa only [quad_gram, gram_symm, Finset.mul_sum, mul_ite, mul_zero] using h

/-- C94: averages of the estimator of the squared Frobenius norm, normal. -/
theorem hutchNorm_average_normal {r : Nat} (M : Matrix (Fin r) (Fin n) ℝ) (hM : Multiplies E M) (w : Ω → W)
    (v : Nat → Ω → Fin n → ℝ)
    (hv : NormalDraws P E n (fun i ω => stateBefore (hutchNorm E n (.str "normal")) i (w ω)) v) :
    ∃ X : Nat → Ω → ℝ,
      (∀ m ω, (repeatCalls (hutchNorm E n (.str "normal")) m (w ω)).1 = List.ofFn fun i : Fin m => .ok (X i ω)) ∧
      GoodAverages P X (∑ i, ∑ j, M i j ^ 2) (2 * ∑ i, ∑ j, (∑ k, M k i * M k j) ^ 2) := by
  refine ⟨fun i ω => (M *ᵥ v i ω) ⬝ᵥ (M *ᵥ v i ω), fun m ω => ?_, ?_⟩
  · rw [repeatCalls_eq]
    congr 1
    funext i
    exact hutchNorm_eq E M hM _ _ _ (normal_ofFn E _ _ (hv.drawn i ω))
  · have h := quadDev_good_const hv.iid (Mᵀ * M) _ _ fun i ω => (sub_eq_iff_eq_add'.1 (quadDev_eq _ _).symm)
    rw [trace_gram, quadVar_three] at h
    simpa only [quad_gram, gram_symm, Finset.mul_sum] using h

end

/-! ## Hutch++ -/

/-- A call of `HutchPPTraceEstimator.sample` with the buffers in the state. -/
def ppSample [Ring α] (E : Ext α W) (d : DistArg) (s : HutchPP α × W) : Py α × HutchPP α × W := s.1.sample E d s.2

/-- The first call sets up the buffers, so that samples after the set-up are the samples of a fresh estimator. -/
theorem ppSample_setup [Ring α] (E : Ext α W) (d : DistArg) (s : HutchPP α) (w : W) (Q : List (List α)) (t : α)
    (h1 : (s.maybeCompute E w).1 = .ok ()) (hQ : (s.maybeCompute E w).2.1.Q = some Q)
    (ht : (s.maybeCompute E w).2.1.tr = some t) (m : Nat) :
    (repeatCalls (ppSample E d) m (s, w)).1 = (repeatCalls (ppSample E d) m (s.maybeCompute E w).2).1 := by
  rcases hmc : s.maybeCompute E w with ⟨r, s', w'⟩
  rw [hmc] at h1 hQ ht
  simp only at h1 hQ ht
  subst h1
  have hfirst : s.sample E d w = s'.sample E d w' := by
    conv_rhs => rw [HutchPP.sample, (hutchpp_cached E s' Q t hQ ht d w').1]
    rw [HutchPP.sample, hmc]
  cases m with
  | zero => rfl
  | succ m =>
    have h : ppSample E d (s, w) = ppSample E d (s', w') := hfirst
    simp only [repeatCalls, h]

theorem ppSample_state [Ring α] (E : Ext α W) (d : DistArg) (s : HutchPP α) (Q : List (List α)) (t : α)
    (hQ : s.Q = some Q) (ht : s.tr = some t) (i : Nat) (w : W) : (stateBefore (ppSample E d) i (s, w)).1 = s := by
  induction i generalizing w with
  | zero => rfl
  | succ i ih =>
    have h : (ppSample E d (s, w)).2 = (s, (ppSample E d (s, w)).2.2) :=
      Prod.ext (hutchpp_cached E s Q t hQ ht d w).2 rfl
    rw [stateBefore, h]
    exact ih _

theorem orthoCols_abs_le {k n : Nat} {q : Fin k → Fin n → ℝ} (hq : OrthoCols q) (i : Fin k) (a : Fin n) :
    |q i a| ≤ 1 := by
  have h := hq i i
  rw [if_pos rfl, dotProduct] at h
  have hle : q i a * q i a ≤ ∑ c, q i c * q i c :=
    Finset.single_le_sum (fun c _ => mul_self_nonneg (q i c)) (Finset.mem_univ a)
  rw [h] at hle
  exact abs_le_one_iff_mul_self_le_one.2 hle

theorem complement_apply {k n : Nat} (q : Fin k → Fin n → ℝ) (a b : Fin n) :
    complement q a b = (if a = b then 1 else 0) - ∑ i, q i a * q i b := by
  simp [complement, Matrix.sub_apply, Matrix.one_apply, Matrix.mul_apply]

theorem complement_abs_le {k n : Nat} {q : Fin k → Fin n → ℝ} (hq : OrthoCols q) (a b : Fin n) :
    |complement q a b| ≤ 1 + k := by
  rw [complement_apply]
  refine (abs_sub _ _).trans (add_le_add ?_ ?_)
  · split_ifs <;> simp
  · refine (Finset.abs_sum_le_sum_abs _ _).trans ?_
    have : ∀ i ∈ Finset.univ, |q i a * q i b| ≤ 1 := fun i _ => by
      rw [abs_mul]
      exact mul_le_one₀ (orthoCols_abs_le hq i a) (abs_nonneg _) (orthoCols_abs_le hq i b)
    exact (Finset.sum_le_sum this).trans (by simp)

theorem complement_measurable {k n : Nat} (a b : Fin n) :
    Measurable fun q : Fin k → Fin n → ℝ => complement q a b := by
  simp only [complement_apply]
  fun_prop

theorem compress_apply {k n : Nat} (M : Matrix (Fin n) (Fin n) ℝ) (q : Fin k → Fin n → ℝ) (a b : Fin n) :
    (complement q * M * complement q) a b = ∑ d, (∑ c, complement q a c * M c d) * complement q d b := by
  simp [Matrix.mul_apply]

section

variable {Ω : Type _} [MeasurableSpace Ω] {P : Measure Ω} [IsProbabilityMeasure P] {n k : Nat} {E : Ext ℝ W}

omit [IsProbabilityMeasure P] in
theorem compress_indep (M : Matrix (Fin n) (Fin n) ℝ) (q : Ω → Fin k → Fin n → ℝ) (hq : ∀ ω, OrthoCols (q ω))
    (hqm : Measurable q) {T : Type _} [MeasurableSpace T] (x : Nat → Ω → T)
    (hind : IndepFun q (fun ω i => x i ω) P) (g : T → Fin n → ℝ) (hg : Measurable g) :
    IndepMatrix P (fun ω => complement (q ω) * M * complement (q ω)) fun i ω => g (x i ω) := by
  have hm : ∀ a b, Measurable fun q : Fin k → Fin n → ℝ => (complement q * M * complement q) a b := by
    intro a b
    simp only [compress_apply]
    exact Finset.measurable_fun_sum _ fun d _ => (Finset.measurable_fun_sum _ fun c _ =>
      (complement_measurable a c).mul_const _).mul (complement_measurable d b)
  refine ⟨fun a b => (hm a b).comp hqm, ⟨∑ d, (∑ c, (1 + k) * |M c d|) * (1 + k), fun ω a b => ?_⟩, fun i j => ?_⟩
  · rw [compress_apply]
    refine (Finset.abs_sum_le_sum_abs _ _).trans (Finset.sum_le_sum fun d _ => ?_)
    rw [abs_mul]
    refine mul_le_mul ?_ (complement_abs_le (hq ω) d b) (abs_nonneg _)
      (Finset.sum_nonneg fun c _ => by positivity)
    refine (Finset.abs_sum_le_sum_abs _ _).trans (Finset.sum_le_sum fun c _ => ?_)
    rw [abs_mul]
    exact mul_le_mul_of_nonneg_right (complement_abs_le (hq ω) a c) (abs_nonneg _)
  · have hφ : Measurable fun (q : Fin k → Fin n → ℝ) (p : Fin n × Fin n) =>
        (complement q * M * complement q) p.1 p.2 := measurable_pi_lambda _ fun p => hm p.1 p.2
    have hψ : Measurable fun y : Nat → T => (g (y i), g (y j)) :=
      (hg.comp (measurable_pi_apply i)).prodMk (hg.comp (measurable_pi_apply j))
    exact hind.comp hφ hψ

/-- The samples of a fresh Hutch++ estimator, in terms of the basis that the first call computes. -/
theorem ppSample_values (hE : DrawLengths E) (hqr : QrOrtho E n) (M : Matrix (Fin n) (Fin n) ℝ) (hM : Multiplies E M)
    (hk : 0 < k) (hkn : k ≤ n) (base : DistArg) (hbase : KnownDist base) (d : DistArg) (w : W)
    (x : Nat → Fin n → ℝ)
    (hx : ∀ i, (randomVector E n d (stateBefore (ppSample E d) i
      (HutchPP.maybeCompute E ⟨n, k, base, none, none⟩ w).2).2).1 = .ok (List.ofFn (x i))) :
    (∃ q : Fin k → Fin n → ℝ, (HutchPP.maybeCompute E ⟨n, k, base, none, none⟩ w).2.1.Ready M q) ∧
    ∀ q : Fin k → Fin n → ℝ, (HutchPP.maybeCompute E ⟨n, k, base, none, none⟩ w).2.1.Ready M q →
      ∀ m, (repeatCalls (ppSample E d) m (⟨n, k, base, none, none⟩, w)).1 =
        List.ofFn fun i : Fin m => .ok (M.trace + quadDev (complement q * M * complement q) (x i)) := by
  obtain ⟨q0, s', h1, h2, hs'⟩ := hutchpp_setup E hE hqr M hM k hk hkn base hbase w
  refine ⟨⟨q0, h2 ▸ hs'⟩, fun q hq m => ?_⟩
  rw [ppSample_setup E d _ w _ _ h1 hq.2.2.1 hq.2.2.2, repeatCalls_eq]
  congr 1
  funext i
  have hst := ppSample_state E d _ _ _ hq.2.2.1 hq.2.2.2 i (HutchPP.maybeCompute E ⟨n, k, base, none, none⟩ w).2.2
  have hval := hutchpp_sample_eq E M hM _ q hq d _ _ (hx i)
  unfold ppSample
  rw [show stateBefore (fun s : HutchPP ℝ × W => s.1.sample E d s.2) i.1
    (HutchPP.maybeCompute E ⟨n, k, base, none, none⟩ w).2 = stateBefore (ppSample E d) i.1
    (HutchPP.maybeCompute E ⟨n, k, base, none, none⟩ w).2 from rfl]
  have hst' : (stateBefore (ppSample E d) i.1 (HutchPP.maybeCompute E ⟨n, k, base, none, none⟩ w).2).1 =
    (HutchPP.maybeCompute E ⟨n, k, base, none, none⟩ w).2.1 := hst
  rw [hst', hval, quadDev_eq, ← trace_split hq.2.1 M]
  congr 1
  ring

/-- The common part for both distributions. -/
theorem hutchpp_average_aux {e : ℝ} (M : Matrix (Fin n) (Fin n) ℝ) {T : Type _} [MeasurableSpace T]
    (y : Nat → Ω → T) (g : T → Fin n → ℝ) (hg : Measurable g)
    (hiid : IidVectors P e fun i ω => g (y i ω)) (hex : Ω → (Fin k → Fin n → ℝ) → Prop)
    (hortho : ∀ ω q, hex ω q → OrthoCols q)
    (hne : ∀ ω, ∃ q, hex ω q) (res : Nat → Ω → List (Py ℝ))
    (hres : ∀ ω q, hex ω q → ∀ m, res m ω = List.ofFn fun i : Fin m =>
      .ok (M.trace + quadDev (complement q * M * complement q) (g (y i ω)))) :
    ∃ X : Nat → Ω → ℝ, (∀ m ω, res m ω = List.ofFn fun i : Fin m => .ok (X i ω)) ∧
      (∀ᵐ ω ∂P, Tendsto (fun m => average X m ω) atTop (𝓝 M.trace)) ∧
      ∀ q : Ω → Fin k → Fin n → ℝ, (∀ ω, hex ω (q ω)) → Measurable q → IndepFun q (fun ω i => y i ω) P →
        GoodAverages P X M.trace (∫ ω, quadVar e (complement (q ω) * M * complement (q ω)) ∂P) := by
  choose q0 hq0 using hne
  refine ⟨fun i ω => M.trace + quadDev (complement (q0 ω) * M * complement (q0 ω)) (g (y i ω)),
    fun m ω => hres ω _ (hq0 ω) m, ?_, fun q hq hqm hind => ?_⟩
  · filter_upwards [quadDev_limit hiid] with ω hω
    have h := (hω (complement (q0 ω) * M * complement (q0 ω))).const_add M.trace
    rw [add_zero] at h
    refine h.congr' ?_
    filter_upwards [eventually_gt_atTop 0] with m hm
    rw [average_sub (t := M.trace) hm ω]
    simp only [add_sub_cancel_left, average]
  · refine quadDev_good hiid (compress_indep M q (fun ω => hortho ω _ (hq ω)) hqm y hind g hg) _ _ fun i ω => ?_
    have h1 := hres ω _ (hq0 ω) (i + 1)
    rw [hres ω _ (hq ω) (i + 1)] at h1
    have h2 := congrFun (List.ofFn_injective h1) ⟨i, Nat.lt_succ_self i⟩
    simp only [Except.ok.injEq] at h2
    exact h2.symm

/-- C94: averages of the samples of a fresh Hutch++ estimator, Rademacher. Almost surely they tend to the trace, whatever
basis the first call draws. If the basis is independent of the vectors drawn for the samples, the averages are unbiased
and their variance is the mean variance given the basis, divided by the number of samples. -/
theorem hutchpp_average_rademacher (hE : DrawLengths E) (hqr : QrOrtho E n) (M : Matrix (Fin n) (Fin n) ℝ)
    (hM : Multiplies E M) (hk : 0 < k) (hkn : k ≤ n) (base : DistArg) (hbase : KnownDist base) (w : Ω → W)
    (b : Nat → Ω → Fin n → Bool)
    (hb : FairDraws P E n (fun i ω => (stateBefore (ppSample E (.str "rademacher")) i
      (HutchPP.maybeCompute E ⟨n, k, base, none, none⟩ (w ω)).2).2) b) :
    ∃ X : Nat → Ω → ℝ,
      (∀ m ω, (repeatCalls (ppSample E (.str "rademacher")) m (⟨n, k, base, none, none⟩, w ω)).1 =
        List.ofFn fun i : Fin m => .ok (X i ω)) ∧
      (∀ᵐ ω ∂P, Tendsto (fun m => average X m ω) atTop (𝓝 M.trace)) ∧
      ∀ q : Ω → Fin k → Fin n → ℝ,
        (∀ ω, (HutchPP.maybeCompute E ⟨n, k, base, none, none⟩ (w ω)).2.1.Ready M (q ω)) →
        Measurable q → IndepFun q (fun ω i => b i ω) P →
        GoodAverages P X M.trace (∫ ω, quadVar 1 (complement (q ω) * M * complement (q ω)) ∂P) := by
  have hvals := fun ω => ppSample_values hE hqr M hM hk hkn base hbase (.str "rademacher") (w ω)
    (fun i a => sgn (b i ω a)) fun i => rademacher_ofFn E _ _ (hb.drawn i ω)
  exact hutchpp_average_aux M b (fun x a => sgn (x a)) (measurable_of_finite _) hb.iid
    (fun ω q => (HutchPP.maybeCompute E ⟨n, k, base, none, none⟩ (w ω)).2.1.Ready M q) (fun ω q hq => hq.2.1)
    (fun ω => (hvals ω).1) (fun m ω => (repeatCalls (ppSample E (.str "rademacher")) m (⟨n, k, base, none, none⟩, w ω)).1)
    fun ω q hq m => (hvals ω).2 q hq m

/-- C94: averages of the samples of a fresh Hutch++ estimator, normal; the variance is at most that of the averages of
Hutchinson's estimator. -/
theorem hutchpp_average_normal (hE : DrawLengths E) (hqr : QrOrtho E n) (M : Matrix (Fin n) (Fin n) ℝ)
    (hM : Multiplies E M) (hk : 0 < k) (hkn : k ≤ n) (base : DistArg) (hbase : KnownDist base) (w : Ω → W)
    (v : Nat → Ω → Fin n → ℝ)
    (hv : NormalDraws P E n (fun i ω => (stateBefore (ppSample E (.str "normal")) i
      (HutchPP.maybeCompute E ⟨n, k, base, none, none⟩ (w ω)).2).2) v) :
    ∃ X : Nat → Ω → ℝ,
      (∀ m ω, (repeatCalls (ppSample E (.str "normal")) m (⟨n, k, base, none, none⟩, w ω)).1 =
        List.ofFn fun i : Fin m => .ok (X i ω)) ∧
      (∀ᵐ ω ∂P, Tendsto (fun m => average X m ω) atTop (𝓝 M.trace)) ∧
      ∀ q : Ω → Fin k → Fin n → ℝ,
        (∀ ω, (HutchPP.maybeCompute E ⟨n, k, base, none, none⟩ (w ω)).2.1.Ready M (q ω)) →
        Measurable q → IndepFun q (fun ω i => v i ω) P →
        GoodAverages P X M.trace (∫ ω, quadVar 3 (complement (q ω) * M * complement (q ω)) ∂P) ∧
        ∫ ω, quadVar 3 (complement (q ω) * M * complement (q ω)) ∂P ≤ ∑ i, ∑ j, M i j * (M i j + M j i) := by
  have hvals := fun ω => ppSample_values hE hqr M hM hk hkn base hbase (.str "normal") (w ω)
    (fun i => v i ω) fun i => normal_ofFn E _ _ (hv.drawn i ω)
  obtain ⟨X, h1, h2, h3⟩ := hutchpp_average_aux M v (fun x => x) measurable_id hv.iid
    (fun ω q => (HutchPP.maybeCompute E ⟨n, k, base, none, none⟩ (w ω)).2.1.Ready M q) (fun ω q hq => hq.2.1)
    (fun ω => (hvals ω).1) (fun m ω => (repeatCalls (ppSample E (.str "normal")) m (⟨n, k, base, none, none⟩, w ω)).1)
    fun ω q hq m => (hvals ω).2 q hq m
  refine ⟨X, h1, h2, fun q hq hqm hind => ⟨h3 q hq hqm hind, ?_⟩⟩
  have hB := compress_indep M q (fun ω => (hq ω).2.1) hqm v hind (fun x => x) measurable_id
  have hint := (quadDev_mul hv.iid hB 0 0).2.1
  have hle : ∀ ω, quadVar 3 (complement (q ω) * M * complement (q ω)) ≤ quadVar 3 M := fun ω =>
    quadVar_proj_le _ (complement_sq (hq ω).2.1).1 (complement_sq (hq ω).2.1).2 M
  have := integral_mono hint (integrable_const (quadVar 3 M)) hle
  rw [integral_const, probReal_univ, one_smul, quadVar_three] at this
  exact this

end

/-! ## Independent draws exist -/

/-- A generator that reads a stream of vectors, one for every call; the products are with `M`, the basis consists of unit
vectors. -/
def vectorStream {T : Type _} {n : Nat} (M : Matrix (Fin n) (Fin n) ℝ) (f : T → Fin n → Bool) (g : T → Fin n → ℝ) :
    Ext ℝ (Nat → T) where
  bits k w := (List.ofFn fun i : Fin k => if h : i.1 < n then f (w 0) ⟨i, h⟩ else false, fun i => w (i + 1))
  randn k w := (List.ofFn fun i : Fin k => if h : i.1 < n then g (w 0) ⟨i, h⟩ else 0, fun i => w (i + 1))
  mul v w := (.ok (List.ofFn (M *ᵥ fun i => v.getD i 0)), w)
  qr cols := List.ofFn fun i : Fin cols.length => List.ofFn fun j : Fin n => if i.1 = j.1 then 1 else 0

section

variable {T : Type _} {n : Nat} (M : Matrix (Fin n) (Fin n) ℝ) (f : T → Fin n → Bool) (g : T → Fin n → ℝ)

theorem vectorStream_ok : Multiplies (vectorStream M f g) M ∧ DrawLengths (vectorStream M f g) ∧
    QrOrtho (vectorStream M f g) n := by
  refine ⟨fun v w => by simp [vectorStream], fun k w => by simp [vectorStream], fun cols _ hle => ?_⟩
  refine ⟨fun i j => if i.1 = j.1 then 1 else 0, fun i j => ?_, rfl⟩
  have hi : i.1 < n := lt_of_lt_of_le i.2 hle
  rw [dotProduct, Finset.sum_eq_single (⟨i.1, hi⟩ : Fin n)]
  · simp [Fin.ext_iff, eq_comm]
  · intro b _ hb
    have : ¬ i.1 = b.1 := fun h => hb (Fin.ext h.symm)
    simp [this]
  · simp

theorem vectorStream_vector (d : DistArg) (hd : KnownDist d) (w : Nat → T) :
    (∃ x : Fin n → ℝ, (randomVector (vectorStream M f g) n d w).1 = .ok (List.ofFn x)) ∧
    (randomVector (vectorStream M f g) n d w).2 = fun i => w (i + 1) := by
  refine ⟨randomVector_known _ (vectorStream_ok M f g).2.1 n d hd w, ?_⟩
  rcases hd with rfl | rfl
  · exact (randomVector_world _ n w).1
  · exact (randomVector_world _ n w).2

theorem vectorStream_state (d : DistArg) (hd : KnownDist d) (i : Nat) (w : Nat → T) :
    stateBefore (hutchTrace (vectorStream M f g) n d) i w = (fun j => w (j + i)) ∧
    stateBefore (hutchDiag (vectorStream M f g) n d) i w = (fun j => w (j + i)) ∧
    stateBefore (hutchNorm (vectorStream M f g) n d) i w = (fun j => w (j + i)) := by
  have hstep : ∀ w, (hutchTrace (vectorStream M f g) n d w).2 = (fun j => w (j + 1)) ∧
      (hutchDiag (vectorStream M f g) n d w).2 = (fun j => w (j + 1)) ∧
      (hutchNorm (vectorStream M f g) n d w).2 = (fun j => w (j + 1)) := by
    intro w
    obtain ⟨⟨x, hx⟩, hw⟩ := vectorStream_vector M f g d hd w
    have h := sample_world (vectorStream M f g) n d w _ hx
    have hmul : ((vectorStream M f g).mul (List.ofFn x) (randomVector (vectorStream M f g) n d w).2).2 =
      fun j => w (j + 1) := hw
    rwa [hmul] at h
  have hs : ∀ i j : Nat, j + i + 1 = j + (i + 1) := fun i j => by omega
  refine ⟨?_, ?_, ?_⟩ <;> induction i generalizing w with
  | zero => rfl
  | succ i ih => rw [stateBefore, ih]; simp only [hstep, hs]

end

theorem fair_uniform (n : Nat) (x : Fin n → Bool) : (uniformOn (Set.univ : Set (Fin n → Bool))).real {x} = 1 / 2 ^ n := by
  simp [Measure.real, uniformOn_univ]

/-- Independent fair bits exist for the calls of the three Hutchinson estimators. -/
theorem fairDraws_exists {n : Nat} (M : Matrix (Fin n) (Fin n) ℝ) :
    ∃ (P : Measure (Nat → Fin n → Bool)) (E : Ext ℝ (Nat → Fin n → Bool)), IsProbabilityMeasure P ∧ Multiplies E M ∧
      FairDraws P E n (fun i ω => stateBefore (hutchTrace E n (.str "rademacher")) i ω) (fun i ω => ω i) ∧
      FairDraws P E n (fun i ω => stateBefore (hutchDiag E n (.str "rademacher")) i ω) (fun i ω => ω i) ∧
      FairDraws P E n (fun i ω => stateBefore (hutchNorm E n (.str "rademacher")) i ω) (fun i ω => ω i) := by
  let P := Measure.infinitePi fun _ : Nat => uniformOn (Set.univ : Set (Fin n → Bool))
  have key : ∀ world : Nat → (Nat → Fin n → Bool) → (Nat → Fin n → Bool), (∀ i ω, world i ω = fun j => ω (j + i)) →
      FairDraws P (vectorStream M id fun _ _ => 0) n world fun i ω => ω i := by
    intro world hworld
    refine ⟨fun i ω => ?_, fun i => measurable_pi_apply i, fun i x => ?_, fun i j hij => ?_⟩
    · rw [hworld]
      simp [vectorStream]
    · have h := congrArg (fun μ : Measure (Fin n → Bool) => μ.real {x})
        (Measure.infinitePi_map_eval (fun _ : Nat => uniformOn (Set.univ : Set (Fin n → Bool))) i)
      simp only [fair_uniform] at h
      rw [map_measureReal_apply (measurable_pi_apply i) (measurableSet_singleton x)] at h
      exact h
    · exact (iIndepFun_infinitePi (P := fun _ : Nat => uniformOn (Set.univ : Set (Fin n → Bool)))
        (X := fun _ d => d) fun _ => measurable_id).indepFun hij
  have hst := fun i ω => vectorStream_state M id (fun _ _ => 0) (.str "rademacher") (Or.inl rfl) i ω
  exact ⟨P, vectorStream M id fun _ _ => 0, inferInstance, (vectorStream_ok _ _ _).1,
    key _ fun i ω => (hst i ω).1, key _ fun i ω => (hst i ω).2.1, key _ fun i ω => (hst i ω).2.2⟩

/-- Independent normal vectors exist for the calls of the three Hutchinson estimators. -/
theorem normalDraws_exists {n : Nat} (M : Matrix (Fin n) (Fin n) ℝ) :
    ∃ (P : Measure (Nat → Fin n → ℝ)) (E : Ext ℝ (Nat → Fin n → ℝ)), IsProbabilityMeasure P ∧ Multiplies E M ∧
      NormalDraws P E n (fun i ω => stateBefore (hutchTrace E n (.str "normal")) i ω) (fun i ω => ω i) ∧
      NormalDraws P E n (fun i ω => stateBefore (hutchDiag E n (.str "normal")) i ω) (fun i ω => ω i) ∧
      NormalDraws P E n (fun i ω => stateBefore (hutchNorm E n (.str "normal")) i ω) (fun i ω => ω i) := by
  let P := Measure.infinitePi fun _ : Nat => stdNormal n
  have key : ∀ world : Nat → (Nat → Fin n → ℝ) → (Nat → Fin n → ℝ), (∀ i ω, world i ω = fun j => ω (j + i)) →
      NormalDraws P (vectorStream M (fun _ _ => false) id) n world fun i ω => ω i := by
    intro world hworld
    refine ⟨fun i ω => ?_, fun i => measurable_pi_apply i, fun i => Measure.infinitePi_map_eval _ i, fun i j hij => ?_⟩
    · rw [hworld]
      simp [vectorStream]
    · exact (iIndepFun_infinitePi (P := fun _ : Nat => stdNormal n) (X := fun _ d => d) fun _ => measurable_id).indepFun hij
  have hst := fun i ω => vectorStream_state M (fun _ _ => false) id (.str "normal") (Or.inr rfl) i ω
  exact ⟨P, vectorStream M (fun _ _ => false) id, inferInstance, (vectorStream_ok _ _ _).1,
    key _ fun i ω => (hst i ω).1, key _ fun i ω => (hst i ω).2.1, key _ fun i ω => (hst i ω).2.2⟩

section

variable {T : Type _} {n : Nat} (M : Matrix (Fin n) (Fin n) ℝ) (f : T → Fin n → Bool) (g : T → Fin n → ℝ)

theorem vectorStream_drawAndMul (d : DistArg) (hd : KnownDist d) (w : Nat → T) :
    ∃ p, drawAndMul (vectorStream M f g) n d w = (.ok p, fun j => w (j + 1)) := by
  obtain ⟨⟨x, hx⟩, hw⟩ := vectorStream_vector M f g d hd w
  refine ⟨(List.ofFn x, List.ofFn (M *ᵥ x)), Prod.ext (drawAndMul_eq _ M (vectorStream_ok M f g).1 d w x hx) ?_⟩
  rcases hr : randomVector (vectorStream M f g) n d w with ⟨r, w'⟩
  rw [hr] at hx hw
  simp only at hx hw
  subst hx hw
  have hm : ((vectorStream M f g).mul (List.ofFn x) fun i => w (i + 1)) =
      (.ok (List.ofFn (M *ᵥ fun i => (List.ofFn x).getD i 0)), fun i => w (i + 1)) := rfl
  simp only [drawAndMul, hr, hm]

theorem vectorStream_basisLoop (d : DistArg) (hd : KnownDist d) (k : Nat) (w : Nat → T) :
    ∃ cols, basisLoop (vectorStream M f g) n d k w = (.ok cols, fun j => w (j + k)) ∧ cols.length = k := by
  induction k generalizing w with
  | zero => exact ⟨[], rfl, rfl⟩
  | succ k ih =>
    obtain ⟨p, hp⟩ := vectorStream_drawAndMul M f g d hd w
    obtain ⟨cols, hc, hl⟩ := ih fun j => w (j + 1)
    refine ⟨p.2 :: cols, ?_, by simp [hl]⟩
    simp only [basisLoop, hp, hc]
    congr 1

theorem vectorStream_traceLoop (qs : List (List ℝ)) (t : ℝ) (w : Nat → T) :
    (traceLoop (vectorStream M f g) qs t w).2.2 = w := by
  induction qs generalizing t with
  | nil => rfl
  | cons q qs ih => exact ih _

/-- The first call of a fresh estimator reads one vector for every basis vector; the basis consists of unit vectors. -/
theorem vectorStream_setup (k : Nat) (hk : 0 < k) (hkn : k ≤ n) (base : DistArg) (hbase : KnownDist base)
    (w : Nat → T) :
    (HutchPP.maybeCompute (vectorStream M f g) ⟨n, k, base, none, none⟩ w).2.1.Ready M
        (fun (i : Fin k) (j : Fin n) => if i.1 = j.1 then 1 else 0) ∧
    (HutchPP.maybeCompute (vectorStream M f g) ⟨n, k, base, none, none⟩ w).2.2 = fun j => w (j + k) := by
  obtain ⟨hM, hE, hqr⟩ := vectorStream_ok M f g
  obtain ⟨q, s', h1, h2, hs'⟩ := hutchpp_setup _ hE hqr M hM k hk hkn base hbase w
  obtain ⟨cols, hc, hl⟩ := vectorStream_basisLoop M f g base hbase k w
  have hstack : ∃ a, columnStack cols = .ok a := by
    rcases hcs : columnStack cols with e | a
    · simp [HutchPP.maybeCompute, hc, hcs] at h1
    · exact ⟨a, rfl⟩
  obtain ⟨a, ha⟩ := hstack
  constructor
  · have hQ : s'.Q = some ((vectorStream M f g).qr cols) := by
      rw [← h2]
      simp only [HutchPP.maybeCompute, Option.isSome_none, Bool.and_self, Bool.false_eq_true, if_false,
        Int.toNat_natCast, hc, ha]
      rcases (traceLoop (vectorStream M f g) (((vectorStream M f g).qr cols).take k) 0 fun j => w (j + k)).1 with e | u
      · rfl
      · dsimp only
        split_ifs <;> rfl
    have hq : q = fun (i : Fin k) (j : Fin n) => if i.1 = j.1 then 1 else 0 := by
      have h := hs'.2.2.1.symm.trans hQ
      subst hl
      have h' := List.ofFn_injective (Option.some.inj h)
      funext i
      exact List.ofFn_injective (congrFun h' i)
    rw [h2, ← hq]
    exact hs'
  · simp only [HutchPP.maybeCompute, Option.isSome_none, Bool.and_self, Bool.false_eq_true, if_false,
      Int.toNat_natCast, hc, ha]
    have hw := vectorStream_traceLoop M f g (((vectorStream M f g).qr cols).take k) 0 fun j => w (j + k)
    rcases (traceLoop (vectorStream M f g) (((vectorStream M f g).qr cols).take k) 0 fun j => w (j + k)).1 with e | u
    · exact hw
    · dsimp only
      split_ifs <;> exact hw

theorem vectorStream_pp_state {k : Nat} (s : HutchPP ℝ) (q : Fin k → Fin n → ℝ) (hs : s.Ready M q) (d : DistArg)
    (hd : KnownDist d) (i : Nat) (w : Nat → T) :
    (stateBefore (ppSample (vectorStream M f g) d) i (s, w)).2 = fun j => w (j + i) := by
  have hstep : ∀ w, (ppSample (vectorStream M f g) d (s, w)).2 = (s, fun j => w (j + 1)) := by
    intro w
    obtain ⟨hdim, -, hQ, ht⟩ := hs
    obtain ⟨⟨x, hx⟩, hw⟩ := vectorStream_vector M f g d hd w
    rcases hr : randomVector (vectorStream M f g) n d w with ⟨r, w'⟩
    rw [hr] at hx hw
    simp only at hx hw
    subst hx hw
    simp only [ppSample, HutchPP.sample, (hutchpp_cached (vectorStream M f g) s _ _ hQ ht d w).1, hdim, hr]
    simp [hQ, ht, vectorStream]
  induction i generalizing w with
  | zero => rfl
  | succ i ih =>
    rw [stateBefore, hstep, ih]
    funext j
    exact congrArg w (by omega)

end

/-- The assumptions of `hutchpp_average_rademacher` can be met. -/
theorem hutchpp_draws_exist {n : Nat} (M : Matrix (Fin n) (Fin n) ℝ) (k : Nat) (hk : 0 < k) (hkn : k ≤ n)
    (base : DistArg) (hbase : KnownDist base) :
    ∃ (P : Measure (Nat → Fin n → Bool)) (E : Ext ℝ (Nat → Fin n → Bool)) (q : (Nat → Fin n → Bool) → Fin k → Fin n → ℝ),
      IsProbabilityMeasure P ∧ Multiplies E M ∧ DrawLengths E ∧ QrOrtho E n ∧
      FairDraws P E n (fun i ω => (stateBefore (ppSample E (.str "rademacher")) i
        (HutchPP.maybeCompute E ⟨n, k, base, none, none⟩ ω).2).2) (fun i ω => ω (k + i)) ∧
      (∀ ω, (HutchPP.maybeCompute E ⟨n, k, base, none, none⟩ ω).2.1.Ready M (q ω)) ∧
      Measurable q ∧ IndepFun q (fun ω i => ω (k + i)) P := by
  obtain ⟨hM, hE, hqr⟩ := vectorStream_ok M (id : (Fin n → Bool) → Fin n → Bool) (fun _ _ => 0)
  have hset := vectorStream_setup M (id : (Fin n → Bool) → Fin n → Bool) (fun _ _ => 0) k hk hkn base hbase
  refine ⟨Measure.infinitePi fun _ : Nat => uniformOn (Set.univ : Set (Fin n → Bool)), vectorStream M id fun _ _ => 0,
    fun _ i j => if i.1 = j.1 then 1 else 0, inferInstance, hM, hE, hqr, ?_, fun ω => (hset ω).1, measurable_const,
    indepFun_const_left _ _⟩
  refine ⟨fun i ω => ?_, fun i => measurable_pi_apply _, fun i x => ?_, fun i j hij => ?_⟩
  · have h := vectorStream_pp_state M (id : (Fin n → Bool) → Fin n → Bool) (fun _ _ => 0) _ _ (hset ω).1
      (.str "rademacher") (Or.inl rfl) i
      (HutchPP.maybeCompute (vectorStream M id fun _ _ => 0) ⟨n, k, base, none, none⟩ ω).2.2
    rw [(hset ω).2] at h
    rw [show (HutchPP.maybeCompute (vectorStream M id fun _ _ => 0) ⟨n, k, base, none, none⟩ ω).2 =
      ((HutchPP.maybeCompute (vectorStream M id fun _ _ => 0) ⟨n, k, base, none, none⟩ ω).2.1, fun j => ω (j + k)) from
      Prod.ext rfl (hset ω).2, h]
    simp [vectorStream, Nat.add_comm i k]
  · have h := congrArg (fun μ : Measure (Fin n → Bool) => μ.real {x})
      (Measure.infinitePi_map_eval (fun _ : Nat => uniformOn (Set.univ : Set (Fin n → Bool))) (k + i))
    simp only [fair_uniform] at h
    rw [map_measureReal_apply (measurable_pi_apply (k + i)) (measurableSet_singleton x)] at h
    exact h
  · exact (iIndepFun_infinitePi (P := fun _ : Nat => uniformOn (Set.univ : Set (Fin n → Bool)))
      (X := fun _ d => d) fun _ => measurable_id).indepFun (by omega)

/-- For the matrix `!![1, 2; 3, 4]`, 1000 Rademacher samples give the trace 5 up to an error of 1 with probability at
least 97.5 %. -/
example : ∃ (Ω : Type) (_ : MeasurableSpace Ω) (P : Measure Ω) (W : Type) (E : Ext ℝ W) (w : Ω → W) (X : Nat → Ω → ℝ),
    (∀ m ω, (repeatCalls (hutchTrace E 2 (.str "rademacher")) m (w ω)).1 = List.ofFn fun i : Fin m => .ok (X i ω)) ∧
    P.real {ω | 1 ≤ |average X 1000 ω - 5|} ≤ 0.025 ∧
    ∀ᵐ ω ∂P, Tendsto (fun m => average X m ω) atTop (𝓝 5) := by
  obtain ⟨P, E, hP, hM, hb, -, -⟩ := fairDraws_exists (!![1, 2; 3, 4] : Matrix (Fin 2) (Fin 2) ℝ)
  obtain ⟨X, hX, hg⟩ := hutchTrace_average_rademacher (P := P) _ hM (fun ω => ω) _ hb
  have ht : (!![1, 2; 3, 4] : Matrix (Fin 2) (Fin 2) ℝ).trace = 5 := by
    simp [Matrix.trace, Fin.sum_univ_two]; norm_num
  rw [ht] at hg
  refine ⟨_, inferInstance, P, _, E, fun ω => ω, X, hX, ?_, hg.limit⟩
  refine hg.enough 1 0.025 one_pos (by norm_num) 1000 (by norm_num) ?_
  simp [Fin.sum_univ_two]
  norm_num

end Curvlinops
