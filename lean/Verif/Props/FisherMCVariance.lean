import Verif.Props.KfacMC
import Verif.Props.EstimatorVariance
import Mathlib.Probability.Moments.Variance
import Mathlib.Probability.Independence.Basic
import Mathlib.Probability.Independence.InfinitePi
import Mathlib.Topology.Instances.ENNReal.Lemmas

/-!
# C90: the variance of the Monte-Carlo Fisher
-/

namespace Curvlinops

open MeasureTheory ProbabilityTheory Matrix

variable {k : LossKind} {C : Nat}

/-! ### One drawn label -/

theorem memLp_finite_law {ι : Type _} [Fintype ι] [MeasurableSpace ι] [MeasurableSingletonClass ι] (p : ι → ℝ)
    (hp : ∀ s, 0 ≤ p s) (F : ι → ℝ) : MemLp F 2 (∑ s : ι, ENNReal.ofReal (p s) • Measure.dirac s) :=
  (memLp_two_iff_integrable_sq (measurable_of_finite F).aestronglyMeasurable).2
    (integral_finite_law p hp fun s => F s ^ 2).1

theorem bitsProb_nonneg (f : Fin C → ℝ) (b : Fin C → Bool) : 0 ≤ bitsProb (fun c => Real.sigmoid (f c)) b := by
  refine Finset.prod_nonneg fun c _ => ?_
  have h1 := Real.sigmoid_pos (f c)
  have h2 := Real.sigmoid_lt_one (f c)
  split <;> linarith

/-- The entries of the outer product of a would-be gradient are square integrable. -/
theorem wouldBeGrad_memLp (f : Fin C → ℝ) (i j : Fin C) :
    MemLp (fun d : TermDraw k C => wouldBeGrad k f d i * wouldBeGrad k f d j) 2 (drawLaw k f) := by
  have hm : Measurable fun d : TermDraw k C => wouldBeGrad k f d i * wouldBeGrad k f d j :=
    (wouldBeGrad_measurable f i).mul (wouldBeGrad_measurable f j)
  refine (memLp_two_iff_integrable_sq hm.aestronglyMeasurable).2 ?_
  cases k
  · have h := ((stdNormal_fourth i j i j).1).const_mul ((4 * (Real.sqrt 0.5 * Real.sqrt 0.5)) ^ 2)
    refine h.congr (Filter.Eventually.of_forall fun z => ?_)
    simp only [wouldBeGrad]
    ring
  · exact (integral_finite_law (fun s => softmax f s) (fun s => (softmax_pos f s).le) _).1
  · exact (integral_finite_law (fun b => bitsProb (fun c => Real.sigmoid (f c)) b) (bitsProb_nonneg f) _).1

instance : IsProbabilityMeasure (stdNormal C) := by unfold stdNormal; infer_instance

theorem finite_law_probability {ι : Type _} [Fintype ι] [MeasurableSpace ι] (p : ι → ℝ) (hp : ∀ s, 0 ≤ p s)
    (h1 : ∑ s, p s = 1) : IsProbabilityMeasure (∑ s : ι, ENNReal.ofReal (p s) • Measure.dirac s) := by
  refine ⟨?_⟩
  simp only [Measure.finsetSum_apply, Measure.smul_apply, measure_univ, smul_eq_mul, mul_one]
  rw [← ENNReal.ofReal_sum_of_nonneg fun s _ => hp s, h1, ENNReal.ofReal_one]

/-- The predictive distribution is a probability distribution (there must be a class for `CrossEntropyLoss`). -/
theorem drawLaw_probability (f : Fin C → ℝ) (hC : k = .ce → 0 < C) : IsProbabilityMeasure (drawLaw k f) := by
  cases k
  · exact inferInstanceAs (IsProbabilityMeasure (stdNormal C))
  · exact finite_law_probability (ι := Fin C) _ (fun s => (softmax_pos f s).le) (sum_softmax f ⟨0, hC rfl⟩)
  · refine finite_law_probability (ι := Fin C → Bool) _ (bitsProb_nonneg f) ?_
    have h := bits_expectation (fun c => Real.sigmoid (f c)) fun _ _ => 1
    simpa using h

/-- Specification: the gradient in the parameters of a term's would-be loss with the drawn label `d`. -/
noncomputable def drawGrad (t : Term k C) (d : TermDraw k C) (r : Nat) : ℝ := ∑ i : Fin C, t.J i r * wouldBeGrad k t.f d i

/-- Specification: `Σ_rc a_rc g_r g_c` for the parameter gradient `g` with the drawn label `d`. -/
noncomputable def drawForm (P : Nat) (a : Nat → Nat → ℝ) (t : Term k C) (d : TermDraw k C) : ℝ :=
  ∑ r ∈ Finset.range P, ∑ c ∈ Finset.range P, a r c * (drawGrad t d r * drawGrad t d c)

/-- Specification: the variance of `Σ_rc a_rc g_r g_c` when the label is drawn from the predictive distribution. -/
noncomputable def labelVar (P : Nat) (a : Nat → Nat → ℝ) (t : Term k C) : ℝ := Var[drawForm P a t; drawLaw k t.f]

theorem drawForm_measurable (P : Nat) (a : Nat → Nat → ℝ) (t : Term k C) : Measurable (drawForm P a t) := by
  unfold drawForm drawGrad
  refine Finset.measurable_fun_sum _ fun r _ => Finset.measurable_fun_sum _ fun c _ => Measurable.const_mul ?_ _
  exact (Finset.measurable_fun_sum _ fun i _ => (wouldBeGrad_measurable t.f i).const_mul _).mul
    (Finset.measurable_fun_sum _ fun i _ => (wouldBeGrad_measurable t.f i).const_mul _)

theorem drawGrad_mul (t : Term k C) (d : TermDraw k C) (r c : Nat) :
    drawGrad t d r * drawGrad t d c =
      ∑ i : Fin C, ∑ j : Fin C, t.J i r * t.J j c * (wouldBeGrad k t.f d i * wouldBeGrad k t.f d j) := by
  unfold drawGrad
  rw [Finset.sum_mul_sum]
  exact Finset.sum_congr rfl fun i _ => Finset.sum_congr rfl fun j _ => by ring

theorem drawForm_expand (P : Nat) (a : Nat → Nat → ℝ) (t : Term k C) (d : TermDraw k C) :
    drawForm P a t d = ∑ i : Fin C, ∑ j : Fin C,
      (∑ r ∈ Finset.range P, ∑ c ∈ Finset.range P, a r c * t.J i r * t.J j c) *
        (wouldBeGrad k t.f d i * wouldBeGrad k t.f d j) := by
  unfold drawForm
  simp only [drawGrad_mul, Finset.mul_sum, Finset.sum_mul]
  have hc : ∀ g : Nat → Nat → Fin C → Fin C → ℝ,
      ∑ r ∈ Finset.range P, ∑ c ∈ Finset.range P, ∑ i, ∑ j, g r c i j =
      ∑ i, ∑ j, ∑ r ∈ Finset.range P, ∑ c ∈ Finset.range P, g r c i j := by
    intro g
    have q1 : ∀ r, ∑ c ∈ Finset.range P, ∑ i, ∑ j, g r c i j = ∑ i, ∑ j, ∑ c ∈ Finset.range P, g r c i j := by
      intro r
      rw [Finset.sum_comm]
      exact Finset.sum_congr rfl fun i _ => Finset.sum_comm
    simp only [q1]
    rw [Finset.sum_comm]
    exact Finset.sum_congr rfl fun i _ => Finset.sum_comm
  rw [hc]
  exact Finset.sum_congr rfl fun i _ => Finset.sum_congr rfl fun j _ => Finset.sum_congr rfl fun r _ =>
    Finset.sum_congr rfl fun c _ => by ring

theorem drawForm_memLp (P : Nat) (a : Nat → Nat → ℝ) (t : Term k C) : MemLp (drawForm P a t) 2 (drawLaw k t.f) := by
  unfold drawForm
  refine memLp_finsetSum _ fun r _ => memLp_finsetSum _ fun c _ => MemLp.const_mul ?_ _
  simp only [drawGrad_mul]
  exact memLp_finsetSum _ fun i _ => memLp_finsetSum _ fun j _ => (wouldBeGrad_memLp t.f i j).const_mul _

theorem drawForm_mean (P : Nat) (a : Nat → Nat → ℝ) (t : Term k C) :
    ∫ d, drawForm P a t d ∂(drawLaw k t.f) =
      ∑ r ∈ Finset.range P, ∑ c ∈ Finset.range P, a r c * termSandwich t (lossHessian t) r c := by
  unfold drawForm
  have hi : ∀ r c, Integrable (fun d => drawGrad t d r * drawGrad t d c) (drawLaw k t.f) ∧
      ∫ d, drawGrad t d r * drawGrad t d c ∂(drawLaw k t.f) = termSandwich t (lossHessian t) r c := by
    intro r c
    simp only [drawGrad_mul]
    have h : ∀ i j, _ := fun i j => wouldBeGrad_unbiased t.f t.y i j
    refine ⟨integrable_finsetSum _ fun i _ => integrable_finsetSum _ fun j _ => (h i j).1.const_mul _, ?_⟩
    rw [integral_finsetSum _ fun i _ => integrable_finsetSum _ fun j _ => (h i j).1.const_mul _]
    refine Finset.sum_congr rfl fun i _ => ?_
    rw [integral_finsetSum _ fun j _ => (h i j).1.const_mul _]
    refine Finset.sum_congr rfl fun j _ => ?_
    rw [integral_const_mul, (h i j).2, lossHessian]
    ring
  rw [integral_finsetSum _ fun r _ => integrable_finsetSum _ fun c _ => (hi r c).1.const_mul _]
  refine Finset.sum_congr rfl fun r _ => ?_
  rw [integral_finsetSum _ fun c _ => (hi r c).1.const_mul _]
  exact Finset.sum_congr rfl fun c _ => by rw [integral_const_mul, (hi r c).2]

/-! ### All drawn labels -/

section

variable {Ω : Type _} [MeasurableSpace Ω] {S : Nat}

/-- Mini-batches with random labels: `S` for each loss term. -/
abbrev RandomLabels (k : LossKind) (C S : Nat) (Ω : Type _) :=
  List ((b : List (List (Term k C))) × (Fin S → Fin b.flatten.length → Ω → TermDraw k C))

/-- The labels in one outcome. -/
def RandomLabels.at (D : RandomLabels k C S Ω) (ω : Ω) : List (LabeledBatch k C S) :=
  D.map fun x => ⟨x.1, fun s m => x.2 s m ω⟩

/-- Index of a drawn label: mini-batch, sample and row. -/
abbrev LabelIdx (D : RandomLabels k C S Ω) := (x : Fin D.length) × (Fin S × Fin (D.get x).1.flatten.length)

/-- The loss term a label is drawn for. -/
def RandomLabels.term (D : RandomLabels k C S Ω) (i : LabelIdx D) : Term k C := (D.get i.1).1.flatten.get i.2.2

/-- A drawn label. -/
def RandomLabels.label (D : RandomLabels k C S Ω) (i : LabelIdx D) : Ω → TermDraw k C := (D.get i.1).2 i.2.1 i.2.2

/-- The labels are drawn from the predictive distributions and are pairwise independent. -/
structure RandomLabels.Independent (D : RandomLabels k C S Ω) (P : Measure Ω) : Prop where
  measurable : ∀ i, AEMeasurable (D.label i) P
  law : ∀ i, P.map (D.label i) = drawLaw k (D.term i).f
  indep : Pairwise fun i j => IndepFun (D.label i) (D.label j) P

/-- All loss terms. -/
def RandomLabels.terms (D : RandomLabels k C S Ω) : List (Term k C) := (D.map fun x => x.1.flatten).flatten

omit [MeasurableSpace Ω] in
theorem mcMatrix_form (D : RandomLabels k C S Ω) (mean : Bool) (N T P : Nat) (a : Nat → Nat → ℝ) (ω : Ω) :
    ∑ r ∈ Finset.range P, ∑ c ∈ Finset.range P, a r c * mcMatrix mean N T (D.at ω) r c =
      ∑ i, termWeight k mean (N * T) C / S * drawForm P a (D.term i) (D.label i ω) := by
  have h1 : ∀ (t : Term k C) (d : Fin S → TermDraw k C) (r c : Nat), termSandwich t (sampleOuter t.f d) r c =
      (∑ s, drawGrad t (d s) r * drawGrad t (d s) c) / S := by
    intro t d r c
    simp only [drawGrad_mul]
    unfold termSandwich sampleOuter
    simp only [div_eq_mul_inv, Finset.mul_sum, Finset.sum_mul]
    rw [Finset.sum_comm (s := (Finset.univ : Finset (Fin S)))]
    refine Finset.sum_congr rfl fun i _ => ?_
    rw [Finset.sum_comm (s := (Finset.univ : Finset (Fin S)))]
    exact Finset.sum_congr rfl fun j _ => Finset.sum_congr rfl fun s _ => by ring
  have h2 : ∀ r c, mcMatrix mean N T (D.at ω) r c =
      ∑ i, termWeight k mean (N * T) C / S * (drawGrad (D.term i) (D.label i ω) r * drawGrad (D.term i) (D.label i ω) c) := by
    intro r c
    unfold mcMatrix RandomLabels.at
    rw [List.map_map, ← Fin.sum_univ_fun_getElem, ← Finset.mul_sum, Fintype.sum_sigma, div_mul_eq_mul_div, mul_div_assoc,
      Finset.sum_div]
    congr 1
    refine Finset.sum_congr rfl fun x _ => ?_
    rw [Fintype.sum_prod_type, Finset.sum_comm, Finset.sum_div]
    exact Finset.sum_congr rfl fun m _ => h1 _ _ _ _
  simp only [h2, Finset.mul_sum, drawForm]
  rw [Finset.sum_comm (s := (Finset.univ : Finset (LabelIdx D)))]
  refine Finset.sum_congr rfl fun r _ => ?_
  rw [Finset.sum_comm (s := (Finset.univ : Finset (LabelIdx D)))]
  exact Finset.sum_congr rfl fun c _ => Finset.sum_congr rfl fun i _ => by ring

omit [MeasurableSpace Ω] in
theorem sum_labels (D : RandomLabels k C S Ω) (F : Term k C → ℝ) :
    ∑ i, F (D.term i) = S * (D.terms.map F).sum := by
  unfold RandomLabels.terms
  rw [Fintype.sum_sigma, sum_map_flatten, List.map_map, ← Fin.sum_univ_fun_getElem, Finset.mul_sum]
  refine Finset.sum_congr rfl fun x _ => ?_
  rw [Fintype.sum_prod_type]
  change ∑ _ : Fin S, ∑ m, F ((D.get x).1.flatten.get m) = _
  simp only [Finset.sum_const, Finset.card_univ, Fintype.card_fin, nsmul_eq_mul]
  congr 1
  exact Fin.sum_univ_fun_getElem _ F

variable {P : Measure Ω}

theorem label_memLp {D : RandomLabels k C S Ω} (hD : D.Independent P) (n : Nat) (a : Nat → Nat → ℝ) (i : LabelIdx D) :
    MemLp (fun ω => drawForm n a (D.term i) (D.label i ω)) 2 P := by
  have h := drawForm_memLp n a (D.term i)
  rw [← hD.law i] at h
  exact (memLp_map_measure_iff (drawForm_measurable n a _).aestronglyMeasurable (hD.measurable i)).1 h

theorem label_var {D : RandomLabels k C S Ω} (hD : D.Independent P) (n : Nat) (a : Nat → Nat → ℝ) (i : LabelIdx D) :
    Var[fun ω => drawForm n a (D.term i) (D.label i ω); P] = labelVar n a (D.term i) := by
  unfold labelVar
  rw [← hD.law i, variance_map (drawForm_measurable n a _).aemeasurable (hD.measurable i)]
  rfl

/-- C90: with independent draws, the variance of every linear combination `Σ_rc a_rc F_rc` of the entries of the
Monte-Carlo Fisher with `S = mc_samples` is `weight² / S` times the sum over all loss terms of the variance for one drawn
label. -/
theorem mcMatrix_variance (hS : S ≠ 0) (D : RandomLabels k C S Ω) (hD : D.Independent P) (mean : Bool) (N T n : Nat)
    (a : Nat → Nat → ℝ) :
    Var[fun ω => ∑ r ∈ Finset.range n, ∑ c ∈ Finset.range n, a r c * mcMatrix mean N T (D.at ω) r c; P] =
      termWeight k mean (N * T) C ^ 2 / S * (D.terms.map (labelVar n a)).sum := by
  simp only [mcMatrix_form]
  have h := IndepFun.variance_sum (μ := P) (s := (Finset.univ : Finset (LabelIdx D)))
    (X := fun i ω => termWeight k mean (N * T) C / S * drawForm n a (D.term i) (D.label i ω))
    (fun i _ => (label_memLp hD n a i).const_mul _) (by
      intro i _ j _ hij
      exact (hD.indep hij).comp ((drawForm_measurable n a (D.term i)).const_mul _)
        ((drawForm_measurable n a (D.term j)).const_mul _))
  have e : (∑ i, fun ω => termWeight k mean (N * T) C / S * drawForm n a (D.term i) (D.label i ω)) =
      fun ω => ∑ i, termWeight k mean (N * T) C / S * drawForm n a (D.term i) (D.label i ω) := by
    funext ω
    simp
  rw [e] at h
  rw [h]
  simp only [variance_const_mul, label_var hD]
  rw [← Finset.mul_sum, sum_labels]
  have : (S : ℝ) ≠ 0 := by exact_mod_cast hS
  field_simp

theorem riskMatrix_terms (mean : Bool) (T : Nat) (H : Term k C → Fin C → Fin C → ℝ) (data : List (List (Term k C)))
    (r c : Nat) : riskMatrix (redOf mean) (datumMatrix mean T H) data r c =
      termWeight k mean (data.length * T) C * (data.flatten.map fun t => termSandwich t (H t) r c).sum := by
  unfold riskMatrix datumMatrix
  rw [List.sum_map_mul_left, ← mul_assoc, ← reductionFactor_batch, sum_map_flatten]
  congr 1
  unfold reductionFactor termWeight
  cases mean <;> cases k <;> simp

/-- C90: with draws from the predictive distributions, the mean of a linear combination of entries is that of the GGN. -/
theorem mcMatrix_mean (hS : S ≠ 0) (D : RandomLabels k C S Ω) [IsProbabilityMeasure P] (hD : D.Independent P)
    (mean : Bool) (T n : Nat) (a : Nat → Nat → ℝ) :
    ∫ ω, ∑ r ∈ Finset.range n, ∑ c ∈ Finset.range n,
        a r c * mcMatrix mean (D.map (·.1)).flatten.length T (D.at ω) r c ∂P =
      ∑ r ∈ Finset.range n, ∑ c ∈ Finset.range n,
        a r c * riskMatrix (redOf mean) (datumMatrix mean T lossHessian) (D.map (·.1)).flatten r c := by
  simp only [mcMatrix_form]
  have hi : ∀ i : LabelIdx D, Integrable (fun ω => termWeight k mean ((D.map (·.1)).flatten.length * T) C / S *
      drawForm n a (D.term i) (D.label i ω)) P :=
    fun i => ((label_memLp hD n a i).integrable one_le_two).const_mul _
  rw [integral_finsetSum _ fun i _ => hi i]
  have hm : ∀ i : LabelIdx D, ∫ ω, drawForm n a (D.term i) (D.label i ω) ∂P =
      ∑ r ∈ Finset.range n, ∑ c ∈ Finset.range n, a r c * termSandwich (D.term i) (lossHessian (D.term i)) r c := by
    intro i
    have h := drawForm_mean n a (D.term i)
    rw [← hD.law i, integral_map (hD.measurable i) (drawForm_measurable n a _).aestronglyMeasurable] at h
    exact h
  simp only [integral_const_mul, hm]
  rw [← Finset.mul_sum, sum_labels D fun t => ∑ r ∈ Finset.range n, ∑ c ∈ Finset.range n,
    a r c * termSandwich t (lossHessian t) r c]
  simp only [riskMatrix_terms]
  have hf : (D.map (·.1)).flatten.flatten = D.terms := by
    unfold RandomLabels.terms
    rw [List.flatten_flatten, List.map_map]
    rfl
  rw [hf]
  have hS' : (S : ℝ) ≠ 0 := by exact_mod_cast hS
  rw [← mul_assoc, div_mul_cancel₀ _ hS']
  generalize termWeight k mean ((D.map (·.1)).flatten.length * T) C = w
  induction D.terms with
  | nil => simp
  | cons t ts ih =>
    simp only [List.map_cons, List.sum_cons, mul_add, Finset.sum_add_distrib, ih, add_left_inj]
    simp only [Finset.mul_sum]
    exact Finset.sum_congr rfl fun r _ => Finset.sum_congr rfl fun c _ => by ring

theorem mcMatrix_form_memLp {D : RandomLabels k C S Ω} (hD : D.Independent P) (mean : Bool) (N T n : Nat)
    (a : Nat → Nat → ℝ) :
    MemLp (fun ω => ∑ r ∈ Finset.range n, ∑ c ∈ Finset.range n, a r c * mcMatrix mean N T (D.at ω) r c) 2 P := by
  simp only [mcMatrix_form]
  exact memLp_finsetSum _ fun i _ => (label_memLp hD n a i).const_mul _

/-- C90: probability of an error of at least `ε` in a linear combination of entries. -/
theorem mcMatrix_chebyshev (hS : S ≠ 0) (D : RandomLabels k C S Ω) [IsProbabilityMeasure P] (hD : D.Independent P)
    (mean : Bool) (T n : Nat) (a : Nat → Nat → ℝ) (ε : ℝ) (hε : 0 < ε) :
    P {ω | ε ≤ |(∑ r ∈ Finset.range n, ∑ c ∈ Finset.range n,
          a r c * mcMatrix mean (D.map (·.1)).flatten.length T (D.at ω) r c) -
        ∑ r ∈ Finset.range n, ∑ c ∈ Finset.range n,
          a r c * riskMatrix (redOf mean) (datumMatrix mean T lossHessian) (D.map (·.1)).flatten r c|} ≤
      ENNReal.ofReal (termWeight k mean ((D.map (·.1)).flatten.length * T) C ^ 2 / S *
        (D.terms.map (labelVar n a)).sum / ε ^ 2) := by
  have h := meas_ge_le_variance_div_sq (μ := P)
    (mcMatrix_form_memLp hD mean (D.map (·.1)).flatten.length T n a) hε
  rw [mcMatrix_variance hS D hD, mcMatrix_mean hS D hD] at h
  exact h

omit [MeasurableSpace Ω] in
theorem RandomLabels.terms_eq (D : RandomLabels k C S Ω) : D.terms = (D.map (·.1)).flatten.flatten := by
  unfold RandomLabels.terms
  rw [List.flatten_flatten, List.map_map]
  rfl

end

/-- C90: on the same data, the variances with `S` and `S'` samples are as `1 / S` to `1 / S'`, however the data are split
into mini-batches. -/
theorem mcMatrix_variance_samples {Ω Ω' : Type _} [MeasurableSpace Ω] [MeasurableSpace Ω'] {P : Measure Ω}
    {P' : Measure Ω'} {S S' : Nat} (hS : S ≠ 0) (hS' : S' ≠ 0) (D : RandomLabels k C S Ω) (D' : RandomLabels k C S' Ω')
    (hD : D.Independent P) (hD' : D'.Independent P') (hdata : (D.map (·.1)).flatten = (D'.map (·.1)).flatten)
    (mean : Bool) (N T n : Nat) (a : Nat → Nat → ℝ) :
    S * Var[fun ω => ∑ r ∈ Finset.range n, ∑ c ∈ Finset.range n, a r c * mcMatrix mean N T (D.at ω) r c; P] =
      S' * Var[fun ω => ∑ r ∈ Finset.range n, ∑ c ∈ Finset.range n, a r c * mcMatrix mean N T (D'.at ω) r c; P'] := by
  rw [mcMatrix_variance hS D hD, mcMatrix_variance hS' D' hD', D.terms_eq, D'.terms_eq, hdata]
  have h : (S : ℝ) ≠ 0 := by exact_mod_cast hS
  have h' : (S' : ℝ) ≠ 0 := by exact_mod_cast hS'
  field_simp

/-- C90: the Monte-Carlo Fisher is a consistent estimate of the GGN: as the number of samples grows, the probability of an
error of at least `ε` tends to 0. -/
theorem mcMatrix_consistent {Ω : Nat → Type _} [∀ S, MeasurableSpace (Ω S)] (P : (S : Nat) → Measure (Ω S))
    [∀ S, IsProbabilityMeasure (P S)] (D : (S : Nat) → RandomLabels k C S (Ω S)) (hD : ∀ S, (D S).Independent (P S))
    (data : List (List (Term k C))) (hdata : ∀ S, ((D S).map (·.1)).flatten = data) (mean : Bool) (T n : Nat)
    (a : Nat → Nat → ℝ) (ε : ℝ) (hε : 0 < ε) :
    Filter.Tendsto (fun S => P S {ω | ε ≤ |(∑ r ∈ Finset.range n, ∑ c ∈ Finset.range n,
          a r c * mcMatrix mean data.length T ((D S).at ω) r c) -
        ∑ r ∈ Finset.range n, ∑ c ∈ Finset.range n,
          a r c * riskMatrix (redOf mean) (datumMatrix mean T lossHessian) data r c|}) Filter.atTop (nhds 0) := by
  set V := termWeight k mean (data.length * T) C ^ 2 * (data.flatten.map (labelVar n a)).sum / ε ^ 2 with hV
  have hlim : Filter.Tendsto (fun S : Nat => ENNReal.ofReal (V / S)) Filter.atTop (nhds 0) := by
    rw [← ENNReal.ofReal_zero]
    exact (ENNReal.continuous_ofReal.tendsto 0).comp (tendsto_const_div_atTop_nhds_zero_nat V)
  refine tendsto_of_tendsto_of_tendsto_of_le_of_le' tendsto_const_nhds hlim (Filter.Eventually.of_forall fun _ => zero_le)
    ((Filter.eventually_gt_atTop 0).mono fun S hS => ?_)
  have h := mcMatrix_chebyshev hS.ne' (D S) (hD S) mean T n a ε hε
  rw [(D S).terms_eq, hdata S] at h
  refine h.trans (le_of_eq ?_)
  rw [hV]
  congr 1
  ring

/-- C90: for `MSELoss`, the variance for one drawn label is `Σ_ij B_ij (B_ij + B_ji)` with `B = 2 J a Jᵀ`. -/
theorem labelVar_mse (n : Nat) (a : Nat → Nat → ℝ) (t : Term .mse C) :
    labelVar n a t = ∑ i : Fin C, ∑ j : Fin C,
      (2 * ∑ r ∈ Finset.range n, ∑ c ∈ Finset.range n, a r c * t.J i r * t.J j c) *
        ((2 * ∑ r ∈ Finset.range n, ∑ c ∈ Finset.range n, a r c * t.J i r * t.J j c) +
          2 * ∑ r ∈ Finset.range n, ∑ c ∈ Finset.range n, a r c * t.J j r * t.J i c) := by
  set B : Matrix (Fin C) (Fin C) ℝ := fun i j =>
    2 * ∑ r ∈ Finset.range n, ∑ c ∈ Finset.range n, a r c * t.J i r * t.J j c with hB
  have h0 : (Real.sqrt 0.5) * Real.sqrt 0.5 = 1 / 2 := by
    rw [Real.mul_self_sqrt (by norm_num)]; norm_num
  have h1 : ∀ z : Fin C → ℝ, drawForm n a t z = z ⬝ᵥ (B *ᵥ z) := by
    intro z
    have e : z ⬝ᵥ (B *ᵥ z) = ∑ i, ∑ j, B i j * (z i * z j) := by
      simp only [dotProduct, mulVec, Finset.mul_sum]
      exact Finset.sum_congr rfl fun i _ => Finset.sum_congr rfl fun j _ => by ring
    rw [e, hB]
    refine (drawForm_expand n a t z).trans (Finset.sum_congr rfl fun i _ => Finset.sum_congr rfl fun j _ => ?_)
    simp only [wouldBeGrad]
    linear_combination 4 * (∑ r ∈ Finset.range n, ∑ c ∈ Finset.range n, a r c * t.J i r * t.J j c) * z i * z j * h0
  have h2 := stdNormal_quad_var B
  have h3 := (stdNormal_quad B).2
  have h4 : labelVar n a t = ∫ z, (z ⬝ᵥ (B *ᵥ z) - B.trace) ^ 2 ∂stdNormal C := by
    unfold labelVar
    rw [variance_eq_integral (drawForm_measurable n a t).aemeasurable]
    have hm : ∫ z, drawForm n a t z ∂(drawLaw .mse t.f) = B.trace := by
      refine Eq.trans ?_ h3
      exact integral_congr_ae (Filter.Eventually.of_forall h1)
    rw [hm]
    refine integral_congr_ae (Filter.Eventually.of_forall fun z => ?_)
    exact congrArg (fun x => (x - B.trace) ^ 2) (h1 z)
  rw [h4, h2.2, quadVar_three]

/-- C90: for `CrossEntropyLoss`, the variance for one drawn label is that over the predicted classes. -/
theorem labelVar_ce (hC : 0 < C) (n : Nat) (a : Nat → Nat → ℝ) (t : Term .ce C) :
    labelVar n a t = ∑ s : Fin C, softmax t.f s * drawForm n a t s ^ 2 - (∑ s : Fin C, softmax t.f s * drawForm n a t s) ^ 2 := by
  have := drawLaw_probability (k := .ce) t.f fun _ => hC
  unfold labelVar
  rw [variance_eq_sub (drawForm_memLp n a t)]
  have h1 := (integral_finite_law (fun s => softmax t.f s) (fun s => (softmax_pos t.f s).le)
    (fun s => drawForm n a t s ^ 2)).2
  have h2 := (integral_finite_law (fun s => softmax t.f s) (fun s => (softmax_pos t.f s).le) (drawForm n a t)).2
  exact congrArg₂ (fun x y => x - y ^ 2) h1 h2

/-- C90: for `BCEWithLogitsLoss`, the variance for one drawn label is that over all vectors of bits. -/
theorem labelVar_bce (n : Nat) (a : Nat → Nat → ℝ) (t : Term .bce C) :
    labelVar n a t =
      ∑ b : Fin C → Bool, bitsProb (fun c => Real.sigmoid (t.f c)) b * drawForm n a t b ^ 2 -
        (∑ b : Fin C → Bool, bitsProb (fun c => Real.sigmoid (t.f c)) b * drawForm n a t b) ^ 2 := by
  have := drawLaw_probability (k := .bce) t.f (by simp)
  unfold labelVar
  rw [variance_eq_sub (drawForm_memLp n a t)]
  have h1 := (integral_finite_law _ (bitsProb_nonneg t.f) (fun s => drawForm n a t s ^ 2)).2
  have h2 := (integral_finite_law _ (bitsProb_nonneg t.f) (drawForm n a t)).2
  exact congrArg₂ (fun x y => x - y ^ 2) h1 h2

/-! ### Products -/

/-- C90: let the generator be random such that the labels drawn during a product are independent draws from the predictive
distributions. Then every entry of a product has the mean of the product with the GGN, and a variance that is
proportional to `1 / mc_samples`. -/
theorem mcMatmat_variance {Ω : Type _} [MeasurableSpace Ω] {P : Measure Ω} [IsProbabilityMeasure P]
    (rng : Ω → Rng k C) (cfg : McConfig k C) (hshapes : cfg.shapes ≠ []) (T : Nat) (hS : cfg.mcSamples ≠ 0)
    (hne : ∀ b ∈ cfg.data, b ≠ []) (hT : ∀ b ∈ cfg.data, ∀ d ∈ b, d.length = T)
    (hbin : ∀ b ∈ cfg.data, BinaryTargets k b.flatten) (hN : cfg.nData = cfg.data.flatten.length)
    (st : (ω : Ω) → McState (rng ω)) (D : RandomLabels k C cfg.mcSamples Ω)
    (hdraw : ∀ ω, drawAll (rng ω) cfg.mcSamples cfg.data ((rng ω).seed (st ω).genDevice cfg.seed) = D.at ω)
    (hD : D.Independent P) (K : Nat) (Xs : List (Tensor ℝ)) (hXs : HasShapes Xs cfg.shapes K) :
    ∃ Y : Ω → List (Tensor ℝ), (∀ ω, (mcMatmat (rng ω) cfg (st ω) Xs).1 = .ok (Y ω)) ∧
      ∀ r < total cfg.shapes, ∀ l < K,
        ∫ ω, (flatData (Y ω)).getD (r * K + l) 0 ∂P = ∑ c ∈ Finset.range (total cfg.shapes),
          riskMatrix (redOf cfg.mean) (datumMatrix cfg.mean T lossHessian) cfg.data.flatten r c *
            (flatData Xs).getD (c * K + l) 0 ∧
        Var[fun ω => (flatData (Y ω)).getD (r * K + l) 0; P] =
          termWeight k cfg.mean (cfg.nData * T) C ^ 2 / cfg.mcSamples *
            (cfg.data.flatten.flatten.map (labelVar (total cfg.shapes) fun r' c =>
              if r' = r then (flatData Xs).getD (c * K + l) 0 else 0)).sum := by
  have hrep : ∀ ω, Represents (mcOp (rng ω) cfg (st ω)) (mcMatrix cfg.mean cfg.nData T (D.at ω)) := by
    intro ω
    rw [← hdraw ω]
    exact mcOp_draws (rng ω) cfg hS hshapes T hne hT hbin (nData_cases hne hN) (st ω)
  choose Y hY using fun ω => hrep ω K Xs hXs
  obtain ⟨ω₀⟩ := nonempty_of_isProbabilityMeasure P
  have hdata : D.map (·.1) = cfg.data := by
    have h := congrArg (List.map (·.data)) (hdraw ω₀)
    rw [drawAll_data] at h
    rw [h]
    unfold RandomLabels.at
    rw [List.map_map]
    rfl
  have hentry : ∀ r < total cfg.shapes, ∀ l < K, ∀ ω, (flatData (Y ω)).getD (r * K + l) 0 =
      ∑ r' ∈ Finset.range (total cfg.shapes), ∑ c ∈ Finset.range (total cfg.shapes),
        (if r' = r then (flatData Xs).getD (c * K + l) 0 else 0) * mcMatrix cfg.mean cfg.nData T (D.at ω) r' c := by
    intro r hr l hl ω
    have h := (hY ω).2.2.2 r hr l hl
    rw [h, Finset.sum_eq_single_of_mem r (Finset.mem_range.2 hr)]
    · exact Finset.sum_congr rfl fun c _ => by rw [if_pos rfl, mul_comm]
    · intro r' _ hne
      exact Finset.sum_eq_zero fun c _ => by rw [if_neg hne, zero_mul]
  refine ⟨Y, fun ω => (hY ω).1, fun r hr l hl => ⟨?_, ?_⟩⟩
  · simp only [hentry r hr l hl]
    rw [hN, ← hdata, mcMatrix_mean hS D hD, Finset.sum_eq_single_of_mem r (Finset.mem_range.2 hr)]
    · exact Finset.sum_congr rfl fun c _ => by rw [if_pos rfl, mul_comm]
    · intro r' _ hne
      exact Finset.sum_eq_zero fun c _ => by rw [if_neg hne, zero_mul]
  · simp only [hentry r hr l hl]
    rw [mcMatrix_variance hS D hD, D.terms_eq, hdata]

/-! ### Independent draws exist -/

/-- Independent draws from the predictive distributions exist for all data and numbers of samples. -/
theorem independent_exists (hC : k = .ce → 0 < C) (bs : List (List (List (Term k C)))) (S : Nat) :
    ∃ (Ω : Type) (_ : MeasurableSpace Ω) (P : Measure Ω) (D : RandomLabels k C S Ω),
      IsProbabilityMeasure P ∧ D.map (·.1) = bs ∧ D.Independent P := by
  let f : Nat × Nat × Nat → Fin C → ℝ := fun i => (((bs.getD i.1 []).flatten)[i.2.2]?.map (·.f)).getD fun _ => 0
  have hp : ∀ i, IsProbabilityMeasure (drawLaw k (f i)) := fun i => drawLaw_probability (f i) hC
  let D : RandomLabels k C S (Nat × Nat × Nat → TermDraw k C) :=
    bs.mapIdx fun x b => ⟨b, fun s m ω => ω (x, s, m)⟩
  have hlen : D.length = bs.length := List.length_mapIdx
  have hget : ∀ x : Fin D.length, D.get x = ⟨bs[x.1]'(hlen ▸ x.2), fun s m ω => ω (x, s, m)⟩ := by
    intro x
    simp [D]
  have hlab : ∀ i : LabelIdx D, D.label i = (fun ω => ω (i.1, i.2.1, i.2.2)) ∧ (D.term i).f = f (i.1, i.2.1, i.2.2) := by
    rintro ⟨x, s, m⟩
    unfold RandomLabels.label RandomLabels.term
    have hx := hget x
    have hb : bs.getD x.1 [] = bs[x.1]'(hlen ▸ x.2) := by simp [List.getD, List.getElem?_eq_getElem (hlen ▸ x.2 : x.1 < bs.length)]
    simp only [f, hb]
    revert m
    generalize D.get x = y at hx ⊢
    subst hx
    intro m
    have hm : m.1 < (bs[x.1]'(hlen ▸ x.2)).flatten.length := m.2
    refine ⟨rfl, ?_⟩
    rw [List.getElem?_eq_getElem hm]
    rfl
  refine ⟨Nat × Nat × Nat → TermDraw k C, inferInstance, Measure.infinitePi fun i => drawLaw k (f i), D, inferInstance, ?_,
    ⟨fun i => ?_, fun i => ?_, fun i j hij => ?_⟩⟩
  · apply List.ext_getElem <;> simp [D]
  · rw [(hlab i).1]
    exact (measurable_pi_apply _).aemeasurable
  · rw [(hlab i).1, (hlab i).2]
    exact Measure.infinitePi_map_eval _ _
  · dsimp only
    rw [(hlab i).1, (hlab j).1]
    have h := iIndepFun_infinitePi (P := fun i => drawLaw k (f i)) (X := fun _ d => d) fun _ => measurable_id
    refine h.indepFun fun he => hij ?_
    rcases i with ⟨x, s, m⟩
    rcases j with ⟨x', s', m'⟩
    simp only [Prod.mk.injEq] at he
    obtain ⟨h1, h2, h3⟩ := he
    obtain rfl : x = x' := Fin.ext h1
    obtain rfl : s = s' := Fin.ext h2
    obtain rfl : m = m' := Fin.ext h3
    rfl

/-- Every sequence of labels is drawn by some generator. -/
theorem rng_exists {S : Nat} (rng : Rng k C) (lbs : List (LabeledBatch k C S)) :
    ∃ rng' : Rng k C, ∀ dev seed, drawAll rng' S (lbs.map (·.data)) (rng'.seed dev seed) = lbs := by
  classical
  let rng' : Rng k C :=
    { G := List (Nat → Nat → Option (TermDraw k C))
      seed := fun _ _ => lbs.map fun lb s m => if h : s < S ∧ m < lb.data.flatten.length then
        some (lb.draws ⟨s, h.1⟩ ⟨m, h.2⟩) else none
      draw := fun g S' ts => (fun s m => ((g.headD fun _ _ => none) s m).getD
        ((rng.draw (rng.seed "" 0) S' ts).1 s m), g.tail) }
  have h : ∀ lbs : List (LabeledBatch k C S), drawAll rng' S (lbs.map (·.data)) (lbs.map fun lb s m =>
      if h : s < S ∧ m < lb.data.flatten.length then some (lb.draws ⟨s, h.1⟩ ⟨m, h.2⟩) else none) = lbs := by
    intro lbs
    induction lbs with
    | nil => rfl
    | cons lb lbs ih =>
      simp only [List.map_cons, drawAll]
      congr 1
      have e : ∀ lb : LabeledBatch k C S, lb = ⟨lb.data, lb.draws⟩ := fun _ => rfl
      rw [e lb]
      congr 1
      funext s m
      have hm : m.1 < lb.data.flatten.length := m.2
      simp only [rng', List.headD_cons, dif_pos (And.intro s.2 hm), Option.getD_some]
  exact ⟨rng', fun dev seed => h lbs⟩

/-- The assumptions of `mcMatmat_variance` can be met. -/
theorem random_generator_exists (hC : k = .ce → 0 < C) (rng : Rng k C) (bs : List (List (List (Term k C)))) (S : Nat) :
    ∃ (Ω : Type) (_ : MeasurableSpace Ω) (P : Measure Ω) (D : RandomLabels k C S Ω) (rng : Ω → Rng k C),
      IsProbabilityMeasure P ∧ D.Independent P ∧
        ∀ ω dev seed, drawAll (rng ω) S bs ((rng ω).seed dev seed) = D.at ω := by
  obtain ⟨Ω, mΩ, P, D, hP, hb, hD⟩ := independent_exists hC bs S
  choose r hr using fun ω => rng_exists rng (D.at ω)
  refine ⟨Ω, mΩ, P, D, r, hP, hD, fun ω dev seed => ?_⟩
  have h := hr ω dev seed
  have e : (D.at ω).map (·.data) = bs := by
    rw [← hb]
    unfold RandomLabels.at
    rw [List.map_map]
    rfl
  rwa [e] at h

/-! ### Dependent draws -/

/-- C90: independence is needed: with `S` copies of one draw, the variance is that of one sample. -/
theorem mcMatrix_variance_copies {Ω : Type _} [MeasurableSpace Ω] {P : Measure Ω} {S : Nat} (hS : S ≠ 0)
    (D : RandomLabels k C 1 Ω) (mean : Bool) (N T n : Nat) (a : Nat → Nat → ℝ) :
    Var[fun ω => ∑ r ∈ Finset.range n, ∑ c ∈ Finset.range n, a r c * mcMatrix mean N T
        (RandomLabels.at (S := S) (D.map fun x => ⟨x.1, fun _ m => x.2 0 m⟩) ω) r c; P] =
      Var[fun ω => ∑ r ∈ Finset.range n, ∑ c ∈ Finset.range n, a r c * mcMatrix mean N T (D.at ω) r c; P] := by
  have h : ∀ ω, mcMatrix mean N T (RandomLabels.at (S := S) (D.map fun x => ⟨x.1, fun _ m => x.2 0 m⟩) ω) =
      mcMatrix mean N T (D.at ω) := by
    intro ω
    funext r c
    unfold mcMatrix RandomLabels.at
    rw [List.map_map, List.map_map, List.map_map]
    congr 2
    refine List.map_congr_left fun x _ => ?_
    simp only [Function.comp_apply]
    refine Finset.sum_congr rfl fun m _ => congrArg (fun H => termSandwich _ H r c) ?_
    funext i j
    unfold sampleOuter
    have hS' : (S : ℝ) ≠ 0 := by exact_mod_cast hS
    simp only [Finset.sum_const, Finset.card_univ, Fintype.card_fin, nsmul_eq_mul, Fin.sum_univ_one, Nat.cast_one, div_one]
    field_simp
  simp only [h]

/-! ### Examples -/

/-- `L = (θ - y)²` with one parameter: the Monte-Carlo Fisher's only entry is `2 z²`, which has variance 8. -/
def squareTerm : Term .mse 1 := { f := fun _ => 3, J := fun _ _ => 1, y := fun _ => 1 }

theorem squareTerm_var : labelVar 1 (fun _ _ => 1) squareTerm = 8 := by
  rw [labelVar_mse]
  simp [squareTerm]
  norm_num

/-- With `S` independent samples, the variance on two such data is `(1/2)² / S * (8 + 8)`. -/
example (S : Nat) (hS : S ≠ 0) : ∃ (Ω : Type) (_ : MeasurableSpace Ω) (P : Measure Ω) (D : RandomLabels .mse 1 S Ω),
    D.map (·.1) = [[[squareTerm], [squareTerm]]] ∧ D.Independent P ∧
    Var[fun ω => mcMatrix true 2 1 (D.at ω) 0 0; P] = 4 / S := by
  obtain ⟨Ω, mΩ, P, D, hP, hb, hD⟩ := independent_exists (k := .mse) (by simp) [[[squareTerm], [squareTerm]]] S
  refine ⟨Ω, mΩ, P, D, hb, hD, ?_⟩
  have h := mcMatrix_variance hS D hD true 2 1 1 fun _ _ => 1
  rw [D.terms_eq, hb] at h
  simp [squareTerm_var, termWeight] at h
  rw [h]
  ring

end Curvlinops
