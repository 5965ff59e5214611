import Verif.Model.KfacLabels
import Verif.Props.FisherMCUnbiased
import Verif.Props.KfacLinear
import Mathlib.Probability.Independence.Integration

/-!
# C70: Monte-Carlo KFAC is unbiased
-/

namespace Curvlinops

open MeasureTheory ProbabilityTheory

variable {k : LossKind} {C : Nat}

/-- The gradient for a drawn label. -/
noncomputable def labelGrad (k : LossKind) (f : Fin C → ℝ) (d : TermDraw k C) (c : Fin C) : ℝ :=
  pderiv (termLoss k (drawLabel k f d)) c f

theorem labelGrad_eq (f : Fin C → ℝ) (d : TermDraw k C) (c : Fin C) :
    labelGrad k f d c = (if k = .mse then -1 else 1) * wouldBeGrad k f d c := by
  unfold labelGrad
  cases k with
  | mse => rw [pderiv_mse]; simp [drawLabel, wouldBeGrad]
  | ce => rw [pderiv_ce]; simp only [drawLabel, wouldBeGrad, reduceCtorEq, if_false, one_mul]; rfl
  | bce => rw [pderiv_bce]; simp [drawLabel, wouldBeGrad]

theorem wouldBeGrad_measurable (f : Fin C → ℝ) (c : Fin C) : Measurable fun d : TermDraw k C => wouldBeGrad k f d c := by
  cases k with
  | mse =>
    show Measurable fun z : Fin C → ℝ => 2 * (0 + Real.sqrt 0.5 * z c)
    fun_prop
  | ce =>
    show Measurable fun s : Fin C => softmax f c - if c = s then 1 else 0
    exact Measurable.of_discrete
  | bce =>
    show Measurable fun b : Fin C → Bool => Real.sigmoid (f c) - if b c then 1 else 0
    exact Measurable.of_discrete

/-- The expected gradient under the predictive distribution is zero. -/
theorem wouldBeGrad_mean (f : Fin C → ℝ) (c : Fin C) :
    Integrable (fun d => wouldBeGrad k f d c) (drawLaw k f) ∧ ∫ d, wouldBeGrad k f d c ∂(drawLaw k f) = 0 := by
  cases k with
  | mse =>
    have hi : Integrable (fun z : Fin C → ℝ => z c) (stdNormal C) := integrable_comp_eval
      (μ := fun _ : Fin C => gaussianReal 0 1) (f := fun x => x) integrable_id_gaussian
    refine ⟨?_, ?_⟩
    · show Integrable (fun z : Fin C → ℝ => 2 * (0 + Real.sqrt 0.5 * z c)) (stdNormal C)
      simp only [zero_add]
      exact (hi.const_mul _).const_mul _
    · show ∫ z : Fin C → ℝ, 2 * (0 + Real.sqrt 0.5 * z c) ∂(stdNormal C) = 0
      simp only [zero_add]
      rw [integral_const_mul, integral_const_mul]
      have := integral_comp_eval (μ := fun _ : Fin C => gaussianReal 0 1) (i := c) (f := fun x : ℝ => x) (by fun_prop)
      rw [stdNormal, this, integral_id_gaussianReal]
      simp
  | ce =>
    have h := integral_finite_law (fun s => softmax f s) (fun s => (softmax_pos f s).le) (fun d => wouldBeGrad .ce f d c)
    refine ⟨h.1, h.2.trans ?_⟩
    simp only [wouldBeGrad, mul_sub, Finset.sum_sub_distrib, ← Finset.sum_mul, sum_softmax f c]
    simp
  | bce =>
    have h := integral_finite_law (fun b => bitsProb (fun c => Real.sigmoid (f c)) b) (fun b => by
      refine Finset.prod_nonneg fun c _ => ?_
      have h1 := Real.sigmoid_pos (f c)
      have h2 := Real.sigmoid_lt_one (f c)
      split <;> linarith) (fun d => wouldBeGrad .bce f d c)
    refine ⟨h.1, h.2.trans ?_⟩
    have e : ∀ b : Fin C → Bool, wouldBeGrad .bce f b c =
        ∏ c', (fun (c' : Fin C) (x : Bool) => if c' = c then Real.sigmoid (f c') - (if x then 1 else 0) else 1) c' (b c') := by
      intro b
      simp only [Finset.prod_ite_eq', Finset.mem_univ, if_true, wouldBeGrad]
    simp only [e]
    rw [bits_expectation (fun c => Real.sigmoid (f c))
      (fun (c' : Fin C) (x : Bool) => if c' = c then Real.sigmoid (f c') - (if x then 1 else 0) else 1)]
    refine Finset.prod_eq_zero (Finset.mem_univ c) ?_
    simp; ring

/-- C70: moments of the gradients for drawn labels. For one loss term the expected outer product is the Hessian of the loss
term; between independent draws of two loss terms it vanishes. -/
theorem labelGrad_moments {Ω : Type _} [MeasurableSpace Ω] (P : Measure Ω) (f f' : Fin C → ℝ) (y : TermTarget k C)
    (D D' : Ω → TermDraw k C) (hm : AEMeasurable D P) (hm' : AEMeasurable D' P) (hl : P.map D = drawLaw k f)
    (hl' : P.map D' = drawLaw k f') :
    (∀ i j, Integrable (fun ω => labelGrad k f (D ω) i * labelGrad k f (D ω) j) P ∧
      ∫ ω, labelGrad k f (D ω) i * labelGrad k f (D ω) j ∂P = hess (termLoss k y) f i j) ∧
    (IndepFun D D' P → ∀ i j, Integrable (fun ω => labelGrad k f (D ω) i * labelGrad k f' (D' ω) j) P ∧
      ∫ ω, labelGrad k f (D ω) i * labelGrad k f' (D' ω) j ∂P = 0) := by
  have hsgn : (if k = .mse then (-1 : ℝ) else 1) * (if k = .mse then (-1 : ℝ) else 1) = 1 := by split <;> norm_num
  have hprod : ∀ a b : ℝ, (if k = .mse then (-1 : ℝ) else 1) * a * ((if k = .mse then (-1 : ℝ) else 1) * b) = a * b := by
    intro a b
    rw [mul_mul_mul_comm, hsgn, one_mul]
  simp only [labelGrad_eq, hprod]
  have hint : ∀ (f : Fin C → ℝ) (D : Ω → TermDraw k C), AEMeasurable D P → P.map D = drawLaw k f → ∀ c,
      Integrable (fun ω => wouldBeGrad k f (D ω) c) P ∧ ∫ ω, wouldBeGrad k f (D ω) c ∂P = 0 := by
    intro f D hm hl c
    have h := wouldBeGrad_mean (k := k) f c
    rw [← hl] at h
    refine ⟨(integrable_map_measure h.1.aestronglyMeasurable hm).1 h.1, ?_⟩
    rw [← integral_map hm h.1.aestronglyMeasurable (f := fun d => wouldBeGrad k f d c)]
    exact h.2
  refine ⟨fun i j => ?_, fun hind i j => ?_⟩
  · have h := wouldBeGrad_unbiased f y i j
    rw [← hl] at h
    refine ⟨(integrable_map_measure h.1.aestronglyMeasurable hm).1 h.1, ?_⟩
    rw [← integral_map hm h.1.aestronglyMeasurable (f := fun d => wouldBeGrad k f d i * wouldBeGrad k f d j)]
    exact h.2
  · have h1 := hint f D hm hl i
    have h2 := hint f' D' hm' hl' j
    have hi : IndepFun (fun ω => wouldBeGrad k f (D ω) i) (fun ω => wouldBeGrad k f' (D' ω) j) P :=
      hind.comp (wouldBeGrad_measurable f i) (wouldBeGrad_measurable f' j)
    refine ⟨hi.integrable_mul h1.1 h2.1, ?_⟩
    rw [hi.integral_fun_mul_eq_mul_integral h1.1.aestronglyMeasurable h2.1.aestronglyMeasurable, h1.2, zero_mul]

/-! ## Expected gradient factors -/

/-- A datum with random labels: `draw m t ω` are the random numbers for sample `m` and loss term `t`. -/
structure RandDatum (Ω : Type _) (k : LossKind) (C : Nat) where
  base : KDatum
  term : Nat → Term k C
  draw : Nat → Nat → Ω → TermDraw k C

/-- The datum for given random numbers. -/
def RandDatum.fix {Ω : Type _} (d : RandDatum Ω k C) (ω : Ω) : McDatum k C := ⟨d.base, fun t => (d.term t).f, fun m t => d.draw m t ω⟩

/-- The labels follow the predictive distribution; those of different loss terms of the datum are independent. Labels of
different data and different samples need not be. -/
structure RandDatum.Good {Ω : Type _} [MeasurableSpace Ω] (P : Measure Ω) (S T : Nat) (d : RandDatum Ω k C) : Prop where
  meas : ∀ m < S, ∀ t < T, AEMeasurable (d.draw m t) P
  law : ∀ m < S, ∀ t < T, P.map (d.draw m t) = drawLaw k (d.term t).f
  indep : ∀ m < S, ∀ t < T, ∀ t' < T, t ≠ t' → IndepFun (d.draw m t) (d.draw m t') P

/-- The factor with exact expectations: `∑ₙ ∑ₜ Jᵀ H J` with the Jacobians `J` of the predictions in the layer's output at a
position, summed over positions (expand), or with the sums of the Jacobians over positions (reduce). -/
noncomputable def expGradFactor {Ω : Type _} (cfg : KfacCfg) (l : KLayer) (data : List (RandDatum Ω k C)) : Mat ℝ := fun i j =>
  (if cfg.mean then (cfg.N : ℝ)⁻¹ else 1) * termWeight k cfg.mean cfg.T C *
    (data.map fun d => ∑ t ∈ Finset.range cfg.T, match cfg.approx with
      | .expand => ∑ s ∈ Finset.range l.S, ∑ c : Fin C, ∑ c' : Fin C,
          d.base.jac l.name s i t c * lossHessian (d.term t) c c' * d.base.jac l.name s j t c'
      | .reduce => ∑ c : Fin C, ∑ c' : Fin C, (∑ s ∈ Finset.range l.S, d.base.jac l.name s i t c) *
          lossHessian (d.term t) c c' * ∑ s ∈ Finset.range l.S, d.base.jac l.name s j t c').sum

section

variable {Ω : Type _} [MeasurableSpace Ω] (P : Measure Ω)

/-- Expectation of a product of two linear forms in the gradients. -/
theorem linear_forms_moment {S T : Nat} (d : RandDatum Ω k C) (hd : d.Good P S T) (m : Nat) (hm : m < S)
    (a b : Nat → Nat → ℝ) :
    Integrable (fun ω => (∑ t ∈ Finset.range T, ∑ c ∈ Finset.range C, a t c * (d.fix ω).toKDatum.lossGrad m t c) *
      ∑ t ∈ Finset.range T, ∑ c ∈ Finset.range C, b t c * (d.fix ω).toKDatum.lossGrad m t c) P ∧
    ∫ ω, (∑ t ∈ Finset.range T, ∑ c ∈ Finset.range C, a t c * (d.fix ω).toKDatum.lossGrad m t c) *
      (∑ t ∈ Finset.range T, ∑ c ∈ Finset.range C, b t c * (d.fix ω).toKDatum.lossGrad m t c) ∂P =
      ∑ t ∈ Finset.range T, ∑ c : Fin C, ∑ c' : Fin C, a t c * lossHessian (d.term t) c c' * b t c' := by
  have hform : ∀ (a : Nat → Nat → ℝ) ω, (∑ t ∈ Finset.range T, ∑ c ∈ Finset.range C, a t c *
      (d.fix ω).toKDatum.lossGrad m t c) = ∑ t ∈ Finset.range T, ∑ c : Fin C, a t c * labelGrad k (d.term t).f (d.draw m t ω) c := by
    intro a ω
    refine Finset.sum_congr rfl fun t _ => ?_
    rw [Finset.sum_range]
    refine Finset.sum_congr rfl fun c _ => ?_
    simp [McDatum.toKDatum, RandDatum.fix, labelGrad]
  simp only [hform]
  have hexp : ∀ ω, (∑ t ∈ Finset.range T, ∑ c : Fin C, a t c * labelGrad k (d.term t).f (d.draw m t ω) c) *
      (∑ t ∈ Finset.range T, ∑ c : Fin C, b t c * labelGrad k (d.term t).f (d.draw m t ω) c) =
      ∑ t ∈ Finset.range T, ∑ t' ∈ Finset.range T, ∑ c : Fin C, ∑ c' : Fin C, (a t c * b t' c') *
        (labelGrad k (d.term t).f (d.draw m t ω) c * labelGrad k (d.term t').f (d.draw m t' ω) c') := by
    intro ω
    rw [Finset.sum_mul_sum]
    refine Finset.sum_congr rfl fun t _ => Finset.sum_congr rfl fun t' _ => ?_
    rw [Finset.sum_mul_sum]
    exact Finset.sum_congr rfl fun c _ => Finset.sum_congr rfl fun c' _ => by ring
  have hmom : ∀ t ∈ Finset.range T, ∀ t' ∈ Finset.range T, ∀ c c' : Fin C,
      Integrable (fun ω => labelGrad k (d.term t).f (d.draw m t ω) c * labelGrad k (d.term t').f (d.draw m t' ω) c') P ∧
      ∫ ω, labelGrad k (d.term t).f (d.draw m t ω) c * labelGrad k (d.term t').f (d.draw m t' ω) c' ∂P =
        if t = t' then lossHessian (d.term t) c c' else 0 := by
    intro t ht t' ht' c c'
    have ht := Finset.mem_range.mp ht
    have ht' := Finset.mem_range.mp ht'
    have h := labelGrad_moments P (d.term t).f (d.term t').f (d.term t).y (d.draw m t) (d.draw m t') (hd.meas m hm t ht)
      (hd.meas m hm t' ht') (hd.law m hm t ht) (hd.law m hm t' ht')
    by_cases htt : t = t'
    · subst htt
      rw [if_pos rfl]
      exact h.1 c c'
    · rw [if_neg htt]
      exact h.2 (hd.indep m hm t ht t' ht' htt) c c'
  simp only [hexp]
  have i1 : ∀ t ∈ Finset.range T, ∀ t' ∈ Finset.range T, ∀ c c' : Fin C, Integrable (fun ω => (a t c * b t' c') *
      (labelGrad k (d.term t).f (d.draw m t ω) c * labelGrad k (d.term t').f (d.draw m t' ω) c')) P :=
    fun t ht t' ht' c c' => (hmom t ht t' ht' c c').1.const_mul _
  refine ⟨integrable_finsetSum _ fun t ht => integrable_finsetSum _ fun t' ht' => integrable_finsetSum _ fun c _ =>
    integrable_finsetSum _ fun c' _ => i1 t ht t' ht' c c', ?_⟩
  rw [integral_finsetSum _ fun t ht => integrable_finsetSum _ fun t' ht' => integrable_finsetSum _ fun c _ =>
    integrable_finsetSum _ fun c' _ => i1 t ht t' ht' c c']
  refine Finset.sum_congr rfl fun t ht => ?_
  rw [integral_finsetSum _ fun t' ht' => integrable_finsetSum _ fun c _ => integrable_finsetSum _ fun c' _ =>
    i1 t ht t' ht' c c', Finset.sum_eq_single t]
  · rw [integral_finsetSum _ fun c _ => integrable_finsetSum _ fun c' _ => i1 t ht t ht c c']
    refine Finset.sum_congr rfl fun c _ => ?_
    rw [integral_finsetSum _ fun c' _ => i1 t ht t ht c c']
    refine Finset.sum_congr rfl fun c' _ => ?_
    rw [integral_const_mul, (hmom t ht t ht c c').2, if_pos rfl]
    ring
  · intro t' ht' htt
    rw [integral_finsetSum _ fun c _ => integrable_finsetSum _ fun c' _ => i1 t ht t' ht' c c']
    refine Finset.sum_eq_zero fun c _ => ?_
    rw [integral_finsetSum _ fun c' _ => i1 t ht t' ht' c c']
    refine Finset.sum_eq_zero fun c' _ => ?_
    rw [integral_const_mul, (hmom t ht t' ht' c c').2, if_neg (Ne.symm htt), mul_zero]
  · intro h
    exact absurd ht h

theorem integral_list_sum {β : Type _} (l : List β) (F : β → Ω → ℝ) (I : β → ℝ)
    (h : ∀ x ∈ l, Integrable (F x) P ∧ ∫ ω, F x ω ∂P = I x) :
    Integrable (fun ω => (l.map fun x => F x ω).sum) P ∧ ∫ ω, (l.map fun x => F x ω).sum ∂P = (l.map I).sum := by
  induction l with
  | nil => simp
  | cons x l ih =>
    have hx := h x (by simp)
    have hl := ih fun y hy => h y (by simp [hy])
    simp only [List.map_cons, List.sum_cons]
    exact ⟨hx.1.add hl.1, (integral_add hx.1 hl.1).trans (by rw [hx.2, hl.2])⟩

/-- C70: the expected gradient factors of Monte-Carlo KFAC, for every number of samples, loss terms and batches. -/
theorem kfac_mc_unbiased {cfg : KfacCfg} (hf : cfg.fisher = .mc) (hloss : cfg.loss = k) (hC : cfg.C = C) (hC0 : C ≠ 0)
    (hmc : cfg.mcSamples ≠ 0) (hT : cfg.T ≠ 0) (klayers : List KLayer) (hnd : (klayers.map KLayer.name).Nodup)
    (batches : List (List (RandDatum Ω k C))) (hne : batches ≠ [])
    (hgood : ∀ d ∈ batches.flatten, d.Good P cfg.mcSamples cfg.T) (l : KLayer) (hl : l ∈ klayers) :
    ∃ B : Ω → Factor ℝ,
      (∀ ω, (kfacFactors cfg klayers (batches.map (·.map fun d => (d.fix ω).toKDatum))).2.get l.name = some (B ω)) ∧
      ∀ i j, Integrable (fun ω => (B ω).mat i j) P ∧ ∫ ω, (B ω).mat i j ∂P = expGradFactor cfg l batches.flatten i j := by
  refine ⟨fun ω => ⟨l.dout, specGradFactor cfg l (batches.flatten.map fun d => (d.fix ω).toKDatum)⟩, fun ω => ?_, fun i j => ?_⟩
  · rw [kfac_grad_factor cfg klayers hnd _ (by simpa using hne) hT (by rw [hC]; exact hC0) hmc l hl]
    simp only [List.map_flatten]
  have hSr : (cfg.mcSamples : ℝ) ≠ 0 := by exact_mod_cast hmc
  have hscale : specGradScale cfg * cfg.mcSamples =
      (if cfg.mean then (cfg.N : ℝ)⁻¹ else 1) * termWeight k cfg.mean cfg.T C := by
    unfold specGradScale termWeight
    rw [hf, hloss, hC]
    cases cfg.mean <;> cases k <;> simp [hSr] <;> field_simp
  -- one datum and one sample
  have hone : ∀ d ∈ batches.flatten, ∀ m < cfg.mcSamples, ∀ a b : Nat → Nat → ℝ,
      Integrable (fun ω => (∑ t ∈ Finset.range cfg.T, ∑ c ∈ Finset.range cfg.C, a t c * (d.fix ω).toKDatum.lossGrad m t c) *
        ∑ t ∈ Finset.range cfg.T, ∑ c ∈ Finset.range cfg.C, b t c * (d.fix ω).toKDatum.lossGrad m t c) P ∧
      ∫ ω, (∑ t ∈ Finset.range cfg.T, ∑ c ∈ Finset.range cfg.C, a t c * (d.fix ω).toKDatum.lossGrad m t c) *
        (∑ t ∈ Finset.range cfg.T, ∑ c ∈ Finset.range cfg.C, b t c * (d.fix ω).toKDatum.lossGrad m t c) ∂P =
      ∑ t ∈ Finset.range cfg.T, ∑ c : Fin C, ∑ c' : Fin C, a t c * lossHessian (d.term t) c c' * b t c' := by
    intro d hd m hm a b
    rw [hC]
    exact linear_forms_moment P d (hgood d hd) m hm a b
  -- a sum over samples of identically distributed quantities
  have hfin : ∀ (F : RandDatum Ω k C → Nat → Ω → ℝ) (I : RandDatum Ω k C → ℝ),
      (∀ d ∈ batches.flatten, ∀ m < cfg.mcSamples, Integrable (F d m) P ∧ ∫ ω, F d m ω ∂P = I d) →
      Integrable (fun ω => specGradScale cfg * (batches.flatten.map fun d =>
        ((List.range cfg.mcSamples).map fun m => F d m ω).sum).sum) P ∧
      ∫ ω, specGradScale cfg * (batches.flatten.map fun d => ((List.range cfg.mcSamples).map fun m => F d m ω).sum).sum ∂P =
        (if cfg.mean then (cfg.N : ℝ)⁻¹ else 1) * termWeight k cfg.mean cfg.T C * (batches.flatten.map I).sum := by
    intro F I hFI
    have h1 := integral_list_sum P batches.flatten (fun d ω => ((List.range cfg.mcSamples).map fun m => F d m ω).sum)
      (fun d => cfg.mcSamples * I d) (fun d hd => by
        have h2 := integral_list_sum P (List.range cfg.mcSamples) (fun m ω => F d m ω) (fun _ => I d)
          (fun m hm => hFI d hd m (List.mem_range.mp hm))
        refine ⟨h2.1, h2.2.trans ?_⟩
        simp)
    refine ⟨h1.1.const_mul _, ?_⟩
    rw [integral_const_mul, h1.2, List.sum_map_mul_left, ← mul_assoc, hscale]
  unfold specGradFactor expGradFactor
  rw [hf]
  cases happ : cfg.approx with
  | expand =>
    simp only [List.map_map, Function.comp_def, specCotangents, hf]
    exact hfin (fun d m ω => ∑ s ∈ Finset.range l.S, specGradVec cfg l (d.fix ω).toKDatum ((d.fix ω).toKDatum.lossGrad m) s i *
        specGradVec cfg l (d.fix ω).toKDatum ((d.fix ω).toKDatum.lossGrad m) s j)
      (fun d => ∑ t ∈ Finset.range cfg.T, ∑ s ∈ Finset.range l.S, ∑ c : Fin C, ∑ c' : Fin C,
          d.base.jac l.name s i t c * lossHessian (d.term t) c c' * d.base.jac l.name s j t c')
      (fun d hd m hm => by
        have h := fun s => hone d hd m hm (fun t c => d.base.jac l.name s i t c) (fun t c => d.base.jac l.name s j t c)
        refine ⟨integrable_finsetSum _ fun s _ => (h s).1, ?_⟩
        rw [Finset.sum_comm]
        refine (integral_finsetSum _ fun s _ => (h s).1).trans (Finset.sum_congr rfl fun s _ => (h s).2))
  | reduce =>
    simp only [List.map_map, Function.comp_def, specCotangents, hf]
    have hsum : ∀ (d : RandDatum Ω k C) (m : Nat) (ω : Ω) (o : Nat), ∑ s ∈ Finset.range l.S,
        specGradVec cfg l (d.fix ω).toKDatum ((d.fix ω).toKDatum.lossGrad m) s o =
        ∑ t ∈ Finset.range cfg.T, ∑ c ∈ Finset.range cfg.C, (∑ s ∈ Finset.range l.S, d.base.jac l.name s o t c) *
          (d.fix ω).toKDatum.lossGrad m t c := by
      intro d m ω o
      unfold specGradVec
      rw [Finset.sum_comm]
      refine Finset.sum_congr rfl fun t _ => ?_
      rw [Finset.sum_comm]
      refine Finset.sum_congr rfl fun c _ => ?_
      rw [Finset.sum_mul]
      rfl
    exact hfin (fun d m ω => (∑ s ∈ Finset.range l.S, specGradVec cfg l (d.fix ω).toKDatum ((d.fix ω).toKDatum.lossGrad m) s i) *
        ∑ s ∈ Finset.range l.S, specGradVec cfg l (d.fix ω).toKDatum ((d.fix ω).toKDatum.lossGrad m) s j)
      (fun d => ∑ t ∈ Finset.range cfg.T, ∑ c : Fin C, ∑ c' : Fin C, (∑ s ∈ Finset.range l.S, d.base.jac l.name s i t c) *
          lossHessian (d.term t) c c' * ∑ s ∈ Finset.range l.S, d.base.jac l.name s j t c')
      (fun d hd m hm => by
        simp only [hsum]
        exact hone d hd m hm (fun t c => ∑ s ∈ Finset.range l.S, d.base.jac l.name s i t c)
          (fun t c => ∑ s ∈ Finset.range l.S, d.base.jac l.name s j t c))

/-- The layers of the expected operator: their input factors are the computed ones (which do not depend on the labels), their
gradient factors are the expectations of the computed ones. As Kronecker products are linear in the gradient factor, the
matrix of these layers is the expectation of KFAC's matrix. -/
structure ExpectedLayers (cfg : KfacCfg) (klayers : List KLayer) (batches : List (List (RandDatum Ω k C)))
    (layers : List (Layer ℝ)) : Prop where
  A : ∀ l ∈ layers, l.pos.hasWeight = true → ∀ ω,
    (kfacFactors cfg klayers (batches.map (·.map fun d => (d.fix ω).toKDatum))).1.get l.name = some l.A
  B : ∀ l ∈ layers, ∃ B : Ω → Factor ℝ,
    (∀ ω, (kfacFactors cfg klayers (batches.map (·.map fun d => (d.fix ω).toKDatum))).2.get l.name = some (B ω)) ∧
    ∀ i j, l.B.mat i j = ∫ ω, (B ω).mat i j ∂P

/-- What the hooks see of a datum, and its loss terms. -/
def RandDatum.pair (T : Nat) (d : RandDatum Ω k C) : KDatum × List (Term k C) := (d.base, (List.range T).map d.term)

variable {P}

theorem ExpectedLayers.gradFactor [Nonempty Ω] {cfg : KfacCfg} {klayers : List KLayer}
    {batches : List (List (RandDatum Ω k C))} {layers : List (Layer ℝ)} (h : ExpectedLayers P cfg klayers batches layers)
    (hf : cfg.fisher = .mc) (hloss : cfg.loss = k) (hC : cfg.C = C) (hC0 : C ≠ 0)
    (hmc : cfg.mcSamples ≠ 0) (hT : cfg.T ≠ 0) (hnd : (klayers.map KLayer.name).Nodup) (hne : batches ≠ [])
    (hgood : ∀ d ∈ batches.flatten, d.Good P cfg.mcSamples cfg.T) (l : Layer ℝ) (hl : l ∈ layers) (kl : KLayer)
    (hkl : kl ∈ klayers) (hname : kl.name = l.name) (i j : Nat) :
    l.B.mat i j = expGradFactor cfg kl batches.flatten i j := by
  obtain ⟨B, hB, hE⟩ := h.B l hl
  obtain ⟨B', hB', hE'⟩ := kfac_mc_unbiased P hf hloss hC hC0 hmc hT klayers hnd batches hne hgood kl hkl
  have : B = B' := by
    funext ω
    have h1 := hB ω
    have h2 := hB' ω
    rw [hname, h1, Option.some.injEq] at h2
    exact h2
  rw [hE, this, (hE' i j).2]

theorem ExpectedLayers.inputFactor [Nonempty Ω] {cfg : KfacCfg} {klayers : List KLayer}
    {batches : List (List (RandDatum Ω k C))} {layers : List (Layer ℝ)} (h : ExpectedLayers P cfg klayers batches layers)
    (hnd : (klayers.map KLayer.name).Nodup) (hne : batches ≠ []) (l : Layer ℝ) (hl : l ∈ layers) (kl : KLayer)
    (hkl : kl ∈ klayers) (hname : kl.name = l.name) (hpos : kl.pos = l.pos.dict) (hw : l.pos.hasWeight = true) :
    l.A.mat = specInputFactor cfg kl ((batches.flatten.map (RandDatum.pair cfg.T)).map Prod.fst) := by
  obtain ⟨ω⟩ := ‹Nonempty Ω›
  have h2 := kfac_input_factor cfg klayers hnd (batches.map (·.map fun d => (d.fix ω).toKDatum)) (by simpa using hne) kl hkl
    (by rw [hpos, Dict.has_dict_weight]; exact hw)
  rw [hname, h.A l hl hw ω, Option.some.injEq] at h2
  rw [h2, ← List.map_flatten]
  funext i j
  unfold specInputFactor
  cases cfg.approx <;> simp only [List.map_map] <;> rfl

/-- C70: for a single datum and layers that are evaluated at one position, the expected Monte-Carlo KFAC equals the GGN inside
the blocks, for every supported loss and every number of loss terms. (Type-2 KFAC needs a single loss term, see C35.) -/
theorem kfac_mc_single [Nonempty Ω] {cfg : KfacCfg} {klayers : List KLayer} {shapes : List (List Nat)}
    {layers : List (Layer ℝ)} (hs : SharedSetting C cfg shapes klayers layers (fun _ => 1) 1) (hf : cfg.fisher = .mc)
    (hloss : cfg.loss = k) (d : RandDatum Ω k C) (hgood : d.Good P cfg.mcSamples cfg.T)
    (hd : SharedChainRule shapes layers (fun _ => 1) cfg.T d.base ((List.range cfg.T).map d.term))
    (h : ExpectedLayers P cfg klayers [[d]] layers)
    (M : Mat ℝ) (hM : IsKron (kfacBlocks cfg.sep shapes layers) M) (b : KBlock ℝ)
    (hb : b ∈ kfacBlocks cfg.sep shapes layers) (i j i' j' : Nat) (hi : i < b.rows) (hj : j < b.cols)
    (hi' : i' < b.rows) (hj' : j' < b.cols) :
    M (b.idx i j) (b.idx i' j') = riskMatrix (redOf cfg.mean) (datumMatrix cfg.mean cfg.T lossHessian)
      [(List.range cfg.T).map d.term] (b.idx i j) (b.idx i' j') := by
  rw [kron_block_entry hM hb hi hi' hj hj']
  obtain ⟨l, hl, hb⟩ := List.mem_flatMap.mp hb
  obtain ⟨kl, hkl, hname, hpos, hkS, hS0, hdin⟩ := hs.klayer l hl
  obtain ⟨a, hrows, hB, hA, hJ⟩ := block_inputs (data := [d.pair cfg.T]) hs (fun x hx => by
      simp only [List.mem_singleton] at hx
      subst hx
      exact hd) l hl kl hname hpos hkS hS0 hdin
    (fun hw => h.inputFactor hs.names (by simp) l hl kl hkl hname hpos hw) b hb
  have hAA : b.A j' j = a d.base 0 j' * a d.base 0 j := by
    rw [hA j' hj' j hj, hs.N]
    cases cfg.approx <;> simp [RandDatum.pair]
  rw [hB, h.gradFactor hf hloss hs.outDim hs.C_ne hs.mc hs.T_ne hs.names (by simp) (by simpa using hgood) l hl kl hkl hname, hAA]
  have hBB : expGradFactor cfg kl [[d]].flatten i i' = termWeight k cfg.mean cfg.T C * ∑ t ∈ Finset.range cfg.T,
      ∑ c : Fin C, ∑ c' : Fin C, d.base.jac l.name 0 i t c * lossHessian (d.term t) c c' * d.base.jac l.name 0 i' t c' := by
    unfold expGradFactor
    rw [hs.N, hkS, hname]
    cases cfg.approx <;> cases cfg.mean <;> simp
  rw [hBB]
  have hJ' : ∀ t < cfg.T, ∀ c : Fin C, ∀ o < b.rows, ∀ q < b.cols, (d.term t).J c (b.idx o q) =
      d.base.jac l.name 0 o t c * a d.base 0 q := by
    intro t ht c o ho q hq
    have := hJ _ (List.mem_singleton.mpr rfl) t (by simpa [RandDatum.pair] using ht) c o ho q hq
    simpa [RandDatum.pair] using this
  have hR : riskMatrix (redOf cfg.mean) (datumMatrix cfg.mean cfg.T lossHessian) [(List.range cfg.T).map d.term] (b.idx i j)
      (b.idx i' j') = termWeight k cfg.mean cfg.T C * ∑ t ∈ Finset.range cfg.T,
        termSandwich (d.term t) (lossHessian (d.term t)) (b.idx i j) (b.idx i' j') := by
    unfold riskMatrix datumMatrix
    simp only [List.map_cons, List.map_nil, List.sum_cons, List.sum_nil, add_zero, List.length_singleton, Nat.cast_one, inv_one,
      ite_self, one_mul, List.map_map]
    rfl
  rw [hR, mul_assoc, Finset.sum_mul]
  congr 1
  refine Finset.sum_congr rfl fun t ht => ?_
  have ht := Finset.mem_range.mp ht
  unfold termSandwich
  rw [Finset.sum_mul]
  refine Finset.sum_congr rfl fun c _ => ?_
  rw [Finset.sum_mul]
  refine Finset.sum_congr rfl fun c' _ => ?_
  rw [hJ' t ht c i hi j hj, hJ' t ht c' i' hi' j' hj']
  ring

/-- C70: for a network that is linear after the layers and `MSELoss`, in the setting of the chosen approximation, the expected
Monte-Carlo KFAC equals the GGN inside the blocks, for all data. -/
theorem kfac_mc_linear [Nonempty Ω] {cfg : KfacCfg} {klayers : List KLayer} {shapes : List (List Nat)}
    {layers : List (Layer ℝ)} {S : String → Nat} (batches : List (List (RandDatum Ω .mse C)))
    (hs : SharedSetting C cfg shapes klayers layers S batches.flatten.length) (hf : cfg.fisher = .mc)
    (hloss : cfg.loss = .mse) (hgood : ∀ d ∈ batches.flatten, d.Good P cfg.mcSamples cfg.T)
    (hd : ∀ d ∈ batches.flatten, SharedChainRule shapes layers S cfg.T d.base ((List.range cfg.T).map d.term))
    (g : String → Nat → Nat → ℝ) (hlin : ∀ d ∈ batches.flatten, LinearAfter cfg layers S g d.base)
    (h : ExpectedLayers P cfg klayers batches layers)
    (M : Mat ℝ) (hM : IsKron (kfacBlocks cfg.sep shapes layers) M) (b : KBlock ℝ)
    (hb : b ∈ kfacBlocks cfg.sep shapes layers) (i j i' j' : Nat) (hi : i < b.rows) (hj : j < b.cols)
    (hi' : i' < b.rows) (hj' : j' < b.cols) :
    M (b.idx i j) (b.idx i' j') = riskMatrix (redOf cfg.mean) (datumMatrix cfg.mean cfg.T lossHessian)
      (batches.flatten.map fun d => (List.range cfg.T).map d.term) (b.idx i j) (b.idx i' j') := by
  have hne : batches ≠ [] := by
    rintro rfl
    exact hs.N_ne rfl
  rw [kron_block_entry hM hb hi hi' hj hj']
  obtain ⟨l, hl, hb⟩ := List.mem_flatMap.mp hb
  obtain ⟨kl, hkl, hname, hpos, hkS, hS0, hdin⟩ := hs.klayer l hl
  have hs' : SharedSetting C cfg shapes klayers layers S (batches.flatten.map (RandDatum.pair cfg.T)).length := by
    rw [List.length_map]; exact hs
  have hd' : ∀ x ∈ batches.flatten.map (RandDatum.pair cfg.T), SharedChainRule shapes layers S cfg.T x.1 x.2 := by
    intro x hx
    obtain ⟨d, hd0, rfl⟩ := List.mem_map.mp hx
    exact hd d hd0
  have hlin' : ∀ x ∈ batches.flatten.map (RandDatum.pair cfg.T), LinearAfter cfg layers S g x.1 := by
    intro x hx
    obtain ⟨d, hd0, rfl⟩ := List.mem_map.mp hx
    exact hlin d hd0
  obtain ⟨a, hrows, hB, hA, hJ⟩ := block_inputs hs' hd' l hl kl hname hpos hkS hS0 hdin
    (fun hw => h.inputFactor hs.names hne l hl kl hkl hname hpos hw) b hb
  have hR := riskMatrix_linear hs'.N hs'.N_ne hs.outDim hd' hlin' lossHessian (fun c c' => if c = c' then 2 else 0)
    (fun x _ t _ => by funext c c'; exact hess_mse t.y t.f c c') l hl (by rw [← hkS]; exact hS0) b a hA hJ i j i' j' hi hj
    hi' hj'
  have hsnd : (batches.flatten.map (RandDatum.pair cfg.T)).map Prod.snd =
      batches.flatten.map fun d => (List.range cfg.T).map d.term := by
    rw [List.map_map]
    rfl
  rw [hsnd, List.length_map] at hR
  rw [hR]
  congr 1
  rw [hB, h.gradFactor hf hloss hs.outDim hs.C_ne hs.mc hs.T_ne hs.names hne hgood l hl kl hkl hname]
  unfold expGradFactor
  rw [hs.N]
  congr 1
  set K := ∑ c : Fin C, ∑ c' : Fin C, g l.name i c * (if c = c' then 2 else 0) * g l.name i' c' with hK
  have hconst : ∀ f : RandDatum Ω .mse C → ℝ, (∀ d ∈ batches.flatten, f d = settingCount cfg (S l.name) * K) →
      (batches.flatten.map f).sum = batches.flatten.length * (settingCount cfg (S l.name) * K) := by
    intro f hf
    rw [List.map_congr_left hf, List.map_const', List.sum_replicate, nsmul_eq_mul]
  refine hconst _ fun d hd0 => ?_
  have hcC : ∀ c : Fin C, (c : Nat) < cfg.C := fun c => by rw [hs.outDim]; exact c.2
  have h1 := hlin d hd0
  have hH : ∀ t, lossHessian (d.term t) = fun c c' => if c = c' then 2 else 0 := fun t => by
    funext c c'; exact hess_mse (d.term t).y (d.term t).f c c'
  simp only [hH, hname, hkS]
  cases happ : cfg.approx with
  | expand =>
    simp only [LinearAfter, happ] at h1
    obtain ⟨hST, hjac⟩ := h1 l hl
    have : ∀ t ∈ Finset.range cfg.T, ∑ s ∈ Finset.range (S l.name), ∑ c : Fin C, ∑ c' : Fin C,
        d.base.jac l.name s i t c * (if c = c' then 2 else 0) * d.base.jac l.name s i' t c' = K := by
      intro t ht
      have ht' := Finset.mem_range.mp ht
      rw [hST, Finset.sum_eq_single t]
      · simp only [hjac t ht' _ t ht' _ (hcC _), if_true]
        rfl
      · intro s hs0 hst
        refine Finset.sum_eq_zero fun c _ => Finset.sum_eq_zero fun c' _ => ?_
        rw [hjac s (Finset.mem_range.mp hs0) i t ht' c (hcC c), if_neg hst, zero_mul, zero_mul]
      · intro hh
        exact absurd ht hh
    simp only
    rw [Finset.sum_congr rfl this]
    simp [settingCount, happ]
  | reduce =>
    simp only [LinearAfter, happ] at h1
    obtain ⟨hT1, hjac⟩ := h1
    have hsum : ∀ o, ∀ c : Fin C, ∑ s ∈ Finset.range (S l.name), d.base.jac l.name s o 0 c = S l.name * g l.name o c := by
      intro o c
      rw [Finset.sum_congr rfl fun s hs0 => hjac l hl s (Finset.mem_range.mp hs0) o c (hcC c)]
      simp
    simp only [hT1, Finset.sum_range_one, hsum]
    rw [hK]
    simp only [Finset.mul_sum, settingCount, happ]
    refine Finset.sum_congr rfl fun c _ => Finset.sum_congr rfl fun c' _ => ?_
    push_cast
    ring

end

/-! ## Example: two loss terms -/

/-- Settings of the example: `MSELoss` with two loss terms per datum and three samples. -/
def mcCfg : KfacCfg :=
  { fisher := .mc, approx := .expand, loss := .mse, mean := false, mcSamples := 3, N := 1, T := 2, C := 1, sep := true }

/-- Weight of shape `(2, 1)`. -/
def mcKLayer : KLayer := ⟨"lin", [("weight", 0)], 1, 2, 1⟩

/-- The datum of `kfac_two_terms`; the same random numbers are used for all samples. -/
noncomputable def mcTwoTerms : RandDatum ((Fin 1 → ℝ) × (Fin 1 → ℝ)) .mse 1 where
  base := twoTermDatum
  term := fun t => ⟨fun _ p => if p = t then 1 else 0, fun _ => 1, fun _ => 0⟩
  draw := fun _ t ω => if t = 0 then ω.1 else ω.2

noncomputable def mcLayers : List (Layer ℝ) :=
  [⟨"lin", .weight 0, ⟨1, specInputFactor mcCfg mcKLayer [twoTermDatum]⟩, ⟨2, expGradFactor mcCfg mcKLayer [mcTwoTerms]⟩⟩]

theorem mcTwoTerms_good : mcTwoTerms.Good ((stdNormal 1).prod (stdNormal 1)) 3 2 where
  meas := by
    intro m _ t _
    unfold mcTwoTerms
    by_cases h : t = 0
    · simp only [h]
      exact (measurable_fst (α := Fin 1 → ℝ) (β := Fin 1 → ℝ)).aemeasurable
    · simp only [h]
      exact (measurable_snd (α := Fin 1 → ℝ) (β := Fin 1 → ℝ)).aemeasurable
  law := by
    intro m _ t _
    show _ = stdNormal 1
    unfold mcTwoTerms
    by_cases h : t = 0
    · simp only [h]
      exact (Measure.map_fst_prod (μ := stdNormal 1) (ν := stdNormal 1)).trans (by simp)
    · simp only [h]
      exact (Measure.map_snd_prod (μ := stdNormal 1) (ν := stdNormal 1)).trans (by simp)
  indep := by
    intro m _ t ht t' ht' htt
    have key : IndepFun (fun ω : (Fin 1 → ℝ) × (Fin 1 → ℝ) => ω.1) (fun ω => ω.2) ((stdNormal 1).prod (stdNormal 1)) :=
      indepFun_prod (X := id) (Y := id) measurable_id measurable_id
    unfold mcTwoTerms
    by_cases h : t = 0
    · have h' : t' ≠ 0 := fun h' => htt (h.trans h'.symm)
      simp only [h, h']
      exact key
    · have h' : t' = 0 := by omega
      simp only [h, h']
      exact key.symm

theorem mcTwoTerms_setting : SharedSetting 1 mcCfg [[2, 1]] [mcKLayer] mcLayers (fun _ => 1) 1 where
  N := rfl
  N_ne := by simp
  T_ne := by simp [mcCfg]
  outDim := rfl
  C_ne := by simp
  mc := by simp [mcCfg]
  names := by simp
  klayer := by
    intro l hl
    simp only [mcLayers, List.mem_singleton] at hl
    subst hl
    refine ⟨_, List.mem_singleton.mpr rfl, rfl, rfl, rfl, by simp [mcKLayer], ?_⟩
    intro w hw
    rcases hw with hw | ⟨b, hw⟩
    · simp only [LayerPos.weight.injEq] at hw
      subst hw
      simp [wCols, mcKLayer]
    · cases hw

theorem mcTwoTerms_expected : ExpectedLayers ((stdNormal 1).prod (stdNormal 1)) mcCfg [mcKLayer] [[mcTwoTerms]] mcLayers where
  A := by
    intro l hl _ ω
    simp only [mcLayers, List.mem_singleton] at hl
    subst hl
    exact kfac_input_factor mcCfg [mcKLayer] (by simp) [[(mcTwoTerms.fix ω).toKDatum]] (by simp) mcKLayer (by simp) rfl
  B := by
    intro l hl
    simp only [mcLayers, List.mem_singleton] at hl
    subst hl
    obtain ⟨B, hB, hE⟩ := kfac_mc_unbiased ((stdNormal 1).prod (stdNormal 1)) (cfg := mcCfg) (k := .mse) rfl rfl rfl (by simp [mcCfg])
      (by simp [mcCfg]) (by simp [mcCfg]) [mcKLayer] (by simp) [[mcTwoTerms]] (by simp)
      (by
        intro d hd
        obtain rfl : d = mcTwoTerms := List.mem_singleton.mp hd
        exact mcTwoTerms_good) mcKLayer (by simp)
    exact ⟨B, hB, fun i j => (hE i j).2.symm⟩

/-- On the datum of `kfac_two_terms` the expectation is the GGN: the off-diagonal entry is `0` (`2` for type-2 KFAC). -/
example (M : Mat ℝ) (hM : IsKron (kfacBlocks true [[2, 1]] mcLayers) M) : M 0 1 = 0 ∧ M 1 1 = 2 := by
  have hchain : SharedChainRule [[2, 1]] mcLayers (fun _ => 1) 2 twoTermDatum ((List.range 2).map mcTwoTerms.term) := by
    refine ⟨rfl, ?_, ?_⟩
    · intro l hl w hw τ hτ c o i ho hi
      simp only [mcLayers, List.mem_singleton] at hl
      subst hl
      rcases hw with hw | ⟨b, hw⟩
      · simp only [LayerPos.weight.injEq] at hw
        subst hw
        have hi : i < 1 := hi
        obtain rfl : i = 0 := by omega
        simp [offset, mcTwoTerms, twoTermDatum, wCols]
      · cases hw
    · intro l hl b hb
      simp only [mcLayers, List.mem_singleton] at hl
      subst hl
      rcases hb with hb | ⟨w, hb⟩ <;> cases hb
  have key := fun i i' (hi : i < 2) (hi' : i' < 2) => kfac_mc_single mcTwoTerms_setting rfl rfl mcTwoTerms mcTwoTerms_good hchain
    mcTwoTerms_expected M hM _ (List.mem_singleton.mpr rfl) i 0 i' 0 hi (by simp [Layer.wBlock, wCols]) hi'
    (by simp [Layer.wBlock, wCols])
  have h01 : M 0 1 = _ := key 0 1 (by simp) (by simp)
  have h11 : M 1 1 = _ := key 1 1 (by simp) (by simp)
  rw [h01, h11]
  simp [riskMatrix, datumMatrix, termSandwich, mcTwoTerms, redOf, mcCfg, termWeight, lossHessian, hess_mse, Layer.wBlock, offset,
    wCols, List.range_succ]

end Curvlinops
