import Verif.Props.FisherMCVariance
import Verif.Props.EigenOrder

/-!
# C121: how far the Monte-Carlo Fisher is from the GGN

The experiments of `docs/examples/basic_usage/example_fisher_monte_carlo.py`: the Frobenius norm of the residual for several numbers of
samples (lines 84-116), and averages of matrices from differently seeded operators (lines 200-225).
-/

namespace Curvlinops

open MeasureTheory ProbabilityTheory

variable {k : LossKind} {C : Nat}

/-! ### One drawn label -/

/-- Specification: mean squared Frobenius distance, over the labels drawn from the predictive distribution, between the outer product of a
term's would-be gradient and `J^T H J`. -/
noncomputable def labelResidual (n : Nat) (t : Term k C) : ℝ :=
  ∫ d, matSquares n (fun r c => drawGrad t d r * drawGrad t d c - termSandwich t (lossHessian t) r c) ∂(drawLaw k t.f)

/-- Selects one entry of a matrix. -/
def oneEntry (r c : Nat) : Nat → Nat → ℝ := fun r' c' => if r' = r then (if c' = c then 1 else 0) else 0

theorem oneEntry_sum {n r c : Nat} (hr : r < n) (hc : c < n) (M : Nat → Nat → ℝ) :
    ∑ r' ∈ Finset.range n, ∑ c' ∈ Finset.range n, oneEntry r c r' c' * M r' c' = M r c := by
  unfold oneEntry
  rw [Finset.sum_eq_single_of_mem r (Finset.mem_range.2 hr), Finset.sum_eq_single_of_mem c (Finset.mem_range.2 hc)]
  · simp
  · intro c' _ h
    simp [h]
  · intro r' _ h
    simp [h]

theorem drawLaw_finite (f : Fin C → ℝ) : IsFiniteMeasure (drawLaw k f) := by
  by_cases hC : k = .ce → 0 < C
  · have := drawLaw_probability f hC
    infer_instance
  · rw [Classical.not_imp] at hC
    obtain ⟨rfl, hC⟩ := hC
    obtain rfl : C = 0 := by omega
    have h : drawLaw .ce f = 0 := Finset.sum_empty
    rw [h]
    infer_instance

theorem labelResidual_eq (n : Nat) (t : Term k C) :
    labelResidual n t = ∑ r ∈ Finset.range n, ∑ c ∈ Finset.range n, labelVar n (oneEntry r c) t := by
  have hv : ∀ r ∈ Finset.range n, ∀ c ∈ Finset.range n,
      Integrable (fun d => (drawGrad t d r * drawGrad t d c - termSandwich t (lossHessian t) r c) ^ 2) (drawLaw k t.f) ∧
      labelVar n (oneEntry r c) t =
        ∫ d, (drawGrad t d r * drawGrad t d c - termSandwich t (lossHessian t) r c) ^ 2 ∂(drawLaw k t.f) := by
    intro r hr c hc
    rw [Finset.mem_range] at hr hc
    have he : drawForm n (oneEntry r c) t = fun d => drawGrad t d r * drawGrad t d c := by
      funext d
      exact oneEntry_sum hr hc fun r' c' => drawGrad t d r' * drawGrad t d c'
    have hm := drawForm_mean n (oneEntry r c) t
    rw [oneEntry_sum hr hc] at hm
    have hl := drawForm_memLp n (oneEntry r c) t
    have hme := drawForm_measurable n (oneEntry r c) t
    rw [labelVar, variance_eq_integral hme.aemeasurable, hm]
    rw [he] at hl ⊢
    have := drawLaw_finite (k := k) t.f
    exact ⟨(hl.sub (memLp_const _)).integrable_sq, rfl⟩
  unfold labelResidual matSquares
  rw [integral_finsetSum _ fun r hr => integrable_finsetSum _ fun c hc => (hv r hr c hc).1]
  refine Finset.sum_congr rfl fun r hr => ?_
  rw [integral_finsetSum _ fun c hc => (hv r hr c hc).1]
  exact Finset.sum_congr rfl fun c hc => (hv r hr c hc).2.symm

/-- **C121**: this is the mean of the fourth power of the would-be gradient's norm, minus the squared Frobenius norm of `J^T H J`. -/
theorem labelResidual_moment (hC : k = .ce → 0 < C) (n : Nat) (t : Term k C) :
    Integrable (fun d => (∑ r ∈ Finset.range n, drawGrad t d r ^ 2) ^ 2) (drawLaw k t.f) ∧
    labelResidual n t = (∫ d, (∑ r ∈ Finset.range n, drawGrad t d r ^ 2) ^ 2 ∂(drawLaw k t.f)) -
      matSquares n (termSandwich t (lossHessian t)) := by
  have := drawLaw_probability (k := k) t.f hC
  have hv : ∀ r ∈ Finset.range n, ∀ c ∈ Finset.range n,
      Integrable (fun d => (drawGrad t d r * drawGrad t d c) ^ 2) (drawLaw k t.f) ∧
      labelVar n (oneEntry r c) t =
        ∫ d, (drawGrad t d r * drawGrad t d c) ^ 2 ∂(drawLaw k t.f) - termSandwich t (lossHessian t) r c ^ 2 := by
    intro r hr c hc
    rw [Finset.mem_range] at hr hc
    have he : drawForm n (oneEntry r c) t = fun d => drawGrad t d r * drawGrad t d c := by
      funext d
      exact oneEntry_sum hr hc fun r' c' => drawGrad t d r' * drawGrad t d c'
    have hm := drawForm_mean n (oneEntry r c) t
    rw [oneEntry_sum hr hc] at hm
    have hl := drawForm_memLp n (oneEntry r c) t
    rw [labelVar, variance_eq_sub hl, hm]
    rw [he] at hl ⊢
    exact ⟨hl.integrable_sq, rfl⟩
  have hsq : ∀ d, (∑ r ∈ Finset.range n, drawGrad t d r ^ 2) ^ 2 =
      ∑ r ∈ Finset.range n, ∑ c ∈ Finset.range n, (drawGrad t d r * drawGrad t d c) ^ 2 := by
    intro d
    rw [sq, Finset.sum_mul_sum]
    exact Finset.sum_congr rfl fun r _ => Finset.sum_congr rfl fun c _ => by ring
  simp only [hsq]
  refine ⟨integrable_finsetSum _ fun r hr => integrable_finsetSum _ fun c hc => (hv r hr c hc).1, ?_⟩
  rw [integral_finsetSum _ fun r hr => integrable_finsetSum _ fun c hc => (hv r hr c hc).1, labelResidual_eq, matSquares,
    ← Finset.sum_sub_distrib]
  refine Finset.sum_congr rfl fun r hr => ?_
  rw [integral_finsetSum _ fun c hc => (hv r hr c hc).1, ← Finset.sum_sub_distrib]
  exact Finset.sum_congr rfl fun c hc => (hv r hr c hc).2

theorem labelResidual_nonneg (n : Nat) (t : Term k C) : 0 ≤ labelResidual n t :=
  integral_nonneg fun _ => Finset.sum_nonneg fun _ _ => Finset.sum_nonneg fun _ _ => sq_nonneg _

/-- Specification: `K = J J^T`, the Gram matrix of a term's Jacobian. -/
noncomputable def termGram (n : Nat) (t : Term k C) (i j : Fin C) : ℝ := ∑ r ∈ Finset.range n, t.J i r * t.J j r

/-- **C121** (`MSELoss`): with the Gram matrix `K = J J^T` of the Jacobian, one drawn label contributes `4 (tr(K)² + tr(K²))`. -/
theorem labelResidual_mse (n : Nat) (t : Term .mse C) :
    labelResidual n t = 4 * ((∑ i, termGram n t i i) ^ 2 + ∑ i, ∑ j, termGram n t i j ^ 2) := by
  rw [labelResidual_eq]
  have h1 : ∀ r ∈ Finset.range n, ∀ c ∈ Finset.range n, labelVar n (oneEntry r c) t =
      ∑ i : Fin C, ∑ j : Fin C, 4 * ((t.J i r * t.J i r) * (t.J j c * t.J j c) + (t.J i r * t.J j r) * (t.J i c * t.J j c)) := by
    intro r hr c hc
    rw [Finset.mem_range] at hr hc
    rw [labelVar_mse]
    simp only [mul_assoc (oneEntry r c _ _)]
    simp only [oneEntry_sum hr hc fun r' c' => t.J _ r' * t.J _ c']
    refine Finset.sum_congr rfl fun i _ => Finset.sum_congr rfl fun j _ => by ring
  rw [Finset.sum_congr rfl fun r hr => Finset.sum_congr rfl fun c hc => h1 r hr c hc]
  have hc4 : ∀ g : Nat → Nat → Fin C → Fin C → ℝ,
      ∑ r ∈ Finset.range n, ∑ c ∈ Finset.range n, ∑ i, ∑ j, g r c i j =
      ∑ i, ∑ j, ∑ r ∈ Finset.range n, ∑ c ∈ Finset.range n, g r c i j := by
    intro g
    have q1 : ∀ r, ∑ c ∈ Finset.range n, ∑ i, ∑ j, g r c i j = ∑ i, ∑ j, ∑ c ∈ Finset.range n, g r c i j := by
      intro r
      rw [Finset.sum_comm]
      exact Finset.sum_congr rfl fun i _ => Finset.sum_comm
    simp only [q1]
    rw [Finset.sum_comm]
    exact Finset.sum_congr rfl fun i _ => Finset.sum_comm
  rw [hc4, sq, Finset.sum_mul_sum]
  simp only [termGram]
  rw [← Finset.sum_add_distrib, Finset.mul_sum]
  refine Finset.sum_congr rfl fun i _ => ?_
  rw [← Finset.sum_add_distrib, Finset.mul_sum]
  refine Finset.sum_congr rfl fun j _ => ?_
  rw [sq, Finset.sum_mul_sum, Finset.sum_mul_sum, ← Finset.sum_add_distrib, Finset.mul_sum]
  refine Finset.sum_congr rfl fun r _ => ?_
  rw [← Finset.sum_add_distrib, Finset.mul_sum]

/-- **C121** (`CrossEntropyLoss`): one drawn label contributes a sum over the classes. -/
theorem labelResidual_ce (hC : 0 < C) (n : Nat) (t : Term .ce C) :
    labelResidual n t = ∑ s : Fin C, softmax t.f s * (∑ r ∈ Finset.range n, drawGrad t s r ^ 2) ^ 2 -
      matSquares n (termSandwich t (lossHessian t)) := by
  rw [(labelResidual_moment (fun _ => hC) n t).2]
  congr 1
  exact (integral_finite_law (fun s => softmax t.f s) (fun s => (softmax_pos t.f s).le) _).2

/-! ### All drawn labels -/

section

variable {Ω : Type _} [MeasurableSpace Ω] {S : Nat} {P : Measure Ω}

theorem mcMatrix_entry_memLp {D : RandomLabels k C S Ω} (hD : D.Independent P) (mean : Bool) (N T r c : Nat) :
    MemLp (fun ω => mcMatrix mean N T (D.at ω) r c) 2 P := by
  have h := mcMatrix_form_memLp hD mean N T (max r c + 1) (oneEntry r c)
  refine h.ae_eq (Filter.Eventually.of_forall fun ω => ?_)
  exact oneEntry_sum (by omega) (by omega) _

/-- **C121** (mean squared residual): with independent draws, the mean of the squared Frobenius norm of the residual between the Monte-Carlo
Fisher with `S` samples and the GGN is `weight² / S` times the sum over all loss terms of the contribution of one drawn label. -/
theorem mcResidual_mean (hS : S ≠ 0) (D : RandomLabels k C S Ω) [IsProbabilityMeasure P] (hD : D.Independent P)
    (mean : Bool) (T n : Nat) :
    Integrable (fun ω => matSquares n fun r c => mcMatrix mean (D.map (·.1)).flatten.length T (D.at ω) r c -
      riskMatrix (redOf mean) (datumMatrix mean T lossHessian) (D.map (·.1)).flatten r c) P ∧
    ∫ ω, (matSquares n fun r c => mcMatrix mean (D.map (·.1)).flatten.length T (D.at ω) r c -
      riskMatrix (redOf mean) (datumMatrix mean T lossHessian) (D.map (·.1)).flatten r c) ∂P =
      termWeight k mean ((D.map (·.1)).flatten.length * T) C ^ 2 / S * (D.terms.map (labelResidual n)).sum := by
  set N := (D.map (·.1)).flatten.length with hN
  set G := riskMatrix (redOf mean) (datumMatrix mean T lossHessian) (D.map (·.1)).flatten with hG
  have hv : ∀ r ∈ Finset.range n, ∀ c ∈ Finset.range n,
      Integrable (fun ω => (mcMatrix mean N T (D.at ω) r c - G r c) ^ 2) P ∧
      ∫ ω, (mcMatrix mean N T (D.at ω) r c - G r c) ^ 2 ∂P =
        termWeight k mean (N * T) C ^ 2 / S * (D.terms.map (labelVar n (oneEntry r c))).sum := by
    intro r hr c hc
    rw [Finset.mem_range] at hr hc
    have hl := mcMatrix_entry_memLp hD mean N T r c
    have hva := mcMatrix_variance hS D hD mean N T n (oneEntry r c)
    have hme := mcMatrix_mean hS D hD mean T n (oneEntry r c)
    simp only [oneEntry_sum hr hc] at hva hme
    rw [variance_eq_integral hl.aestronglyMeasurable.aemeasurable, hme] at hva
    exact ⟨(hl.sub (memLp_const _)).integrable_sq, hva⟩
  unfold matSquares
  refine ⟨integrable_finsetSum _ fun r hr => integrable_finsetSum _ fun c hc => (hv r hr c hc).1, ?_⟩
  rw [integral_finsetSum _ fun r hr => integrable_finsetSum _ fun c hc => (hv r hr c hc).1]
  rw [Finset.sum_congr rfl fun r hr => (integral_finsetSum _ fun c hc => (hv r hr c hc).1).trans
    (Finset.sum_congr rfl fun c hc => (hv r hr c hc).2)]
  simp only [← Finset.mul_sum]
  congr 1
  generalize D.terms = ts
  induction ts with
  | nil => simp
  | cons t ts ih => simp only [List.map_cons, List.sum_cons, Finset.sum_add_distrib, ih, labelResidual_eq]

/-- **C121** (probability): the probability that the Frobenius norm of the residual is at least `ε`. -/
theorem mcResidual_markov (hS : S ≠ 0) (D : RandomLabels k C S Ω) [IsProbabilityMeasure P] (hD : D.Independent P)
    (mean : Bool) (T n : Nat) (ε : ℝ) (hε : 0 < ε) :
    P {ω | ε ≤ Real.sqrt (matSquares n fun r c => mcMatrix mean (D.map (·.1)).flatten.length T (D.at ω) r c -
      riskMatrix (redOf mean) (datumMatrix mean T lossHessian) (D.map (·.1)).flatten r c)} ≤
    ENNReal.ofReal (termWeight k mean ((D.map (·.1)).flatten.length * T) C ^ 2 / S * (D.terms.map (labelResidual n)).sum / ε ^ 2) := by
  obtain ⟨hi, hm⟩ := mcResidual_mean hS D hD mean T n
  set X := fun ω => matSquares n fun r c => mcMatrix mean (D.map (·.1)).flatten.length T (D.at ω) r c -
      riskMatrix (redOf mean) (datumMatrix mean T lossHessian) (D.map (·.1)).flatten r c with hX
  have h := mul_meas_ge_le_integral_of_nonneg (Filter.Eventually.of_forall fun ω =>
    Finset.sum_nonneg fun _ _ => Finset.sum_nonneg fun _ _ => sq_nonneg _ : 0 ≤ᵐ[P] X) hi (ε ^ 2)
  rw [hm] at h
  rw [← ENNReal.ofReal_toReal (measure_ne_top P _)]
  refine ENNReal.ofReal_le_ofReal ?_
  rw [le_div_iff₀ (by positivity), mul_comm]
  refine le_trans (le_of_eq ?_) h
  congr 3
  ext ω
  exact Real.le_sqrt' hε

/-! ### Averages over seeds -/

/-- Labels of the `j`-th of `R` operators, from a pool with `R * S` labels per loss term. -/
def RandomLabels.part {R : Nat} (D : RandomLabels k C (R * S) Ω) (j : Fin R) : RandomLabels k C S Ω :=
  D.map fun x => ⟨x.1, fun s m => x.2 (finProdFinEquiv (j, s)) m⟩

theorem sampleOuter_parts {R : Nat} (f : Fin C → ℝ) (draws : Fin (R * S) → TermDraw k C) (i i' : Fin C) :
    (∑ j : Fin R, sampleOuter f (fun s : Fin S => draws (finProdFinEquiv (j, s))) i i') / R = sampleOuter f draws i i' := by
  unfold sampleOuter
  rw [← Finset.sum_div, div_div, ← Fintype.sum_prod_type' (f := fun j s =>
    wouldBeGrad k f (draws (finProdFinEquiv (j, s))) i * wouldBeGrad k f (draws (finProdFinEquiv (j, s))) i'),
    finProdFinEquiv.sum_comp fun x => wouldBeGrad k f (draws x) i * wouldBeGrad k f (draws x) i', Nat.cast_mul, mul_comm (R : ℝ)]

theorem batch_parts {R : Nat} (ts : List (Term k C)) (draws : Fin (R * S) → Fin ts.length → TermDraw k C) (r c : Nat) :
    (∑ j : Fin R, ∑ m : Fin ts.length,
        termSandwich ts[m] (sampleOuter ts[m].f fun s : Fin S => draws (finProdFinEquiv (j, s)) m) r c) / R =
      ∑ m : Fin ts.length, termSandwich ts[m] (sampleOuter ts[m].f fun s => draws s m) r c := by
  rw [Finset.sum_comm, Finset.sum_div]
  refine Finset.sum_congr rfl fun m _ => ?_
  unfold termSandwich
  rw [Finset.sum_comm, Finset.sum_div]
  refine Finset.sum_congr rfl fun i _ => ?_
  rw [Finset.sum_comm, Finset.sum_div]
  refine Finset.sum_congr rfl fun i' _ => ?_
  rw [← Finset.sum_mul, ← Finset.mul_sum, ← sampleOuter_parts]
  ring

omit [MeasurableSpace Ω] in
/-- **C121** (averages): the average of the matrices with `S` samples each is the matrix with all `R * S` samples. -/
theorem mcMatrix_average {R : Nat} (D : RandomLabels k C (R * S) Ω) (mean : Bool) (N T : Nat) (ω : Ω) (r c : Nat) :
    (∑ j : Fin R, mcMatrix mean N T ((D.part j).at ω) r c) / R = mcMatrix mean N T (D.at ω) r c := by
  unfold mcMatrix
  rw [← Finset.mul_sum, mul_div_assoc]
  congr 1
  unfold RandomLabels.at RandomLabels.part
  simp only [List.map_map, Function.comp_def]
  induction D with
  | nil => simp
  | cons x D ih =>
    simp only [List.map_cons, List.sum_cons, Finset.sum_add_distrib, add_div, ih]
    congr 1
    exact batch_parts x.1.flatten (fun s m => x.2 s m ω) r c

end

/-! ### Operators -/

section

variable {Ω : Type _} [MeasurableSpace Ω] {P : Measure Ω} [IsProbabilityMeasure P]

omit [MeasurableSpace Ω] in
/-- The data of a pool of labels are those of the operator. -/
theorem drawAll_labels {S S' : Nat} {rng : Rng k C} {bs : List (List (List (Term k C)))} {g : rng.G} (D : RandomLabels k C S Ω)
    (D' : RandomLabels k C S' Ω) (hDD : D'.map (·.1) = D.map (·.1)) {ω : Ω} (h : drawAll rng S' bs g = D'.at ω) : D.map (·.1) = bs := by
  have h := congrArg (List.map (·.data)) h
  rw [drawAll_data] at h
  rw [h, ← hDD]
  unfold RandomLabels.at
  rw [List.map_map]
  rfl

theorem matSquares_congr {n : Nat} {M M' : Mat ℝ} (h : ∀ r < n, ∀ c < n, M r c = M' r c) : matSquares n M = matSquares n M' :=
  Finset.sum_congr rfl fun r hr => Finset.sum_congr rfl fun c hc => by rw [h r (Finset.mem_range.1 hr) c (Finset.mem_range.1 hc)]

/-- **C121** (mean squared residual): let the generator be random such that the labels drawn during a product are independent draws from the
predictive distributions. Then the squared Frobenius norm of the difference between the matrices of the Monte-Carlo Fisher and the GGN has
the mean `weight² / mc_samples * Σ labelResidual`, and with probability at most this mean divided by `ε²` the norm is at least `ε`. -/
theorem fisher_residual (rng : Ω → Rng k C) (cfg : McConfig k C) (hshapes : cfg.shapes ≠ []) (T : Nat) (hS : cfg.mcSamples ≠ 0)
    (hne : ∀ b ∈ cfg.data, b ≠ []) (hT : ∀ b ∈ cfg.data, ∀ d ∈ b, d.length = T)
    (hbin : ∀ b ∈ cfg.data, BinaryTargets k b.flatten) (hN : cfg.nData = cfg.data.flatten.length)
    (st : (ω : Ω) → McState (rng ω)) (D : RandomLabels k C cfg.mcSamples Ω)
    (hdraw : ∀ ω, drawAll (rng ω) cfg.mcSamples cfg.data ((rng ω).seed (st ω).genDevice cfg.seed) = D.at ω) (hD : D.Independent P)
    (F : Ω → Mat ℝ) (hF : ∀ ω, Represents (mcOp (rng ω) cfg (st ω)) (F ω)) (G : Mat ℝ)
    (hG : Represents (curvatureOp cfg.shapes (redOf cfg.mean) (inferNData List.length cfg.data none) List.length
      (fun b => ggnLossBatch cfg.shapes cfg.mean b.flatten) cfg.data) G) :
    Integrable (fun ω => matSquares (total cfg.shapes) fun r c => F ω r c - G r c) P ∧
    ∫ ω, (matSquares (total cfg.shapes) fun r c => F ω r c - G r c) ∂P =
      termWeight k cfg.mean (cfg.nData * T) C ^ 2 / cfg.mcSamples *
        (cfg.data.flatten.flatten.map (labelResidual (total cfg.shapes))).sum ∧
    ∀ ε : ℝ, 0 < ε → P {ω | ε ≤ Real.sqrt (matSquares (total cfg.shapes) fun r c => F ω r c - G r c)} ≤
      ENNReal.ofReal (termWeight k cfg.mean (cfg.nData * T) C ^ 2 / cfg.mcSamples *
        (cfg.data.flatten.flatten.map (labelResidual (total cfg.shapes))).sum / ε ^ 2) := by
  obtain ⟨ω₀⟩ := nonempty_of_isProbabilityMeasure P
  have hdata := drawAll_labels D D rfl (hdraw ω₀)
  have e : ∀ ω, (matSquares (total cfg.shapes) fun r c => F ω r c - G r c) = matSquares (total cfg.shapes) fun r c =>
      mcMatrix cfg.mean (D.map (·.1)).flatten.length T (D.at ω) r c -
        riskMatrix (redOf cfg.mean) (datumMatrix cfg.mean T lossHessian) (D.map (·.1)).flatten r c := by
    intro ω
    have h := mcOp_draws (rng ω) cfg hS hshapes T hne hT hbin (nData_cases hne hN) (st ω)
    rw [hdraw ω, hN] at h
    rw [hdata]
    refine matSquares_congr fun r hr c hc => congrArg₂ _ (represents_unique _ _ _ (hF ω) h r c hr hc) ?_
    exact represents_unique _ _ _ hG (ggnLossOp_represents cfg.shapes hshapes cfg.mean T cfg.data hne hT) r c hr hc
  obtain ⟨h0, h1⟩ := mcResidual_mean hS D hD cfg.mean T (total cfg.shapes)
  have h2 := mcResidual_markov hS D hD cfg.mean T (total cfg.shapes)
  simp only [← e] at h0 h1 h2
  rw [D.terms_eq, hdata, ← hN] at h1 h2
  exact ⟨h0, h1, h2⟩

/-- **C121** (averages over seeds): let the labels drawn for `R` different seeds be independent draws from the predictive distributions.
Then the average of the matrices of the `R` operators has the mean squared residual of one operator with `R` times as many samples. -/
theorem fisher_average_residual (rng : Ω → Rng k C) (cfg : McConfig k C) (hshapes : cfg.shapes ≠ []) (T : Nat) (hS : cfg.mcSamples ≠ 0)
    (hne : ∀ b ∈ cfg.data, b ≠ []) (hT : ∀ b ∈ cfg.data, ∀ d ∈ b, d.length = T)
    (hbin : ∀ b ∈ cfg.data, BinaryTargets k b.flatten) (hN : cfg.nData = cfg.data.flatten.length) {R : Nat} (hR : R ≠ 0)
    (seeds : Fin R → Int) (st : (ω : Ω) → Fin R → McState (rng ω)) (D : RandomLabels k C (R * cfg.mcSamples) Ω)
    (hdraw : ∀ ω j, drawAll (rng ω) cfg.mcSamples cfg.data ((rng ω).seed (st ω j).genDevice (seeds j)) = (D.part j).at ω)
    (hD : D.Independent P) (F : Ω → Fin R → Mat ℝ)
    (hF : ∀ ω j, Represents (mcOp (rng ω) { cfg with seed := seeds j } (st ω j)) (F ω j)) (G : Mat ℝ)
    (hG : Represents (curvatureOp cfg.shapes (redOf cfg.mean) (inferNData List.length cfg.data none) List.length
      (fun b => ggnLossBatch cfg.shapes cfg.mean b.flatten) cfg.data) G) :
    Integrable (fun ω => matSquares (total cfg.shapes) fun r c => (∑ j, F ω j r c) / R - G r c) P ∧
    ∫ ω, (matSquares (total cfg.shapes) fun r c => (∑ j, F ω j r c) / R - G r c) ∂P =
      termWeight k cfg.mean (cfg.nData * T) C ^ 2 / (R * cfg.mcSamples) *
        (cfg.data.flatten.flatten.map (labelResidual (total cfg.shapes))).sum := by
  obtain ⟨ω₀⟩ := nonempty_of_isProbabilityMeasure P
  have hdata := drawAll_labels D (D.part ⟨0, Nat.pos_of_ne_zero hR⟩) (by
    unfold RandomLabels.part
    rw [List.map_map]
    rfl) (hdraw ω₀ _)
  have e : ∀ ω, (matSquares (total cfg.shapes) fun r c => (∑ j, F ω j r c) / R - G r c) = matSquares (total cfg.shapes) fun r c =>
      mcMatrix cfg.mean (D.map (·.1)).flatten.length T (D.at ω) r c -
        riskMatrix (redOf cfg.mean) (datumMatrix cfg.mean T lossHessian) (D.map (·.1)).flatten r c := by
    intro ω
    rw [hdata]
    refine matSquares_congr fun r hr c hc => congrArg₂ _ ?_ ?_
    · rw [← mcMatrix_average]
      refine congrArg (· / (R : ℝ)) (Finset.sum_congr rfl fun j _ => ?_)
      have h := mcOp_draws (rng ω) { cfg with seed := seeds j } hS hshapes T hne hT hbin (nData_cases hne hN) (st ω j)
      dsimp only at h
      rw [hdraw ω j] at h
      rw [← hN]
      exact represents_unique _ _ _ (hF ω j) h r c hr hc
    · exact represents_unique _ _ _ hG (ggnLossOp_represents cfg.shapes hshapes cfg.mean T cfg.data hne hT) r c hr hc
  obtain ⟨h0, h1⟩ := mcResidual_mean (Nat.mul_ne_zero hR hS) D hD cfg.mean T (total cfg.shapes)
  simp only [← e] at h0 h1
  rw [D.terms_eq, hdata, ← hN, Nat.cast_mul] at h1
  exact ⟨h0, h1⟩

/-- **C121** (eigenvalues): in the same setting, the sorted eigenvalues of the Monte-Carlo Fisher are close to those of the GGN: the mean of
the sum of the squared differences is at most the mean squared residual, and every eigenvalue is off by at least `ε` with probability at
most this divided by `ε²`. -/
theorem fisher_eigenvalues (rng : Ω → Rng k C) (cfg : McConfig k C) (hshapes : cfg.shapes ≠ []) (T : Nat) (hS : cfg.mcSamples ≠ 0)
    (hne : ∀ b ∈ cfg.data, b ≠ []) (hT : ∀ b ∈ cfg.data, ∀ d ∈ b, d.length = T)
    (hbin : ∀ b ∈ cfg.data, BinaryTargets k b.flatten) (hN : cfg.nData = cfg.data.flatten.length)
    (st : (ω : Ω) → McState (rng ω)) (D : RandomLabels k C cfg.mcSamples Ω)
    (hdraw : ∀ ω, drawAll (rng ω) cfg.mcSamples cfg.data ((rng ω).seed (st ω).genDevice cfg.seed) = D.at ω) (hD : D.Independent P)
    (vals : Ω → List ℝ) (hv : ∀ ω, (mcOp (rng ω) cfg (st ω)).HasEigenvalues (vals ω)) (vals' : List ℝ)
    (hv' : (curvatureOp cfg.shapes (redOf cfg.mean) (inferNData List.length cfg.data none) List.length
      (fun b => ggnLossBatch cfg.shapes cfg.mean b.flatten) cfg.data).HasEigenvalues vals') :
    ∫⁻ ω, ENNReal.ofReal (∑ i ∈ Finset.range (total cfg.shapes), ((vals ω).getD i 0 - vals'.getD i 0) ^ 2) ∂P ≤
      ENNReal.ofReal (termWeight k cfg.mean (cfg.nData * T) C ^ 2 / cfg.mcSamples *
        (cfg.data.flatten.flatten.map (labelResidual (total cfg.shapes))).sum) ∧
    ∀ i < total cfg.shapes, ∀ ε : ℝ, 0 < ε → P {ω | ε ≤ |(vals ω).getD i 0 - vals'.getD i 0|} ≤
      ENNReal.ofReal (termWeight k cfg.mean (cfg.nData * T) C ^ 2 / cfg.mcSamples *
        (cfg.data.flatten.flatten.map (labelResidual (total cfg.shapes))).sum / ε ^ 2) := by
  choose F hF hs hd using hv
  obtain ⟨G, hG, hs', hd'⟩ := hv'
  obtain ⟨h0, h1, h2⟩ := fisher_residual rng cfg hshapes T hS hne hT hbin hN st D hdraw hD F hF G hG
  have hle : ∀ ω, ∑ i ∈ Finset.range (total cfg.shapes), ((vals ω).getD i 0 - vals'.getD i 0) ^ 2 ≤
      matSquares (total cfg.shapes) fun r c => F ω r c - G r c := fun ω => (hs ω).distance (hd ω) hs' hd'
  refine ⟨?_, fun i hi ε hε => ?_⟩
  · refine (lintegral_mono fun ω => ENNReal.ofReal_le_ofReal (hle ω)).trans ?_
    have hnn : ∀ ω, 0 ≤ matSquares (total cfg.shapes) fun r c => F ω r c - G r c :=
      fun ω => Finset.sum_nonneg fun _ _ => Finset.sum_nonneg fun _ _ => sq_nonneg _
    rw [← h1, ofReal_integral_eq_lintegral_ofReal h0 (Filter.Eventually.of_forall hnn)]
  · refine le_trans (measure_mono fun ω hω => ?_) (h2 ε hε)
    rw [Set.mem_ofPred_eq] at hω ⊢
    refine Real.le_sqrt_of_sq_le (le_trans ?_ (hle ω))
    refine le_trans ?_ (Finset.single_le_sum (f := fun i => ((vals ω).getD i 0 - vals'.getD i 0) ^ 2)
      (fun _ _ => sq_nonneg _) (Finset.mem_range.2 hi))
    rw [← sq_abs ((vals ω).getD i 0 - _)]
    exact pow_le_pow_left₀ hε.le hω 2

end

/-! ### Independent draws for different seeds exist -/

/-- For all families of labels there is a generator that draws the `j`-th with seed `start + j`. -/
theorem seeded_rng_exists {S : Nat} (rng : Rng k C) (start : Int) (lbs : Nat → List (LabeledBatch k C S)) :
    ∃ rng' : Rng k C, ∀ dev (j : Nat), drawAll rng' S ((lbs j).map (·.data)) (rng'.seed dev (start + j)) = lbs j := by
  choose r hr using fun j => rng_exists rng (lbs j)
  let rng' : Rng k C :=
    { G := (j : Nat) × (r j).G
      seed := fun dev s => ⟨(s - start).toNat, (r (s - start).toNat).seed dev s⟩
      draw := fun g S' ts => (((r g.1).draw g.2 S' ts).1, ⟨g.1, ((r g.1).draw g.2 S' ts).2⟩) }
  have h : ∀ (bs : List (List (List (Term k C)))) (j : Nat) (g : (r j).G), drawAll rng' S bs ⟨j, g⟩ = drawAll (r j) S bs g := by
    intro bs
    induction bs with
    | nil => intro j g; rfl
    | cons b bs ih => intro j g; exact congrArg _ (ih j _)
  refine ⟨rng', fun dev j => ?_⟩
  have hj : (start + (j : Int) - start).toNat = j := by omega
  change drawAll rng' S _ ⟨(start + (j : Int) - start).toNat, (r (start + (j : Int) - start).toNat).seed dev (start + j)⟩ = _
  rw [h]
  generalize (start + (j : Int) - start).toNat = i at hj
  subst hj
  exact hr i dev _

/-- The assumptions of `fisher_average_residual` can be met. -/
theorem seeded_generator_exists (hC : k = .ce → 0 < C) (rng : Rng k C) (bs : List (List (List (Term k C)))) (R S : Nat) (start : Int) :
    ∃ (Ω : Type) (_ : MeasurableSpace Ω) (P : Measure Ω) (D : RandomLabels k C (R * S) Ω) (rng : Ω → Rng k C),
      IsProbabilityMeasure P ∧ D.Independent P ∧
        ∀ ω dev (j : Fin R), drawAll (rng ω) S bs ((rng ω).seed dev (start + j)) = (D.part j).at ω := by
  obtain ⟨Ω, mΩ, P, D, hP, hb, hD⟩ := independent_exists hC bs (R * S)
  choose r hr using fun ω => seeded_rng_exists (S := S) rng start fun j =>
    if h : j < R then (D.part ⟨j, h⟩).at ω else []
  refine ⟨Ω, mΩ, P, D, r, hP, hD, fun ω dev j => ?_⟩
  have h := hr ω dev j
  rw [dif_pos j.2] at h
  have e : ((D.part ⟨j, j.2⟩).at ω).map (·.data) = bs := by
    rw [← hb]
    unfold RandomLabels.at RandomLabels.part
    rw [List.map_map, List.map_map]
    rfl
  rwa [e] at h

/-! ### Example -/

theorem squareTerm_residual : labelResidual 1 squareTerm = 8 := by
  rw [labelResidual_mse]
  simp [squareTerm, termGram]
  norm_num

/-- Two data `(θ - y)²` and reduction `'mean'`: the average over ten seeds with three samples each has the mean squared residual `4 / 30`. -/
example (rng₀ : Rng .mse 1) : ∃ (Ω : Type) (_ : MeasurableSpace Ω) (P : Measure Ω) (rng : Ω → Rng .mse 1),
    ∀ (F : Ω → Fin 10 → Mat ℝ), (∀ ω (j : Fin 10), Represents (mcOp (rng ω)
        { shapes := [[1]], mean := true, seed := 123456789 + j, mcSamples := 3, nData := 2, data := [[[squareTerm], [squareTerm]]] }
        { device := "cpu", generator := none }) (F ω j)) →
      ∀ G : Mat ℝ, Represents (curvatureOp [[1]] .mean 2 List.length (fun b => ggnLossBatch [[1]] true b.flatten)
        [[[squareTerm], [squareTerm]]]) G →
      ∫ ω, (matSquares 1 fun r c => (∑ j, F ω j r c) / 10 - G r c) ∂P = 4 / 30 := by
  obtain ⟨Ω, mΩ, P, D, rng, hP, hD, hdraw⟩ := seeded_generator_exists (k := .mse) (by simp) rng₀ [[[squareTerm], [squareTerm]]] 10 3
    123456789
  refine ⟨Ω, mΩ, P, rng, fun F hF G hG => ?_⟩
  have h := (fisher_average_residual rng
    { shapes := [[1]], mean := true, seed := 0, mcSamples := 3, nData := 2, data := [[[squareTerm], [squareTerm]]] } (by simp) 1 (by simp) (by simp) (by simp)
    (fun _ _ => trivial) rfl (R := 10) (by simp) (fun j => 123456789 + j) (fun _ _ => { device := "cpu", generator := none }) D
    (fun ω j => hdraw ω _ j) hD F hF G hG).2
  simp [squareTerm_residual, termWeight, total] at h
  rw [h]
  norm_num

end Curvlinops
