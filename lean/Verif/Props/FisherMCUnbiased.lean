import Verif.Props.FisherMC

/-!
# C18: the expected Monte-Carlo Fisher is the GGN
-/

namespace Curvlinops

open MeasureTheory

variable {k : LossKind} {C : Nat}

/-! ### The whole matrix, with random labels -/

instance : MeasurableSpace (TermDraw k C) :=
  match k with
  | .mse => inferInstanceAs (MeasurableSpace (Fin C → ℝ))
  | .ce => inferInstanceAs (MeasurableSpace (Fin C))
  | .bce => inferInstanceAs (MeasurableSpace (Fin C → Bool))

/-- The model's predictive distribution that the labels are drawn from, given the prediction `f`. -/
noncomputable def drawLaw : (k : LossKind) → (Fin C → ℝ) → Measure (TermDraw k C)
  | .mse, _ => stdNormal C
  | .ce, f => ∑ s : Fin C, ENNReal.ofReal (softmax f s) • Measure.dirac s
  | .bce, f => ∑ b : Fin C → Bool, ENNReal.ofReal (bitsProb (fun c => Real.sigmoid (f c)) b) • Measure.dirac b

theorem integral_finite_law {ι : Type _} [Fintype ι] [MeasurableSpace ι] [MeasurableSingletonClass ι] (p : ι → ℝ)
    (hp : ∀ s, 0 ≤ p s) (F : ι → ℝ) :
    Integrable F (∑ s : ι, ENNReal.ofReal (p s) • Measure.dirac s) ∧
    ∫ s, F s ∂(∑ s : ι, ENNReal.ofReal (p s) • Measure.dirac s) = ∑ s, p s * F s := by
  have hint : ∀ s ∈ (Finset.univ : Finset ι), Integrable F (ENNReal.ofReal (p s) • Measure.dirac s) := by
    intro s _
    exact (integrable_dirac (by simp)).smul_measure (by simp)
  refine ⟨(integrable_finsetSum_measure).2 hint, ?_⟩
  rw [integral_finsetSum_measure hint]
  refine Finset.sum_congr rfl fun s _ => ?_
  rw [integral_smul_measure, integral_dirac, ENNReal.toReal_ofReal (hp s)]
  rfl

/-- C18: under the predictive distribution, the expected outer product of a would-be gradient is the Hessian of the
unreduced loss (for any target). -/
theorem wouldBeGrad_unbiased (f : Fin C → ℝ) (y : TermTarget k C) (i j : Fin C) :
    Integrable (fun d => wouldBeGrad k f d i * wouldBeGrad k f d j) (drawLaw k f) ∧
    ∫ d, wouldBeGrad k f d i * wouldBeGrad k f d j ∂(drawLaw k f) = hess (termLoss k y) f i j := by
  cases k
  · refine ⟨?_, wouldBeGrad_mse_unbiased f y i j⟩
    have := (stdNormal_integrable i j).const_mul (4 * (Real.sqrt 0.5 * Real.sqrt 0.5))
    refine this.congr (Filter.Eventually.of_forall fun z => ?_)
    simp only [wouldBeGrad]
    ring
  · have h := integral_finite_law (fun s => softmax f s) (fun s => (softmax_pos f s).le)
      (fun d => wouldBeGrad .ce f d i * wouldBeGrad .ce f d j)
    exact ⟨h.1, h.2.trans (wouldBeGrad_ce_unbiased f y i j)⟩
  · have h := integral_finite_law (fun b => bitsProb (fun c => Real.sigmoid (f c)) b) (fun b => ?_)
      (fun d => wouldBeGrad .bce f d i * wouldBeGrad .bce f d j)
    · exact ⟨h.1, h.2.trans (wouldBeGrad_bce_unbiased f y i j)⟩
    · refine Finset.prod_nonneg fun c _ => ?_
      have h1 := Real.sigmoid_pos (f c)
      have h2 := Real.sigmoid_lt_one (f c)
      split <;> linarith

section

variable {Ω : Type _} [MeasurableSpace Ω] (P : Measure Ω) {S : Nat}

theorem row_unbiased (hS : S ≠ 0) (t : Term k C) (D : Fin S → Ω → TermDraw k C) (hmeas : ∀ s, AEMeasurable (D s) P)
    (hlaw : ∀ s, P.map (D s) = drawLaw k t.f) (r c : Nat) :
    Integrable (fun ω => termSandwich t (sampleOuter t.f fun s => D s ω) r c) P ∧
    ∫ ω, termSandwich t (sampleOuter t.f fun s => D s ω) r c ∂P = termSandwich t (lossHessian t) r c := by
  have hmom : ∀ s i j, Integrable (fun ω => wouldBeGrad k t.f (D s ω) i * wouldBeGrad k t.f (D s ω) j) P ∧
      ∫ ω, wouldBeGrad k t.f (D s ω) i * wouldBeGrad k t.f (D s ω) j ∂P = lossHessian t i j := by
    intro s i j
    have h := wouldBeGrad_unbiased t.f t.y i j
    rw [← hlaw s] at h
    refine ⟨(integrable_map_measure h.1.aestronglyMeasurable (hmeas s)).1 h.1, ?_⟩
    rw [← integral_map (hmeas s) h.1.aestronglyMeasurable
      (f := fun d => wouldBeGrad k t.f d i * wouldBeGrad k t.f d j)]
    exact h.2
  have hout : ∀ i j, Integrable (fun ω => sampleOuter t.f (fun s => D s ω) i j) P ∧
      ∫ ω, sampleOuter t.f (fun s => D s ω) i j ∂P = lossHessian t i j := by
    intro i j
    unfold sampleOuter
    refine ⟨(integrable_finsetSum _ fun s _ => (hmom s i j).1).div_const _, ?_⟩
    rw [integral_div, integral_finsetSum _ fun s _ => (hmom s i j).1]
    simp only [(hmom _ i j).2, Finset.sum_const, Finset.card_univ, Fintype.card_fin, nsmul_eq_mul]
    have : (S : ℝ) ≠ 0 := by exact_mod_cast hS
    field_simp
  unfold termSandwich
  have hi : ∀ i j : Fin C, Integrable (fun ω => t.J i r * sampleOuter t.f (fun s => D s ω) i j * t.J j c) P :=
    fun i j => ((hout i j).1.const_mul _).mul_const _
  refine ⟨integrable_finsetSum _ fun i _ => integrable_finsetSum _ fun j _ => hi i j, ?_⟩
  rw [integral_finsetSum _ fun i _ => integrable_finsetSum _ fun j _ => hi i j]
  refine Finset.sum_congr rfl fun i _ => ?_
  rw [integral_finsetSum _ fun j _ => hi i j]
  refine Finset.sum_congr rfl fun j _ => ?_
  rw [integral_mul_const, integral_const_mul, (hout i j).2]

theorem batch_unbiased (hS : S ≠ 0) (ts : List (Term k C)) (D : Fin S → Fin ts.length → Ω → TermDraw k C)
    (hmeas : ∀ s m, AEMeasurable (D s m) P) (hlaw : ∀ s m, P.map (D s m) = drawLaw k ts[m].f) (r c : Nat) :
    Integrable (fun ω => ∑ m, termSandwich ts[m] (sampleOuter ts[m].f fun s => D s m ω) r c) P ∧
    ∫ ω, ∑ m, termSandwich ts[m] (sampleOuter ts[m].f fun s => D s m ω) r c ∂P =
      (ts.map fun t => termSandwich t (lossHessian t) r c).sum := by
  have h : ∀ m : Fin ts.length, _ := fun m =>
    row_unbiased P hS ts[m] (fun s => D s m) (fun s => hmeas s m) (fun s => hlaw s m) r c
  refine ⟨integrable_finsetSum _ fun m _ => (h m).1, ?_⟩
  rw [integral_finsetSum _ fun m _ => (h m).1, Finset.sum_congr rfl fun m _ => (h m).2]
  exact Fin.sum_univ_fun_getElem ts fun t => termSandwich t (lossHessian t) r c

/-- C18: let every label (sample `s`, row `m` of a mini-batch) be random with the predictive distribution of that row's
prediction; labels need not be independent of each other. Then the expected Monte-Carlo Fisher is the GGN. -/
theorem mcMatrix_unbiased (hS : S ≠ 0) (mean : Bool) (T : Nat)
    (D : List ((b : List (List (Term k C))) × (Fin S → Fin b.flatten.length → Ω → TermDraw k C)))
    (hmeas : ∀ x ∈ D, ∀ s m, AEMeasurable (x.2 s m) P)
    (hlaw : ∀ x ∈ D, ∀ s m, P.map (x.2 s m) = drawLaw k x.1.flatten[m].f) (r c : Nat) :
    ∫ ω, mcMatrix mean (D.map (·.1)).flatten.length T (D.map fun x => ⟨x.1, fun s m => x.2 s m ω⟩) r c ∂P =
      riskMatrix (redOf mean) (datumMatrix mean T lossHessian) (D.map (·.1)).flatten r c := by
  have key : ∀ D : List ((b : List (List (Term k C))) × (Fin S → Fin b.flatten.length → Ω → TermDraw k C)),
      (∀ x ∈ D, ∀ s m, AEMeasurable (x.2 s m) P) →
      (∀ x ∈ D, ∀ s m, P.map (x.2 s m) = drawLaw k x.1.flatten[m].f) →
      Integrable (fun ω => (D.map fun x => ∑ m, termSandwich x.1.flatten[m]
        (sampleOuter x.1.flatten[m].f fun s => x.2 s m ω) r c).sum) P ∧
      ∫ ω, (D.map fun x => ∑ m, termSandwich x.1.flatten[m]
        (sampleOuter x.1.flatten[m].f fun s => x.2 s m ω) r c).sum ∂P =
      (D.map fun x => (x.1.flatten.map fun t => termSandwich t (lossHessian t) r c).sum).sum := by
    intro D
    induction D with
    | nil => intro _ _; simp
    | cons x D ih =>
      intro h1 h2
      have hx := batch_unbiased P hS x.1.flatten x.2 (h1 x (by simp)) (h2 x (by simp)) r c
      have hD := ih (fun y hy => h1 y (by simp [hy])) (fun y hy => h2 y (by simp [hy]))
      simp only [List.map_cons, List.sum_cons]
      exact ⟨hx.1.add hD.1, (integral_add hx.1 hD.1).trans (by rw [hx.2, hD.2])⟩
  have e1 : ∀ ω, mcMatrix mean (D.map (·.1)).flatten.length T (D.map fun x => ⟨x.1, fun s m => x.2 s m ω⟩) r c =
      termWeight k mean ((D.map (·.1)).flatten.length * T) C * (D.map fun x => ∑ m, termSandwich x.1.flatten[m]
        (sampleOuter x.1.flatten[m].f fun s => x.2 s m ω) r c).sum := by
    intro ω
    unfold mcMatrix
    rw [List.map_map]
    rfl
  simp only [e1]
  rw [integral_const_mul, (key D hmeas hlaw).2]
  have e3 : (D.map fun x => (x.1.flatten.map fun t => termSandwich t (lossHessian t) r c).sum).sum =
      ((D.map (·.1)).flatten.map fun d => (d.map fun t => termSandwich t (lossHessian t) r c).sum).sum := by
    rw [sum_map_flatten (fun d => (d.map fun t => termSandwich t (lossHessian t) r c).sum) (D.map (·.1)), List.map_map]
    refine congrArg List.sum (List.map_congr_left fun x _ => ?_)
    exact sum_map_flatten (fun t => termSandwich t (lossHessian t) r c) x.1
  rw [e3]
  unfold riskMatrix datumMatrix
  rw [List.sum_map_mul_left, ← mul_assoc, ← reductionFactor_batch]
  congr 1
  unfold reductionFactor termWeight
  cases mean <;> cases k <;> simp

end

/-- One datum, two samples that are (maximally dependent) copies of one draw. -/
example (t : Term k C) (r c : Nat) :
    ∫ d, mcMatrix true 1 1 [(⟨[[t]], fun _ _ => d⟩ : LabeledBatch k C 2)] r c ∂(drawLaw k t.f) =
      riskMatrix .mean (datumMatrix true 1 lossHessian) [[t]] r c :=
  mcMatrix_unbiased (drawLaw k t.f) (S := 2) (by decide) true 1 [⟨[[t]], fun _ _ d => d⟩]
    (by simp only [List.mem_singleton]; rintro x rfl s m; exact aemeasurable_id)
    (by
      simp only [List.mem_singleton]
      rintro x rfl s m
      have hm : [[t]].flatten[m] = t := by
        have : [[t]].flatten = [t] := rfl
        have h := m.2
        simp only [List.flatten_cons, List.flatten_nil, List.append_nil, List.length_singleton] at h
        simp [Fin.getElem_fin]
      rw [hm]
      exact Measure.map_id) r c

end Curvlinops
