import Verif.Props.FisherMCResidual
import Verif.Props.MinibatchSpectrum
import Mathlib.Analysis.Convex.Integral

/-!
# C128: eigenvalues of the Monte-Carlo Fisher in the mean
-/

namespace Curvlinops

open MeasureTheory ProbabilityTheory

section random

variable {Ω : Type _} [MeasurableSpace Ω] {P : Measure Ω} [IsProbabilityMeasure P] {N : Nat}

omit [IsProbabilityMeasure P] in
theorem ofReal_integral_le {X Y : Ω → ℝ} (hX : Integrable X P) (h0 : ∀ ω, 0 ≤ X ω) (h : ∀ ω, X ω ≤ Y ω) :
    ENNReal.ofReal (∫ ω, X ω ∂P) ≤ ∫⁻ ω, ENNReal.ofReal (Y ω) ∂P := by
  rw [ofReal_integral_eq_lintegral_ofReal hX (Filter.Eventually.of_forall h0)]
  exact lintegral_mono fun ω => ENNReal.ofReal_le_ofReal (h ω)

omit [IsProbabilityMeasure P] in
theorem le_ofReal_integral {X Y : Ω → ℝ} (hX : Integrable X P) (h0 : ∀ ω, 0 ≤ X ω) (h : ∀ ω, Y ω ≤ X ω) :
    ∫⁻ ω, ENNReal.ofReal (Y ω) ∂P ≤ ENNReal.ofReal (∫ ω, X ω ∂P) := by
  rw [ofReal_integral_eq_lintegral_ofReal hX (Filter.Eventually.of_forall h0)]
  exact lintegral_mono fun ω => ENNReal.ofReal_le_ofReal (h ω)

/-- Functions of at most linear growth keep integrability. -/
theorem integrable_growth {X : Ω → ℝ} (hX : Integrable X P) (h0 : ∀ ω, 0 ≤ X ω) {f : ℝ → ℝ} (hc : ContinuousOn f (Set.Ici 0)) {B : ℝ}
    (hB : ∀ x, 0 ≤ x → |f x| ≤ B * (1 + x)) : Integrable (fun ω => f (X ω)) P := by
  have hg : Continuous fun x : ℝ => f (max 0 x) := hc.comp_continuous (by fun_prop) fun x => by simp
  have e : (fun ω => f (X ω)) = fun ω => f (max 0 (X ω)) := by
    funext ω
    rw [max_eq_right (h0 ω)]
  have hm : AEStronglyMeasurable (fun ω => f (X ω)) P := by
    rw [e]
    exact hg.comp_aestronglyMeasurable hX.aestronglyMeasurable
  refine (((integrable_const (1 : ℝ)).add hX).const_mul B).mono' hm (Filter.Eventually.of_forall fun ω => ?_)
  rw [Real.norm_eq_abs]
  exact hB _ (h0 ω)

/-- Random positive semi-definite matrices: the sums of the `k` largest eigenvalues are at least as large in the mean as for the mean matrix,
with equality for all eigenvalues; sums of convex functions are larger and sums of concave functions are smaller. -/
theorem HasSpectrum.random {M : Ω → Mat ℝ} {G : Mat ℝ} (hint : ∀ r c : Fin N, Integrable (fun ω => M ω r c) P)
    (hmean : ∀ r c : Fin N, ∫ ω, M ω r c ∂P = G r c) (hpsd : ∀ ω, QuadNonneg N (M ω)) {vals' : List ℝ} (h : HasSpectrum N G vals')
    (hs : Decreasing vals') {vals : Ω → List ℝ} (h' : ∀ ω, HasSpectrum N (M ω) (vals ω)) (hs' : ∀ ω, Decreasing (vals ω)) :
    ENNReal.ofReal vals'.sum = ∫⁻ ω, ENNReal.ofReal (vals ω).sum ∂P ∧
    (∀ k, ENNReal.ofReal (vals'.take k).sum ≤ ∫⁻ ω, ENNReal.ofReal ((vals ω).take k).sum ∂P) ∧
    ∀ f : ℝ → ℝ, ContinuousOn f (Set.Ici 0) → (∀ x, 0 ≤ x → 0 ≤ f x) → (∃ B, ∀ x, 0 ≤ x → f x ≤ B * (1 + x)) →
      (ConvexOn ℝ (Set.Ici 0) f → ENNReal.ofReal (vals'.map f).sum ≤ ∫⁻ ω, ENNReal.ofReal ((vals ω).map f).sum ∂P) ∧
      (ConcaveOn ℝ (Set.Ici 0) f → ∫⁻ ω, ENNReal.ofReal ((vals ω).map f).sum ∂P ≤ ENNReal.ofReal (vals'.map f).sum) := by
  have hnn : ∀ ω, ∀ x ∈ vals ω, 0 ≤ x := fun ω => (h' ω).nonneg_of_quad (hpsd ω)
  obtain ⟨lam, q, hq, he, hl, rfl⟩ := h.sorted hs
  choose mu u hu hf hm hvs using fun ω => (h' ω).sorted (hs' ω)
  have hmu : ∀ ω p, 0 ≤ mu ω p := fun ω p => hnn ω _ (by rw [hvs ω]; simp [List.mem_ofFn])
  let D : Ω → Matrix (Fin N) (Fin N) ℝ := fun ω => Matrix.of fun p p' => (∑ r, u ω p' r * q p r) ^ 2
  have hD : ∀ ω, D ω ∈ doublyStochastic ℝ (Fin N) := fun ω => overlap_stochastic hq (hu ω)
  let X : Ω → Fin N → ℝ := fun ω p => ∑ p', D ω p p' * mu ω p'
  have hX : ∀ ω p, X ω p = ∑ r, ∑ k : Fin N, q p r * q p k * M ω r k := by
    intro ω p
    have h1 := spectral_quad_fin (hu ω) (hf ω) (q p)
    have h2 : X ω p = ∑ p', mu ω p' * (∑ r, u ω p' r * q p r) ^ 2 :=
      Finset.sum_congr rfl fun p' _ => by simp only [D, Matrix.of_apply, mul_comm]
    rw [h2, ← h1]
    refine Finset.sum_congr rfl fun r _ => ?_
    rw [Finset.mul_sum]
    exact Finset.sum_congr rfl fun k _ => by ring
  have hXi : ∀ p, Integrable (fun ω => X ω p) P := by
    intro p
    simp only [hX]
    exact integrable_finsetSum _ fun r _ => integrable_finsetSum _ fun k _ => (hint r k).const_mul _
  have hX0 : ∀ ω p, 0 ≤ X ω p := by
    intro ω p
    have := (mem_doublyStochastic_iff_sum.mp (hD ω)).1
    exact Finset.sum_nonneg fun p' _ => mul_nonneg (this p p') (hmu ω p')
  have hXm : ∀ p, ∫ ω, X ω p ∂P = lam p := by
    intro p
    simp only [hX]
    rw [integral_finsetSum _ fun r _ => integrable_finsetSum _ fun k _ => (hint r k).const_mul _]
    rw [Finset.sum_congr rfl fun r _ => integral_finsetSum _ fun k _ => (hint r k).const_mul _]
    simp only [integral_const_mul, hmean]
    have h1 := hq p p
    rw [if_pos rfl] at h1
    calc ∑ r, ∑ k : Fin N, q p r * q p k * G r k = ∑ r, q p r * ∑ k : Fin N, G r k * q p k := by
          refine Finset.sum_congr rfl fun r _ => ?_
          rw [Finset.mul_sum]
          exact Finset.sum_congr rfl fun k _ => by ring
      _ = lam p * ∑ r, q p r * q p r := by
          simp only [he]
          rw [Finset.mul_sum]
          exact Finset.sum_congr rfl fun r _ => by ring
      _ = lam p := by rw [h1, mul_one]
  refine ⟨?_, fun k => ?_, fun f hc hf0 hB => ⟨fun hcv => ?_, fun hcc => ?_⟩⟩
  · simp only [hvs, List.sum_ofFn]
    have e : ∀ ω, ∑ p, mu ω p = ∑ p, X ω p := fun ω => (average_sum (hD ω) fun p => rfl).symm
    simp only [e, ← hXm]
    rw [← integral_finsetSum _ fun p _ => hXi p]
    exact ofReal_integral_eq_lintegral_ofReal (integrable_finsetSum _ fun p _ => hXi p)
      (Filter.Eventually.of_forall fun ω => Finset.sum_nonneg fun p _ => hX0 ω p)
  · simp only [hvs, take_ofFn_sum]
    have hi : ∀ p : Fin N, Integrable (fun ω => if p.1 < k then X ω p else 0) P := by
      intro p
      split_ifs
      · exact hXi p
      · exact integrable_zero _ _ _
    have e : ∑ p : Fin N, (if p.1 < k then lam p else 0) = ∫ ω, ∑ p : Fin N, (if p.1 < k then X ω p else 0) ∂P := by
      rw [integral_finsetSum _ fun p _ => hi p]
      refine Finset.sum_congr rfl fun p _ => ?_
      split_ifs
      · exact (hXm p).symm
      · simp
    rw [e]
    refine ofReal_integral_le (integrable_finsetSum _ fun p _ => hi p) (fun ω => Finset.sum_nonneg fun p _ => ?_) fun ω =>
      average_largest (hD ω) (fun p => rfl) (hm ω) k
    split_ifs
    · exact hX0 ω p
    · exact le_rfl
  · obtain ⟨B, hB⟩ := hB
    have hi : ∀ p, Integrable (fun ω => f (X ω p)) P := fun p => integrable_growth (hXi p) (fun ω => hX0 ω p) hc
      (B := B) fun x hx => by rw [abs_of_nonneg (hf0 x hx)]; exact hB x hx
    simp only [hvs, sum_ofFn_map]
    have h1 : ∑ p, f (lam p) ≤ ∫ ω, ∑ p, f (X ω p) ∂P := by
      rw [integral_finsetSum _ fun p _ => hi p]
      refine Finset.sum_le_sum fun p _ => ?_
      rw [← hXm p]
      exact hcv.map_integral_le hc isClosed_Ici (Filter.Eventually.of_forall fun ω => hX0 ω p) (hXi p) (hi p)
    refine (ENNReal.ofReal_le_ofReal h1).trans ?_
    exact ofReal_integral_le (integrable_finsetSum _ fun p _ => hi p) (fun ω => Finset.sum_nonneg fun p _ => hf0 _ (hX0 ω p)) fun ω =>
      (average_convex (hD ω) (fun p => rfl) hcv fun p => hmu ω p).2
  · obtain ⟨B, hB⟩ := hB
    have hi : ∀ p, Integrable (fun ω => f (X ω p)) P := fun p => integrable_growth (hXi p) (fun ω => hX0 ω p) hc
      (B := B) fun x hx => by rw [abs_of_nonneg (hf0 x hx)]; exact hB x hx
    simp only [hvs, sum_ofFn_map]
    have h1 : ∫ ω, ∑ p, f (X ω p) ∂P ≤ ∑ p, f (lam p) := by
      rw [integral_finsetSum _ fun p _ => hi p]
      refine Finset.sum_le_sum fun p _ => ?_
      rw [← hXm p]
      exact hcc.le_map_integral hc isClosed_Ici (Filter.Eventually.of_forall fun ω => hX0 ω p) (hXi p) (hi p)
    refine le_trans ?_ (ENNReal.ofReal_le_ofReal h1)
    refine le_ofReal_integral (integrable_finsetSum _ fun p _ => hi p) (fun ω => Finset.sum_nonneg fun p _ => hf0 _ (hX0 ω p)) fun ω => ?_
    have := (average_convex (hD ω) (fun p => rfl) hcc.neg fun p => hmu ω p).2
    simp only [Pi.neg_apply, Finset.sum_neg_distrib, neg_le_neg_iff] at this
    exact this

end random

/-! ### Damping -/

theorem damped_functions {δ : ℝ} (hδ : 0 < δ) :
    (ContinuousOn (fun x : ℝ => (x + δ)⁻¹) (Set.Ici 0) ∧ ConvexOn ℝ (Set.Ici 0) fun x : ℝ => (x + δ)⁻¹) ∧
    (ContinuousOn (fun x : ℝ => x / (x + δ)) (Set.Ici 0) ∧ ConcaveOn ℝ (Set.Ici 0) fun x : ℝ => x / (x + δ)) ∧
    (ContinuousOn (fun x : ℝ => Real.log (1 + x / δ)) (Set.Ici 0) ∧ ConcaveOn ℝ (Set.Ici 0) fun x : ℝ => Real.log (1 + x / δ)) := by
  have hne : ∀ x ∈ Set.Ici (0 : ℝ), x + δ ≠ 0 := by
    intro x hx
    simp only [Set.mem_Ici] at hx
    positivity
  have hsub : Set.Ici (0 : ℝ) ⊆ (fun z => δ + z) ⁻¹' Set.Ioi 0 := by
    intro x hx
    simp only [Set.mem_Ici] at hx
    simp only [Set.mem_preimage, Set.mem_Ioi]
    linarith
  have hinv : ConvexOn ℝ (Set.Ici 0) fun x : ℝ => (x + δ)⁻¹ := by
    have h1 : ConvexOn ℝ (Set.Ioi 0) fun x : ℝ => x⁻¹ := by
      have := convexOn_zpow (𝕜 := ℝ) (-1)
      simpa using this
    exact (h1.translate_left δ).subset hsub (convex_Ici 0)
  have hlog : ConcaveOn ℝ (Set.Ici 0) fun x : ℝ => Real.log (x + δ) :=
    (strictConcaveOn_log_Ioi.concaveOn.translate_left δ).subset hsub (convex_Ici 0)
  refine ⟨⟨ContinuousOn.inv₀ (by fun_prop) hne, hinv⟩, ⟨ContinuousOn.div (by fun_prop) (by fun_prop) hne, ?_⟩, ⟨?_, ?_⟩⟩
  · have h1 : ConcaveOn ℝ (Set.Ici 0) fun x : ℝ => -(δ * (x + δ)⁻¹) + 1 := (hinv.smul hδ.le).neg.add_const 1
    refine h1.congr fun x hx => ?_
    have := hne x hx
    field_simp
    ring
  · refine ContinuousOn.log (by fun_prop) fun x hx => ?_
    simp only [Set.mem_Ici] at hx
    positivity
  · refine (hlog.add_const (-Real.log δ)).congr fun x hx => ?_
    have h1 : 1 + x / δ = (x + δ) / δ := by field_simp; ring
    show Real.log (x + δ) + -Real.log δ = Real.log (1 + x / δ)
    rw [h1, Real.log_div (hne x hx) hδ.ne']
    ring

section fisher

variable {k : LossKind} {C : Nat} {Ω : Type _} [MeasurableSpace Ω] {P : Measure Ω} [IsProbabilityMeasure P]

/-- **C128**: let the generator be random such that the labels drawn during a product are independent draws from the predictive
distributions. The mean trace of the Monte-Carlo Fisher is the trace of the GGN; the mean sum of its `k` largest eigenvalues is at least the
sum of the `k` largest eigenvalues of the GGN. With damping `δ`, the mean trace of its inverse is at least that of the GGN, the mean
effective dimension `Σ λ / (λ + δ)` and the mean of `log det (1 + F / δ)` are at most those of the GGN. This holds for all numbers of samples. -/
theorem fisher_eigenvalues_mean (rng : Ω → Rng k C) (cfg : McConfig k C) (hshapes : cfg.shapes ≠ []) (T : Nat) (hS : cfg.mcSamples ≠ 0)
    (hne : ∀ b ∈ cfg.data, b ≠ []) (hT : ∀ b ∈ cfg.data, ∀ d ∈ b, d.length = T)
    (hbin : ∀ b ∈ cfg.data, BinaryTargets k b.flatten) (hN : cfg.nData = cfg.data.flatten.length)
    (st : (ω : Ω) → McState (rng ω)) (D : RandomLabels k C cfg.mcSamples Ω)
    (hdraw : ∀ ω, drawAll (rng ω) cfg.mcSamples cfg.data ((rng ω).seed (st ω).genDevice cfg.seed) = D.at ω) (hD : D.Independent P)
    (vals : Ω → List ℝ) (hv : ∀ ω, (mcOp (rng ω) cfg (st ω)).HasEigenvalues (vals ω)) (vals' : List ℝ)
    (hv' : (curvatureOp cfg.shapes (redOf cfg.mean) (inferNData List.length cfg.data none) List.length
      (fun b => ggnLossBatch cfg.shapes cfg.mean b.flatten) cfg.data).HasEigenvalues vals') :
    ENNReal.ofReal vals'.sum = ∫⁻ ω, ENNReal.ofReal (vals ω).sum ∂P ∧
    (∀ i, ENNReal.ofReal (vals'.take i).sum ≤ ∫⁻ ω, ENNReal.ofReal ((vals ω).take i).sum ∂P) ∧
    ∀ δ : ℝ, 0 < δ →
      ENNReal.ofReal (vals'.map fun x => (x + δ)⁻¹).sum ≤ ∫⁻ ω, ENNReal.ofReal ((vals ω).map fun x => (x + δ)⁻¹).sum ∂P ∧
      ∫⁻ ω, ENNReal.ofReal ((vals ω).map fun x => x / (x + δ)).sum ∂P ≤ ENNReal.ofReal (vals'.map fun x => x / (x + δ)).sum ∧
      ∫⁻ ω, ENNReal.ofReal ((vals ω).map fun x => Real.log (1 + x / δ)).sum ∂P ≤
        ENNReal.ofReal (vals'.map fun x => Real.log (1 + x / δ)).sum := by
  obtain ⟨ω₀⟩ := nonempty_of_isProbabilityMeasure P
  have hdata := drawAll_labels D D rfl (hdraw ω₀)
  have hrep : ∀ ω, Represents (mcOp (rng ω) cfg (st ω)) (mcMatrix cfg.mean cfg.nData T (D.at ω)) := by
    intro ω
    have h := mcOp_draws (rng ω) cfg hS hshapes T hne hT hbin (nData_cases hne hN) (st ω)
    rwa [hdraw ω] at h
  obtain ⟨h1, h2⟩ := hv'.of (ggnLossOp_represents cfg.shapes hshapes cfg.mean T cfg.data hne hT) rfl
  have h3 := fun ω => (hv ω).of (hrep ω) rfl
  obtain ⟨k1, k2, k3⟩ := HasSpectrum.random (N := total cfg.shapes) (P := P) (M := fun ω => mcMatrix cfg.mean cfg.nData T (D.at ω))
    (fun r c => (mcMatrix_entry_memLp hD cfg.mean cfg.nData T r c).integrable (by norm_num)) (fun r c => by
      have h := mcMatrix_mean hS D hD cfg.mean T (total cfg.shapes) (oneEntry r c)
      simp only [oneEntry_sum r.2 c.2] at h
      rwa [hdata, ← hN] at h)
    (fun ω => (mcMatrix_symm_psd _ _ _ _ _).2) h1 h2 (fun ω => (h3 ω).1) fun ω => (h3 ω).2
  refine ⟨k1, k2, fun δ hδ => ?_⟩
  obtain ⟨⟨a1, a2⟩, ⟨b1, b2⟩, ⟨c1, c2⟩⟩ := damped_functions hδ
  refine ⟨(k3 _ a1 (fun x hx => by positivity) ⟨δ⁻¹, fun x hx => ?_⟩).1 a2, (k3 _ b1 (fun x hx => by positivity) ⟨1, fun x hx => ?_⟩).2 b2,
    (k3 _ c1 (fun x hx => Real.log_nonneg ?_) ⟨δ⁻¹, fun x hx => ?_⟩).2 c2⟩
  · have : (x + δ)⁻¹ ≤ δ⁻¹ := inv_anti₀ hδ (by linarith)
    have h0 : 0 ≤ δ⁻¹ * x := by positivity
    linarith
  · have : x / (x + δ) ≤ 1 := (div_le_one (by positivity)).mpr (by linarith)
    linarith
  · have : 0 ≤ x / δ := by positivity
    linarith
  · have h0 : 0 ≤ x / δ := by positivity
    have := Real.log_le_sub_one_of_pos (show 0 < 1 + x / δ by linarith)
    have h4 : 0 ≤ δ⁻¹ := by positivity
    have h5 : δ⁻¹ * (1 + x) = δ⁻¹ + x / δ := by field_simp
    linarith

end fisher

/-- The GGN of two data is the identity: in the mean, the largest eigenvalue of the Monte-Carlo Fisher with `n` samples is at least 1, and
the trace of the inverse with damping 1 is at least 1. -/
example (rng₀ : Rng .mse 1) (n : Nat) (hn : n ≠ 0) : ∃ (Ω : Type) (_ : MeasurableSpace Ω) (P : Measure Ω) (rng : Ω → Rng .mse 1) (vals : Ω → List ℝ),
    (∀ ω, (mcOp (rng ω) { shapes := [[2]], mean := true, seed := 0, mcSamples := n, nData := 2, data := [[axisDatum 0], [axisDatum 1]] }
      { device := "cpu", generator := none }).HasEigenvalues (vals ω)) ∧
    1 ≤ ∫⁻ ω, ENNReal.ofReal ((vals ω).take 1).sum ∂P ∧ 1 ≤ ∫⁻ ω, ENNReal.ofReal ((vals ω).map fun x => (x + 1)⁻¹).sum ∂P := by
  obtain ⟨Ω, mΩ, P, D, rng, hP, hD, hdraw⟩ := random_generator_exists (k := .mse) (by simp) rng₀ [[axisDatum 0], [axisDatum 1]] n
  choose vals hv using fun ω => mc_hasEigenvalues (rng ω)
    { shapes := [[2]], mean := true, seed := 0, mcSamples := n, nData := 2, data := [[axisDatum 0], [axisDatum 1]] } hn (by simp) 1 (by simp)
    (by simp [axisDatum]) (fun _ _ => trivial) (by simp) { device := "cpu", generator := none }
  obtain ⟨-, h1, h2⟩ := fisher_eigenvalues_mean rng
    { shapes := [[2]], mean := true, seed := 0, mcSamples := n, nData := 2, data := [[axisDatum 0], [axisDatum 1]] } (by simp) 1 hn (by simp)
    (by simp [axisDatum]) (fun _ _ => trivial) rfl (fun _ => { device := "cpu", generator := none }) D (fun ω => hdraw ω _ _) hD vals hv [1, 1]
    selected_exaggerates.1
  refine ⟨Ω, mΩ, P, rng, vals, hv, ?_, ?_⟩
  · have := h1 1
    simpa using this
  · have := (h2 1 one_pos).1
    norm_num at this
    simpa using this

end Curvlinops
