import Verif.Props.SpectrumAverages
import Verif.Props.Lanczos
import Mathlib.Probability.Distributions.Gaussian.Real
import Mathlib.MeasureTheory.Function.JacobianOneDim

/-!
# C62: the spectral densities are probability densities on a grid that covers the spectrum
-/

namespace Curvlinops

open MeasureTheory ProbabilityTheory

/-! ## Grids -/

theorem linspace_affine (u v a b : ℝ) (n : Nat) :
    linspace (u * a + v) (u * b + v) n = (linspace a b n).map fun g => u * g + v := by
  unfold linspace
  rw [List.map_map]
  refine List.map_congr_left fun i _ => ?_
  simp only [Function.comp]
  split
  · rfl
  · rw [div_eq_mul_inv, div_eq_mul_inv]
    ring

/-- C62: the points of `linspace` for at least two points: they start and end at the given values and have equal distances. -/
theorem linspace_points (a b : ℝ) (n : Nat) (hn : 2 ≤ n) : (linspace a b n).length = n ∧
    (linspace a b n).getD 0 0 = a ∧ (linspace a b n).getD (n - 1) 0 = b ∧
    ∀ i, i + 1 < n → (linspace a b n).getD (i + 1) 0 - (linspace a b n).getD i 0 = (b - a) / ((n : ℝ) - 1) := by
  have hget : ∀ i < n, (linspace a b n).getD i 0 = a + i * ((b - a) / ((n : ℝ) - 1)) := by
    intro i hi
    unfold linspace
    rw [List.getD_eq_getElem _ _ (by simpa using hi), List.getElem_map, List.getElem_range, if_neg (by omega)]
  have hn' : (n : ℝ) - 1 ≠ 0 := by
    have : (2 : ℝ) ≤ n := by exact_mod_cast hn
    linarith
  refine ⟨by simp [linspace], ?_, ?_, fun i hi => ?_⟩
  · rw [hget 0 (by omega)]
    simp
  · rw [hget (n - 1) (by omega), Nat.cast_sub (by omega), Nat.cast_one, mul_div_cancel₀ _ hn']
    ring
  · rw [hget (i + 1) hi, hget i (by omega)]
    push_cast
    ring

/-! ## Mixtures -/

/-- The mixture of normal distributions with the given standard deviation, centred at the nodes. -/
noncomputable def normalMixture (n : Nat) (weights nodes : Nat → ℝ) (s : ℝ) (x : ℝ) : ℝ :=
  ∑ j ∈ Finset.range n, weights j * gaussianPDFReal (nodes j) (Real.toNNReal (s ^ 2)) x

theorem normalMixture_nonneg (n : Nat) (weights nodes : Nat → ℝ) (hw : ∀ j, 0 ≤ weights j) (s x : ℝ) :
    0 ≤ normalMixture n weights nodes s x :=
  Finset.sum_nonneg fun j _ => mul_nonneg (hw j) (gaussianPDFReal_nonneg _ _ _)

theorem normalMixture_integrable (n : Nat) (weights nodes : Nat → ℝ) (s : ℝ) :
    Integrable (normalMixture n weights nodes s) := by
  unfold normalMixture
  exact integrable_finsetSum _ fun j _ => (integrable_gaussianPDFReal _ _).const_mul _

theorem normalMixture_integral (n : Nat) (weights nodes : Nat → ℝ) (hw : ∑ j ∈ Finset.range n, weights j = 1) (s : ℝ)
    (hs : s ≠ 0) : ∫ x, normalMixture n weights nodes s x = 1 := by
  unfold normalMixture
  rw [integral_finsetSum _ fun j _ => (integrable_gaussianPDFReal _ _).const_mul _]
  rw [← hw]
  refine Finset.sum_congr rfl fun j _ => ?_
  rw [integral_const_mul, integral_gaussianPDFReal_eq_one, mul_one]
  intro h
  rw [Real.toNNReal_eq_zero] at h
  exact hs (pow_eq_zero_iff two_ne_zero |>.mp (le_antisymm h (sq_nonneg s)))

/-- The corresponding distribution of the exponential. -/
noncomputable def logNormalMixture (n : Nat) (weights nodes : Nat → ℝ) (s : ℝ) (x : ℝ) : ℝ :=
  normalMixture n weights nodes s (Real.log x) / x

theorem logNormalMixture_integral (n : Nat) (weights nodes : Nat → ℝ) (hw : ∑ j ∈ Finset.range n, weights j = 1) (s : ℝ)
    (hs : s ≠ 0) : ∫ x in Set.Ioi 0, logNormalMixture n weights nodes s x = 1 := by
  have himg : Real.exp '' Set.univ = Set.Ioi (0 : ℝ) := by rw [Set.image_univ, Real.range_exp]
  rw [← himg, integral_image_eq_integral_abs_deriv_smul MeasurableSet.univ
    (fun x _ => (Real.hasDerivAt_exp x).hasDerivWithinAt) Real.exp_injective.injOn, setIntegral_univ,
    ← normalMixture_integral n weights nodes hw s hs]
  refine integral_congr_ae (Filter.Eventually.of_forall fun x => ?_)
  simp only [logNormalMixture, Real.log_exp, smul_eq_mul, abs_of_pos (Real.exp_pos x)]
  field_simp

theorem logNormalMixture_integrable (n : Nat) (weights nodes : Nat → ℝ) (hw : ∑ j ∈ Finset.range n, weights j = 1) (s : ℝ)
    (hs : s ≠ 0) : IntegrableOn (logNormalMixture n weights nodes s) (Set.Ioi 0) := by
  by_contra h
  have h1 := logNormalMixture_integral n weights nodes hw s hs
  rw [integral_undef h] at h1
  exact zero_ne_one h1

/-- A bump on the normalized grid is a normal density on the original one. -/
theorem gaussian_rescale (c d σ θ x : ℝ) (hd : 0 < d) (hσ : 0 < σ) :
    gaussian ((x - c) / d) ((θ - c) / d) σ / d = gaussianPDFReal θ (Real.toNNReal ((d * σ) ^ 2)) x := by
  unfold gaussian gaussianPDFReal
  have h1 : Real.sqrt (2 * Real.pi * (d * σ) ^ 2) = Real.sqrt (2 * Real.pi) * (d * σ) := by
    rw [Real.sqrt_mul (by positivity), Real.sqrt_sq (by positivity)]
  have h2 : -0.5 * (((x - c) / d - (θ - c) / d) / σ) ^ 2 = -(x - θ) ^ 2 / (2 * (d * σ) ^ 2) := by
    field_simp
    ring
  rw [Real.coe_toNNReal _ (sq_nonneg _), h1, h2]
  have : Real.sqrt (2 * Real.pi) ≠ 0 := by positivity
  field_simp

/-- The standard deviation of the bumps on the original grid, whose length is `length`. -/
noncomputable def bumpDeviation (length : ℝ) (ncv : Nat) (kappa : ℝ) : ℝ :=
  length / ((ncv : ℝ) - 1) / Real.sqrt (8 * Real.log kappa)

theorem bumpDeviation_pos (length : ℝ) (hl : 0 < length) (ncv : Nat) (hn : 2 ≤ ncv) (kappa : ℝ) (hk : 1 < kappa) :
    0 < bumpDeviation length ncv kappa := by
  have h1 : (0 : ℝ) < (ncv : ℝ) - 1 := by
    have : (2 : ℝ) ≤ ncv := by exact_mod_cast hn
    linarith
  have h2 := Real.log_pos hk
  unfold bumpDeviation
  positivity

/-! ## The densities -/

/-- C62: `lanczos_approximate_spectrum_from_iter` evaluates the mixture of normal distributions, centred at the Ritz values
and weighted with the squared first components of the eigenvectors, on a grid that extends the given boundaries. -/
theorem spectrumFromIter_density (it : LanczosIter) (hn : 2 ≤ it.ncv) (b : ℝ × ℝ) (hb : b.1 < b.2) (P : Nat) (kappa : ℝ)
    (hk : 1 < kappa) (margin : ℝ) (hm : 0 ≤ margin) :
    spectrumFromIter it b P kappa margin =
      .ok (linspace (b.1 - margin * (b.2 - b.1)) (b.2 + margin * (b.2 - b.1)) P,
        (linspace (b.1 - margin * (b.2 - b.1)) (b.2 + margin * (b.2 - b.1)) P).map
          (normalMixture it.ncv (fun j => it.evecs 0 j ^ 2) it.evals
            (bumpDeviation ((1 + 2 * margin) * (b.2 - b.1)) it.ncv kappa))) := by
  set lo := b.1 - margin * (b.2 - b.1) with hlo
  set hi := b.2 + margin * (b.2 - b.1) with hhi
  have hw : 0 < b.2 - b.1 := by linarith
  have hd : 0 < (hi - lo) / 2 := by
    rw [hlo, hhi]
    have := mul_nonneg hm hw.le
    linarith
  have h1 : (0 : ℝ) < (it.ncv : ℝ) - 1 := by
    have : (2 : ℝ) ≤ it.ncv := by exact_mod_cast hn
    linarith
  have h2 := Real.log_pos hk
  have hσ : 0 < 2 / ((it.ncv : ℝ) - 1) / Real.sqrt (8 * Real.log kappa) := by positivity
  unfold spectrumFromIter bumpWidth
  rw [if_neg (by omega)]
  simp only [bind, Except.bind, ← hlo, ← hhi]
  congr 1
  congr 1
  have hgrid : linspace lo hi P = (linspace (-1) 1 P).map fun g => (hi - lo) / 2 * g + (hi + lo) / 2 := by
    rw [← linspace_affine]
    congr 1 <;> ring
  rw [hgrid, List.map_map]
  refine List.map_congr_left fun g _ => ?_
  simp only [Function.comp, normalMixture]
  refine Finset.sum_congr rfl fun j _ => ?_
  have hs : bumpDeviation ((1 + 2 * margin) * (b.2 - b.1)) it.ncv kappa =
      (hi - lo) / 2 * (2 / ((it.ncv : ℝ) - 1) / Real.sqrt (8 * Real.log kappa)) := by
    unfold bumpDeviation
    rw [hlo, hhi]
    field_simp
    ring
  have hr := gaussian_rescale ((hi + lo) / 2) ((hi - lo) / 2) _ (it.evals j) ((hi - lo) / 2 * g + (hi + lo) / 2) hd hσ
  rw [add_sub_cancel_right, mul_div_cancel_left₀ _ hd.ne'] at hr
  rw [hs, ← hr]
  ring

/-- C62: the densities are non-negative, the function integrates to one, and the grid covers the given boundaries. -/
theorem spectrumFromIter_probability (it : LanczosIter) (hn : 2 ≤ it.ncv)
    (hw : ∑ j ∈ Finset.range it.ncv, it.evecs 0 j ^ 2 = 1) (b : ℝ × ℝ) (hb : b.1 < b.2) (P : Nat) (hP : 2 ≤ P) (kappa : ℝ)
    (hk : 1 < kappa) (margin : ℝ) (hm : 0 ≤ margin) :
    ∃ grid density, spectrumFromIter it b P kappa margin = .ok (grid, density) ∧
      (∀ x ∈ density, 0 ≤ x) ∧
      density = grid.map (normalMixture it.ncv (fun j => it.evecs 0 j ^ 2) it.evals
        (bumpDeviation ((1 + 2 * margin) * (b.2 - b.1)) it.ncv kappa)) ∧
      ∫ x, normalMixture it.ncv (fun j => it.evecs 0 j ^ 2) it.evals
        (bumpDeviation ((1 + 2 * margin) * (b.2 - b.1)) it.ncv kappa) x = 1 ∧
      grid.length = P ∧ grid.getD 0 0 = b.1 - margin * (b.2 - b.1) ∧ grid.getD (P - 1) 0 = b.2 + margin * (b.2 - b.1) ∧
      grid.getD 0 0 ≤ b.1 ∧ b.2 ≤ grid.getD (P - 1) 0 ∧
      ∀ i, i + 1 < P → grid.getD (i + 1) 0 - grid.getD i 0 = (1 + 2 * margin) * (b.2 - b.1) / ((P : ℝ) - 1) := by
  have hwd : 0 < b.2 - b.1 := by linarith
  have hpad := mul_nonneg hm hwd.le
  obtain ⟨g1, g2, g3, g4⟩ := linspace_points (b.1 - margin * (b.2 - b.1)) (b.2 + margin * (b.2 - b.1)) P hP
  refine ⟨_, _, spectrumFromIter_density it hn b hb P kappa hk margin hm, ?_, rfl, ?_, g1, g2, g3, ?_, ?_, ?_⟩
  · intro x hx
    obtain ⟨y, -, rfl⟩ := List.mem_map.mp hx
    exact normalMixture_nonneg _ _ _ (fun j => sq_nonneg _) _ _
  · exact normalMixture_integral _ _ _ hw _ (bumpDeviation_pos _ (by positivity) _ hn _ hk).ne'
  · rw [g2]
    linarith
  · rw [g3]
    linarith
  · intro i hi
    rw [g4 i hi]
    ring

/-- C62: `lanczos_approximate_log_spectrum_from_iter` evaluates the mixture of log-normal distributions for the logarithms
of the shifted absolute values of the Ritz values. -/
theorem logSpectrumFromIter_density (it : LanczosIter) (hn : 2 ≤ it.ncv) (b : ℝ × ℝ) (epsilon : ℝ) (hb0 : 0 < b.1 + epsilon)
    (hb : b.1 < b.2) (P : Nat) (kappa : ℝ) (hk : 1 < kappa) (margin : ℝ) (hm : 0 ≤ margin) :
    let lo := Real.log (b.1 + epsilon)
    let hi := Real.log (b.2 + epsilon)
    logSpectrumFromIter it b P kappa margin epsilon =
      .ok ((linspace (lo - margin * (hi - lo)) (hi + margin * (hi - lo)) P).map Real.exp,
        ((linspace (lo - margin * (hi - lo)) (hi + margin * (hi - lo)) P).map Real.exp).map
          (logNormalMixture it.ncv (fun j => it.evecs 0 j ^ 2) (fun j => Real.log (|it.evals j| + epsilon))
            (bumpDeviation ((1 + 2 * margin) * (hi - lo)) it.ncv kappa))) := by
  intro lo hi
  have hll : lo < hi := Real.log_lt_log hb0 (by linarith)
  have hw : 0 < hi - lo := by linarith
  unfold logSpectrumFromIter
  change (bumpWidth it.ncv kappa >>= _) = _
  unfold bumpWidth
  rw [if_neg (by omega)]
  simp only [bind, Except.bind]
  change Except.ok ((linspace (-1) 1 P).map fun g => Real.exp (g * ((hi + margin * (hi - lo) - (lo - margin * (hi - lo))) / 2) +
    (hi + margin * (hi - lo) + (lo - margin * (hi - lo))) / 2), (linspace (-1) 1 P).map fun g => _) = _
  set l := lo - margin * (hi - lo) with hl
  set u := hi + margin * (hi - lo) with hu
  have hd : 0 < (u - l) / 2 := by
    rw [hl, hu]
    have := mul_nonneg hm hw.le
    linarith
  have h1 : (0 : ℝ) < (it.ncv : ℝ) - 1 := by
    have : (2 : ℝ) ≤ it.ncv := by exact_mod_cast hn
    linarith
  have h2 := Real.log_pos hk
  have hσ : 0 < 2 / ((it.ncv : ℝ) - 1) / Real.sqrt (8 * Real.log kappa) := by positivity
  have hgrid : linspace l u P = (linspace (-1) 1 P).map fun g => (u - l) / 2 * g + (u + l) / 2 := by
    rw [← linspace_affine]
    congr 1 <;> ring
  have hs : bumpDeviation ((1 + 2 * margin) * (hi - lo)) it.ncv kappa =
      (u - l) / 2 * (2 / ((it.ncv : ℝ) - 1) / Real.sqrt (8 * Real.log kappa)) := by
    unfold bumpDeviation
    rw [hl, hu]
    field_simp
    ring
  rw [hgrid, List.map_map, List.map_map]
  congr 1
  refine Prod.ext ?_ ?_
  · refine List.map_congr_left fun g _ => ?_
    simp only [Function.comp]
    rw [mul_comm]
  · refine List.map_congr_left fun g _ => ?_
    simp only [Function.comp, logNormalMixture, Real.log_exp, normalMixture]
    rw [mul_comm g, ← div_div, Finset.sum_div]
    congr 1
    refine Finset.sum_congr rfl fun j _ => ?_
    have hr := gaussian_rescale ((u + l) / 2) ((u - l) / 2) _ (Real.log (|it.evals j| + epsilon))
      ((u - l) / 2 * g + (u + l) / 2) hd hσ
    rw [add_sub_cancel_right, mul_div_cancel_left₀ _ hd.ne'] at hr
    rw [hs, ← hr]
    ring

/-- C62 for the log spectrum. The densities are with respect to the points of the returned grid, that is, they describe the
distribution of `|λ| + epsilon`, not of its logarithm. -/
theorem logSpectrumFromIter_probability (it : LanczosIter) (hn : 2 ≤ it.ncv)
    (hw : ∑ j ∈ Finset.range it.ncv, it.evecs 0 j ^ 2 = 1) (b : ℝ × ℝ) (epsilon : ℝ) (hb0 : 0 < b.1 + epsilon)
    (hb : b.1 < b.2) (P : Nat) (hP : 2 ≤ P) (kappa : ℝ) (hk : 1 < kappa) (margin : ℝ) (hm : 0 ≤ margin) :
    let lo := Real.log (b.1 + epsilon)
    let hi := Real.log (b.2 + epsilon)
    let p := logNormalMixture it.ncv (fun j => it.evecs 0 j ^ 2) (fun j => Real.log (|it.evals j| + epsilon))
      (bumpDeviation ((1 + 2 * margin) * (hi - lo)) it.ncv kappa)
    ∃ grid density, logSpectrumFromIter it b P kappa margin epsilon = .ok (grid, density) ∧
      (∀ x ∈ density, 0 ≤ x) ∧ density = grid.map p ∧ ∫ x in Set.Ioi 0, p x = 1 ∧ grid.length = P ∧
      grid.getD 0 0 = Real.exp (lo - margin * (hi - lo)) ∧ grid.getD (P - 1) 0 = Real.exp (hi + margin * (hi - lo)) ∧
      grid.getD 0 0 ≤ b.1 + epsilon ∧ b.2 + epsilon ≤ grid.getD (P - 1) 0 ∧
      ∀ i, i + 1 < P →
        Real.log (grid.getD (i + 1) 0) - Real.log (grid.getD i 0) = (1 + 2 * margin) * (hi - lo) / ((P : ℝ) - 1) := by
  intro lo hi p
  have hll : lo < hi := Real.log_lt_log hb0 (by linarith)
  have hwd : 0 < hi - lo := by linarith
  have hpad := mul_nonneg hm hwd.le
  obtain ⟨g1, g2, g3, g4⟩ := linspace_points (lo - margin * (hi - lo)) (hi + margin * (hi - lo)) P hP
  have hget : ∀ i < P, ((linspace (lo - margin * (hi - lo)) (hi + margin * (hi - lo)) P).map Real.exp).getD i 0 =
      Real.exp ((linspace (lo - margin * (hi - lo)) (hi + margin * (hi - lo)) P).getD i 0) := by
    intro i hi
    rw [List.getD_eq_getElem _ _ (by simpa [g1] using hi), List.getD_eq_getElem _ _ (by omega), List.getElem_map]
  refine ⟨_, _, logSpectrumFromIter_density it hn b epsilon hb0 hb P kappa hk margin hm, ?_, rfl, ?_, by simpa using g1, ?_, ?_,
    ?_, ?_, ?_⟩
  · intro x hx
    obtain ⟨y, hy, rfl⟩ := List.mem_map.mp hx
    obtain ⟨z, -, rfl⟩ := List.mem_map.mp hy
    exact div_nonneg (normalMixture_nonneg _ _ _ (fun j => sq_nonneg _) _ _) (Real.exp_pos _).le
  · exact logNormalMixture_integral _ _ _ hw _ (bumpDeviation_pos _ (by positivity) _ hn _ hk).ne'
  · rw [hget 0 (by omega), g2]
  · rw [hget (P - 1) (by omega), g3]
  · rw [hget 0 (by omega), g2, ← Real.exp_log hb0, Real.exp_le_exp]
    linarith
  · rw [hget (P - 1) (by omega), g3, ← Real.exp_log (show 0 < b.2 + epsilon by linarith), Real.exp_le_exp]
    linarith
  · intro i hi'
    rw [hget (i + 1) hi', hget i (by omega), Real.log_exp, Real.log_exp, g4 i hi']
    ring

/-- C62 for `lanczos_approximate_spectrum`: the result is the mean of the mixtures, evaluated on the grid. -/
theorem lanczosSpectrum_density (eigsh : Eigsh) (src : LanczosSource) (calls P : Nat) (numRepeats : Int) (kappa : ℝ)
    (hk : 1 < kappa) (boundaries : Boundaries) (margin : ℝ) (hm : 0 ≤ margin) (g a : List ℝ) (c : Nat)
    (h : lanczosSpectrum eigsh src calls P numRepeats kappa boundaries margin = (.ok (g, a), c))
    (hsrc : ∀ i it, src i = .ok it → 2 ≤ it.ncv ∧ ∑ j ∈ Finset.range it.ncv, it.evecs 0 j ^ 2 = 1)
    (b : ℝ × ℝ) (hb : (approximateBoundaries eigsh boundaries).1 = .ok b) (hlt : b.1 < b.2) :
    ∃ (n : Nat) (its : Nat → LanczosIter), numRepeats = n ∧ (∀ i < n, src (calls + i) = .ok (its i)) ∧
      let p := fun x => (∑ i ∈ Finset.range n, normalMixture (its i).ncv (fun j => (its i).evecs 0 j ^ 2) (its i).evals
        (bumpDeviation ((1 + 2 * margin) * (b.2 - b.1)) (its i).ncv kappa) x) / n
      a = g.map p ∧ (∀ x ∈ a, 0 ≤ x) ∧ ∫ x, p x = 1 := by
  obtain ⟨b', hb', n, hn, hn0, -, ha, its, dens, hi, hv⟩ := lanczosSpectrum_mean eigsh src calls P numRepeats kappa boundaries
    margin g a c h
  obtain rfl : b' = b := Except.ok.inj (hb'.symm.trans hb)
  refine ⟨n, its, hn, fun i hi' => (hi i hi').1, ?_⟩
  intro p
  have hsp : ∀ i < n, 2 ≤ (its i).ncv ∧ ∑ j ∈ Finset.range (its i).ncv, (its i).evecs 0 j ^ 2 = 1 :=
    fun i hi' => hsrc _ _ (hi i hi').1
  have hden : ∀ i < n, dens i = g.map (normalMixture (its i).ncv (fun j => (its i).evecs 0 j ^ 2) (its i).evals
      (bumpDeviation ((1 + 2 * margin) * (b'.2 - b'.1)) (its i).ncv kappa)) ∧ g.length = P := by
    intro i hi'
    have h1 := (hi i hi').2
    rw [spectrumFromIter_density (its i) (hsp i hi').1 b' hlt P kappa hk margin hm, Except.ok.injEq, Prod.mk.injEq] at h1
    obtain ⟨rfl, h2⟩ := h1
    exact ⟨h2.symm, by simp [linspace]⟩
  have hgP : g.length = P := (hden 0 hn0).2
  have hap : a = g.map p := by
    refine List.ext_getElem (by rw [ha, List.length_map, hgP]) fun q hq hq' => ?_
    have := hv q (by omega)
    rw [List.getD_eq_getElem _ _ hq] at this
    rw [this, List.getElem_map]
    show _ = (_ : ℝ) / n
    congr 1
    refine Finset.sum_congr rfl fun i hi' => ?_
    rw [(hden i (Finset.mem_range.mp hi')).1, List.getD_eq_getElem _ _ (by rw [List.length_map]; omega), List.getElem_map]
  have hn' : (0 : ℝ) < n := by exact_mod_cast hn0
  refine ⟨hap, ?_, ?_⟩
  · intro x hx
    rw [hap] at hx
    obtain ⟨y, -, rfl⟩ := List.mem_map.mp hx
    exact div_nonneg (Finset.sum_nonneg fun i _ => normalMixture_nonneg _ _ _ (fun j => sq_nonneg _) _ _) hn'.le
  · show ∫ x, (_ : ℝ) / n = 1
    rw [integral_div, integral_finsetSum _ fun i _ => normalMixture_integrable _ _ _ _]
    rw [Finset.sum_congr rfl fun i hi' => normalMixture_integral _ _ _ (hsp i (Finset.mem_range.mp hi')).2 _
      (bumpDeviation_pos _ (by
        have : 0 < b'.2 - b'.1 := by linarith
        positivity) _ (hsp i (Finset.mem_range.mp hi')).1 _ hk).ne']
    simp [hn'.ne']

/-- C62 for `lanczos_approximate_log_spectrum`. -/
theorem lanczosLogSpectrum_density (eigsh : Eigsh) (src : LanczosSource) (calls P : Nat) (numRepeats : Int) (kappa : ℝ)
    (hk : 1 < kappa) (boundaries : Boundaries) (margin : ℝ) (hm : 0 ≤ margin) (epsilon : ℝ) (g a : List ℝ) (c : Nat)
    (h : lanczosLogSpectrum eigsh src calls P numRepeats kappa boundaries margin epsilon = (.ok (g, a), c))
    (hsrc : ∀ i it, src i = .ok it → 2 ≤ it.ncv ∧ ∑ j ∈ Finset.range it.ncv, it.evecs 0 j ^ 2 = 1)
    (b : ℝ × ℝ) (hb : (approximateBoundariesAbs eigsh boundaries).1 = .ok b) (hb0 : 0 < b.1 + epsilon) (hlt : b.1 < b.2) :
    ∃ (n : Nat) (its : Nat → LanczosIter), numRepeats = n ∧ (∀ i < n, src (calls + i) = .ok (its i)) ∧
      let p := fun x => (∑ i ∈ Finset.range n, logNormalMixture (its i).ncv (fun j => (its i).evecs 0 j ^ 2)
        (fun j => Real.log (|(its i).evals j| + epsilon))
        (bumpDeviation ((1 + 2 * margin) * (Real.log (b.2 + epsilon) - Real.log (b.1 + epsilon))) (its i).ncv kappa) x) / n
      a = g.map p ∧ (∀ x ∈ a, 0 ≤ x) ∧ ∫ x in Set.Ioi 0, p x = 1 := by
  obtain ⟨b', hb', n, hn, hn0, -, ha, its, dens, hi, hv⟩ := lanczosLogSpectrum_mean eigsh src calls P numRepeats kappa
    boundaries margin epsilon g a c h
  obtain rfl : b' = b := Except.ok.inj (hb'.symm.trans hb)
  refine ⟨n, its, hn, fun i hi' => (hi i hi').1, ?_⟩
  intro p
  have hll := Real.log_lt_log hb0 (show b'.1 + epsilon < b'.2 + epsilon by linarith)
  have hsp : ∀ i < n, 2 ≤ (its i).ncv ∧ ∑ j ∈ Finset.range (its i).ncv, (its i).evecs 0 j ^ 2 = 1 :=
    fun i hi' => hsrc _ _ (hi i hi').1
  have hden : ∀ i < n, dens i = g.map (logNormalMixture (its i).ncv (fun j => (its i).evecs 0 j ^ 2)
      (fun j => Real.log (|(its i).evals j| + epsilon))
      (bumpDeviation ((1 + 2 * margin) * (Real.log (b'.2 + epsilon) - Real.log (b'.1 + epsilon))) (its i).ncv kappa)) ∧
      g.length = P ∧ ∀ x ∈ g, 0 < x := by
    intro i hi'
    have h1 := (hi i hi').2
    rw [logSpectrumFromIter_density (its i) (hsp i hi').1 b' epsilon hb0 hlt P kappa hk margin hm, Except.ok.injEq,
      Prod.mk.injEq] at h1
    obtain ⟨rfl, h2⟩ := h1
    refine ⟨h2.symm, by simp [linspace], fun x hx => ?_⟩
    obtain ⟨y, -, rfl⟩ := List.mem_map.mp hx
    exact Real.exp_pos y
  have hgP : g.length = P := (hden 0 hn0).2.1
  have hap : a = g.map p := by
    refine List.ext_getElem (by rw [ha, List.length_map, hgP]) fun q hq hq' => ?_
    have := hv q (by omega)
    rw [List.getD_eq_getElem _ _ hq] at this
    rw [this, List.getElem_map]
    show _ = (_ : ℝ) / n
    congr 1
    refine Finset.sum_congr rfl fun i hi' => ?_
    rw [(hden i (Finset.mem_range.mp hi')).1, List.getD_eq_getElem _ _ (by rw [List.length_map]; omega), List.getElem_map]
  have hn' : (0 : ℝ) < n := by exact_mod_cast hn0
  have hs : ∀ i < n, bumpDeviation ((1 + 2 * margin) * (Real.log (b'.2 + epsilon) - Real.log (b'.1 + epsilon))) (its i).ncv
      kappa ≠ 0 := fun i hi' => (bumpDeviation_pos _ (by
        have : 0 < Real.log (b'.2 + epsilon) - Real.log (b'.1 + epsilon) := by linarith
        positivity) _ (hsp i hi').1 _ hk).ne'
  refine ⟨hap, ?_, ?_⟩
  · intro x hx
    rw [hap] at hx
    obtain ⟨y, hy, rfl⟩ := List.mem_map.mp hx
    exact div_nonneg (Finset.sum_nonneg fun i _ => div_nonneg (normalMixture_nonneg _ _ _ (fun j => sq_nonneg _) _ _)
      ((hden 0 hn0).2.2 y hy).le) hn'.le
  · show ∫ x in Set.Ioi 0, (_ : ℝ) / n = 1
    rw [integral_div, integral_finsetSum _ fun i hi' => logNormalMixture_integrable _ _ _
      (hsp i (Finset.mem_range.mp hi')).2 _ (hs i (Finset.mem_range.mp hi'))]
    rw [Finset.sum_congr rfl fun i hi' => logNormalMixture_integral _ _ _ (hsp i (Finset.mem_range.mp hi')).2 _
      (hs i (Finset.mem_range.mp hi'))]
    simp [hn'.ne']

/-- C59, C62, C63 together: for a symmetric operator with an exact eigensolver, the Ritz values, at which the bumps are
centred, lie between the boundaries. -/
theorem ritz_inside_boundaries {d : Nat} (A : EuclideanSpace ℝ (Fin d) →ₗ[ℝ] EuclideanSpace ℝ (Fin d)) (hA : A.IsSymmetric)
    (eigh eighTri : Eigh) (h1 : EighContract eigh) (h2 : EighContract eighTri) (eigsh : Eigsh)
    (hc : EigshContract eigsh {μ | Module.End.HasEigenvalue A μ}) (boundaries : Boundaries)
    (hlo : ∀ a hi, boundaries = some (some a, hi) → ∀ μ, Module.End.HasEigenvalue A μ → a ≤ μ)
    (hhi : ∀ lo b, boundaries = some (lo, some b) → ∀ μ, Module.End.HasEigenvalue A μ → μ ≤ b) (b : ℝ × ℝ)
    (hb : (approximateBoundaries eigsh boundaries).1 = .ok b) (ncv : Nat) (tri : Bool) (r : EuclideanSpace ℝ (Fin d))
    (it : LanczosIter) (h : fastLanczos eigh eighTri A ncv tri r = .ok it) (j : Nat) (hj : j < ncv) :
    b.1 ≤ it.evals j ∧ it.evals j ≤ b.2 :=
  fastLanczos_evals_between A hA eigh eighTri h1 h2 ncv tri r it h b.1 b.2
    (fun μ hμ => approximateBoundaries_enclose eigsh _ hc boundaries hlo hhi b.1 b.2 hb μ hμ) j hj

/-! ## Violations -/

/-- Two nodes, the first with all the weight, at the lower boundary. -/
def edgeIter : LanczosIter := ⟨2, fun j => if j = 0 then 0 else 1, fun i j => if i = j then 1 else 0⟩

theorem edgeIter_logNormalMixture (s : ℝ) :
    logNormalMixture edgeIter.ncv (fun j => edgeIter.evecs 0 j ^ 2) (fun j => Real.log (|edgeIter.evals j| + 1)) s 1 =
      (Real.sqrt (2 * Real.pi * s ^ 2))⁻¹ := by
  simp [logNormalMixture, normalMixture, edgeIter, gaussianPDFReal, Real.coe_toNNReal _ (sq_nonneg s)]

/-- C60 is violated for the default arguments of the log spectrum: the function uses `kappa=1.04`, the cached class
`kappa=3.0`. The same Lanczos iterations give different densities. -/
theorem logSpectrum_defaults_differ :
    ∃ r r', logSpectrumFromIter edgeIter (0, Real.exp 1 - 1) 1 logSpectrumKappa 0 1 = .ok r ∧
      logSpectrumFromIter edgeIter (0, Real.exp 1 - 1) 1 cachedLogSpectrumKappa 0 1 = .ok r' ∧ r.1 = r'.1 ∧ r.2 ≠ r'.2 := by
  have hb : (0 : ℝ) < Real.exp 1 - 1 := by
    have := Real.add_one_lt_exp (one_ne_zero (α := ℝ))
    linarith
  refine ⟨_, _, logSpectrumFromIter_density edgeIter le_rfl (0, Real.exp 1 - 1) 1 (by norm_num) hb 1 logSpectrumKappa
    (by norm_num [logSpectrumKappa]) 0 le_rfl, logSpectrumFromIter_density edgeIter le_rfl (0, Real.exp 1 - 1) 1 (by norm_num)
    hb 1 cachedLogSpectrumKappa (by norm_num [cachedLogSpectrumKappa]) 0 le_rfl, rfl, ?_⟩
  have hgrid : (linspace (Real.log (0 + 1) - 0 * (Real.log (Real.exp 1 - 1 + 1) - Real.log (0 + 1)))
      (Real.log (Real.exp 1 - 1 + 1) + 0 * (Real.log (Real.exp 1 - 1 + 1) - Real.log (0 + 1))) 1).map Real.exp = [1] := by
    simp [linspace]
  simp only [hgrid, List.map_cons, List.map_nil, edgeIter_logNormalMixture]
  intro h
  have h1 : (0 : ℝ) < Real.log logSpectrumKappa := Real.log_pos (by norm_num [logSpectrumKappa])
  have h2 : Real.log logSpectrumKappa < Real.log cachedLogSpectrumKappa :=
    Real.log_lt_log (by norm_num [logSpectrumKappa]) (by norm_num [logSpectrumKappa, cachedLogSpectrumKappa])
  have hs : ∀ k : ℝ, 0 < Real.log k → (bumpDeviation ((1 + 2 * 0) * (Real.log (Real.exp 1 - 1 + 1) - Real.log (0 + 1)))
      edgeIter.ncv k) ^ 2 = 1 / (8 * Real.log k) := by
    intro k hk
    have h8 : 0 ≤ 8 * Real.log k := by positivity
    simp only [bumpDeviation, edgeIter, sub_add_cancel, Real.log_exp, zero_add, Real.log_one]
    rw [div_pow, Real.sq_sqrt h8]
    norm_num
  rw [hs _ h1, hs _ (h1.trans h2)] at h
  simp only [List.cons.injEq, and_true, inv_inj] at h
  rw [Real.sqrt_inj (by positivity) (by have := h1.trans h2; positivity)] at h
  have h3 := mul_left_cancel₀ (by positivity) h
  rw [one_div, one_div, inv_inj] at h3
  linarith

theorem edgeIter_normalMixture_pos (s : ℝ) (hs : 0 < s) :
    0 < normalMixture edgeIter.ncv (fun j => edgeIter.evecs 0 j ^ 2) edgeIter.evals s 0 := by
  have h0 : (s ^ 2).toNNReal ≠ 0 := by
    rw [Ne, Real.toNNReal_eq_zero, not_le]
    positivity
  have hpos : 0 < gaussianPDFReal 0 (s ^ 2).toNNReal 0 := gaussianPDFReal_pos _ _ _ h0
  simpa [normalMixture, edgeIter] using hpos

/-- C60 is violated for negative `num_repeats` on a cached object that holds at least two Lanczos iterations: the slice
drops iterations at the end, and the sum is divided by the negative number. The "density" is negative. A new object raises
`IndexError` and the plain function `UnboundLocalError` instead (`lanczosSpectrum_nonpos`). -/
theorem cachedSpectrum_negative_repeats (src : LanczosSource) :
    ∃ g a, cachedApproximateSpectrum src (0, 1) ⟨[edgeIter, edgeIter], 2⟩ (-1) 1 3 0 = (.ok (g, a), ⟨[edgeIter, edgeIter], 2⟩) ∧
      ∃ x ∈ a, x < 0 := by
  have hd := spectrumFromIter_density edgeIter le_rfl (0, 1) (by norm_num) 1 3 (by norm_num) 0 le_rfl
  have hgrid : linspace ((0 : ℝ) - 0 * (1 - 0)) (1 + 0 * (1 - 0)) 1 = [0] := by simp [linspace]
  simp only [hgrid, List.map_cons, List.map_nil] at hd
  have hits : getLanczosIters src ⟨[edgeIter, edgeIter], 2⟩ (-1) = (.ok [edgeIter], ⟨[edgeIter, edgeIter], 2⟩) := rfl
  set v := normalMixture edgeIter.ncv (fun j => edgeIter.evecs 0 j ^ 2) edgeIter.evals
    (bumpDeviation ((1 + 2 * 0) * (1 - 0)) edgeIter.ncv 3) 0
  refine ⟨[0], [v / ((-1 : Int) : ℝ)], ?_, ?_⟩
  · unfold cachedApproximateSpectrum cachedSpectrum
    rw [hits]
    simp only [List.mapM_cons, List.mapM_nil, hd, bind, Except.bind, pure, Except.pure, List.map_nil, List.foldl_nil,
      List.map_cons]
  · refine ⟨_, List.mem_singleton.mpr rfl, ?_⟩
    have : 0 < v := edgeIter_normalMixture_pos _ (bumpDeviation_pos ((1 + 2 * 0) * (1 - 0)) (by norm_num) edgeIter.ncv le_rfl 3 (by norm_num))
    push_cast
    rw [div_neg, div_one]
    linarith

/-! ## Examples -/

/-- A cached object with one iteration and a source that fails on its third call: a request for three iterations draws one
more, raises, and keeps the drawn one. -/
example : getLanczosIters (fun i => if i < 2 then .ok edgeIter else .error .valueError) ⟨[edgeIter], 1⟩ 3 =
    (.error .valueError, ⟨[edgeIter, edgeIter], 3⟩) := rfl

/-- A request for fewer iterations than drawn returns the first ones and draws nothing. -/
example (src : LanczosSource) (a b : LanczosIter) : getLanczosIters src ⟨[a, b], 2⟩ 1 = (.ok [a], ⟨[a, b], 2⟩) := rfl

/-- The running average over two repetitions is the mean: densities `[2]` and `[4]` give `[3]`. -/
example (src : LanczosSource) (h0 : src 0 = .ok ⟨2, fun _ => 2, fun _ _ => 0⟩) (h1 : src 1 = .ok ⟨2, fun _ => 4, fun _ _ => 0⟩) :
    repeatLoop src (fun it => .ok ([7], [it.evals 0])) 0 0 none [0] 2 = (.ok ([7], [3]), 2) := by
  simp [repeatLoop, h0, h1]
  norm_num

/-- The grid for boundaries `0` and `10`, margin one tenth and three points. -/
example : linspace ((0 : ℝ) - 0.1 * (10 - 0)) (10 + 0.1 * (10 - 0)) 3 = [-1, 5, 11] := by
  norm_num [linspace, List.range_succ]

/-- A density for two nodes with equal weights: all requirements of `spectrumFromIter_probability` hold. -/
example : ∃ grid density, spectrumFromIter ⟨2, fun j => j, fun _ _ => 1 / Real.sqrt 2⟩ (0, 1) 5 3 0.05 = .ok (grid, density) ∧
    (∀ x ∈ density, 0 ≤ x) ∧ grid.length = 5 ∧ grid.getD 0 0 = -0.05 := by
  obtain ⟨grid, density, h, h1, -, -, h2, h3, -⟩ := spectrumFromIter_probability
    ⟨2, fun j => j, fun _ _ => 1 / Real.sqrt 2⟩ le_rfl (by simp) (0, 1) (by norm_num) 5 (by norm_num) 3
    (by norm_num) 0.05 (by norm_num)
  exact ⟨grid, density, h, h1, h2, by rw [h3]; norm_num⟩

end Curvlinops
