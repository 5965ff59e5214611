import Verif.Props.BlockSpectrum
import Verif.Props.KfacDistance

/-!
# C126: eigenvalues of KFAC and of the GGN where KFAC is exact inside its blocks
-/

namespace Curvlinops

/-- Specification: the values `vals'` are averages of the values `vals`: same sum, smaller sums of the largest values, in the same range, and
smaller sums of convex functions. -/
structure Majorized (vals' vals : List ℝ) : Prop where
  length : vals'.length = vals.length
  sum : vals'.sum = vals.sum
  largest : ∀ k, (vals'.take k).sum ≤ (vals.take k).sum
  convex : ∀ (s : Set ℝ) (f : ℝ → ℝ), ConvexOn ℝ s f → (∀ x ∈ vals, x ∈ s) → (∀ x ∈ vals', x ∈ s) ∧ (vals'.map f).sum ≤ (vals.map f).sum

theorem HasSpectrum.majorized {N : Nat} {M M' : Mat ℝ} {β : Type _} (g : Fin N → β)
    (hg : ∀ r s : Fin N, (g r = g s → M' r s = M r s) ∧ (g r ≠ g s → M' r s = 0)) {vals vals' : List ℝ} (h : HasSpectrum N M vals)
    (hs : Decreasing vals) (h' : HasSpectrum N M' vals') (hs' : Decreasing vals') : Majorized vals' vals := by
  classical
  obtain ⟨lam, mu, S, hS, hl, -, rfl, rfl, hmu⟩ := HasSpectrum.average
    (fun r => ((Finset.univ.filter fun s => g s = g r).min' ⟨r, by simp⟩ : Fin N).1)
    (fun r s => by
      have key : ∀ r : Fin N, g ((Finset.univ.filter fun s => g s = g r).min' ⟨r, by simp⟩) = g r := by
        intro r
        have := Finset.min'_mem (Finset.univ.filter fun s => g s = g r) ⟨r, by simp⟩
        simpa using this
      by_cases e : g r = g s
      · rw [if_pos (by simp only [e]), (hg r s).1 e]
      · rw [if_neg, (hg r s).2 e]
        intro h
        exact e (by rw [← key r, ← key s, Fin.ext h])) h hs h' hs'
  refine ⟨by simp, ?_, fun k => ?_, fun s f hf hin => ?_⟩
  · rw [List.sum_ofFn, List.sum_ofFn]
    exact average_sum hS hmu
  · rw [take_ofFn_sum, take_ofFn_sum]
    exact average_largest hS hmu hl k
  · obtain ⟨k1, k2⟩ := average_convex hS hmu hf fun p => hin _ (by simp [List.mem_ofFn])
    refine ⟨fun x hx => ?_, ?_⟩
    · obtain ⟨p, rfl⟩ := (List.mem_ofFn' _ _).mp hx
      exact k1 p
    · rw [sum_ofFn_map, sum_ofFn_map]
      exact k2

/-- **C126** (damping): for non-negative values and damping `δ`, averages have a determinant that is at least as large, an inverse with
at most the trace, and an effective dimension `Σ λ / (λ + δ)` that is at least as large. -/
theorem Majorized.damped {vals vals' : List ℝ} (h : Majorized vals' vals) (h0 : ∀ x ∈ vals, 0 ≤ x) {δ : ℝ} (hδ : 0 < δ) :
    (∀ x ∈ vals', 0 ≤ x) ∧ (vals.map (· + δ)).prod ≤ (vals'.map (· + δ)).prod ∧
    (vals'.map fun x => (x + δ)⁻¹).sum ≤ (vals.map fun x => (x + δ)⁻¹).sum ∧
    (vals.map fun x => x / (x + δ)).sum ≤ (vals'.map fun x => x / (x + δ)).sum := by
  have h0' := (h.convex (Set.Ici 0) (fun _ => 0) (convexOn_const 0 (convex_Ici 0)) h0).1
  have hinv : ConvexOn ℝ (Set.Ici 0) fun x : ℝ => (x + δ)⁻¹ := by
    have h1 : ConvexOn ℝ (Set.Ioi 0) fun x : ℝ => x⁻¹ := by
      have := convexOn_zpow (𝕜 := ℝ) (-1)
      simpa using this
    have h2 := h1.translate_left δ
    refine h2.subset ?_ (convex_Ici 0)
    intro x hx
    simp only [Set.mem_Ici] at hx
    simp only [Set.mem_preimage, Set.mem_Ioi]
    linarith
  refine ⟨h0', ?_, (h.convex _ _ hinv h0).2, ?_⟩
  · refine HasSpectrum.det_le (fun s f hf hin => ?_) fun x hx => ?_
    · obtain ⟨k1, k2⟩ := h.convex _ _ (hf.translate_left δ) fun x hx => by
        have := hin (x + δ) (List.mem_map_of_mem hx)
        rwa [add_comm] at this
      refine ⟨fun x hx => ?_, ?_⟩
      · obtain ⟨y, hy, rfl⟩ := List.mem_map.mp hx
        have := k1 y hy
        rwa [add_comm]
      · rw [List.map_map, List.map_map]
        exact k2
    · obtain ⟨y, hy, rfl⟩ := List.mem_map.mp hx
      have := h0 y hy
      positivity
  · have h3 := (h.convex _ _ hinv h0).2
    have key : ∀ l : List ℝ, (∀ x ∈ l, 0 ≤ x) → (l.map fun x => x / (x + δ)).sum = l.length - δ * (l.map fun x => (x + δ)⁻¹).sum := by
      intro l
      induction l with
      | nil => simp
      | cons x l ih =>
        intro hl
        have hx : x + δ ≠ 0 := by
          have := hl x (by simp)
          positivity
        simp only [List.map_cons, List.sum_cons, ih fun y hy => hl y (by simp [hy]), List.length_cons]
        push_cast
        field_simp
        ring
    rw [key vals h0, key vals' h0', h.length]
    nlinarith

section kfac

variable {k : LossKind} {D T C : Nat}

/-- KFAC that agrees with `F` inside its blocks. -/
theorem seqNet_majorized {cfg : KfacCfg} {shapes : List (List Nat)} {net : SeqNet D T C} {n : Nat} (hs : net.Setting cfg shapes n)
    (batches : List (List KDatum)) (hne : batches ≠ []) {F : Mat ℝ}
    (hF : ∃ M, Represents (net.kfac cfg shapes batches) M ∧ ∀ p q, net.SameBlock cfg.sep shapes p q → M p q = F p q) {op : LinOp ℝ}
    (hop : Represents op F) (hr : op.nrows = (shapes.map List.prod).sum) (hc : op.ncols = (shapes.map List.prod).sum) {vals vals' : List ℝ}
    (hv : op.HasEigenvalues vals) (hv' : (net.kfac cfg shapes batches).HasEigenvalues vals') : Majorized vals' vals := by
  have hK := seqNet_kfacLayers (cfg := cfg) hs.fit hs.all batches hne
    (by rw [hs.terms]; exact hs.T_ne) (by rw [hs.outDim]; exact hs.C_ne) hs.mc
  have ht := kfac_tiles _ _ _ _ _ _ hK
  obtain ⟨⟨M, hM⟩, -⟩ := kfac_matrix_exists _ _ _ _ _ _ hK
  have hrep := kfac_represents _ _ _ _ _ _ hK M hM
  obtain ⟨M', hM', hF'⟩ := hF
  obtain ⟨h1, h2⟩ := hv.of hop (hc.trans hr.symm)
  have hrows : (net.kfac cfg shapes batches).nrows = (shapes.map List.prod).sum := rfl
  obtain ⟨h3, h4⟩ := hv'.of hM' rfl
  rw [hr] at h1
  rw [hrows] at h3
  refine HasSpectrum.majorized (fun r => (Classical.choose (ht.2 r r.2).exists).1) (fun r s => ?_) h1 h2 h3 h4
  have er := Classical.choose_spec (ht.2 r r.2).exists
  have es := Classical.choose_spec (ht.2 s s.2).exists
  have hiff := sameBlock_iff hs.fit _ _ ht (Classical.choose (ht.2 r r.2).exists) (Classical.choose (ht.2 s s.2).exists)
  rw [er, es] at hiff
  refine ⟨fun e => hF' r s (hiff.mpr e), fun e => ?_⟩
  rw [← represents_unique _ M M' hrep hM' r s r.2 s.2]
  exact seqNet_off_block hs.fit _ _ ht hM r.2 s.2 fun hsb => e (hiff.mp hsb)

/-- KFAC on such networks has eigenvalues. -/
theorem seqNet_hasEigenvalues {cfg : KfacCfg} {shapes : List (List Nat)} {net : SeqNet D T C} {n : Nat} (hs : net.Setting cfg shapes n)
    (batches : List (List KDatum)) (hne : batches ≠ []) : ∃ vals, (net.kfac cfg shapes batches).HasEigenvalues vals := by
  have hK := seqNet_kfacLayers (cfg := cfg) hs.fit hs.all batches hne
    (by rw [hs.terms]; exact hs.T_ne) (by rw [hs.outDim]; exact hs.C_ne) hs.mc
  obtain ⟨⟨M, hM⟩, -⟩ := kfac_matrix_exists _ _ _ _ _ _ hK
  exact hasEigenvalues_exists (kfac_represents _ _ _ _ _ _ hK M hM) (kfac_psd _ _ _ _ _ _ hK M hM).1

theorem netTerms_length (shapes : List (List Nat)) (net : SeqNet D T C) (θ : Nat → ℝ) (x : NetInput D T C k) :
    (x.terms shapes net θ).length = T := by
  simp [NetInput.terms, SeqNet.terms]

theorem flatten_terms (f : NetInput D T C k → List (Term k C)) (batches : List (List (NetInput D T C k))) :
    (batches.map (List.map f)).flatten = batches.flatten.map f := (List.map_flatten ..).symm

theorem Setting_shapes {cfg : KfacCfg} {shapes : List (List Nat)} {net : SeqNet D T C} (batches : List (List (NetInput D T C k)))
    (hs : net.Setting cfg shapes batches.flatten.length) : batches ≠ [] := by
  rintro rfl
  exact hs.N_ne rfl

/-- **C126** (linear networks): for a network that is affine after each layer and `MSELoss`, in the setting of the chosen approximation, the
eigenvalues of type-2 KFAC are averages of the eigenvalues of the GGN operator on the same data, for all inputs and mini-batches. -/
theorem kfac_majorized_linear {cfg : KfacCfg} {shapes : List (List Nat)} (hshapes : shapes ≠ []) {net : SeqNet D T C}
    (batches : List (List (NetInput D T C .mse))) (hb : ∀ b ∈ batches, b ≠ []) (hs : net.Setting cfg shapes batches.flatten.length)
    (hf : cfg.fisher = .type2) (hmc : cfg.mcSamples = 1) {θ : Nat → ℝ} (g : String → Nat → Nat → ℝ)
    (hd : ∀ x ∈ batches.flatten, net.DiffAt shapes θ x.h)
    (hg : ∀ x ∈ batches.flatten, net.AffineAfter cfg.approx shapes θ g x.h)
    (hx : ∀ x ∈ batches.flatten, x.SqrtOk shapes net θ cfg.mean) {vals vals' : List ℝ}
    (hv : (curvatureOp shapes (redOf cfg.mean) (inferNData List.length (batches.map (List.map (NetInput.terms shapes net θ))) none) List.length
      (fun b => ggnLossBatch shapes cfg.mean b.flatten) (batches.map (List.map (NetInput.terms shapes net θ)))).HasEigenvalues vals)
    (hv' : (net.kfac cfg shapes (batches.map (·.map (NetInput.datum shapes net θ)))).HasEigenvalues vals') : Majorized vals' vals := by
  have hrep := ggnLossOp_represents shapes hshapes cfg.mean T (batches.map (List.map (NetInput.terms shapes net θ)))
    (by simpa using hb) (by
      intro b hb d hd
      obtain ⟨b, -, rfl⟩ := List.mem_map.mp hb
      obtain ⟨x, -, rfl⟩ := List.mem_map.mp hd
      exact netTerms_length shapes net θ x)
  rw [flatten_terms] at hrep
  exact seqNet_majorized hs _ (by simpa using Setting_shapes batches hs) (seqNet_type2_linear batches hs hf hmc g hd hg hx) hrep
    (by rw [LinOp.nrows, LinOp.outFlat, curvatureOp_outShape]) (by rw [LinOp.ncols, LinOp.inFlat, curvatureOp_inShape]) hv hv'

/-- **C126** (one datum, type-2): the same for one datum with one loss term and all supported losses, if every layer is evaluated at one
position. -/
theorem kfac_majorized_single {cfg : KfacCfg} {shapes : List (List Nat)} (hshapes : shapes ≠ []) {net : SeqNet D 1 C}
    (hs : net.Setting cfg shapes 1) (hS : ∀ st ∈ net.stages, st.S = 1) (hmc : cfg.mcSamples = 1) (hf : cfg.fisher = .type2)
    (hk : k = .ce → C ≠ 1) {θ : Nat → ℝ} (x : NetInput D 1 C k) (hd : net.DiffAt shapes θ x.h) (hx : x.SqrtOk shapes net θ cfg.mean)
    {vals vals' : List ℝ}
    (hv : (curvatureOp shapes (redOf cfg.mean) (inferNData List.length [[x.terms shapes net θ]] none) List.length
      (fun b => ggnLossBatch shapes cfg.mean b.flatten) [[x.terms shapes net θ]]).HasEigenvalues vals)
    (hv' : (net.kfac cfg shapes [[x.datum shapes net θ]]).HasEigenvalues vals') : Majorized vals' vals := by
  have hrep := ggnLossOp_represents shapes hshapes cfg.mean 1 [[x.terms shapes net θ]] (by simp)
    (by simpa using netTerms_length shapes net θ x)
  exact seqNet_majorized hs _ (by simp) (seqNet_type2_single hs hS hmc hf hk x hd hx) hrep
    (by rw [LinOp.nrows, LinOp.outFlat, curvatureOp_outShape]) (by rw [LinOp.ncols, LinOp.inFlat, curvatureOp_inShape]) hv hv'

/-- **C126** (one datum, empirical): the same for empirical KFAC and the empirical Fisher. -/
theorem kfac_majorized_empirical {cfg : KfacCfg} {shapes : List (List Nat)} (hshapes : shapes ≠ []) {net : SeqNet D 1 C}
    (hs : net.Setting cfg shapes 1) (hS : ∀ st ∈ net.stages, st.S = 1) (hmc : cfg.mcSamples = 1) (hf : cfg.fisher = .empirical)
    (hloss : cfg.loss = k) {θ : Nat → ℝ} (x : NetInput D 1 C k) (hd : net.DiffAt shapes θ x.h) (hx : x.GradOk shapes net θ)
    {vals vals' : List ℝ}
    (hv : (curvatureOp shapes (redOf cfg.mean) (inferNData List.length [[x.terms shapes net θ]] none) List.length
      (fun b => efBatch shapes cfg.mean b.flatten) [[x.terms shapes net θ]]).HasEigenvalues vals)
    (hv' : (net.kfac cfg shapes [[x.datum shapes net θ]]).HasEigenvalues vals') : Majorized vals' vals := by
  have hrep := efOp_represents shapes hshapes cfg.mean 1 [[x.terms shapes net θ]] (by simp)
    (by simpa using netTerms_length shapes net θ x)
  exact seqNet_majorized hs _ (by simp) (seqNet_empirical_single hs hS hmc hf hloss x hd hx) hrep
    (by rw [LinOp.nrows, LinOp.outFlat, curvatureOp_outShape]) (by rw [LinOp.ncols, LinOp.inFlat, curvatureOp_inShape]) hv hv'

end kfac

/-- Three data in two batches on a linear network with two layers: both operators have eigenvalues, those of KFAC are averages of those of
the GGN. -/
example (θ : Nat → ℝ) (h₁ h₂ h₃ : Fin 2 → ℝ) (y₁ y₂ y₃ : ℝ) :
    ∃ vals vals', (curvatureOp expShapes .sum (inferNData List.length ([[expInput h₁ y₁, expInput h₂ y₂], [expInput h₃ y₃]].map
        (List.map (NetInput.terms expShapes linNet θ))) none) List.length (fun b => ggnLossBatch expShapes false b.flatten)
        ([[expInput h₁ y₁, expInput h₂ y₂], [expInput h₃ y₃]].map (List.map (NetInput.terms expShapes linNet θ)))).HasEigenvalues vals ∧
      (linNet.kfac { expCfg .type2 with N := 3 } expShapes
        ([[expInput h₁ y₁, expInput h₂ y₂], [expInput h₃ y₃]].map (·.map (NetInput.datum expShapes linNet θ)))).HasEigenvalues vals' ∧
      Majorized vals' vals := by
  obtain ⟨vals, hv⟩ := (lossOps_hasEigenvalues expShapes (by simp [expShapes]) false 1
    ([[expInput h₁ y₁, expInput h₂ y₂], [expInput h₃ y₃]].map (List.map (NetInput.terms expShapes linNet θ))) (by simp)
    (by simp [netTerms_length])).1
  obtain ⟨vals', hv'⟩ := seqNet_hasEigenvalues (linNet_setting .type2 3 (by simp))
    ([[expInput h₁ y₁, expInput h₂ y₂], [expInput h₃ y₃]].map (·.map (NetInput.datum expShapes linNet θ))) (by simp)
  refine ⟨vals, vals', hv, hv', kfac_majorized_linear (cfg := { expCfg .type2 with N := 3 }) (by simp [expShapes])
    [[expInput h₁ y₁, expInput h₂ y₂], [expInput h₃ y₃]] (by simp)
    (linNet_setting .type2 3 (by simp)) rfl rfl (linG θ) (fun x _ => linNet_diff θ x.h) (fun x _ => linNet_affine θ x.h) ?_ hv hv'⟩
  intro x hx t
  have hx' : x.sqrt = fun _ _ _ => Real.sqrt 2 := by
    simp only [List.flatten_cons, List.flatten_nil, List.append_nil, List.mem_append, List.mem_cons, List.not_mem_nil, or_false] at hx
    rcases hx with (rfl | rfl) | rfl <;> rfl
  refine ⟨[1, 1], [0], fun _ _ => Real.sqrt 2, rfl, by simp [ValidTarget], ?_, fun _ _ => by rw [hx']⟩
  simp only [lossHessianSqrt, redOf, expCfg, sqrtScale]
  simp
  funext i j
  simp [Subsingleton.elim i j]

/-- Damping 1 and eigenvalues 4 and 0 against their averages 2 and 2: determinants 5 and 9, traces of the inverses 6/5 and 2/3. -/
example : ([4, 0].map (· + (1 : ℝ))).prod = 5 ∧ ([2, 2].map (· + (1 : ℝ))).prod = 9 ∧
    ([4, 0].map fun x : ℝ => (x + 1)⁻¹).sum = 6 / 5 ∧ ([2, 2].map fun x : ℝ => (x + 1)⁻¹).sum = 2 / 3 := by
  norm_num

end Curvlinops
