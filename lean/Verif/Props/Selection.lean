import Verif.Lemmas.Selection
import Verif.Model.Selection
import Verif.Props.FisherMC
import Verif.Props.Net
import Verif.Props.JacobianForm
import Verif.Props.Jacobian
import Mathlib.Analysis.Calculus.ContDiff.Operations

/-!
# C87: operators on some of the parameters are sub-matrices
-/

namespace Curvlinops

section generic

variable {α : Type _} [NonUnitalNonAssocSemiring α] {shapes : List (List Nat)} {sel : List Nat}

theorem sum_padParams (hs : Selects shapes sel) {K : Nat} {M : List (Tensor α)} (hM : HasShapes M (selShapes shapes sel) K)
    (a : Nat → α) {k : Nat} (hk : k < K) :
    ∑ c ∈ Finset.range (total shapes), a c * (flatData (padParams shapes sel K M)).getD (c * K + k) 0 =
      ∑ c ∈ Finset.range (total (selShapes shapes sel)), a (selIndex shapes sel c) * (flatData M).getD (c * K + k) 0 := by
  symm
  refine Finset.sum_bij_ne_zero (fun c _ _ => selIndex shapes sel c) ?_ ?_ ?_ ?_
  · intro c hc _
    exact Finset.mem_range.mpr (selIndex_lt hs (Finset.mem_range.mp hc))
  · intro c hc _ c' hc' _ h
    exact selIndex_injOn hs (Finset.mem_range.mp hc) (Finset.mem_range.mp hc') h
  · intro c hc hne
    by_contra hn
    push Not at hn
    refine hne ?_
    have : (flatData (padParams shapes sel K M)).getD (c * K + k) 0 = 0 := by
      refine padParams_zero hM (Finset.mem_range.mp hc) hk fun r hr he => ?_
      refine hn r (Finset.mem_range.mpr hr) ?_ he
      rw [← padParams_entry hs hM hr hk, he]
      exact hne
    rw [this, mul_zero]
  · intro c hc _
    rw [padParams_entry hs hM (Finset.mem_range.mp hc) hk]

/-- The operator on the selected parameters is the restriction: its products are the selected parts of the products of the
operator on all parameters with zeros for the other parameters. -/
def IsRestriction (shapes : List (List Nat)) (sel : List Nat) (op op' : LinOp α) : Prop :=
  ∀ K M, HasShapes M (selShapes shapes sel) K →
    ∃ Y, (op.matmat (padParams shapes sel K M)).1 = .ok Y ∧ HasShapes Y shapes K ∧ (op'.matmat M).1 = .ok (pickParams sel Y)

/-- An operator whose matrix is the sub-matrix is the restriction. -/
theorem restriction_of_subMatrix (hs : Selects shapes sel) {op op' : LinOp α} {A A' : Mat α} (hin : op.inShape = shapes)
    (hout : op.outShape = shapes) (hin' : op'.inShape = selShapes shapes sel) (hout' : op'.outShape = selShapes shapes sel)
    (hop : Represents op A) (hop' : Represents op' A')
    (hA : ∀ r < total (selShapes shapes sel), ∀ c < total (selShapes shapes sel), A' r c = subMatrix shapes sel A r c) :
    IsRestriction shapes sel op op' := by
  intro K M hM
  obtain ⟨Y, y1, y2, y3⟩ := hop K (padParams shapes sel K M) (by rw [hin]; exact padParams_hasShapes hM)
  obtain ⟨Z, z1, z2, z3⟩ := hop' K M (by rw [hin']; exact hM)
  rw [hout] at y2
  rw [hout'] at z2
  have hrow : op.nrows = total shapes := by rw [LinOp.nrows, LinOp.outFlat, hout]; rfl
  have hcol : op.ncols = total shapes := by rw [LinOp.ncols, LinOp.inFlat, hin]; rfl
  have hrow' : op'.nrows = total (selShapes shapes sel) := by rw [LinOp.nrows, LinOp.outFlat, hout']; rfl
  have hcol' : op'.ncols = total (selShapes shapes sel) := by rw [LinOp.ncols, LinOp.inFlat, hin']; rfl
  rw [hrow, hcol] at y3
  rw [hrow', hcol'] at z3
  refine ⟨Y, y1, y2, ?_⟩
  rw [z1]
  congr 1
  refine hasShapes_ext z2 (pickParams_hasShapes y2 hs) (isProduct_unique z3 ⟨?_, fun r hr k hk => ?_⟩)
  · exact (pickParams_hasShapes y2 hs).flatData_length
  · rw [pickParams_entry y2 hs hr hk, y3.2 _ (selIndex_lt hs hr) k hk, sum_padParams hs hM _ hk]
    exact Finset.sum_congr rfl fun c hc => by rw [hA r hr c (Finset.mem_range.mp hc)]; rfl

end generic


/-! ## Model functions of the selected parameters -/

section net

variable {P P' O : Nat} {σ : Fin P' → Fin P}

theorem embedParams_apply (hσ : Function.Injective σ) (θ : Fin P → ℝ) (θ' : Fin P' → ℝ) (r : Fin P') :
    embedParams σ θ θ' (σ r) = θ' r := by
  have h : ∃ r', σ r' = σ r := ⟨r, rfl⟩
  unfold embedParams
  rw [dif_pos h]
  exact congrArg θ' (hσ h.choose_spec)

theorem embedParams_other {θ : Fin P → ℝ} {θ' : Fin P' → ℝ} {i : Fin P} (h : ∀ r, σ r ≠ i) : embedParams σ θ θ' i = θ i := by
  unfold embedParams
  rw [dif_neg (by rintro ⟨r, hr⟩; exact h r hr)]

theorem embedParams_self (hσ : Function.Injective σ) (θ : Fin P → ℝ) : embedParams σ θ (fun r => θ (σ r)) = θ := by
  funext i
  by_cases h : ∃ r, σ r = i
  · obtain ⟨r, rfl⟩ := h
    exact embedParams_apply hσ θ _ r
  · exact embedParams_other fun r hr => h ⟨r, hr⟩

theorem embedParams_update (hσ : Function.Injective σ) (θ : Fin P → ℝ) (θ' : Fin P' → ℝ) (r : Fin P') (t : ℝ) :
    embedParams σ θ (Function.update θ' r t) = Function.update (embedParams σ θ θ') (σ r) t := by
  funext i
  by_cases h : ∃ r', σ r' = i
  · obtain ⟨r', rfl⟩ := h
    rw [embedParams_apply hσ]
    by_cases e : r' = r
    · subst e; simp
    · rw [Function.update_of_ne e, Function.update_of_ne (fun h => e (hσ h)), embedParams_apply hσ]
  · rw [embedParams_other fun r hr => h ⟨r, hr⟩, Function.update_of_ne (fun e => h ⟨r, e.symm⟩),
      embedParams_other fun r hr => h ⟨r, hr⟩]

theorem pderiv_embed (hσ : Function.Injective σ) (F : (Fin P → ℝ) → ℝ) (θ : Fin P → ℝ) (θ' : Fin P' → ℝ) (r : Fin P') :
    pderiv (fun y => F (embedParams σ θ y)) r θ' = pderiv F (σ r) (embedParams σ θ θ') := by
  unfold pderiv
  simp only [embedParams_update hσ, embedParams_apply hσ]

/-- The Hessian in the selected parameters is the sub-matrix; no smoothness is needed. -/
theorem hess_embed (hσ : Function.Injective σ) (F : (Fin P → ℝ) → ℝ) (θ : Fin P → ℝ) (θ' : Fin P' → ℝ) (r c : Fin P') :
    hess (fun y => F (embedParams σ θ y)) θ' r c = hess F (embedParams σ θ θ') (σ r) (σ c) := by
  unfold hess
  simp only [pderiv_embed hσ]

theorem contDiff_embed {n : WithTop ℕ∞} (θ : Fin P → ℝ) : ContDiff ℝ n (embedParams σ θ) := by
  refine contDiff_pi.mpr fun i => ?_
  unfold embedParams
  by_cases h : ∃ r, σ r = i
  · simp only [dif_pos h]
    exact contDiff_apply ℝ ℝ h.choose
  · simp only [dif_neg h]
    exact contDiff_const

end net

/-! ## Curvature matrices -/

section curvature

variable {shapes : List (List Nat)} {sel : List Nat} {O : Nat}

/-- The map of coordinates. -/
def selFin (hs : Selects shapes sel) (r : Fin (total (selShapes shapes sel))) : Fin (total shapes) :=
  ⟨selIndex shapes sel r, selIndex_lt hs r.2⟩

theorem selFin_injective (hs : Selects shapes sel) : Function.Injective (selFin hs) := fun r c h =>
  Fin.ext (selIndex_injOn hs r.2 c.2 (congrArg Fin.val h))

theorem selShapes_ne (hne : sel ≠ []) : selShapes shapes sel ≠ [] := by
  simpa [selShapes] using hne

theorem natMat_embed (hs : Selects shapes sel) (F : (Fin (total shapes) → ℝ) → ℝ) (θ : Fin (total shapes) → ℝ)
    (G : (Fin (total (selShapes shapes sel)) → ℝ) → ℝ) (hG : ∀ y, G y = F (embedParams (selFin hs) θ y)) (r c : Nat)
    (hr : r < total (selShapes shapes sel)) (hc : c < total (selShapes shapes sel)) :
    natMat (hess G fun r => θ (selFin hs r)) r c = subMatrix shapes sel (natMat (hess F θ)) r c := by
  have e : G = fun y => F (embedParams (selFin hs) θ y) := funext hG
  unfold subMatrix natMat
  rw [dif_pos ⟨hr, hc⟩, dif_pos ⟨selIndex_lt hs hr, selIndex_lt hs hc⟩, e, hess_embed (selFin_injective hs),
    embedParams_self (selFin_injective hs)]
  rfl

theorem netLoss_select {P P' : Nat} (σ : Fin P' → Fin P) (red : Reduction) (θ : Fin P → ℝ) (ds : List (NetDatum P O)) (y : Fin P' → ℝ) :
    netLoss red (ds.map (NetDatum.select σ θ)) y = netLoss red ds (embedParams σ θ y) := by
  unfold netLoss
  rw [List.length_map, List.map_map]
  rfl

theorem flatten_map_map {β γ : Type _} (f : β → γ) (l : List (List β)) : (l.map (List.map f)).flatten = l.flatten.map f := by
  rw [List.map_flatten]

/-- **C87** (Hessian): the operator on a non-empty selection of the parameters is the restriction of the operator on all
parameters. -/
theorem hessianOp_selection (hs : Selects shapes sel) (hne : sel ≠ []) (red : Reduction) (hred : red = .mean ∨ red = .sum)
    (θ : Fin (total shapes) → ℝ) (batches : List (List (NetDatum (total shapes) O))) (hb : ∀ b ∈ batches, b ≠ [])
    (hdiff : ∀ d ∈ batches.flatten, ContDiffAt ℝ 2 (fun θ => d.loss (d.f θ)) θ) :
    IsRestriction shapes sel
      (curvatureOp shapes red (inferNData List.length batches none) List.length
        (netHessianBatch shapes [(shapes.length : Int)] red θ) batches)
      (curvatureOp (selShapes shapes sel) red
        (inferNData List.length (batches.map (List.map (NetDatum.select (selFin hs) θ))) none) List.length
        (netHessianBatch (selShapes shapes sel) [((selShapes shapes sel).length : Int)] red fun r => θ (selFin hs r))
        (batches.map (List.map (NetDatum.select (selFin hs) θ)))) := by
  have hshapes : shapes ≠ [] := by
    rintro rfl
    obtain ⟨p, hp⟩ := List.exists_mem_of_ne_nil sel hne
    simpa using hs.lt p hp
  refine restriction_of_subMatrix hs rfl rfl rfl rfl
    (netHessianOp_represents shapes rfl hshapes red hred θ batches hb hdiff).1
    (netHessianOp_represents (selShapes shapes sel) rfl (selShapes_ne hne) red hred _ _ (by
      intro b hb'
      obtain ⟨b', h', rfl⟩ := List.mem_map.mp hb'
      simpa using hb b' h') (by
      intro d hd
      rw [flatten_map_map] at hd
      obtain ⟨d', hd', rfl⟩ := List.mem_map.mp hd
      have h := hdiff d' hd'
      rw [← embedParams_self (selFin_injective hs) θ] at h
      exact h.comp _ (contDiff_embed θ).contDiffAt)).1 ?_
  intro r hr c hc
  refine natMat_embed hs _ θ _ (fun y => ?_) r c hr hc
  rw [empiricalRisk_eq, empiricalRisk_eq, flatten_map_map, netLoss_select]

theorem linearizedModel_select {P P' : Nat} {σ : Fin P' → Fin P} (hσ : Function.Injective σ) (θ : Fin P → ℝ)
    (d : NetDatum P O) (hf : DifferentiableAt ℝ d.f θ) :
    linearizedModel (fun r => θ (σ r)) (d.select σ θ) = (linearizedModel θ d).select σ θ := by
  have hf' : DifferentiableAt ℝ d.f (embedParams σ θ fun r => θ (σ r)) := by rw [embedParams_self hσ]; exact hf
  have he : ∀ y, HasFDerivAt (embedParams σ θ)
      (ContinuousLinearMap.pi fun i => open Classical in if h : ∃ r, σ r = i then ContinuousLinearMap.proj h.choose else 0 :
        (Fin P' → ℝ) →L[ℝ] (Fin P → ℝ)) y := by
    intro y
    refine hasFDerivAt_pi.mpr fun i => ?_
    unfold embedParams
    by_cases h : ∃ r, σ r = i
    · simp only [dif_pos h]
      exact hasFDerivAt_apply _ _
    · simp only [dif_neg h]
      exact hasFDerivAt_const _ _
  unfold linearizedModel NetDatum.select
  congr 1
  funext y
  have hc := (hf'.hasFDerivAt.comp _ (he fun r => θ (σ r))).fderiv
  have hc' : fderiv ℝ (fun θ' => d.f (embedParams σ θ θ')) (fun r => θ (σ r)) = _ := hc
  simp only [hc', embedParams_self hσ]
  congr 1
  rw [ContinuousLinearMap.comp_apply]
  congr 1
  funext i
  simp only [ContinuousLinearMap.pi_apply, Pi.sub_apply]
  unfold embedParams
  by_cases h : ∃ r, σ r = i
  · simp only [dif_pos h, ContinuousLinearMap.proj_apply, Pi.sub_apply]
    rw [h.choose_spec]
  · simp only [dif_neg h]
    simp

/-- **C87** (GGN): likewise for every differentiable model and twice continuously differentiable loss. -/
theorem ggnOp_selection (hs : Selects shapes sel) (hne : sel ≠ []) (red : Reduction) (hred : red = .mean ∨ red = .sum)
    (θ : Fin (total shapes) → ℝ) (batches : List (List (NetDatum (total shapes) O))) (hb : ∀ b ∈ batches, b ≠ [])
    (hf : ∀ d ∈ batches.flatten, DifferentiableAt ℝ d.f θ) (hL : ∀ d ∈ batches.flatten, ContDiffAt ℝ 2 d.loss (d.f θ)) :
    IsRestriction shapes sel
      (curvatureOp shapes red (inferNData List.length batches none) List.length (netGGNBatch shapes red θ) batches)
      (curvatureOp (selShapes shapes sel) red
        (inferNData List.length (batches.map (List.map (NetDatum.select (selFin hs) θ))) none) List.length
        (netGGNBatch (selShapes shapes sel) red fun r => θ (selFin hs r))
        (batches.map (List.map (NetDatum.select (selFin hs) θ)))) := by
  have hshapes : shapes ≠ [] := by
    rintro rfl
    obtain ⟨p, hp⟩ := List.exists_mem_of_ne_nil sel hne
    simpa using hs.lt p hp
  have hσ := selFin_injective hs
  refine restriction_of_subMatrix hs rfl rfl rfl rfl
    (ggnOp_eq_functorch shapes rfl hshapes red hred θ batches hb hf hL)
    (ggnOp_eq_functorch (selShapes shapes sel) rfl (selShapes_ne hne) red hred _ _ (by
      intro b hb'
      obtain ⟨b', h', rfl⟩ := List.mem_map.mp hb'
      simpa using hb b' h') (by
      intro d hd
      rw [flatten_map_map] at hd
      obtain ⟨d', hd', rfl⟩ := List.mem_map.mp hd
      have h := hf d' hd'
      rw [← embedParams_self hσ θ] at h
      exact h.comp _ ((contDiff_embed (n := 1) θ).differentiable (by norm_num) _)) (by
      intro d hd
      rw [flatten_map_map] at hd
      obtain ⟨d', hd', rfl⟩ := List.mem_map.mp hd
      have h := hL d' hd'
      rw [← embedParams_self hσ θ] at h
      exact h)) ?_
  intro r hr c hc
  unfold functorchGGN
  refine natMat_embed hs _ θ _ (fun y => ?_) r c hr hc
  rw [flatten_map_map, ← netLoss_select, List.map_map, List.map_map]
  congr 1
  refine List.map_congr_left fun d hd => ?_
  exact linearizedModel_select hσ θ d (hf d hd)

end curvature


/-! ## Supported losses -/

section losses

variable {k : LossKind} {C : Nat} {shapes : List (List Nat)} {sel : List Nat}

/-- The data, with Jacobians in the selected parameters. -/
def selectData (shapes : List (List Nat)) (sel : List Nat) (b : List (List (Term k C))) : List (List (Term k C)) :=
  b.map (List.map (Term.select (selIndex shapes sel)))

theorem selectData_flatten (b : List (List (Term k C))) :
    (selectData shapes sel b).flatten = b.flatten.map (Term.select (selIndex shapes sel)) := flatten_map_map _ _

theorem selectData_batches (batches : List (List (List (Term k C)))) :
    (batches.map (selectData shapes sel)).flatten = selectData shapes sel batches.flatten := flatten_map_map _ _

theorem shapes_ne_of_sel (hs : Selects shapes sel) (hne : sel ≠ []) : shapes ≠ [] := by
  rintro rfl
  obtain ⟨p, hp⟩ := List.exists_mem_of_ne_nil sel hne
  simpa using hs.lt p hp

theorem riskMatrix_select (red : Reduction) (mean : Bool) (T : Nat) (H : Term k C → Fin C → Fin C → ℝ)
    (hH : ∀ t σ, H (Term.select σ t) = H t) (ds : List (List (Term k C))) (r c : Nat) :
    riskMatrix red (datumMatrix mean T H) (selectData shapes sel ds) r c =
      subMatrix shapes sel (riskMatrix red (datumMatrix mean T H) ds) r c := by
  unfold subMatrix riskMatrix selectData
  rw [List.length_map, List.map_map]
  congr 2
  refine List.map_congr_left fun d _ => ?_
  simp only [Function.comp_apply, datumMatrix, List.map_map]
  congr 2
  refine List.map_congr_left fun t _ => ?_
  simp only [Function.comp_apply, termSandwich, hH]
  rfl

theorem batches_ne {batches : List (List (List (Term k C)))} (hb : ∀ b ∈ batches, b ≠ []) :
    ∀ b ∈ batches.map (selectData shapes sel), b ≠ [] := by
  intro b hb'
  obtain ⟨b', h', rfl⟩ := List.mem_map.mp hb'
  simpa [selectData] using hb b' h'

theorem batches_T {T : Nat} {batches : List (List (List (Term k C)))} (hT : ∀ b ∈ batches, ∀ d ∈ b, d.length = T) :
    ∀ b ∈ batches.map (selectData shapes sel), ∀ d ∈ b, d.length = T := by
  intro b hb' d hd
  obtain ⟨b', h', rfl⟩ := List.mem_map.mp hb'
  obtain ⟨d', hd', rfl⟩ := List.mem_map.mp hd
  rw [List.length_map]
  exact hT b' h' d' hd'

/-- **C87** (GGN and empirical Fisher with the supported losses). -/
theorem lossOps_selection (hs : Selects shapes sel) (hne : sel ≠ []) (mean : Bool) (T : Nat)
    (batches : List (List (List (Term k C)))) (hb : ∀ b ∈ batches, b ≠ []) (hT : ∀ b ∈ batches, ∀ d ∈ b, d.length = T) :
    IsRestriction shapes sel
      (curvatureOp shapes (redOf mean) (inferNData List.length batches none) List.length
        (fun b => ggnLossBatch shapes mean b.flatten) batches)
      (curvatureOp (selShapes shapes sel) (redOf mean)
        (inferNData List.length (batches.map (selectData shapes sel)) none) List.length
        (fun b => ggnLossBatch (selShapes shapes sel) mean b.flatten) (batches.map (selectData shapes sel))) ∧
    IsRestriction shapes sel
      (curvatureOp shapes (redOf mean) (inferNData List.length batches none) List.length
        (fun b => efBatch shapes mean b.flatten) batches)
      (curvatureOp (selShapes shapes sel) (redOf mean)
        (inferNData List.length (batches.map (selectData shapes sel)) none) List.length
        (fun b => efBatch (selShapes shapes sel) mean b.flatten) (batches.map (selectData shapes sel))) := by
  have hshapes := shapes_ne_of_sel hs hne
  refine ⟨restriction_of_subMatrix hs rfl rfl rfl rfl (ggnLossOp_represents shapes hshapes mean T batches hb hT)
      (ggnLossOp_represents _ (selShapes_ne hne) mean T _ (batches_ne hb) (batches_T hT)) ?_,
    restriction_of_subMatrix hs rfl rfl rfl rfl (efOp_represents shapes hshapes mean T batches hb hT)
      (efOp_represents _ (selShapes_ne hne) mean T _ (batches_ne hb) (batches_T hT)) ?_⟩
  · intro r _ c _
    rw [selectData_batches]
    exact riskMatrix_select _ mean T _ (fun t σ => rfl) _ r c
  · intro r _ c _
    rw [selectData_batches]
    exact riskMatrix_select _ mean T _ (fun t σ => rfl) _ r c

/-- **C87** (gradient): loss and gradient; the gradient has the selected entries. -/
theorem gradient_selection (hs : Selects shapes sel) (mean : Bool) (T : Nat)
    (batches : List (List (List (Term k C)))) (hb : ∀ b ∈ batches, b ≠ []) (hT : ∀ b ∈ batches, ∀ d ∈ b, d.length = T) :
    ∃ G G' L, gradientAndLoss shapes (redOf mean) (inferNData List.length batches none) List.length
        (some fun b => lossGradBatch shapes mean b.flatten) batches = .ok (G, L) ∧
      gradientAndLoss (selShapes shapes sel) (redOf mean) (inferNData List.length (batches.map (selectData shapes sel)) none)
        List.length (some fun b => lossGradBatch (selShapes shapes sel) mean b.flatten)
        (batches.map (selectData shapes sel)) = .ok (G', L) ∧ HasVec G shapes ∧ HasVec G' (selShapes shapes sel) ∧
      ∀ r < total (selShapes shapes sel), (flatData G').getD r 0 = (flatData G).getD (selIndex shapes sel r) 0 := by
  obtain ⟨G, g1, g2, g3⟩ := gradientAndLoss_spec shapes (redOf mean) (redOf_cases mean)
    (fun d => termWeight k mean T C * (d.map fun t => termLoss k t.y t.f).sum)
    (fun d r => termWeight k mean T C * (d.map fun t => termGrad t r).sum)
    (fun b => lossGradBatch shapes mean b.flatten) batches hb
    (fun b hb => (lossGradBatch_spec shapes mean T b (hT b hb)).1)
    (fun b hb => (lossGradBatch_spec shapes mean T b (hT b hb)).2.1)
    (fun b hb => (lossGradBatch_spec shapes mean T b (hT b hb)).2.2)
  have hT' := batches_T (shapes := shapes) (sel := sel) hT
  obtain ⟨G', g1', g2', g3'⟩ := gradientAndLoss_spec (selShapes shapes sel) (redOf mean) (redOf_cases mean)
    (fun d => termWeight k mean T C * (d.map fun t => termLoss k t.y t.f).sum)
    (fun d r => termWeight k mean T C * (d.map fun t => termGrad t r).sum)
    (fun b => lossGradBatch (selShapes shapes sel) mean b.flatten) (batches.map (selectData shapes sel)) (batches_ne hb)
    (fun b hb => (lossGradBatch_spec (selShapes shapes sel) mean T b (hT' b hb)).1)
    (fun b hb => (lossGradBatch_spec (selShapes shapes sel) mean T b (hT' b hb)).2.1)
    (fun b hb => (lossGradBatch_spec (selShapes shapes sel) mean T b (hT' b hb)).2.2)
  refine ⟨G, G', _, g1, ?_, g2, g2', fun r hr => ?_⟩
  · rw [g1', selectData_batches]
    unfold riskValue selectData
    rw [List.length_map, List.map_map]
    congr 4
    refine List.map_congr_left fun d _ => ?_
    simp only [Function.comp_apply, List.map_map]
    rfl
  · rw [g3' r hr, g3 _ (selIndex_lt hs hr), selectData_batches]
    unfold riskValue selectData
    rw [List.length_map, List.map_map]
    congr 2
    refine List.map_congr_left fun d _ => ?_
    simp only [Function.comp_apply, List.map_map]
    rfl

/-- The samples depend on the predictions only (`fisher.py:300-330`). -/
def Rng.OfPredictions (rng : Rng k C) : Prop :=
  ∀ (g : rng.G) (S : Nat) (ts ts' : List (Term k C)), ts.map Term.f = ts'.map Term.f →
    (∀ s (m : Fin ts.length) (m' : Fin ts'.length), m.val = m'.val → (rng.draw g S ts).1 s m = (rng.draw g S ts').1 s m') ∧
      (rng.draw g S ts).2 = (rng.draw g S ts').2

theorem drawAll_select {rng : Rng k C} (hrng : rng.OfPredictions) (S : Nat) (r c : Nat) :
    ∀ (bs : List (List (List (Term k C)))) (g : rng.G),
    ((drawAll rng S (bs.map (selectData shapes sel)) g).map fun lb => ∑ m : Fin lb.data.flatten.length,
      termSandwich lb.data.flatten[m] (sampleOuter lb.data.flatten[m].f fun s => lb.draws s m) r c) =
    (drawAll rng S bs g).map fun lb => ∑ m : Fin lb.data.flatten.length,
      termSandwich lb.data.flatten[m] (sampleOuter lb.data.flatten[m].f fun s => lb.draws s m)
        (selIndex shapes sel r) (selIndex shapes sel c)
  | [], _ => rfl
  | b :: bs, g => by
    have hf : (selectData shapes sel b).flatten.map Term.f = b.flatten.map Term.f := by
      rw [selectData_flatten, List.map_map]
      rfl
    have hl : (selectData shapes sel b).flatten.length = b.flatten.length := by
      rw [selectData_flatten, List.length_map]
    obtain ⟨h1, h2⟩ := hrng g S _ _ hf
    simp only [List.map_cons, drawAll]
    rw [drawAll_select hrng S r c bs, h2]
    congr 1
    refine Fintype.sum_equiv (finCongr hl) _ _ fun m => ?_
    have hterm : (selectData shapes sel b).flatten[m] = Term.select (selIndex shapes sel) b.flatten[finCongr hl m] := by
      have := congrArg (fun l => l[m.val]?) (selectData_flatten (shapes := shapes) (sel := sel) b)
      simp only [List.getElem?_map, List.getElem?_eq_getElem m.2, List.getElem?_eq_getElem (hl ▸ m.2 : m.val < b.flatten.length),
        Option.map_some, Option.some.injEq] at this
      exact this
    have hd : (fun s => (rng.draw g S (selectData shapes sel b).flatten).1 s m) =
        fun s => (rng.draw g S b.flatten).1 s (finCongr hl m) := by
      funext s
      exact h1 s m _ rfl
    rw [hd, hterm]
    rfl

/-- **C87** (Monte-Carlo Fisher): with the same seed, the same labels are drawn for every selection. -/
theorem mcOp_selection (rng : Rng k C) (hrng : rng.OfPredictions) (cfg : McConfig k C) (hS : cfg.mcSamples ≠ 0) (hs : Selects cfg.shapes sel)
    (hne : sel ≠ []) (T : Nat) (hb : ∀ b ∈ cfg.data, b ≠ []) (hT : ∀ b ∈ cfg.data, ∀ d ∈ b, d.length = T)
    (hbin : ∀ b ∈ cfg.data, BinaryTargets k b.flatten) (hN : cfg.nData = cfg.data.flatten.length) (st st' : McState rng)
    (hdev : st.genDevice = st'.genDevice) :
    IsRestriction cfg.shapes sel (mcOp rng cfg st)
      (mcOp rng { cfg with shapes := selShapes cfg.shapes sel, data := cfg.data.map (selectData cfg.shapes sel) } st') := by
  refine restriction_of_subMatrix hs rfl rfl rfl rfl
    (mcOp_draws rng cfg hS (shapes_ne_of_sel hs hne) T hb hT hbin (nData_cases hb hN) st)
    (mcOp_draws rng { cfg with shapes := selShapes cfg.shapes sel, data := cfg.data.map (selectData cfg.shapes sel) } hS (selShapes_ne hne) T (batches_ne hb) (batches_T hT) ?_ ?_ st') ?_
  · intro b hb'
    obtain ⟨b', h', rfl⟩ := List.mem_map.mp hb'
    have h := hbin b' h'
    rw [selectData_flatten]
    cases k with
    | bce =>
      intro t ht c
      obtain ⟨t', ht', rfl⟩ := List.mem_map.mp ht
      exact h t' ht' c
    | mse => trivial
    | ce => trivial
  · rcases nData_cases hb hN with h | h
    · exact Or.inl h
    · exact Or.inr (by simp [h])
  · intro r _ c _
    unfold subMatrix mcMatrix
    simp only
    rw [drawAll_select hrng, hdev]

end losses

/-! ## Jacobians -/

section jacobian

variable {α : Type _} [NonUnitalNonAssocSemiring α] {shapes : List (List Nat)} {sel : List Nat}

/-- The Jacobians of the data in the selected parameters. -/
def selectRows (shapes : List (List Nat)) (sel : List Nat) (b : List (Mat α)) : List (Mat α) :=
  b.map fun J i r => J i (selIndex shapes sel r)

theorem rowsOf_select (S : Nat) (b : List (Mat α)) (r c : Nat) :
    rowsOf S (selectRows shapes sel b) r c = rowsOf S b r (selIndex shapes sel c) := by
  unfold rowsOf selectRows
  rw [List.getElem?_map]
  cases b[r / S]? <;> rfl

omit [NonUnitalNonAssocSemiring α] in
theorem selectRows_flatten (b : List (Mat α)) (bs : List (List (Mat α))) :
    (selectRows shapes sel b :: bs.map (selectRows shapes sel)).flatten = selectRows shapes sel (b :: bs).flatten := by
  rw [← List.map_cons (f := selectRows shapes sel)]
  exact flatten_map_map _ _

/-- **C87** (Jacobian): products are those with zeros for the other parameters. -/
theorem jacobianOp_selection (hs : Selects shapes sel) (hne : sel ≠ []) (S : List Nat) (b : List (Mat α))
    (bs : List (List (Mat α))) (K : Nat) (hK : 1 ≤ K) (M : List (Tensor α)) (hM : HasShapes M (selShapes shapes sel) K) :
    ∃ Y, ((jacobianOp (selShapes shapes sel) (b :: bs).flatten.length (jacBatch S (selectRows shapes sel b))
        ((bs.map (selectRows shapes sel)).map (jacBatch S))).matmat M).1 = .ok Y ∧
      ((jacobianOp shapes (b :: bs).flatten.length (jacBatch S b) (bs.map (jacBatch S))).matmat
        (padParams shapes sel K M)).1 = .ok Y := by
  obtain ⟨Y, y1, y2, y3⟩ := jacobianOp_rows shapes (shapes_ne_of_sel hs hne) S b bs K hK
    (padParams shapes sel K M) (padParams_hasShapes hM)
  obtain ⟨Z, z1, z2, z3⟩ := jacobianOp_rows (selShapes shapes sel) (selShapes_ne hne) S (selectRows shapes sel b)
    (bs.map (selectRows shapes sel)) K hK M hM
  have hlen : (selectRows shapes sel b :: bs.map (selectRows shapes sel)).flatten.length = (b :: bs).flatten.length := by
    rw [selectRows_flatten, selectRows, List.length_map]
  rw [hlen] at z1 z2 z3
  refine ⟨Z, z1, ?_⟩
  rw [y1]
  congr 1
  refine hasShapes_ext y2 z2 (isProduct_unique (A := rowsOf S.prod (b :: bs).flatten) y3 ⟨z3.1, fun r hr k hk => ?_⟩)
  rw [z3.2 r hr k hk]
  refine Eq.trans ?_ (sum_padParams hs hM _ hk).symm
  refine Finset.sum_congr rfl fun c _ => ?_
  rw [selectRows_flatten, rowsOf_select]

/-- **C87** (transposed Jacobian): products are the selected parts. -/
theorem transposedJacobianOp_selection (hs : Selects shapes sel) (S : List Nat) (b : List (Mat α))
    (bs : List (List (Mat α))) (K : Nat) (M : List (Tensor α)) (hM : HasShapes M [(b :: bs).flatten.length :: S] K) :
    ∃ Y, ((transposedJacobianOp shapes (b :: bs).flatten.length (jacBatch S b) (bs.map (jacBatch S))).matmat M).1 = .ok Y ∧
      ((transposedJacobianOp (selShapes shapes sel) (b :: bs).flatten.length (jacBatch S (selectRows shapes sel b))
        ((bs.map (selectRows shapes sel)).map (jacBatch S))).matmat M).1 = .ok (pickParams sel Y) := by
  have hlen : (selectRows shapes sel b :: bs.map (selectRows shapes sel)).flatten.length = (b :: bs).flatten.length := by
    rw [selectRows_flatten, selectRows, List.length_map]
  obtain ⟨Y, y1, y2, y3⟩ := transposedJacobianOp_rows shapes S b bs K M hM
  obtain ⟨Z, z1, z2, z3⟩ := transposedJacobianOp_rows (selShapes shapes sel) S (selectRows shapes sel b)
    (bs.map (selectRows shapes sel)) K M (by rw [hlen]; exact hM)
  rw [hlen] at z1 z2 z3
  have y2 : HasShapes Y shapes K := y2
  refine ⟨Y, y1, ?_⟩
  rw [z1]
  congr 1
  refine hasShapes_ext z2 (pickParams_hasShapes y2 hs) (isProduct_unique z3
    ⟨(pickParams_hasShapes y2 hs).flatData_length, fun r hr k hk => ?_⟩)
  rw [pickParams_entry y2 hs hr hk, y3.2 _ (selIndex_lt hs hr) k hk]
  refine Finset.sum_congr rfl fun c _ => ?_
  dsimp only
  rw [selectRows_flatten, rowsOf_select]

end jacobian

/-! ## Examples -/

theorem twoParams_selects : Selects [[1], [2]] [1] := ⟨by simp, by simp⟩

/-- The model `θ₀ (θ₁ + θ₂²)` with parameters of shapes `(1,)` and `(2,)`, and the loss `f²`. -/
noncomputable def selNet : NetDatum (total [[1], [2]]) 1 :=
  ⟨fun θ _ => θ ⟨0, by simp [total]⟩ * (θ ⟨1, by simp [total]⟩ + θ ⟨2, by simp [total]⟩ ^ 2), fun f => f 0 ^ 2⟩

/-- The Hessian in the second parameter is the restriction of the Hessian in both. -/
example (θ : Fin (total [[1], [2]]) → ℝ) :
    IsRestriction [[1], [2]] [1]
      (curvatureOp [[1], [2]] .sum (inferNData List.length [[selNet]] none) List.length
        (netHessianBatch [[1], [2]] [2] .sum θ) [[selNet]])
      (curvatureOp [[2]] .sum (inferNData List.length [[selNet.select (selFin twoParams_selects) θ]] none) List.length
        (netHessianBatch [[2]] [1] .sum fun r => θ (selFin twoParams_selects r)) [[selNet.select (selFin twoParams_selects) θ]]) :=
  hessianOp_selection twoParams_selects (by simp) .sum (Or.inr rfl) θ [[selNet]] (by simp) (by
    intro d hd
    simp only [List.flatten_cons, List.flatten_nil, List.append_nil, List.mem_singleton] at hd
    subst hd
    unfold selNet
    fun_prop)

/-- The positions of the second parameter's entries. -/
example : (List.range 2).map (selIndex [[1], [2]] [1]) = [1, 2] := by
  simp [selIndex, List.range, List.range.loop, offset]

/-- A selection in another order. -/
example : (List.range 3).map (selIndex [[1], [2]] [1, 0]) = [1, 2, 0] := by
  simp [selIndex, List.range, List.range.loop, offset]

/-- GGN and empirical Fisher in the second parameter. -/
example (t : Term .mse 1) :
    IsRestriction [[1], [2]] [1]
      (curvatureOp [[1], [2]] (redOf true) (inferNData List.length [[[t]]] none) List.length
        (fun b => ggnLossBatch [[1], [2]] true b.flatten) [[[t]]])
      (curvatureOp [[2]] (redOf true) (inferNData List.length [[[t.select (selIndex [[1], [2]] [1])]]] none) List.length
        (fun b => ggnLossBatch [[2]] true b.flatten) [[[t.select (selIndex [[1], [2]] [1])]]]) :=
  (lossOps_selection twoParams_selects (by simp) true 1 [[[t]]] (by simp) (by simp)).1

end Curvlinops
