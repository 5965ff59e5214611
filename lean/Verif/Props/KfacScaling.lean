import Verif.Props.Scaling
import Verif.Props.KfacSelection
import Verif.Model.LossSqrt

/-!
# C88: how KFAC depends on the reduction, on `num_data`, and on repeated data
-/

namespace Curvlinops

/-- All products of `op'` are those of `op`, with row `r` multiplied by `w r`. -/
def IsRowScaled {α : Type _} [Zero α] [Mul α] (w : Nat → α) (op op' : LinOp α) : Prop :=
  ∀ K M, HasShapes M op.inShape K → ∃ Y Y', (op.matmat M).1 = .ok Y ∧ (op'.matmat M).1 = .ok Y' ∧ HasShapes Y op.outShape K ∧
    HasShapes Y' op.outShape K ∧ ∀ r < op.nrows, ∀ k < K, (flatData Y').getD (r * K + k) 0 = w r * (flatData Y).getD (r * K + k) 0

theorem isRowScaled_of_represents {α : Type _} [CommSemiring α] {w : Nat → α} {op op' : LinOp α} {A A' : Mat α}
    (hin : op'.inShape = op.inShape) (hout : op'.outShape = op.outShape) (h : Represents op A) (h' : Represents op' A')
    (hA : ∀ r < op.nrows, ∀ j < op.ncols, A' r j = w r * A r j) : IsRowScaled w op op' := by
  intro K M hM
  obtain ⟨Y, y1, y2, y3⟩ := h K M hM
  obtain ⟨Z, z1, z2, z3⟩ := h' K M (hin ▸ hM)
  rw [hout] at z2
  have hn : op'.nrows = op.nrows := by simp only [LinOp.nrows, LinOp.outFlat, hout]
  have hc : op'.ncols = op.ncols := by simp only [LinOp.ncols, LinOp.inFlat, hin]
  rw [hn, hc] at z3
  refine ⟨Y, Z, y1, z1, y2, z2, fun r hr k hk => ?_⟩
  rw [z3.2 r hr k hk, y3.2 r hr k hk, Finset.mul_sum]
  exact Finset.sum_congr rfl fun j hj => by rw [hA r hr j (Finset.mem_range.mp hj), mul_assoc]

/-- Blocks whose entries are those of other blocks, times a weight of the row. -/
theorem isKron_scaled {α : Type _} [CommSemiring α] {w : Nat → α} {bs bs' : List (KBlock α)}
    (h : List.Forall₂ (fun b b' => b'.rows = b.rows ∧ b'.cols = b.cols ∧ b'.idx = b.idx ∧
      ∀ i i' j j', i < b.rows → j < b.cols → b'.B i i' * b'.A j' j = w (b.idx i j) * (b.B i i' * b.A j' j)) bs bs') {M : Mat α}
    (hM : IsKron bs M) : IsKron bs' fun r c => w r * M r c := by
  obtain ⟨hlen, hget⟩ := List.forall₂_iff_get.mp h
  rintro ⟨⟨a, ha⟩, ⟨i, hi⟩, ⟨j, hj⟩⟩ ⟨⟨a', ha'⟩, ⟨i', hi'⟩, ⟨j', hj'⟩⟩
  have hb := hget a (by omega) ha
  have hb' := hget a' (by omega) ha'
  simp only [List.get_eq_getElem] at hb hb'
  simp only [Fin.getElem_fin] at hi hj hi' hj'
  have key := hM ⟨⟨a, by omega⟩, ⟨i, by simpa [← hb.1] using hi⟩, ⟨j, by simpa [← hb.2.1] using hj⟩⟩
    ⟨⟨a', by omega⟩, ⟨i', by simpa [← hb'.1] using hi'⟩, ⟨j', by simpa [← hb'.2.1] using hj'⟩⟩
  simp only [KIdx.pos, KIdx.entry, Fin.getElem_fin, Fin.mk.injEq] at key ⊢
  rw [hb.2.2.1, hb'.2.2.1, key]
  by_cases he : a = a'
  · subst he
    simp only [if_true]
    rw [hb.2.2.2 i i' j j' (by rw [← hb.1]; exact hi) (by rw [← hb.2.1]; exact hj)]
  · simp [he]

variable {shapes : List (List Nat)} {layers : List PLayer} {cfg cfg' : KfacCfg}

/-- Coordinate with column `i` of a layer belongs to a bias that is treated separately from its weight. -/
def PLayer.sepBias (cfg : KfacCfg) (l : PLayer) (i : Nat) : Prop := i = l.din ∧ l.klayer.joint cfg = false

/-- If the input factors of two KFAC operators differ by `a` and their gradient factors by `g`, products differ by `a g`, and those for
separately treated biases by `g`. -/
theorem kfac_scaled (hnet : PNet shapes layers) (hsep : cfg'.sep = cfg.sep) (batches batches' : List (List KDatum))
    (hne : batches ≠ []) (hne' : batches' ≠ []) (hT : cfg.T ≠ 0) (hC : cfg.C ≠ 0) (hmc : cfg.mcSamples ≠ 0) (hT' : cfg'.T ≠ 0)
    (hC' : cfg'.C ≠ 0) (hmc' : cfg'.mcSamples ≠ 0) (a g : ℝ)
    (hA : ∀ l ∈ layers, ∀ i j, specInputFactor cfg' l.klayer batches'.flatten i j =
      a * specInputFactor cfg l.klayer batches.flatten i j)
    (hB : ∀ l ∈ layers, ∀ i j, specGradFactor cfg' l.klayer batches'.flatten i j =
      g * specGradFactor cfg l.klayer batches.flatten i j) (w : Nat → ℝ)
    (hw : ∀ l ∈ layers, ∀ o i p, l.Coord shapes o i p → (l.sepBias cfg i → w p = g) ∧ (¬ l.sepBias cfg i → w p = g * a)) :
    IsRowScaled w (pKfac cfg shapes layers batches) (pKfac cfg' shapes layers batches') := by
  have hkl := pnet_kfacLayers hnet batches hne hT hC hmc
  have hkl' := pnet_kfacLayers (cfg := cfg') hnet batches' hne' hT' hC' hmc'
  obtain ⟨⟨M, hM⟩, -⟩ := kfac_matrix_exists _ _ _ _ _ _ hkl
  refine isRowScaled_of_represents rfl rfl (kfac_represents _ _ _ _ _ _ hkl M hM)
    (kfac_represents _ _ _ _ _ _ hkl' (fun r c => w r * M r c) ?_) fun _ _ _ _ => rfl
  refine isKron_scaled ?_ hM
  have hj : ∀ l : PLayer, l.klayer.joint cfg' = l.klayer.joint cfg := by
    intro l
    simp only [KLayer.joint, hsep]
  have hfits := hnet.fits
  clear hM hkl hkl' hnet
  unfold kfacBlocks
  rw [hsep]
  induction layers with
  | nil => exact List.Forall₂.nil
  | cons l ls ih =>
    rw [List.map_cons, List.map_cons, List.flatMap_cons, List.flatMap_cons]
    refine List.rel_append ?_ (ih (fun l hl => hA l (by simp [hl])) (fun l hl => hB l (by simp [hl]))
      (fun l hl => hw l (by simp [hl])) (fun l hl => hfits l (by simp [hl])))
    have hw' := hw l (by simp)
    have hA' := hA l (by simp)
    have hB' := hB l (by simp)
    have hf := hfits l (by simp)
    unfold PLayer.Fits at hf
    unfold PLayer.Coord at hw'
    unfold Layer.blocks
    cases hp : l.pos with
    | both wi b =>
      rw [hp] at hf hw'
      simp only [PLayer.layer, hp] at hw' ⊢
      have hjt : l.klayer.joint cfg = !cfg.sep := by
        simp [KLayer.joint, PLayer.klayer, hp, LayerPos.dict, Dict.has]
      by_cases hs : cfg.sep = true
      · simp only [hs, if_true]
        refine .cons ⟨rfl, rfl, rfl, fun i i' j j' hi hj => ?_⟩ (.cons ⟨rfl, rfl, rfl, fun i i' j j' hi hj => ?_⟩ .nil)
        · simp only [Layer.wBlock] at hi hj ⊢
          rw [hf.2.2.1] at hj ⊢
          rw [(hw' i j _ ⟨hi, Or.inl ⟨hj, rfl⟩⟩).2 (by unfold PLayer.sepBias; omega), hA', hB']
          ring
        · simp only [Layer.bBlock] at hi hj ⊢
          rw [(hw' i l.din _ ⟨hi, Or.inr ⟨rfl, rfl⟩⟩).1 ⟨rfl, by simp [hjt, hs]⟩, hB']
          ring
      · have hs' : cfg.sep = false := by simpa using hs
        simp only [hs', Bool.false_eq_true, if_false]
        refine .cons ⟨rfl, rfl, rfl, fun i i' j j' hi hj => ?_⟩ .nil
        simp only [Layer.jBlock] at hi hj ⊢
        rw [hf.2.2.1] at hj ⊢
        have hn : ∀ i, ¬ l.sepBias cfg i := by
          intro i h
          have := h.2
          simp [hjt, hs'] at this
        by_cases hlt : j < l.din
        · rw [if_pos hlt, (hw' i j _ ⟨hi, Or.inl ⟨hlt, rfl⟩⟩).2 (hn _), hA', hB']
          ring
        · rw [if_neg hlt, (hw' i l.din _ ⟨hi, Or.inr ⟨rfl, rfl⟩⟩).2 (hn _), hA', hB']
          ring
    | weight wi =>
      rw [hp] at hf hw'
      simp only [PLayer.layer, hp] at hw' ⊢
      refine .cons ⟨rfl, rfl, rfl, fun i i' j j' hi hj => ?_⟩ .nil
      simp only [Layer.wBlock] at hi hj ⊢
      rw [hf.2.2] at hj ⊢
      rw [(hw' i j _ ⟨hi, hj, rfl⟩).2 (by unfold PLayer.sepBias; omega), hA', hB']
      ring
    | bias b =>
      rw [hp] at hf hw'
      simp only [PLayer.layer, hp] at hw' ⊢
      refine .cons ⟨rfl, rfl, rfl, fun i i' j j' hi hj => ?_⟩ .nil
      simp only [Layer.bBlock] at hi hj ⊢
      rw [(hw' i l.din _ ⟨hi, rfl, rfl⟩).1 ⟨rfl, by simp [KLayer.joint, PLayer.klayer, hp, LayerPos.dict, Dict.has]⟩, hB']
      ring

/-- If only the gradient factors differ, all products are scaled. -/
theorem kfac_grad_scaled (hnet : PNet shapes layers) (hsep : cfg'.sep = cfg.sep) (batches batches' : List (List KDatum))
    (hne : batches ≠ []) (hne' : batches' ≠ []) (hT : cfg.T ≠ 0) (hC : cfg.C ≠ 0) (hmc : cfg.mcSamples ≠ 0) (hT' : cfg'.T ≠ 0)
    (hC' : cfg'.C ≠ 0) (hmc' : cfg'.mcSamples ≠ 0) (g : ℝ)
    (hA : ∀ l ∈ layers, ∀ i j, specInputFactor cfg' l.klayer batches'.flatten i j =
      specInputFactor cfg l.klayer batches.flatten i j)
    (hB : ∀ l ∈ layers, ∀ i j, specGradFactor cfg' l.klayer batches'.flatten i j =
      g * specGradFactor cfg l.klayer batches.flatten i j) :
    IsRowScaled (fun _ => g) (pKfac cfg shapes layers batches) (pKfac cfg' shapes layers batches') :=
  kfac_scaled hnet hsep batches batches' hne hne' hT hC hmc hT' hC' hmc' 1 g (fun l hl i j => by rw [hA l hl, one_mul]) hB _
    fun _ _ _ _ _ _ => ⟨fun _ => rfl, fun _ => (mul_one g).symm⟩

/-- The gradient factor without its scale. -/
noncomputable def gradSum (cfg : KfacCfg) (l : KLayer) (data : List KDatum) : Mat ℝ := fun i j =>
  match cfg.approx with
  | .expand => (data.map fun d => ((specCotangents cfg d).map fun v =>
      ∑ s ∈ Finset.range l.S, specGradVec cfg l d v s i * specGradVec cfg l d v s j).sum).sum
  | .reduce => (data.map fun d => ((specCotangents cfg d).map fun v =>
      (∑ s ∈ Finset.range l.S, specGradVec cfg l d v s i) * ∑ s ∈ Finset.range l.S, specGradVec cfg l d v s j).sum).sum

theorem specGradFactor_eq (hf : cfg.fisher ≠ .forwardOnly) (l : KLayer) (data : List KDatum) (i j : Nat) :
    specGradFactor cfg l data i j = specGradScale cfg * gradSum cfg l data i j := by
  unfold specGradFactor gradSum
  cases h : cfg.fisher <;> cases ha : cfg.approx <;> simp_all

/-! ## `num_data` -/

/-- The input factor is proportional to `1 / num_data`; the gradient factor too, if the loss has reduction `mean` and the Fisher type is
not `FORWARD_ONLY`. -/
theorem factors_num_data {N' : Nat} (hN : cfg.N ≠ 0) (hN' : N' ≠ 0) (l : KLayer) (data : List KDatum) (i j : Nat) :
    specInputFactor { cfg with N := N' } l data i j = ((cfg.N : ℝ) / N') * specInputFactor cfg l data i j ∧
    specGradFactor { cfg with N := N' } l data i j =
      (if cfg.mean = true ∧ cfg.fisher ≠ .forwardOnly then (cfg.N : ℝ) / N' else 1) * specGradFactor cfg l data i j := by
  have h1 : (cfg.N : ℝ) ≠ 0 := by exact_mod_cast hN
  have h2 : (N' : ℝ) ≠ 0 := by exact_mod_cast hN'
  have hg : specGradScale { cfg with N := N' } = (if cfg.mean = true then (cfg.N : ℝ) / N' else 1) * specGradScale cfg := by
    unfold specGradScale
    by_cases hm : cfg.mean = true
    · simp only [hm, if_true]
      generalize (if cfg.fisher = FisherType.type2 ∨ cfg.loss = LossKind.ce then (1 : ℝ) else 1 / (cfg.C : ℝ)) = x
      field_simp
    · simp [hm]
  constructor
  · unfold specInputFactor
    cases cfg.approx
    · simp only
      rw [← mul_assoc]
      congr 1
      field_simp
    · simp only
      rw [← mul_assoc]
      congr 1
      field_simp
  · by_cases hf : cfg.fisher = .forwardOnly
    · unfold specGradFactor
      simp [hf]
    · rw [specGradFactor_eq (cfg := { cfg with N := N' }) hf, specGradFactor_eq hf, hg, mul_assoc]
      simp only [hf, ne_eq, not_false_eq_true, and_true]
      rfl

/-- **C88** (KFAC, `num_data`): with `num_data = N'` instead of `N`, products are scaled by `(N / N')²` for reduction `mean` and by
`N / N'` for reduction `sum` and for `FORWARD_ONLY`, those for separately treated biases by one factor `N / N'` less. -/
theorem kfac_num_data (hnet : PNet shapes layers) (batches : List (List KDatum)) (hne : batches ≠ []) (hT : cfg.T ≠ 0)
    (hC : cfg.C ≠ 0) (hmc : cfg.mcSamples ≠ 0) (hN : cfg.N ≠ 0) {N' : Nat} (hN' : N' ≠ 0) (w : Nat → ℝ)
    (hw : ∀ l ∈ layers, ∀ o i p, l.Coord shapes o i p →
      (l.sepBias cfg i → w p = if cfg.mean = true ∧ cfg.fisher ≠ .forwardOnly then (cfg.N : ℝ) / N' else 1) ∧
      (¬ l.sepBias cfg i → w p = if cfg.mean = true ∧ cfg.fisher ≠ .forwardOnly then ((cfg.N : ℝ) / N') ^ 2 else
        (cfg.N : ℝ) / N')) :
    IsRowScaled w (pKfac cfg shapes layers batches) (pKfac { cfg with N := N' } shapes layers batches) := by
  refine kfac_scaled (cfg := cfg) (cfg' := { cfg with N := N' }) hnet rfl batches batches hne hne hT hC hmc hT hC hmc ((cfg.N : ℝ) / N')
    (if cfg.mean = true ∧ cfg.fisher ≠ .forwardOnly then (cfg.N : ℝ) / N' else 1)
    (fun l _ i j => (factors_num_data hN hN' l.klayer _ i j).1) (fun l _ i j => (factors_num_data hN hN' l.klayer _ i j).2) w ?_
  intro l hl o i p hc
  refine ⟨(hw l hl o i p hc).1, fun h => ?_⟩
  rw [(hw l hl o i p hc).2 h]
  split_ifs
  · ring
  · ring

/-! ## The reduction -/

/-- **C88** (KFAC, reduction): with gradients of the true or of drawn labels, KFAC with reduction `mean` is KFAC with reduction `sum`
divided by the number of loss terms, and for `MSELoss` and `BCEWithLogitsLoss` by the dimension of a term, as the operators. -/
theorem kfac_reduction (hnet : PNet shapes layers) (batches : List (List KDatum)) (hne : batches ≠ []) (hT : cfg.T ≠ 0)
    (hC : cfg.C ≠ 0) (hmc : cfg.mcSamples ≠ 0) (hf : cfg.fisher = .empirical ∨ cfg.fisher = .mc) :
    IsRowScaled (fun _ => if cfg.loss = .ce then 1 / ((cfg.N : ℝ) * cfg.T) else 1 / ((cfg.N : ℝ) * cfg.T * cfg.C))
      (pKfac { cfg with mean := false } shapes layers batches) (pKfac { cfg with mean := true } shapes layers batches) := by
  refine kfac_grad_scaled (cfg := { cfg with mean := false }) (cfg' := { cfg with mean := true }) hnet rfl batches batches hne hne hT hC hmc hT hC hmc _ (fun l _ i j => rfl) fun l _ i j => ?_
  have h2 : cfg.fisher ≠ .type2 := by rcases hf with h | h <;> simp [h]
  have hg : specGradScale { cfg with mean := true } =
      (if cfg.loss = .ce then 1 / ((cfg.N : ℝ) * cfg.T) else 1 / ((cfg.N : ℝ) * cfg.T * cfg.C)) *
        specGradScale { cfg with mean := false } := by
    unfold specGradScale
    simp only [h2, if_true, false_or, Bool.false_eq_true, if_false, mul_one]
    by_cases hk : cfg.loss = .ce
    · simp only [hk, if_true]; ring
    · simp only [hk, if_false]; ring
  have hfo : cfg.fisher ≠ .forwardOnly := by rcases hf with h | h <;> simp [h]
  rw [specGradFactor_eq (cfg := { cfg with mean := true }) hfo, specGradFactor_eq (cfg := { cfg with mean := false }) hfo, hg,
    mul_assoc]
  rfl

/-- **C88** (KFAC, reduction): `FORWARD_ONLY` does not depend on the reduction. -/
theorem kfac_reduction_forwardOnly (hnet : PNet shapes layers) (batches : List (List KDatum)) (hne : batches ≠ []) (hT : cfg.T ≠ 0)
    (hC : cfg.C ≠ 0) (hmc : cfg.mcSamples ≠ 0) (hf : cfg.fisher = .forwardOnly) :
    IsRowScaled (fun _ => 1)
      (pKfac { cfg with mean := false } shapes layers batches) (pKfac { cfg with mean := true } shapes layers batches) := by
  refine kfac_grad_scaled (cfg := { cfg with mean := false }) (cfg' := { cfg with mean := true }) hnet rfl batches batches hne hne hT hC hmc hT hC hmc _ (fun l _ i j => rfl) fun l _ i j => ?_
  unfold specGradFactor
  simp [hf]

/-- The square root of the loss Hessian with reduction `mean` is that with reduction `sum` times `√(1/C)` (`MSELoss`,
`BCEWithLogitsLoss`), or the same (`CrossEntropyLoss`). -/
theorem lossHessianSqrt_reduction {C : Nat} (k : LossKind) (outShape : List Nat) (f : Fin C → ℝ) (targetShape : List Nat)
    (target : List ℝ) {s : Fin C → Fin C → ℝ}
    (h : lossHessianSqrt (.known k .sum) outShape f targetShape target = .ok s) :
    lossHessianSqrt (.known k .mean) outShape f targetShape target =
      .ok fun i j => (if k = .ce then 1 else Real.sqrt (1 / (C : ℝ))) * s i j := by
  unfold lossHessianSqrt at h ⊢
  by_cases h0 : outShape.length ≠ 2 ∨ outShape.head? ≠ some 1
  · rw [if_pos h0] at h
    simp at h
  rw [if_neg h0] at h ⊢
  rcases targetShape with _ | ⟨n, ns⟩
  · simp at h
  simp only at h ⊢
  by_cases h1 : n ≠ 1
  · rw [if_pos h1] at h
    simp at h
  rw [if_neg h1] at h ⊢
  cases k with
  | mse =>
    simp only [sqrtScale] at h ⊢
    by_cases hC : C = 0
    · simp [hC] at h
    · simp only [hC, if_false, Except.ok.injEq, reduceCtorEq] at h ⊢
      rw [← h]
      funext i j
      rw [mul_one, Real.sqrt_mul (by norm_num)]
      ring
  | ce =>
    simp only at h ⊢
    by_cases hC : C = 1
    · rw [if_pos hC] at h
      simp at h
    · rw [if_neg hC] at h ⊢
      simp only [Except.ok.injEq, if_true, one_mul] at h ⊢
      exact h
  | bce =>
    simp only [sqrtScale] at h ⊢
    by_cases h2 : ∀ y ∈ target, y = 0 ∨ y = 1
    · rw [if_pos h2] at h ⊢
      by_cases hC : C = 0
      · simp [hC] at h
      · simp only [hC, if_false, Except.ok.injEq, reduceCtorEq] at h ⊢
        rw [← h]
        funext i j
        by_cases hij : i = j <;> simp [hij]
    · rw [if_neg h2] at h
      simp at h

/-- **C88** (KFAC, reduction): type-2, where the square root of the loss Hessian of each datum changes with the reduction as in
`lossHessianSqrt_reduction`. -/
theorem kfac_reduction_type2 (hnet : PNet shapes layers) (batches : List (List KDatum)) (hne : batches ≠ []) (hT : cfg.T ≠ 0)
    (hC : cfg.C ≠ 0) (hmc : cfg.mcSamples ≠ 0) (hf : cfg.fisher = .type2) :
    IsRowScaled (fun _ => if cfg.loss = .ce then 1 / ((cfg.N : ℝ) * cfg.T) else 1 / ((cfg.N : ℝ) * cfg.T * cfg.C))
      (pKfac { cfg with mean := false } shapes layers batches)
      (pKfac { cfg with mean := true } shapes layers (batches.map fun b => b.map fun d =>
        { d with sqrt := fun t c k => (if cfg.loss = .ce then 1 else Real.sqrt (1 / (cfg.C : ℝ))) * d.sqrt t c k })) := by
  generalize hs : (if cfg.loss = .ce then (1 : ℝ) else Real.sqrt (1 / (cfg.C : ℝ))) = s
  have hsq : s * s = if cfg.loss = .ce then (1 : ℝ) else 1 / (cfg.C : ℝ) := by
    rw [← hs]
    split_ifs
    · simp
    · exact Real.mul_self_sqrt (by positivity)
  have hfl : (batches.map fun b => b.map fun d : KDatum => { d with sqrt := fun t c k => s * d.sqrt t c k }).flatten =
      batches.flatten.map fun d => { d with sqrt := fun t c k => s * d.sqrt t c k } := by rw [List.map_flatten]
  refine kfac_grad_scaled (cfg := { cfg with mean := false }) (cfg' := { cfg with mean := true }) hnet rfl batches _ hne (by simpa using hne) hT hC hmc hT hC hmc _ (fun l _ i j => ?_) fun l _ i j => ?_
  · rw [hfl]
    unfold specInputFactor specInputVec specMeanInput
    simp only [List.map_map, Function.comp_def]
    rfl
  · rw [hfl]
    have hv : ∀ (d : KDatum) (q r o : Nat), specGradVec { cfg with mean := true } l.klayer
        { d with sqrt := fun t c k => s * d.sqrt t c k } (fun t c => s * d.sqrt t c q) r o =
        s * specGradVec { cfg with mean := false } l.klayer d (fun t c => d.sqrt t c q) r o := by
      intro d q r o
      unfold specGradVec
      simp only [Finset.mul_sum]
      exact Finset.sum_congr rfl fun t _ => Finset.sum_congr rfl fun c _ => by ring
    have hg : specGradScale { cfg with mean := true } = 1 / ((cfg.N : ℝ) * cfg.T) * specGradScale { cfg with mean := false } := by
      unfold specGradScale
      simp [hf]
      ring
    have hc : (if cfg.loss = .ce then 1 / ((cfg.N : ℝ) * cfg.T) else 1 / ((cfg.N : ℝ) * cfg.T * cfg.C)) =
        1 / ((cfg.N : ℝ) * cfg.T) * (s * s) := by
      rw [hsq]
      split_ifs
      · ring
      · rw [one_div_mul_one_div]
    rw [hc]
    have hfo : cfg.fisher ≠ .forwardOnly := by simp [hf]
    rw [specGradFactor_eq (cfg := { cfg with mean := true }) hfo, specGradFactor_eq (cfg := { cfg with mean := false }) hfo]
    have hs : gradSum { cfg with mean := true } l.klayer
        (batches.flatten.map fun d => { d with sqrt := fun t c k => s * d.sqrt t c k }) i j =
        (s * s) * gradSum { cfg with mean := false } l.klayer batches.flatten i j := by
      unfold gradSum specCotangents
      cases ha : cfg.approx with
      | expand =>
        simp only [hf, List.map_map, Function.comp_def, ← List.sum_map_mul_left, Finset.mul_sum]
        refine congrArg List.sum (List.map_congr_left fun d _ => congrArg List.sum (List.map_congr_left fun q _ =>
          Finset.sum_congr rfl fun r _ => ?_))
        have e1 := hv d q r i
        have e2 := hv d q r j
        simp only [hf, ha] at e1 e2
        rw [e1, e2]
        ring
      | reduce =>
        simp only [hf, List.map_map, Function.comp_def, ← List.sum_map_mul_left]
        refine congrArg List.sum (List.map_congr_left fun d _ => congrArg List.sum (List.map_congr_left fun q _ => ?_))
        have e : ∀ o r, _ := fun o r => hv d q r o
        simp only [hf, ha] at e
        simp only [e, ← Finset.mul_sum]
        ring
    rw [hs, hg]
    ring

/-! ## Repeated data -/

/-- **C88** (KFAC, repeated data): if all data (with the same labels, if they are drawn) are passed twice, and `num_data` is doubled, KFAC
is the same for reduction `mean` and for `FORWARD_ONLY`, and doubled for reduction `sum`. -/
theorem kfac_repeated (hnet : PNet shapes layers) (batches : List (List KDatum)) (hne : batches ≠ []) (hT : cfg.T ≠ 0)
    (hC : cfg.C ≠ 0) (hmc : cfg.mcSamples ≠ 0) :
    IsRowScaled (fun _ => if cfg.mean = true ∨ cfg.fisher = .forwardOnly then 1 else 2) (pKfac cfg shapes layers batches)
      (pKfac { cfg with N := 2 * cfg.N } shapes layers (batches ++ batches)) := by
  refine kfac_grad_scaled (cfg := cfg) (cfg' := { cfg with N := 2 * cfg.N }) hnet rfl batches (batches ++ batches) hne (by simpa using hne) hT hC hmc hT hC hmc _ (fun l _ i j => ?_) fun l _ i j => ?_
  · unfold specInputFactor
    cases cfg.approx
    · simp only [List.flatten_append, List.map_append, List.sum_append, Nat.cast_mul, Nat.cast_ofNat]
      have : ∀ x : ℝ, 1 / (2 * (cfg.N : ℝ) * l.klayer.S) * (x + x) = 1 / ((cfg.N : ℝ) * l.klayer.S) * x := by
        intro x
        rw [mul_assoc, ← one_div_mul_one_div]
        ring
      exact this _
    · simp only [List.flatten_append, List.map_append, List.sum_append, Nat.cast_mul, Nat.cast_ofNat]
      have : ∀ x : ℝ, 1 / (2 * (cfg.N : ℝ)) * (x + x) = 1 / (cfg.N : ℝ) * x := by
        intro x
        rw [← one_div_mul_one_div]
        ring
      exact this _
  · have hg : ∀ x : ℝ, specGradScale { cfg with N := 2 * cfg.N } * (x + x) = (if cfg.mean = true then 1 else 2) *
        (specGradScale cfg * x) := by
      intro x
      unfold specGradScale
      by_cases hm : cfg.mean = true
      · simp only [hm, if_true, Nat.cast_mul, Nat.cast_ofNat]
        generalize (if cfg.fisher = FisherType.type2 ∨ cfg.loss = LossKind.ce then (1 : ℝ) else 1 / (cfg.C : ℝ)) = y
        rw [mul_assoc (2 : ℝ), ← one_div_mul_one_div (2 : ℝ)]
        ring
      · simp [hm]; ring
    by_cases hf : cfg.fisher = .forwardOnly
    · unfold specGradFactor
      simp [hf]
    · have hs : gradSum { cfg with N := 2 * cfg.N } l.klayer (batches ++ batches).flatten i j =
          gradSum cfg l.klayer batches.flatten i j + gradSum cfg l.klayer batches.flatten i j := by
        unfold gradSum
        cases cfg.approx
        · simp only [List.flatten_append, List.map_append, List.sum_append]; rfl
        · simp only [List.flatten_append, List.map_append, List.sum_append]; rfl
      rw [specGradFactor_eq (cfg := { cfg with N := 2 * cfg.N }) hf, specGradFactor_eq hf, hs, hg]
      simp only [hf, or_false]

/-! ## Examples -/

/-- With joint weight and bias and reduction `mean`, `num_data = 1` instead of `2` multiplies all products of the empirical KFAC by `4`. -/
example : IsRowScaled (fun _ => 4)
    (pKfac ⟨.empirical, .expand, .mse, true, 1, 2, 1, 1, false⟩ [[1, 1], [1]] oneLayer [[selDatum], [selDatum]])
    (pKfac ⟨.empirical, .expand, .mse, true, 1, 1, 1, 1, false⟩ [[1, 1], [1]] oneLayer [[selDatum], [selDatum]]) := by
  refine kfac_num_data (cfg := ⟨.empirical, .expand, .mse, true, 1, 2, 1, 1, false⟩) oneLayer_net [[selDatum], [selDatum]] (by simp)
    (by simp) (by simp) (by simp) (by simp) (N' := 1) (by simp) _ ?_
  intro l hl o i p _
  simp only [oneLayer, List.mem_singleton] at hl
  subst hl
  constructor
  · rintro ⟨-, h⟩
    simp [KLayer.joint, PLayer.klayer, LayerPos.dict, Dict.has] at h
  · intro _
    simp
    norm_num

/-- With separate biases, the product for the weight is multiplied by `4`, that for the bias by `2`. -/
example : IsRowScaled (fun r => if r = 0 then 4 else 2)
    (pKfac ⟨.empirical, .expand, .mse, true, 1, 2, 1, 1, true⟩ [[1, 1], [1]] oneLayer [[selDatum], [selDatum]])
    (pKfac ⟨.empirical, .expand, .mse, true, 1, 1, 1, 1, true⟩ [[1, 1], [1]] oneLayer [[selDatum], [selDatum]]) := by
  refine kfac_num_data (cfg := ⟨.empirical, .expand, .mse, true, 1, 2, 1, 1, true⟩) oneLayer_net [[selDatum], [selDatum]] (by simp)
    (by simp) (by simp) (by simp) (by simp) (N' := 1) (by simp) _ ?_
  intro l hl o i p hc
  simp only [oneLayer, List.mem_singleton] at hl
  subst hl
  simp only [PLayer.Coord, offset] at hc
  constructor
  · rintro ⟨h, -⟩
    simp only at h
    have : p ≠ 0 := by
      rcases hc.2 with h' | h'
      · omega
      · rw [h'.2]; simp
    simp [this]
  · intro h
    have hi : i ≠ 1 := by
      rintro rfl
      exact h ⟨rfl, by simp [KLayer.joint]⟩
    have : p = 0 := by
      rcases hc.2 with h' | h'
      · rw [h'.2]
        have := hc.1
        have := h'.1
        simp
        omega
      · exact absurd h'.1 hi
    simp [this]
    norm_num

example : IsRowScaled (fun _ => 1 / (((2 : Nat) : ℝ) * (1 : Nat) * (3 : Nat)))
    (pKfac ⟨.mc, .reduce, .bce, false, 2, 2, 1, 3, true⟩ [[1, 1], [1]] oneLayer [[selDatum], [selDatum]])
    (pKfac ⟨.mc, .reduce, .bce, true, 2, 2, 1, 3, true⟩ [[1, 1], [1]] oneLayer [[selDatum], [selDatum]]) :=
  kfac_reduction (cfg := ⟨.mc, .reduce, .bce, false, 2, 2, 1, 3, true⟩) oneLayer_net [[selDatum], [selDatum]] (by simp)
    (by simp) (by simp) (by simp) (Or.inr rfl)

example : IsRowScaled (fun _ => 2)
    (pKfac ⟨.type2, .expand, .mse, false, 1, 1, 1, 1, true⟩ [[1, 1], [1]] oneLayer [[selDatum]])
    (pKfac ⟨.type2, .expand, .mse, false, 1, 2, 1, 1, true⟩ [[1, 1], [1]] oneLayer [[selDatum], [selDatum]]) :=
  kfac_repeated (cfg := ⟨.type2, .expand, .mse, false, 1, 1, 1, 1, true⟩) oneLayer_net [[selDatum]] (by simp) (by simp) (by simp)
    (by simp)

end Curvlinops
