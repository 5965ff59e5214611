import Verif.Model.KfacLayout
import Verif.Props.KfacScaling

/-!
# C116: KFAC depends on the first dimension of the tensors its layers see
-/

namespace Curvlinops

/-! ## Rows, first dimension and inner dimensions -/

/-- The layout exists: merging `R` of `S` positions into the batch needs that `R` divides `S`. -/
def Layout.Fits (S : Nat) : Layout → Prop
  | .merged R => 0 < R ∧ R ∣ S
  | _ => True

/-- Size of the first dimension for a batch with `b` data. -/
def Layout.lead (S b : Nat) : Layout → Nat
  | .batchFirst => b
  | .merged R => b * R
  | .seqFirst => S

theorem groups_length (lay : Layout) (S : Nat) (batch : List KDatum) :
    (lay.groups S batch).length = lay.lead S batch.length := by
  cases lay with
  | batchFirst => simp [Layout.groups, Layout.lead]
  | merged R => simp [Layout.groups, Layout.lead, List.length_flatMap]
  | seqFirst => simp [Layout.groups, Layout.lead]

theorem lead_mul_inner {lay : Layout} {S : Nat} (h : lay.Fits S) (b : Nat) : lay.lead S b * lay.inner S b = b * S := by
  cases lay with
  | batchFirst => rfl
  | merged R => simp only [Layout.lead, Layout.inner]; rw [mul_assoc, Nat.mul_div_cancel' h.2]
  | seqFirst => simp only [Layout.lead, Layout.inner]; ring

theorem sum_range_blocks (m n : Nat) (f : Nat → ℝ) :
    ∑ r ∈ Finset.range m, ∑ s ∈ Finset.range n, f (r * n + s) = ∑ s ∈ Finset.range (m * n), f s := by
  induction m with
  | zero => simp
  | succ m ih => rw [Finset.sum_range_succ, ih, Nat.succ_mul, Finset.sum_range_add]

/-- Whatever the layout, the rows are those of all data and positions. -/
theorem groups_sum {lay : Layout} {S : Nat} (h : lay.Fits S) (batch : List KDatum) (f : KDatum × Nat → ℝ) :
    ((lay.groups S batch).flatten.map f).sum = (batch.map fun d => ∑ s ∈ Finset.range S, f (d, s)).sum := by
  rw [list_sum_map_flatten]
  cases lay with
  | batchFirst =>
    simp only [Layout.groups, List.map_map, Function.comp_def]
    exact congrArg List.sum (List.map_congr_left fun d _ => sum_range_list _ _)
  | merged R =>
    simp only [Layout.groups]
    rw [List.flatMap_def, list_sum_map_flatten, List.map_map]
    refine congrArg List.sum (List.map_congr_left fun d _ => ?_)
    simp only [Function.comp_def, List.map_map]
    rw [sum_range_list]
    have h1 : ∀ r, ((List.range (S / R)).map fun s => f (d, r * (S / R) + s)).sum =
        ∑ s ∈ Finset.range (S / R), f (d, r * (S / R) + s) := fun r => sum_range_list _ _
    simp only [h1]
    rw [sum_range_blocks R (S / R) fun s => f (d, s), Nat.mul_div_cancel' h.2]
  | seqFirst =>
    simp only [Layout.groups, List.map_map, Function.comp_def]
    rw [list_sum_comm_range batch S fun s d => f (d, s)]
    exact congrArg List.sum (List.map_congr_left fun d _ => sum_range_list _ _)

/-! ## Scaled dictionaries -/

/-- A covariance times a number. -/
def Factor.times (c : ℝ) (f : Factor ℝ) : Factor ℝ := ⟨f.dim, fun i j => c * f.mat i j⟩

theorem Factor.times_one (f : Factor ℝ) : f.times 1 = f := by
  simp only [Factor.times, one_mul]

/-- Every covariance times the number of its layer. -/
def Dict.times (c : String → ℝ) (d : Dict (Factor ℝ)) : Dict (Factor ℝ) := d.map fun e => (e.1, e.2.times (c e.1))

theorem Dict.get_times (c : String → ℝ) (d : Dict (Factor ℝ)) (n : String) :
    (Dict.times c d).get n = (d.get n).map (Factor.times (c n)) := by
  unfold Dict.times Dict.get
  induction d with
  | nil => rfl
  | cons e d ih =>
    by_cases h : n = e.1
    · subst h
      simp [List.lookup]
    · have hb : (n == e.1) = false := by simpa using h
      simp only [List.map_cons, List.lookup, hb]
      exact ih

theorem Dict.set_times (c : String → ℝ) (d : Dict (Factor ℝ)) (n : String) (f : Factor ℝ) :
    (Dict.times c d).set n (f.times (c n)) = Dict.times c (d.set n f) := by
  unfold Dict.times
  induction d with
  | nil => rfl
  | cons e d ih =>
    obtain ⟨a, g⟩ := e
    simp only [List.map_cons]
    unfold Dict.set
    by_cases h : a = n
    · subst h
      simp
    · simp only [h, if_false, List.map_cons]
      rw [ih]

theorem addCov_times (c : String → ℝ) (d : Dict (Factor ℝ)) (n : String) (f : Factor ℝ) :
    addCov (Dict.times c d) n (f.times (c n)) = Dict.times c (addCov d n f) := by
  unfold addCov
  rw [Dict.get_times]
  cases h : d.get n with
  | none => exact Dict.set_times c d n f
  | some g =>
    simp only [Option.map_some]
    rw [← Dict.set_times]
    refine congrArg _ ?_
    simp only [Factor.times, mul_add]

/-- An update with its covariance multiplied by the number of its layer. -/
def KEvent.times (a g : String → ℝ) : KEvent → KEvent
  | .input n f => .input n (f.times (a n))
  | .grad n f => .grad n (f.times (g n))
  | .setGrad n f => .setGrad n (f.times (g n))

theorem foldl_times (a g : String → ℝ) (es : List KEvent) (st : Dict (Factor ℝ) × Dict (Factor ℝ)) :
    (es.map (KEvent.times a g)).foldl applyEvent (Dict.times a st.1, Dict.times g st.2) =
      (Dict.times a (es.foldl applyEvent st).1, Dict.times g (es.foldl applyEvent st).2) := by
  induction es generalizing st with
  | nil => rfl
  | cons e es ih =>
    rw [List.map_cons, List.foldl_cons, List.foldl_cons, ← ih (applyEvent st e)]
    refine congrArg (fun s => (es.map (KEvent.times a g)).foldl applyEvent s) ?_
    cases e with
    | input n f => exact Prod.ext (addCov_times a st.1 n f) rfl
    | grad n f => exact Prod.ext rfl (addCov_times g st.2 n f)
    | setGrad n f => exact Prod.ext rfl (Dict.set_times g st.2 n f)

/-! ## The batch as first dimension -/

theorem layoutInputCovariance_batchFirst (cfg : KfacCfg) (l : KLayer) (batch : List KDatum) :
    layoutInputCovariance cfg l .batchFirst batch = inputCovariance cfg l batch := by
  unfold layoutInputCovariance inputCovariance
  have hr : layoutInputRows cfg l .batchFirst batch = batch.flatMap (inputRows cfg l) := by
    unfold layoutInputRows inputRows
    cases ha : cfg.approx with
    | expand =>
      simp only [Layout.groups]
      rw [← List.flatMap_def, List.map_flatMap]
      refine List.flatMap_congr fun d _ => ?_
      rw [List.map_map]
      rfl
    | reduce =>
      simp only [Layout.groups, Layout.inner]
      rw [flatMap_singleton_map, List.map_map]
      refine List.map_congr_left fun d _ => ?_
      funext i
      simp only [Function.comp_def, List.map_map]
      rw [sum_range_list]
  rw [hr]
  rfl

theorem layoutGradCovariance_batchFirst (cfg : KfacCfg) (l : KLayer) (batch : List KDatum) (k : Nat) :
    layoutGradCovariance cfg l .batchFirst batch k = gradCovariance cfg l batch k := by
  unfold layoutGradCovariance gradCovariance
  have hr : layoutGradRows cfg l .batchFirst batch k = batch.flatMap (gradRows cfg l batch.length k) := by
    unfold layoutGradRows gradRows
    cases ha : cfg.approx with
    | expand =>
      simp only [Layout.groups]
      rw [← List.flatMap_def, List.map_flatMap]
      refine List.flatMap_congr fun d _ => ?_
      rw [List.map_map]
      rfl
    | reduce =>
      simp only [Layout.groups]
      rw [flatMap_singleton_map, List.map_map]
      refine List.map_congr_left fun d _ => ?_
      funext o
      simp only [Function.comp_def, List.map_map]
      rw [sum_range_list]
  rw [hr, groups_length]
  rfl

/-- **C116** (batch first): with the batch as first dimension of every layer's tensors, the factors are those of
`Model/KfacFactors.lean`, for both approximations. -/
theorem layoutFactors_batchFirst (cfg : KfacCfg) (lay : String → Layout) (layers : List KLayer)
    (hlay : ∀ l ∈ layers, lay l.name = .batchFirst) (batches : List (List KDatum)) :
    layoutFactors cfg lay layers batches = kfacFactors cfg layers batches := by
  have hev : ∀ b, layoutBatchEvents cfg lay layers b = batchEvents cfg layers b := by
    intro b
    unfold layoutBatchEvents batchEvents layoutBackwardEvents backwardEvents
    refine congrArg₂ (· ++ ·) (List.map_congr_left fun l hl => ?_) ?_
    · rw [hlay l (List.mem_filter.mp hl).1, layoutInputCovariance_batchFirst]
    · cases cfg.fisher
      case forwardOnly => rfl
      all_goals
        refine List.flatMap_congr fun k _ => List.map_congr_left fun l hl => ?_
        rw [hlay l (List.mem_reverse.mp hl), layoutGradCovariance_batchFirst]
  unfold layoutFactors kfacFactors
  simp only [hev]

/-! ## Other first dimensions, KFAC-expand -/

theorem layoutInputCovariance_expand {cfg : KfacCfg} (ha : cfg.approx = .expand) {l : KLayer} {lay : Layout} (hfit : lay.Fits l.S)
    (hS : l.S ≠ 0) {batch : List KDatum} (hb : batch ≠ []) {ρ : ℝ} (hρ : (lay.lead l.S batch.length : ℝ) = ρ * batch.length) :
    layoutInputCovariance cfg l lay batch = (inputCovariance cfg l batch).times ρ := by
  have hlen : (batch.length : ℝ) ≠ 0 := by
    have : batch.length ≠ 0 := by simpa using hb
    exact_mod_cast this
  have hS' : (l.S : ℝ) ≠ 0 := by exact_mod_cast hS
  have hprod : (lay.lead l.S batch.length : ℝ) * lay.inner l.S batch.length = batch.length * l.S := by
    exact_mod_cast lead_mul_inner hfit batch.length
  have hin : (lay.inner l.S batch.length : ℝ) ≠ 0 := by
    intro h0
    rw [h0, mul_zero] at hprod
    exact mul_ne_zero hlen hS' hprod.symm
  have hρS : ρ * lay.inner l.S batch.length = l.S := by
    rw [hρ] at hprod
    have : (batch.length : ℝ) * (ρ * lay.inner l.S batch.length) = batch.length * l.S := by rw [← hprod]; ring
    exact mul_left_cancel₀ hlen this
  unfold layoutInputCovariance inputCovariance Factor.times
  simp only [ha]
  refine congrArg (Factor.mk _) ?_
  funext i j
  have hg : gram (layoutInputRows cfg l lay batch) i j = gram (batch.flatMap (inputRows cfg l)) i j := by
    rw [gram_flatMap]
    unfold layoutInputRows inputRows gram
    simp only [ha]
    rw [List.map_map]
    simp only [Function.comp_def]
    rw [groups_sum hfit]
    refine congrArg List.sum (List.map_congr_left fun d _ => ?_)
    rw [List.map_map]
    exact (sum_range_list _ _).symm
  rw [hg, ← hρS]
  by_cases hN : (cfg.N : ℝ) = 0
  · simp [hN]
  · have hρ0 : ρ ≠ 0 := by
      intro h0
      rw [h0, zero_mul] at hρS
      exact hS' hρS.symm
    field_simp

theorem correction_lead (cfg : KfacCfg) {b b' : Nat} {ρ : ℝ} (h : (b' : ℝ) = ρ * b) :
    correction cfg b' = (if cfg.mean = true then ρ ^ 2 else 1) * correction cfg b := by
  unfold correction
  split_ifs
  · push_cast
    rw [h]
    ring
  · rw [one_mul]

theorem layoutGradCovariance_expand {cfg : KfacCfg} (ha : cfg.approx = .expand) {l : KLayer} {lay : Layout} (hfit : lay.Fits l.S)
    {batch : List KDatum} (k : Nat) {ρ : ℝ} (hρ : (lay.lead l.S batch.length : ℝ) = ρ * batch.length) :
    layoutGradCovariance cfg l lay batch k = (gradCovariance cfg l batch k).times (if cfg.mean = true then ρ ^ 2 else 1) := by
  unfold layoutGradCovariance gradCovariance Factor.times
  refine congrArg (Factor.mk _) ?_
  funext i j
  have hg : gram (layoutGradRows cfg l lay batch k) i j = gram (batch.flatMap (gradRows cfg l batch.length k)) i j := by
    rw [gram_flatMap]
    unfold layoutGradRows gradRows gram
    simp only [ha]
    rw [List.map_map]
    simp only [Function.comp_def]
    rw [groups_sum hfit]
    refine congrArg List.sum (List.map_congr_left fun d _ => ?_)
    rw [List.map_map]
    exact (sum_range_list _ _).symm
  rw [hg, groups_length, correction_lead cfg hρ]
  ring

/-- Factor by which the gradient covariance of a layer changes when its first dimension is `ρ` times the batch. -/
noncomputable def leadScale (cfg : KfacCfg) (ρ : ℝ) : ℝ := if cfg.mean = true ∧ cfg.fisher ≠ .forwardOnly then ρ ^ 2 else 1

/-- **C116** (factors, KFAC-expand): if the first dimension of each layer's tensors is `ρ` times the batch size in all batches, its
input covariance is `ρ` times that of the same network with the batch as first dimension, and its gradient covariance is `ρ²` times,
if the loss has reduction `mean`, and equal otherwise. -/
theorem layoutFactors_expand {cfg : KfacCfg} (ha : cfg.approx = .expand) (lay : String → Layout) (layers : List KLayer)
    (hfit : ∀ l ∈ layers, (lay l.name).Fits l.S ∧ l.S ≠ 0) (batches : List (List KDatum)) (hb : ∀ b ∈ batches, b ≠ [])
    (ρ : String → ℝ) (hρ : ∀ l ∈ layers, ∀ b ∈ batches, ((lay l.name).lead l.S b.length : ℝ) = ρ l.name * b.length) :
    layoutFactors cfg lay layers batches =
      (Dict.times ρ (kfacFactors cfg layers batches).1,
        Dict.times (fun n => leadScale cfg (ρ n)) (kfacFactors cfg layers batches).2) := by
  have hev : ∀ b ∈ batches, layoutBatchEvents cfg lay layers b =
      (batchEvents cfg layers b).map (KEvent.times ρ fun n => leadScale cfg (ρ n)) := by
    intro b hbm
    unfold layoutBatchEvents batchEvents layoutBackwardEvents backwardEvents
    rw [List.map_append, List.map_map]
    refine congrArg₂ (· ++ ·) (List.map_congr_left fun l hl => ?_) ?_
    · have hl' := (List.mem_filter.mp hl).1
      rw [layoutInputCovariance_expand ha (hfit l hl').1 (hfit l hl').2 (hb b hbm) (hρ l hl' b hbm)]
      rfl
    · cases hf : cfg.fisher
      case forwardOnly =>
        simp only [List.map_map]
        refine List.map_congr_left fun l _ => ?_
        simp only [Function.comp_apply, KEvent.times, leadScale, hf, ne_eq, not_true_eq_false, and_false, if_false, Factor.times_one]
      all_goals
        simp only [List.map_flatMap, List.map_map]
        refine List.flatMap_congr fun k _ => List.map_congr_left fun l hl => ?_
        have hl' := List.mem_reverse.mp hl
        rw [layoutGradCovariance_expand ha (hfit l hl').1 k (hρ l hl' b hbm)]
        simp only [Function.comp_apply, KEvent.times, leadScale, hf, ne_eq, reduceCtorEq, not_false_eq_true, and_true]
  unfold layoutFactors kfacFactors
  have hgen : ∀ (bs : List (List KDatum)) (_ : ∀ b ∈ bs, b ∈ batches) (st : Dict (Factor ℝ) × Dict (Factor ℝ)),
      bs.foldl (fun st b => (layoutBatchEvents cfg lay layers b).foldl applyEvent st)
        (Dict.times ρ st.1, Dict.times (fun n => leadScale cfg (ρ n)) st.2) =
      (Dict.times ρ (bs.foldl (fun st b => (batchEvents cfg layers b).foldl applyEvent st) st).1,
        Dict.times (fun n => leadScale cfg (ρ n)) (bs.foldl (fun st b => (batchEvents cfg layers b).foldl applyEvent st) st).2) := by
    intro bs
    induction bs with
    | nil => intro _ st; rfl
    | cons b bs ih =>
      intro hmem st
      rw [List.foldl_cons, List.foldl_cons, hev b (hmem b (by simp)), foldl_times,
        ih (fun b hb => hmem b (by simp [hb]))]
  exact hgen batches (fun _ h => h) ([], [])

/-! ## Products -/

/-- The KFAC operator on a network whose layers have the given layouts. -/
noncomputable def layoutKfac (cfg : KfacCfg) (lay : String → Layout) (shapes : List (List Nat)) (layers : List PLayer)
    (batches : List (List KDatum)) : LinOp ℝ :=
  kfacOp shapes cfg.sep (pMapping layers) (layoutFactors cfg lay (layers.map PLayer.klayer) batches).1
    (layoutFactors cfg lay (layers.map PLayer.klayer) batches).2

/-- A layer with scaled factors. -/
def Layer.times (a g : ℝ) (l : Layer ℝ) : Layer ℝ := { l with A := l.A.times a, B := l.B.times g }

variable {shapes : List (List Nat)} {layers : List PLayer} {cfg : KfacCfg}

/-- Operators whose factors are scaled layer by layer. -/
theorem kfac_times (hnet : PNet shapes layers) (batches : List (List KDatum)) (hne : batches ≠ []) (hT : cfg.T ≠ 0) (hC : cfg.C ≠ 0)
    (hmc : cfg.mcSamples ≠ 0) (a g : String → ℝ) (w : Nat → ℝ)
    (hw : ∀ l ∈ layers, ∀ o i p, l.Coord shapes o i p →
      (l.sepBias cfg i → w p = g l.name) ∧ (¬ l.sepBias cfg i → w p = g l.name * a l.name)) :
    IsRowScaled w (pKfac cfg shapes layers batches)
      (kfacOp shapes cfg.sep (pMapping layers) (Dict.times a (kfacFactors cfg (layers.map PLayer.klayer) batches).1)
        (Dict.times g (kfacFactors cfg (layers.map PLayer.klayer) batches).2)) := by
  have hkl := pnet_kfacLayers hnet batches hne hT hC hmc
  have hkl' : KfacLayers cfg.sep shapes (pMapping layers) (Dict.times a (kfacFactors cfg (layers.map PLayer.klayer) batches).1)
      (Dict.times g (kfacFactors cfg (layers.map PLayer.klayer) batches).2)
      (layers.map fun l => (l.layer cfg batches.flatten).times (a l.name) (g l.name)) := by
    refine ⟨?_, ?_, ?_, ?_, ?_⟩
    · unfold pMapping
      rw [List.map_map]
      rfl
    · rw [List.flatMap_map]
      exact hnet.perm
    · intro l hl hwt
      obtain ⟨l', hl', rfl⟩ := List.mem_map.mp hl
      rw [Dict.get_times]
      have := hkl.inCov_get _ (List.mem_map_of_mem hl') hwt
      rw [show ((l'.layer cfg batches.flatten).times (a l'.name) (g l'.name)).name = (l'.layer cfg batches.flatten).name from rfl, this]
      rfl
    · intro l hl
      obtain ⟨l', hl', rfl⟩ := List.mem_map.mp hl
      rw [Dict.get_times]
      have := hkl.gradCov_get _ (List.mem_map_of_mem hl')
      rw [show ((l'.layer cfg batches.flatten).times (a l'.name) (g l'.name)).name = (l'.layer cfg batches.flatten).name from rfl, this]
      rfl
    · intro l hl
      obtain ⟨l', hl', rfl⟩ := List.mem_map.mp hl
      have hfl := hkl.fits (l'.layer cfg batches.flatten) (List.mem_map_of_mem hl')
      exact hfl
  obtain ⟨⟨M, hM⟩, -⟩ := kfac_matrix_exists _ _ _ _ _ _ hkl
  refine isRowScaled_of_represents rfl rfl (kfac_represents _ _ _ _ _ _ hkl M hM)
    (kfac_represents _ _ _ _ _ _ hkl' (fun r c => w r * M r c) ?_) fun _ _ _ _ => rfl
  refine isKron_scaled ?_ hM
  have hfits := hnet.fits
  clear hM hkl hkl' hnet
  unfold kfacBlocks
  induction layers with
  | nil => exact List.Forall₂.nil
  | cons l ls ih =>
    rw [List.map_cons, List.map_cons, List.flatMap_cons, List.flatMap_cons]
    refine List.rel_append ?_ (ih (fun l hl => hw l (by simp [hl])) (fun l hl => hfits l (by simp [hl])))
    have hw' := hw l (by simp)
    have hf := hfits l (by simp)
    unfold PLayer.Fits at hf
    unfold PLayer.Coord at hw'
    unfold Layer.blocks
    cases hp : l.pos with
    | both wi b =>
      rw [hp] at hf hw'
      simp only [PLayer.layer, Layer.times, hp] at hw' ⊢
      have hjt : l.klayer.joint cfg = !cfg.sep := by
        simp [KLayer.joint, PLayer.klayer, hp, LayerPos.dict, Dict.has]
      by_cases hs : cfg.sep = true
      · simp only [hs, if_true]
        refine .cons ⟨rfl, rfl, rfl, fun i i' j j' hi hj => ?_⟩ (.cons ⟨rfl, rfl, rfl, fun i i' j j' hi hj => ?_⟩ .nil)
        · simp only [Layer.wBlock, Factor.times] at hi hj ⊢
          rw [hf.2.2.1] at hj ⊢
          rw [(hw' i j _ ⟨hi, Or.inl ⟨hj, rfl⟩⟩).2 (by unfold PLayer.sepBias; omega)]
          ring
        · simp only [Layer.bBlock, Factor.times] at hi hj ⊢
          rw [(hw' i l.din _ ⟨hi, Or.inr ⟨rfl, rfl⟩⟩).1 ⟨rfl, by simp [hjt, hs]⟩]
          ring
      · have hs' : cfg.sep = false := by simpa using hs
        simp only [hs', Bool.false_eq_true, if_false]
        refine .cons ⟨rfl, rfl, rfl, fun i i' j j' hi hj => ?_⟩ .nil
        simp only [Layer.jBlock, Factor.times] at hi hj ⊢
        rw [hf.2.2.1] at hj ⊢
        have hn : ∀ i, ¬ l.sepBias cfg i := by
          intro i h
          have := h.2
          simp [hjt, hs'] at this
        by_cases hlt : j < l.din
        · rw [if_pos hlt, (hw' i j _ ⟨hi, Or.inl ⟨hlt, rfl⟩⟩).2 (hn _)]
          ring
        · rw [if_neg hlt, (hw' i l.din _ ⟨hi, Or.inr ⟨rfl, rfl⟩⟩).2 (hn _)]
          ring
    | weight wi =>
      rw [hp] at hf hw'
      simp only [PLayer.layer, Layer.times, hp] at hw' ⊢
      refine .cons ⟨rfl, rfl, rfl, fun i i' j j' hi hj => ?_⟩ .nil
      simp only [Layer.wBlock, Factor.times] at hi hj ⊢
      rw [hf.2.2] at hj ⊢
      rw [(hw' i j _ ⟨hi, hj, rfl⟩).2 (by unfold PLayer.sepBias; omega)]
      ring
    | bias b =>
      rw [hp] at hf hw'
      simp only [PLayer.layer, Layer.times, hp] at hw' ⊢
      refine .cons ⟨rfl, rfl, rfl, fun i i' j j' hi hj => ?_⟩ .nil
      simp only [Layer.bBlock, Factor.times] at hi hj ⊢
      rw [(hw' i l.din _ ⟨hi, rfl, rfl⟩).1 ⟨rfl, by simp [KLayer.joint, PLayer.klayer, hp, LayerPos.dict, Dict.has]⟩]
      ring

/-- **C116** (products, KFAC-expand): if the first dimension of each layer's tensors is `ρ` times the batch size, the products of KFAC
are those of the same network with the batch as first dimension, times `ρ³` (reduction `mean`) or `ρ` (reduction `sum`, or
`FORWARD_ONLY`); for separately treated biases times `ρ²` or `1`. -/
theorem kfac_layout_expand (ha : cfg.approx = .expand) (lay : String → Layout) (hnet : PNet shapes layers)
    (hfit : ∀ l ∈ layers, (lay l.name).Fits l.S ∧ l.S ≠ 0) (batches : List (List KDatum)) (hne : batches ≠ [])
    (hb : ∀ b ∈ batches, b ≠ []) (hT : cfg.T ≠ 0) (hC : cfg.C ≠ 0) (hmc : cfg.mcSamples ≠ 0) (ρ : String → ℝ)
    (hρ : ∀ l ∈ layers, ∀ b ∈ batches, ((lay l.name).lead l.S b.length : ℝ) = ρ l.name * b.length) (w : Nat → ℝ)
    (hw : ∀ l ∈ layers, ∀ o i p, l.Coord shapes o i p →
      (l.sepBias cfg i → w p = if cfg.mean = true ∧ cfg.fisher ≠ .forwardOnly then ρ l.name ^ 2 else 1) ∧
      (¬ l.sepBias cfg i → w p = if cfg.mean = true ∧ cfg.fisher ≠ .forwardOnly then ρ l.name ^ 3 else ρ l.name)) :
    IsRowScaled w (pKfac cfg shapes layers batches) (layoutKfac cfg lay shapes layers batches) := by
  unfold layoutKfac
  rw [layoutFactors_expand ha lay (layers.map PLayer.klayer) (fun l hl => by
    obtain ⟨l', hl', rfl⟩ := List.mem_map.mp hl
    exact hfit l' hl') batches hb ρ (fun l hl => by
    obtain ⟨l', hl', rfl⟩ := List.mem_map.mp hl
    exact hρ l' hl')]
  refine kfac_times hnet batches hne hT hC hmc ρ (fun n => leadScale cfg (ρ n)) w fun l hl o i p hc => ?_
  obtain ⟨h1, h2⟩ := hw l hl o i p hc
  refine ⟨h1, fun h => ?_⟩
  rw [h2 h]
  unfold leadScale
  split_ifs
  · ring
  · ring

/-- **C116** (positions merged into the batch): the network evaluates all its layers on tensors with `R` positions of each datum merged
into the batch, and weights and biases are treated jointly or there are no biases. Then all products are `R³` (reduction `mean`) or `R`
(reduction `sum`, or `FORWARD_ONLY`) times those of the same network with the batch as first dimension. -/
theorem kfac_layout_merged (ha : cfg.approx = .expand) {R : Nat} (hR : 0 < R) (hnet : PNet shapes layers)
    (hfit : ∀ l ∈ layers, R ∣ l.S ∧ l.S ≠ 0) (hsep : ∀ l ∈ layers, ∀ o i p, l.Coord shapes o i p → ¬ l.sepBias cfg i)
    (batches : List (List KDatum)) (hne : batches ≠ [])
    (hb : ∀ b ∈ batches, b ≠ []) (hT : cfg.T ≠ 0) (hC : cfg.C ≠ 0) (hmc : cfg.mcSamples ≠ 0) :
    IsRowScaled (fun _ => if cfg.mean = true ∧ cfg.fisher ≠ .forwardOnly then (R : ℝ) ^ 3 else R)
      (pKfac cfg shapes layers batches) (layoutKfac cfg (fun _ => .merged R) shapes layers batches) := by
  refine kfac_layout_expand ha (fun _ => .merged R) hnet (fun l hl => ⟨⟨hR, (hfit l hl).1⟩, (hfit l hl).2⟩) batches hne hb hT hC hmc (fun _ => R) ?_ _
    fun l hl o i p hc => ⟨fun h => absurd h (hsep l hl o i p hc), fun _ => rfl⟩
  intro l _ b _
  simp only [Layout.lead]
  push_cast
  ring

/-! ## KFAC-reduce -/

/-- **C116** (all positions merged): if all positions are merged into the batch, KFAC-reduce is KFAC-expand. -/
theorem layoutFactors_merged_reduce (cfg : KfacCfg) (lay : String → Layout) (layers : List KLayer)
    (hlay : ∀ l ∈ layers, lay l.name = .merged l.S ∧ l.S ≠ 0) (batches : List (List KDatum)) :
    layoutFactors { cfg with approx := .reduce } lay layers batches = layoutFactors { cfg with approx := .expand } lay layers batches := by
  have hdiv : ∀ {S : Nat}, S ≠ 0 → S / S = 1 := fun h => Nat.div_self (Nat.pos_of_ne_zero h)
  have hgroups : ∀ {S : Nat} (_ : S ≠ 0) (b : List KDatum), (Layout.merged S).groups S b =
      ((Layout.merged S).groups S b).flatten.map fun p => [p] := by
    intro S hS b
    simp only [Layout.groups, hdiv hS, mul_one]
    rw [List.flatMap_def]
    induction b with
    | nil => rfl
    | cons d b ih =>
      simp only [List.map_cons, List.flatten_cons, List.flatten_append, List.map_append]
      rw [← ih]
      refine congrArg (· ++ _) ?_
      induction List.range S with
      | nil => rfl
      | cons r rs ih' =>
        simp only [List.map_cons, List.flatten_cons, List.map_append]
        rw [← ih']
        simp [List.range, List.range.loop]
  have hin : ∀ l ∈ layers, ∀ b, layoutInputCovariance { cfg with approx := .reduce } l (lay l.name) b =
      layoutInputCovariance { cfg with approx := .expand } l (lay l.name) b := by
    intro l hl b
    rw [(hlay l hl).1]
    unfold layoutInputCovariance
    refine congrArg₂ Factor.mk rfl ?_
    funext i j
    have hr : layoutInputRows { cfg with approx := .reduce } l (.merged l.S) b =
        layoutInputRows { cfg with approx := .expand } l (.merged l.S) b := by
      unfold layoutInputRows
      simp only
      conv_lhs => rw [hgroups (hlay l hl).2 b, List.map_map]
      refine List.map_congr_left fun p _ => ?_
      funext i
      simp [KLayer.joint, Layout.inner, hdiv (hlay l hl).2]
    rw [hr]
    simp [Layout.inner, hdiv (hlay l hl).2]
  have hgr : ∀ l ∈ layers, ∀ b k, layoutGradCovariance { cfg with approx := .reduce } l (lay l.name) b k =
      layoutGradCovariance { cfg with approx := .expand } l (lay l.name) b k := by
    intro l hl b k
    rw [(hlay l hl).1]
    unfold layoutGradCovariance
    refine congrArg₂ Factor.mk rfl ?_
    funext i j
    have hr : layoutGradRows { cfg with approx := .reduce } l (.merged l.S) b k =
        layoutGradRows { cfg with approx := .expand } l (.merged l.S) b k := by
      unfold layoutGradRows
      simp only
      conv_lhs => rw [hgroups (hlay l hl).2 b, List.map_map]
      refine List.map_congr_left fun p _ => ?_
      funext o
      simp only [Function.comp_apply, List.map_cons, List.map_nil, List.sum_cons, List.sum_nil, add_zero]
      rfl
    rw [hr]
    rfl
  have hev : ∀ b, layoutBatchEvents { cfg with approx := .reduce } lay layers b =
      layoutBatchEvents { cfg with approx := .expand } lay layers b := by
    intro b
    unfold layoutBatchEvents layoutBackwardEvents
    refine congrArg₂ (· ++ ·) (List.map_congr_left fun l hl => ?_) ?_
    · rw [hin l (List.mem_filter.mp hl).1]
    · dsimp only
      cases hf : cfg.fisher
      case forwardOnly => rfl
      all_goals
        refine List.flatMap_congr fun k _ => List.map_congr_left fun l hl => ?_
        have := hgr l (List.mem_reverse.mp hl) b k
        rw [hf] at this
        rw [this]
  unfold layoutFactors
  simp only [hev]

/-! ## The claim, and where it fails -/

/-- The claim: two networks that map the same vectors by the same layers have the same KFAC factors, however their layers' tensors
arrange the vectors. -/
def LayoutIndependent (cfg : KfacCfg) (layers : List KLayer) (batches : List (List KDatum)) (lay lay' : String → Layout) : Prop :=
  layoutFactors cfg lay layers batches = layoutFactors cfg lay' layers batches

theorem Dict.times_one (d : Dict (Factor ℝ)) : Dict.times (fun _ => 1) d = d := by
  unfold Dict.times
  simp only [Factor.times_one]
  exact List.map_id _

/-- **C116** (partial): the claim holds for KFAC-expand among layouts whose first dimension has the size of the batch in every batch
(like sequence-first tensors with as many positions as data). -/
theorem layout_independent_partial {cfg : KfacCfg} (ha : cfg.approx = .expand) {layers : List KLayer} {lay lay' : String → Layout}
    {batches : List (List KDatum)} (hb : ∀ b ∈ batches, b ≠ []) (hS : ∀ l ∈ layers, l.S ≠ 0)
    (h : ∀ l ∈ layers, (lay l.name).Fits l.S ∧ ∀ b ∈ batches, (lay l.name).lead l.S b.length = b.length)
    (h' : ∀ l ∈ layers, (lay' l.name).Fits l.S ∧ ∀ b ∈ batches, (lay' l.name).lead l.S b.length = b.length) :
    LayoutIndependent cfg layers batches lay lay' := by
  have key : ∀ lay : String → Layout,
      (∀ l ∈ layers, (lay l.name).Fits l.S ∧ ∀ b ∈ batches, (lay l.name).lead l.S b.length = b.length) →
      layoutFactors cfg lay layers batches = kfacFactors cfg layers batches := by
    intro lay h
    rw [layoutFactors_expand ha lay layers (fun l hl => ⟨(h l hl).1, hS l hl⟩) batches hb (fun _ => 1)
      (fun l hl b hbm => by rw [(h l hl).2 b hbm, one_mul])]
    have : (fun _ : String => leadScale cfg 1) = fun _ => 1 := by
      funext _
      unfold leadScale
      split_ifs <;> simp
    simp only [this, Dict.times_one]
  unfold LayoutIndependent
  rw [key lay h, key lay' h']

/-- One linear layer without bias on two positions of a single feature. -/
def seqLayer : KLayer := ⟨"fc", [("weight", 0)], 1, 1, 2⟩

/-- Input `1` at both positions; the loss is `y` times the sum of the two outputs. -/
noncomputable def seqDatum (y : ℝ) : KDatum := ⟨fun _ _ _ => 1, fun _ _ _ _ _ => 1, fun _ _ _ => y, fun _ _ _ => y⟩

/-- **C116** (the claim fails): for one datum with two positions, with reduction `mean`, KFAC-expand's input factor is `1`, and `2` if the
positions are merged into the batch; its gradient factor is `2`, and `8` if they are merged. -/
theorem layout_merged_witness (fisher : FisherType) (hf : fisher = .empirical ∨ fisher = .mc ∨ fisher = .type2) :
    let cfg : KfacCfg := ⟨fisher, .expand, .ce, true, 1, 1, 1, 1, true⟩
    (((layoutFactors cfg (fun _ => .batchFirst) [seqLayer] [[seqDatum 1]]).1.get "fc").map fun f => f.mat 0 0) = some 1 ∧
    (((layoutFactors cfg (fun _ => .merged 2) [seqLayer] [[seqDatum 1]]).1.get "fc").map fun f => f.mat 0 0) = some 2 ∧
    (((layoutFactors cfg (fun _ => .batchFirst) [seqLayer] [[seqDatum 1]]).2.get "fc").map fun f => f.mat 0 0) = some 2 ∧
    (((layoutFactors cfg (fun _ => .merged 2) [seqLayer] [[seqDatum 1]]).2.get "fc").map fun f => f.mat 0 0) = some 8 := by
  intro cfg
  have h1 := layoutFactors_batchFirst cfg (fun _ => .batchFirst) [seqLayer] (fun _ _ => rfl) [[seqDatum 1]]
  have h2 := layoutFactors_expand (cfg := cfg) rfl (fun _ => .merged 2) [seqLayer] (by simp [seqLayer, Layout.Fits]) [[seqDatum 1]]
    (by simp) (fun _ => 2) (by simp [seqLayer, Layout.lead])
  have a1 := kfac_input_factor cfg [seqLayer] (by simp) [[seqDatum 1]] (by simp) seqLayer (by simp) rfl
  have b1 := kfac_grad_factor cfg [seqLayer] (by simp) [[seqDatum 1]] (by simp) (by simp [cfg]) (by simp [cfg]) (by simp [cfg])
    seqLayer (by simp)
  have ha : specInputFactor cfg seqLayer [[seqDatum 1]].flatten 0 0 = 1 := by
    simp [specInputFactor, cfg, specInputVec, seqLayer, seqDatum, KLayer.joint]
  have hb : specGradFactor cfg seqLayer [[seqDatum 1]].flatten 0 0 = 2 := by
    rcases hf with h | h | h <;> subst h <;>
      simp [specGradFactor, cfg, specGradScale, specCotangents, specGradVec, seqLayer, seqDatum]
  have hl : leadScale cfg 2 = 4 := by
    rcases hf with h | h | h <;> subst h <;> simp [leadScale, cfg] <;> norm_num
  have hn : seqLayer.name = "fc" := rfl
  rw [hn] at a1 b1
  refine ⟨?_, ?_, ?_, ?_⟩
  · rw [h1, a1, Option.map_some]
    exact congrArg some ha
  · rw [h2, Dict.get_times, a1, Option.map_some, Option.map_some]
    simp only [Factor.times, ha, mul_one]
  · rw [h1, b1, Option.map_some]
    exact congrArg some hb
  · rw [h2, Dict.get_times, b1, Option.map_some, Option.map_some]
    simp only [Factor.times, hb, hl]
    norm_num

/-- **C116** (the claim fails): with sequence-first tensors the factors depend on the mini-batches. For two data with two positions,
KFAC-expand's input factor is `1` for one batch of two data, and `2` for two batches of one datum. -/
theorem layout_seqFirst_batching :
    let cfg : KfacCfg := ⟨.empirical, .expand, .ce, true, 1, 2, 1, 1, true⟩
    (((layoutFactors cfg (fun _ => .seqFirst) [seqLayer] [[seqDatum 1, seqDatum 1]]).1.get "fc").map fun f => f.mat 0 0) = some 1 ∧
    (((layoutFactors cfg (fun _ => .seqFirst) [seqLayer] [[seqDatum 1], [seqDatum 1]]).1.get "fc").map fun f => f.mat 0 0) = some 2 := by
  intro cfg
  have h1 := layoutFactors_expand (cfg := cfg) rfl (fun _ => .seqFirst) [seqLayer] (by simp [seqLayer, Layout.Fits])
    [[seqDatum 1, seqDatum 1]] (by simp) (fun _ => 1) (by simp [seqLayer, Layout.lead])
  have h2 := layoutFactors_expand (cfg := cfg) rfl (fun _ => .seqFirst) [seqLayer] (by simp [seqLayer, Layout.Fits])
    [[seqDatum 1], [seqDatum 1]] (by simp) (fun _ => 2) (by simp [seqLayer, Layout.lead])
  have a1 := kfac_input_factor cfg [seqLayer] (by simp) [[seqDatum 1, seqDatum 1]] (by simp) seqLayer (by simp) rfl
  have a2 := kfac_input_factor cfg [seqLayer] (by simp) [[seqDatum 1], [seqDatum 1]] (by simp) seqLayer (by simp) rfl
  have ha : specInputFactor cfg seqLayer [seqDatum 1, seqDatum 1] 0 0 = 1 := by
    simp [specInputFactor, cfg, specInputVec, seqLayer, seqDatum, KLayer.joint]
    norm_num
  have hn : seqLayer.name = "fc" := rfl
  rw [hn] at a1 a2
  refine ⟨?_, ?_⟩
  · rw [h1, Dict.get_times, a1, Option.map_some, Option.map_some]
    simp only [Factor.times, one_mul]
    exact congrArg some ha
  · rw [h2, Dict.get_times, a2, Option.map_some, Option.map_some]
    simp only [Factor.times]
    refine congrArg some ?_
    rw [show ([[seqDatum 1], [seqDatum 1]] : List (List KDatum)).flatten = [seqDatum 1, seqDatum 1] from rfl, ha, mul_one]

/-- **C116** (the claim fails): with sequence-first tensors, KFAC-reduce sums the gradients of different data before it takes outer
products. For two data with opposite gradients in one batch the gradient factor is `0`; with the batch as first dimension it is `8`. -/
theorem layout_seqFirst_reduce :
    let cfg : KfacCfg := ⟨.empirical, .reduce, .ce, false, 1, 2, 1, 1, true⟩
    (((layoutFactors cfg (fun _ => .seqFirst) [seqLayer] [[seqDatum 1, seqDatum (-1)]]).2.get "fc").map fun f => f.mat 0 0) = some 0 ∧
    (((layoutFactors cfg (fun _ => .batchFirst) [seqLayer] [[seqDatum 1, seqDatum (-1)]]).2.get "fc").map fun f => f.mat 0 0) =
      some 8 := by
  intro cfg
  constructor
  · simp [layoutFactors, layoutBatchEvents, layoutBackwardEvents, cfg, seqLayer, seqDatum, numPasses, layoutGradCovariance,
      layoutGradRows, Layout.groups, outputGrad, cotangent, correction, gram, applyEvent, addCov, Dict.get, Dict.set, List.lookup,
      Dict.has, List.range, List.range.loop]
  · have h1 := layoutFactors_batchFirst cfg (fun _ => .batchFirst) [seqLayer] (fun _ _ => rfl) [[seqDatum 1, seqDatum (-1)]]
    have b1 := kfac_grad_factor cfg [seqLayer] (by simp) [[seqDatum 1, seqDatum (-1)]] (by simp) (by simp [cfg]) (by simp [cfg])
      (by simp [cfg]) seqLayer (by simp)
    have hn : seqLayer.name = "fc" := rfl
    rw [hn] at b1
    rw [h1, b1, Option.map_some]
    refine congrArg some ?_
    simp [specGradFactor, cfg, specGradScale, specCotangents, specGradVec, seqLayer, seqDatum]
    norm_num

/-- The claim is false. -/
theorem layout_dependence : ∃ (cfg : KfacCfg) (layers : List KLayer) (batches : List (List KDatum)) (lay lay' : String → Layout),
    (∀ l ∈ layers, (lay l.name).Fits l.S ∧ (lay' l.name).Fits l.S ∧ l.S ≠ 0) ∧ ¬ LayoutIndependent cfg layers batches lay lay' := by
  refine ⟨⟨.empirical, .expand, .ce, true, 1, 1, 1, 1, true⟩, [seqLayer], [[seqDatum 1]], fun _ => .batchFirst, fun _ => .merged 2,
    by simp [seqLayer, Layout.Fits], fun h => ?_⟩
  obtain ⟨h1, h2, -, -⟩ := layout_merged_witness .empirical (Or.inl rfl)
  unfold LayoutIndependent at h
  rw [h, h2] at h1
  norm_num at h1

/-! ## Examples -/

/-- Two data with two positions: sequence-first tensors have the size of the batch as first dimension. -/
example (fisher : FisherType) : LayoutIndependent ⟨fisher, .expand, .ce, true, 1, 2, 1, 1, true⟩ [seqLayer]
    [[seqDatum 3, seqDatum 4]] (fun _ => .seqFirst) fun _ => .batchFirst :=
  layout_independent_partial rfl (by simp) (by simp [seqLayer]) (by simp [seqLayer, Layout.Fits, Layout.lead])
    (by simp [Layout.Fits, Layout.lead])

/-- A linear layer without bias on six positions of three features. -/
def wideLayers : List PLayer := [⟨"fc", .weight 0, 3, 2, 6⟩]

theorem wideLayers_net : PNet [[2, 3]] wideLayers := by
  refine ⟨?_, by simp [wideLayers], by simp [wideLayers, LayerPos.positions, List.range, List.range.loop]⟩
  intro l hl
  simp only [wideLayers, List.mem_singleton] at hl
  subst hl
  simp [PLayer.Fits, wCols]

/-- Three of six positions merged into the batch: products are multiplied by `27`. -/
example : IsRowScaled (fun _ => 27) (pKfac ⟨.type2, .expand, .mse, true, 1, 2, 6, 2, true⟩ [[2, 3]] wideLayers [[selDatum], [selDatum]])
    (layoutKfac ⟨.type2, .expand, .mse, true, 1, 2, 6, 2, true⟩ (fun _ => .merged 3) [[2, 3]] wideLayers [[selDatum], [selDatum]]) := by
  have h := kfac_layout_merged (cfg := ⟨.type2, .expand, .mse, true, 1, 2, 6, 2, true⟩) (R := 3) rfl (by omega) wideLayers_net
    (by simp [wideLayers]) (by
      intro l hl o i p hc hs
      simp only [wideLayers, List.mem_singleton] at hl
      subst hl
      simp only [PLayer.Coord] at hc
      have := hs.1
      simp only at this
      omega) [[selDatum], [selDatum]] (by simp) (by simp) (by simp) (by simp) (by simp)
  norm_num at h
  exact h

example : layoutFactors ⟨.mc, .reduce, .ce, true, 3, 2, 1, 4, true⟩ (fun _ => .merged 2) [seqLayer] [[seqDatum 1, seqDatum 2]] =
    layoutFactors ⟨.mc, .expand, .ce, true, 3, 2, 1, 4, true⟩ (fun _ => .merged 2) [seqLayer] [[seqDatum 1, seqDatum 2]] :=
  layoutFactors_merged_reduce ⟨.mc, .expand, .ce, true, 3, 2, 1, 4, true⟩ (fun _ => .merged 2) [seqLayer] (by simp [seqLayer]) _

end Curvlinops
