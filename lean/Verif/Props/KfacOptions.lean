import Verif.Props.KfacSelection

/-!
# C92: How KFAC's options are related
-/

namespace Curvlinops

/-! ## Which settings the factors depend on -/

/-- The input updates among the events. -/
def inputEvents (es : List KEvent) : List (String × Factor ℝ) := es.filterMap fun
  | .input name cov => some (name, cov)
  | _ => none

theorem inputEvents_fold (es : List KEvent) (st : Dict (Factor ℝ) × Dict (Factor ℝ)) :
    (es.foldl applyEvent st).1 = (inputEvents es).foldl (fun d e => addCov d e.1 e.2) st.1 := by
  induction es generalizing st with
  | nil => rfl
  | cons e es ih =>
    rw [List.foldl_cons, ih]
    cases e <;> rfl

theorem inputEvents_batch (cfg : KfacCfg) (layers : List KLayer) (batch : List KDatum) :
    inputEvents (batchEvents cfg layers batch) =
      (layers.filter fun l => l.pos.has "weight").map fun l => (l.name, inputCovariance cfg l batch) := by
  unfold batchEvents inputEvents
  rw [List.filterMap_append, List.filterMap_map]
  have h2 : (backwardEvents cfg layers batch).filterMap (fun
      | KEvent.input name cov => some (name, cov)
      | _ => none) = [] := by
    refine List.filterMap_eq_nil_iff.mpr fun e he => ?_
    unfold backwardEvents at he
    split at he
    · obtain ⟨l, -, rfl⟩ := List.mem_map.mp he
      rfl
    · obtain ⟨k, -, he⟩ := List.mem_flatMap.mp he
      obtain ⟨l, -, rfl⟩ := List.mem_map.mp he
      rfl
  rw [h2, List.append_nil]
  induction layers.filter fun l => l.pos.has "weight" with
  | nil => rfl
  | cons l ls ih => simp

/-- The same layer inputs. -/
def SameInputs (batches batches' : List (List KDatum)) : Prop :=
  List.Forall₂ (List.Forall₂ fun d d' => d.x = d'.x) batches batches'

theorem inputRows_congr {cfg cfg' : KfacCfg} (hA : cfg'.approx = cfg.approx) (hs : cfg'.sep = cfg.sep) (l : KLayer)
    {d d' : KDatum} (hd : d.x = d'.x) : inputRows cfg' l d' = inputRows cfg l d := by
  unfold inputRows KLayer.joint
  rw [hA, hs, hd]

theorem inputCovariance_congr {cfg cfg' : KfacCfg} (hA : cfg'.approx = cfg.approx) (hs : cfg'.sep = cfg.sep)
    (hN : cfg'.N = cfg.N) (l : KLayer) {b b' : List KDatum} (hb : List.Forall₂ (fun d d' => d.x = d'.x) b b') :
    inputCovariance cfg' l b' = inputCovariance cfg l b := by
  have hrows : b'.flatMap (inputRows cfg' l) = b.flatMap (inputRows cfg l) := by
    induction hb with
    | nil => rfl
    | cons hd _ ih => rw [List.flatMap_cons, List.flatMap_cons, ih, inputRows_congr hA hs l hd]
  unfold inputCovariance
  rw [hrows, hA, hN]
  unfold KLayer.joint
  rw [hs]

/-- C92: the input covariances depend on the layers' inputs, `kfac_approx`, `separate_weight_and_bias` and the number of data
only; not on `fisher_type`, the loss and its reduction, `mc_samples`, `num_per_example_loss_terms`, labels or gradients. -/
theorem input_covariances_depend (cfg cfg' : KfacCfg) (hA : cfg'.approx = cfg.approx) (hs : cfg'.sep = cfg.sep)
    (hN : cfg'.N = cfg.N) (layers : List KLayer) (batches batches' : List (List KDatum)) (hx : SameInputs batches batches') :
    (kfacFactors cfg' layers batches').1 = (kfacFactors cfg layers batches).1 := by
  unfold kfacFactors
  have key : ∀ st st' : Dict (Factor ℝ) × Dict (Factor ℝ), st'.1 = st.1 →
      (batches'.foldl (fun st b => (batchEvents cfg' layers b).foldl applyEvent st) st').1 =
        (batches.foldl (fun st b => (batchEvents cfg layers b).foldl applyEvent st) st).1 := by
    induction hx with
    | nil => exact fun st st' h => h
    | cons hb _ ih =>
      intro st st' h
      rw [List.foldl_cons, List.foldl_cons]
      refine ih _ _ ?_
      rw [inputEvents_fold, inputEvents_fold, inputEvents_batch, inputEvents_batch, h]
      congr 1
      exact List.map_congr_left fun l _ => by rw [inputCovariance_congr hA hs hN l hb]
  exact key _ _ rfl

/-- C92: with `fisher_type='forward-only'`, all factors depend on the layers' inputs, `kfac_approx`,
`separate_weight_and_bias` and the number of data only. -/
theorem forward_only_depends (cfg cfg' : KfacCfg) (hf : cfg.fisher = .forwardOnly) (hf' : cfg'.fisher = .forwardOnly)
    (hA : cfg'.approx = cfg.approx) (hs : cfg'.sep = cfg.sep) (hN : cfg'.N = cfg.N) (layers : List KLayer)
    (batches batches' : List (List KDatum)) (hx : SameInputs batches batches') :
    kfacFactors cfg' layers batches' = kfacFactors cfg layers batches := by
  unfold kfacFactors
  generalize (([], []) : Dict (Factor ℝ) × Dict (Factor ℝ)) = st
  induction hx generalizing st with
  | nil => rfl
  | @cons b b' _ _ hb _ ih =>
    rw [List.foldl_cons, List.foldl_cons]
    have : batchEvents cfg' layers b' = batchEvents cfg layers b := by
      unfold batchEvents backwardEvents
      rw [hf, hf']
      simp only
      congr 1
      exact List.map_congr_left fun l _ => by rw [inputCovariance_congr hA hs hN l hb]
    rw [this]
    exact ih _

/-- Two configurations with the same updates have the same factors. -/
theorem kfacFactors_congr (cfg cfg' : KfacCfg) (hf : cfg'.fisher = cfg.fisher) (hp : numPasses cfg' = numPasses cfg)
    (layers : List KLayer) (hi : ∀ l ∈ layers, ∀ b, inputCovariance cfg' l b = inputCovariance cfg l b)
    (hg : ∀ l ∈ layers, ∀ b k, gradCovariance cfg' l b k = gradCovariance cfg l b k) (batches : List (List KDatum)) :
    kfacFactors cfg' layers batches = kfacFactors cfg layers batches := by
  unfold kfacFactors
  congr 1
  funext st b
  have : batchEvents cfg' layers b = batchEvents cfg layers b := by
    unfold batchEvents backwardEvents
    rw [hf, hp]
    have h1 : (layers.filter fun l => l.pos.has "weight").map (fun l => KEvent.input l.name (inputCovariance cfg' l b)) =
        (layers.filter fun l => l.pos.has "weight").map fun l => KEvent.input l.name (inputCovariance cfg l b) :=
      List.map_congr_left fun l hl => by rw [hi l (List.mem_of_mem_filter hl)]
    have h2 : ∀ k, (layers.reverse.map fun l => KEvent.grad l.name (gradCovariance cfg' l b k)) =
        layers.reverse.map fun l => KEvent.grad l.name (gradCovariance cfg l b k) := fun k =>
      List.map_congr_left fun l hl => by rw [hg l (List.mem_reverse.mp hl)]
    rw [h1]
    simp only [h2]
  rw [this]

/-- C92: without weight sharing, `kfac_approx='expand'` and `'reduce'` are the same. -/
theorem expand_eq_reduce (cfg : KfacCfg) (a : KfacApprox) (layers : List KLayer) (hS : ∀ l ∈ layers, l.S = 1)
    (batches : List (List KDatum)) : kfacFactors { cfg with approx := a } layers batches = kfacFactors cfg layers batches := by
  have hrows : ∀ a a' : KfacApprox, ∀ l ∈ layers, ∀ d, inputRows { cfg with approx := a } l d =
      inputRows { cfg with approx := a' } l d := by
    intro a a' l hl d
    cases a <;> cases a' <;> simp [inputRows, KLayer.joint, hS l hl]
  have hgrows : ∀ a a' : KfacApprox, ∀ l ∈ layers, ∀ b k d, gradRows { cfg with approx := a } l b k d =
      gradRows { cfg with approx := a' } l b k d := by
    intro a a' l hl b k d
    cases a <;> cases a' <;> simp only [gradRows, hS l hl, List.range_one, Finset.range_one, Finset.sum_singleton,
      List.map_cons, List.map_nil] <;> rfl
  have hcfg : cfg = { cfg with approx := cfg.approx } := rfl
  refine kfacFactors_congr cfg { cfg with approx := a } rfl rfl layers (fun l hl b => ?_) (fun l hl b k => ?_) batches
  · have h1 : b.flatMap (inputRows { cfg with approx := a } l) = b.flatMap (inputRows cfg l) := by
      congr 1
      funext d
      exact hrows a cfg.approx l hl d
    unfold inputCovariance
    rw [h1]
    cases a <;> cases cfg.approx <;> simp [hS l hl, KLayer.joint]
  · have h1 : b.flatMap (gradRows { cfg with approx := a } l b.length k) = b.flatMap (gradRows cfg l b.length k) := by
      congr 1
      funext d
      exact hgrows a cfg.approx l hl b.length k d
    unfold gradCovariance
    rw [h1]
    rfl

/-- C92: `separate_weight_and_bias` makes no difference for the factors if no layer has both a weight and a bias among the
parameters. -/
theorem separate_irrelevant (cfg : KfacCfg) (sep : Bool) (layers : List KLayer)
    (hb : ∀ l ∈ layers, ¬(l.pos.has "weight" = true ∧ l.pos.has "bias" = true)) (batches : List (List KDatum)) :
    kfacFactors { cfg with sep := sep } layers batches = kfacFactors cfg layers batches := by
  have hj : ∀ l ∈ layers, ∀ s, l.joint { cfg with sep := s } = false := by
    intro l hl s
    have := hb l hl
    unfold KLayer.joint
    cases h1 : l.pos.has "weight" <;> cases h2 : l.pos.has "bias" <;> simp_all
  refine kfacFactors_congr cfg { cfg with sep := sep } rfl rfl layers (fun l hl b => ?_) (fun l hl b k => rfl) batches
  have h1 : l.joint { cfg with sep := sep } = false := hj l hl sep
  have h2 : l.joint cfg = false := hj l hl cfg.sep
  have h3 : b.flatMap (inputRows { cfg with sep := sep } l) = b.flatMap (inputRows cfg l) := by
    congr 1
    funext d
    unfold inputRows
    rw [h1, h2]
  unfold inputCovariance
  rw [h3, h1, h2]

/-! ## Separate and joint treatment of weight and bias -/

theorem specGradFactor_sep (cfg : KfacCfg) (sep : Bool) (l : KLayer) (data : List KDatum) :
    specGradFactor { cfg with sep := sep } l data = specGradFactor cfg l data := by
  obtain ⟨fisher, approx, loss, mean, mc, N, T, C, s⟩ := cfg
  cases fisher <;> cases approx <;> rfl

theorem extFactor_sep (cfg : KfacCfg) (sep : Bool) (l : PLayer) (data : List KDatum) :
    extFactor { cfg with sep := sep } l data = extFactor cfg l data := by
  obtain ⟨fisher, approx, loss, mean, mc, N, T, C, s⟩ := cfg
  cases approx <;> rfl

/-- Two coordinates belong to the same parameter iff they belong to the same layer and are both in the weight or both in the
bias. -/
theorem same_parameter {shapes : List (List Nat)} {layers : List PLayer} (hnet : PNet shapes layers) {l l' : PLayer}
    (hl : l ∈ layers) (hl' : l' ∈ layers) {o i o' i' q q' s s' : Nat} (hq : q < shapes.length) (hq' : q' < shapes.length)
    (hs : s < (shapes.getD q []).prod) (hs' : s' < (shapes.getD q' []).prod)
    (h : l.Coord shapes o i (offset shapes q + s)) (h' : l'.Coord shapes o' i' (offset shapes q' + s')) :
    q = q' ↔ l.name = l'.name ∧ (i = l.din ↔ i' = l.din) := by
  obtain ⟨r, hr, hrlt, t, ht, e, hk⟩ := coord_position (hnet.fits l hl) h
  obtain ⟨r', hr', hrlt', t', ht', e', hk'⟩ := coord_position (hnet.fits l' hl') h'
  have hqr : q = r := by
    by_contra hne
    exact offset_ne hne hq hrlt hs ht e
  have hqr' : q' = r' := by
    by_contra hne
    exact offset_ne hne hq' hrlt' hs' ht' e'
  subst hqr hqr'
  have hnd : l.pos.positions.Nodup := (List.nodup_flatMap.mp (positions_nodup hnet)).1 l hl
  constructor
  · rintro rfl
    have hll := layer_of_position hnet hl hl' hr hr'
    subst hll
    refine ⟨rfl, ?_⟩
    rcases hk with hk | hk <;> rcases hk' with hk' | hk'
    · omega
    · exfalso
      cases hp : l.pos with
      | both w b =>
        rw [hp] at hk hk' hnd
        simp [LayerPos.positions] at hk hk' hnd
        exact hnd (by omega)
      | weight w => exact hk'.2.2.2 w hp
      | bias b => rw [hp] at hk; simp [LayerPos.hasWeight] at hk
    · exfalso
      cases hp : l.pos with
      | both w b =>
        rw [hp] at hk hk' hnd
        simp [LayerPos.positions] at hk hk' hnd
        exact hnd (by omega)
      | weight w => exact hk.2.2.2 w hp
      | bias b => rw [hp] at hk'; simp [LayerPos.hasWeight] at hk'
    · simp [hk.1, hk'.1]
  · rintro ⟨hname, hii⟩
    have hll : l = l' := by
      obtain ⟨m, hm, rfl⟩ := List.mem_iff_getElem.mp hl
      obtain ⟨m', hm', rfl⟩ := List.mem_iff_getElem.mp hl'
      have := (hnet.names.getElem_inj_iff (i := m) (j := m') (hi := by simpa using hm) (hj := by simpa using hm')).mp
        (by simpa using hname)
      subst this
      rfl
    subst hll
    rcases hk with hk | hk <;> rcases hk' with hk' | hk'
    · exact Option.some.inj (hk.2.2.2.symm.trans hk'.2.2.2)
    · have := hii.mpr hk'.1
      omega
    · have := hii.mp hk.1
      omega
    · exact Option.some.inj (hk.2.2.1.symm.trans hk'.2.2.1)

/-- C92: with `separate_weight_and_bias=True`, KFAC is the block-diagonal, with one block per parameter, of KFAC with
`separate_weight_and_bias=False`: entries between coordinates of the same parameter are the same, all others are zero. -/
theorem separate_block_diagonal (cfg : KfacCfg) {shapes : List (List Nat)} {layers : List PLayer} (hnet : PNet shapes layers)
    (batches : List (List KDatum)) (hd : batches.flatten ≠ []) (hN : cfg.N = batches.flatten.length)
    (hS : ∀ l ∈ layers, l.S ≠ 0) (hT : cfg.T ≠ 0) (hC : cfg.C ≠ 0) (hmc : cfg.mcSamples ≠ 0) (J K : Mat ℝ)
    (hJ : Represents (pKfac { cfg with sep := false } shapes layers batches) J)
    (hK : Represents (pKfac { cfg with sep := true } shapes layers batches) K) (q q' : Nat) (hq : q < shapes.length)
    (hq' : q' < shapes.length) (s s' : Nat) (hs : s < (shapes.getD q []).prod) (hs' : s' < (shapes.getD q' []).prod) :
    K (offset shapes q + s) (offset shapes q' + s') =
      if q = q' then J (offset shapes q + s) (offset shapes q' + s') else 0 := by
  have hne : batches ≠ [] := by
    rintro rfl
    exact hd rfl
  have hkl := pnet_kfacLayers (cfg := { cfg with sep := false }) hnet batches hne hT hC hmc
  have hkl' := pnet_kfacLayers (cfg := { cfg with sep := true }) hnet batches hne hT hC hmc
  obtain ⟨⟨M, hM⟩, -⟩ := kfac_matrix_exists _ _ _ _ _ _ hkl
  obtain ⟨⟨M', hM'⟩, -⟩ := kfac_matrix_exists _ _ _ _ _ _ hkl'
  have hlt : ∀ q s, q < shapes.length → s < (shapes.getD q []).prod → offset shapes q + s < total shapes := fun q s hq hs =>
    offset_add_lt hq hs
  have hr := hlt q s hq hs
  have hc := hlt q' s' hq' hs'
  rw [represents_unique _ J M hJ (kfac_represents _ _ _ _ _ _ hkl M hM) _ _ hr hc,
    represents_unique _ K M' hK (kfac_represents _ _ _ _ _ _ hkl' M' hM') _ _ hr hc]
  obtain ⟨l, hl, o, i, hco⟩ := coord_cover hnet hr
  obtain ⟨l', hl', o', i', hco'⟩ := coord_cover hnet hc
  rw [kfac_entry (cfg := { cfg with sep := false }) hnet hN hd hS M hM hl hl' hco hco',
    kfac_entry (cfg := { cfg with sep := true }) hnet hN hd hS M' hM' hl hl' hco hco']
  have hiff := same_parameter hnet hl hl' hq hq' hs hs' hco hco'
  by_cases h : q = q'
  · have h2 := hiff.mp h
    rw [if_pos h, if_pos ⟨h2.1, fun _ => h2.2⟩, if_pos ⟨h2.1, fun h => by simp at h⟩, specGradFactor_sep cfg true,
      specGradFactor_sep cfg false, extFactor_sep cfg true, extFactor_sep cfg false]
  · rw [if_neg h, if_neg]
    exact fun h2 => h (hiff.mpr ⟨h2.1, h2.2 rfl⟩)

/-- C92: the trace does not depend on `separate_weight_and_bias`. -/
theorem separate_trace (cfg : KfacCfg) {shapes : List (List Nat)} {layers : List PLayer} (hnet : PNet shapes layers)
    (batches : List (List KDatum)) (hd : batches.flatten ≠ []) (hN : cfg.N = batches.flatten.length)
    (hS : ∀ l ∈ layers, l.S ≠ 0) (hT : cfg.T ≠ 0) (hC : cfg.C ≠ 0) (hmc : cfg.mcSamples ≠ 0) (J K : Mat ℝ)
    (hJ : Represents (pKfac { cfg with sep := false } shapes layers batches) J)
    (hK : Represents (pKfac { cfg with sep := true } shapes layers batches) K) :
    ∑ r ∈ Finset.range (total shapes), K r r = ∑ r ∈ Finset.range (total shapes), J r r := by
  refine Finset.sum_congr rfl fun r hr => ?_
  obtain ⟨q, hq, s, hs, rfl⟩ := offset_cover (Finset.mem_range.mp hr)
  rw [separate_block_diagonal cfg hnet batches hd hN hS hT hC hmc J K hJ hK q q hq hq s s hs hs, if_pos rfl]

/-- C92: without weight sharing, the operators with both approximations are the same. -/
theorem pKfac_expand_eq_reduce (cfg : KfacCfg) (shapes : List (List Nat)) (layers : List PLayer)
    (hS : ∀ l ∈ layers, l.S = 1) (batches : List (List KDatum)) :
    pKfac { cfg with approx := .expand } shapes layers batches = pKfac { cfg with approx := .reduce } shapes layers batches := by
  have hS' : ∀ l ∈ layers.map PLayer.klayer, l.S = 1 := by
    intro l hl
    obtain ⟨l', hl', rfl⟩ := List.mem_map.mp hl
    exact hS l' hl'
  unfold pKfac
  rw [expand_eq_reduce cfg .expand _ hS', expand_eq_reduce cfg .reduce _ hS']

/-! ## Examples -/

/-- One weight that is used at two positions, with the inputs `1` and `-1`. -/
def sharedLayer : KLayer := ⟨"fc", [("weight", 0)], 1, 1, 2⟩

def sharedDatum : KDatum := ⟨fun _ s _ => if s = 0 then 1 else -1, fun _ _ _ _ _ => 1, fun _ _ _ => 1, fun _ _ _ => 1⟩

/-- With weight sharing, the approximations differ: the input factor is `1` for `expand` and `0` for `reduce`. -/
theorem expand_ne_reduce :
    ((kfacFactors ⟨.type2, .expand, .mse, false, 1, 1, 1, 1, false⟩ [sharedLayer] [[sharedDatum]]).1.get "fc").map
        (fun f => f.mat 0 0) = some 1 ∧
      ((kfacFactors ⟨.type2, .reduce, .mse, false, 1, 1, 1, 1, false⟩ [sharedLayer] [[sharedDatum]]).1.get "fc").map
        (fun f => f.mat 0 0) = some 0 := by
  have h := fun a => kfac_input_factor ⟨.type2, a, .mse, false, 1, 1, 1, 1, false⟩ [sharedLayer] (by simp) [[sharedDatum]]
    (by simp) sharedLayer (by simp) (by simp [sharedLayer, Dict.has])
  have h1 := h .expand
  have h2 := h .reduce
  change Dict.get _ "fc" = _ at h1
  change Dict.get _ "fc" = _ at h2
  rw [h1, h2]
  constructor
  · simp [specInputFactor, specInputVec, sharedLayer, sharedDatum, KLayer.joint, Dict.has, Finset.sum_range_succ]
    norm_num
  · simp [specInputFactor, specMeanInput, sharedLayer, sharedDatum, KLayer.joint, Dict.has, Finset.sum_range_succ]

/-- One layer with weight and bias, input `3`, gradient `2`: jointly, the entry between weight and bias is not zero, so that
the entries that `separate_weight_and_bias` drops matter. -/
example : ∃ J, Represents (pKfac ⟨.type2, .expand, .mse, false, 1, 1, 1, 1, false⟩ [[1, 1], [1]] oneLayer [[selDatum]]) J ∧
    J 0 1 = 12 ∧ J 0 0 = 36 ∧ J 1 1 = 4 := by
  have hkl := pnet_kfacLayers (cfg := ⟨.type2, .expand, .mse, false, 1, 1, 1, 1, false⟩) oneLayer_net [[selDatum]] (by simp)
    (by simp) (by simp) (by simp)
  obtain ⟨⟨M, hM⟩, -⟩ := kfac_matrix_exists _ _ _ _ _ _ hkl
  have hc0 : (⟨"fc", .both 0 1, 1, 1, 1⟩ : PLayer).Coord [[1, 1], [1]] 0 0 0 := by simp [PLayer.Coord, offset]
  have hc1 : (⟨"fc", .both 0 1, 1, 1, 1⟩ : PLayer).Coord [[1, 1], [1]] 0 1 1 := by simp [PLayer.Coord, offset]
  have key := fun {i i' p p'} => kfac_entry (cfg := ⟨.type2, .expand, .mse, false, 1, 1, 1, 1, false⟩) oneLayer_net
    (data := [selDatum]) rfl (by simp) (by simp [oneLayer]) M (by simpa using hM) (l := ⟨"fc", .both 0 1, 1, 1, 1⟩)
    (l' := ⟨"fc", .both 0 1, 1, 1, 1⟩) (by simp [oneLayer]) (by simp [oneLayer]) (o := 0) (i := i) (o' := 0) (i' := i')
    (p := p) (p' := p')
  refine ⟨M, kfac_represents _ _ _ _ _ _ hkl M hM, ?_, ?_, ?_⟩
  · rw [key hc0 hc1]
    simp [specGradFactor, extFactor, selDatum, specGradScale, specCotangents, specGradVec, PLayer.klayer]
    norm_num
  · rw [key hc0 hc0]
    simp [specGradFactor, extFactor, selDatum, specGradScale, specCotangents, specGradVec, PLayer.klayer]
    norm_num
  · rw [key hc1 hc1]
    simp [specGradFactor, extFactor, selDatum, specGradScale, specCotangents, specGradVec, PLayer.klayer]
    norm_num

end Curvlinops
