import Verif.Props.Selection
import Verif.Props.KfacExact
import Verif.Props.KfacMappingLayers

/-!
# C87: KFAC on some of the parameters
-/

namespace Curvlinops

/-! ## The entries of KFAC's matrix -/

/-- A layer of the network: positions of its parameters, dimensions, and the number of positions that share the weight. -/
structure PLayer where
  name : String
  pos : LayerPos
  din : Nat
  dout : Nat
  S : Nat

/-- The layer as KFAC sees it. -/
def PLayer.klayer (l : PLayer) : KLayer := ⟨l.name, l.pos.dict, l.din, l.dout, l.S⟩

/-- The layer with its Kronecker factors. -/
noncomputable def PLayer.layer (cfg : KfacCfg) (data : List KDatum) (l : PLayer) : Layer ℝ :=
  ⟨l.name, l.pos, ⟨l.din + (if l.klayer.joint cfg then 1 else 0), specInputFactor cfg l.klayer data⟩,
    ⟨l.dout, specGradFactor cfg l.klayer data⟩⟩

/-- The shapes of the layer's parameters. -/
def PLayer.Fits (shapes : List (List Nat)) (l : PLayer) : Prop :=
  match l.pos with
  | .both w b => (w < shapes.length ∧ b < shapes.length) ∧ (shapes.getD w []).head? = some l.dout ∧ wCols shapes w = l.din ∧
      shapes.getD b [] = [l.dout]
  | .weight w => w < shapes.length ∧ (shapes.getD w []).head? = some l.dout ∧ wCols shapes w = l.din
  | .bias b => b < shapes.length ∧ shapes.getD b [] = [l.dout]

/-- Every parameter belongs to exactly one layer. -/
structure PNet (shapes : List (List Nat)) (layers : List PLayer) : Prop where
  fits : ∀ l ∈ layers, l.Fits shapes
  names : (layers.map PLayer.name).Nodup
  perm : (layers.flatMap fun l => l.pos.positions).Perm (List.range shapes.length)

/-- KFAC's mapping. -/
def pMapping (layers : List PLayer) : Dict (Dict Nat) := layers.map fun l => (l.name, l.pos.dict)

/-- The KFAC operator on the network. -/
noncomputable def pKfac (cfg : KfacCfg) (shapes : List (List Nat)) (layers : List PLayer) (batches : List (List KDatum)) : LinOp ℝ :=
  kfacOp shapes cfg.sep (pMapping layers) (kfacFactors cfg (layers.map PLayer.klayer) batches).1
    (kfacFactors cfg (layers.map PLayer.klayer) batches).2

theorem pnet_kfacLayers {cfg : KfacCfg} {shapes : List (List Nat)} {layers : List PLayer} (hnet : PNet shapes layers)
    (batches : List (List KDatum)) (hne : batches ≠ []) (hT : cfg.T ≠ 0) (hC : cfg.C ≠ 0) (hmc : cfg.mcSamples ≠ 0) :
    KfacLayers cfg.sep shapes (pMapping layers) (kfacFactors cfg (layers.map PLayer.klayer) batches).1
      (kfacFactors cfg (layers.map PLayer.klayer) batches).2 (layers.map (PLayer.layer cfg batches.flatten)) := by
  have hnames : ((layers.map PLayer.klayer).map KLayer.name).Nodup := by
    rw [List.map_map]
    exact hnet.names
  refine ⟨?_, ?_, ?_, ?_, ?_⟩
  · unfold pMapping
    rw [List.map_map]
    rfl
  · rw [List.flatMap_map]
    exact hnet.perm
  · intro l hl hw
    obtain ⟨l', hl', rfl⟩ := List.mem_map.mp hl
    exact kfac_input_factor cfg _ hnames batches hne l'.klayer (List.mem_map_of_mem hl')
      (by rw [← hw]; exact Dict.has_dict_weight l'.pos)
  · intro l hl
    obtain ⟨l', hl', rfl⟩ := List.mem_map.mp hl
    exact kfac_grad_factor cfg _ hnames batches hne hT hC hmc l'.klayer (List.mem_map_of_mem hl')
  · intro l hl
    obtain ⟨l', hl', rfl⟩ := List.mem_map.mp hl
    have hf := hnet.fits l' hl'
    unfold PLayer.Fits at hf
    unfold Layer.Fits
    cases hp : l'.pos with
    | both w b =>
      rw [hp] at hf
      simp only [PLayer.layer, PLayer.klayer, KLayer.joint, hp]
      refine ⟨hf.2.1, hf.2.2.2, ?_⟩
      rw [hf.2.2.1]
      cases cfg.sep <;> simp [LayerPos.dict, Dict.has]
    | weight w =>
      rw [hp] at hf
      simp only [PLayer.layer, PLayer.klayer, KLayer.joint, hp]
      refine ⟨hf.2.1, ?_⟩
      rw [hf.2.2]
      simp [LayerPos.dict, Dict.has]
    | bias b =>
      rw [hp] at hf
      simp only [PLayer.layer, hp]
      exact hf.2

/-- Coordinate `p` of the parameter vector is entry `(o, i)` of the matrix `[W b]` of a layer, with the bias as last column. -/
def PLayer.Coord (shapes : List (List Nat)) (l : PLayer) (o i p : Nat) : Prop :=
  o < l.dout ∧ match l.pos with
  | .both w b => (i < l.din ∧ p = offset shapes w + (o * l.din + i)) ∨ (i = l.din ∧ p = offset shapes b + o)
  | .weight w => i < l.din ∧ p = offset shapes w + (o * l.din + i)
  | .bias b => i = l.din ∧ p = offset shapes b + o

/-- The input factor of the inputs extended by ones: `1 / (N S) ∑ₙ ∑ₛ x xᵀ` (expand) or `1 / N ∑ₙ x̄ x̄ᵀ` (reduce). -/
noncomputable def extFactor (cfg : KfacCfg) (l : PLayer) (data : List KDatum) (i j : Nat) : ℝ :=
  match cfg.approx with
  | .expand => 1 / (cfg.N * l.S : ℝ) * (data.map fun d => ∑ s ∈ Finset.range l.S,
      (if i = l.din then (1 : ℝ) else d.x l.name s i) * (if j = l.din then (1 : ℝ) else d.x l.name s j)).sum
  | .reduce => 1 / (cfg.N : ℝ) * (data.map fun d =>
      (if i = l.din then (1 : ℝ) else (∑ s ∈ Finset.range l.S, d.x l.name s i) / l.S) *
        (if j = l.din then (1 : ℝ) else (∑ s ∈ Finset.range l.S, d.x l.name s j) / l.S)).sum

theorem extFactor_bias {cfg : KfacCfg} {l : PLayer} {data : List KDatum} (hN : cfg.N = data.length) (hd : data ≠ [])
    (hS : l.S ≠ 0) : extFactor cfg l data l.din l.din = 1 := by
  have h1 : (data.length : ℝ) ≠ 0 := by
    have := List.length_pos_of_ne_nil hd
    exact_mod_cast this.ne'
  have h2 : (l.S : ℝ) ≠ 0 := by exact_mod_cast hS
  unfold extFactor
  cases cfg.approx
  · simp [hN, List.map_const', List.sum_replicate]
    field_simp
  · simp [hN, List.map_const', List.sum_replicate]
    field_simp

theorem specInputFactor_eq_ext (cfg : KfacCfg) (l : PLayer) (data : List KDatum) {i j : Nat}
    (h : l.klayer.joint cfg = true ∨ (i ≠ l.din ∧ j ≠ l.din)) :
    specInputFactor cfg l.klayer data i j = extFactor cfg l data i j := by
  have h1 : ∀ d s, specInputVec cfg l.klayer d s i = if i = l.din then 1 else d.x l.name s i := by
    intro d s
    change (if l.klayer.joint cfg = true ∧ i = l.din then 1 else d.x l.name s i) = _
    rcases h with h | h
    · simp [h]
    · simp [h.1]
  have h1' : ∀ d s, specInputVec cfg l.klayer d s j = if j = l.din then 1 else d.x l.name s j := by
    intro d s
    change (if l.klayer.joint cfg = true ∧ j = l.din then 1 else d.x l.name s j) = _
    rcases h with h | h
    · simp [h]
    · simp [h.2]
  have h2 : ∀ d, specMeanInput cfg l.klayer d i =
      if i = l.din then 1 else (∑ s ∈ Finset.range l.S, d.x l.name s i) / l.S := by
    intro d
    change (if l.klayer.joint cfg = true ∧ i = l.din then 1 else (∑ s ∈ Finset.range l.S, d.x l.name s i) / l.S) = _
    rcases h with h | h
    · simp [h]
    · simp [h.1]
  have h2' : ∀ d, specMeanInput cfg l.klayer d j =
      if j = l.din then 1 else (∑ s ∈ Finset.range l.S, d.x l.name s j) / l.S := by
    intro d
    change (if l.klayer.joint cfg = true ∧ j = l.din then 1 else (∑ s ∈ Finset.range l.S, d.x l.name s j) / l.S) = _
    rcases h with h | h
    · simp [h]
    · simp [h.2]
  unfold specInputFactor extFactor
  simp only [h1, h1', h2, h2']
  rfl

/-- The block of a coordinate. -/
noncomputable def PLayer.blockAt (cfg : KfacCfg) (shapes : List (List Nat)) (data : List KDatum) (l : PLayer) (isB : Bool) : KBlock ℝ :=
  match l.pos with
  | .both w b => if cfg.sep then (if isB then (l.layer cfg data).bBlock shapes b else (l.layer cfg data).wBlock shapes w)
      else (l.layer cfg data).jBlock shapes w b
  | .weight w => (l.layer cfg data).wBlock shapes w
  | .bias b => (l.layer cfg data).bBlock shapes b

/-- The column in the block. -/
def PLayer.colAt (cfg : KfacCfg) (l : PLayer) (i : Nat) : Nat :=
  match l.pos with
  | .both _ _ => if cfg.sep then (if i = l.din then 0 else i) else i
  | .weight _ => i
  | .bias _ => 0

section entries

variable {cfg : KfacCfg} {shapes : List (List Nat)} {data : List KDatum} {layers : List PLayer}

theorem coord_block {l : PLayer} (hf : l.Fits shapes) {o i p : Nat} (h : l.Coord shapes o i p) :
    l.blockAt cfg shapes data (decide (i = l.din)) ∈ (l.layer cfg data).blocks cfg.sep shapes ∧
      o < (l.blockAt cfg shapes data (decide (i = l.din))).rows ∧
      l.colAt cfg i < (l.blockAt cfg shapes data (decide (i = l.din))).cols ∧
      (l.blockAt cfg shapes data (decide (i = l.din))).idx o (l.colAt cfg i) = p := by
  obtain ⟨ho, h⟩ := h
  unfold PLayer.Fits at hf
  unfold PLayer.blockAt PLayer.colAt Layer.blocks
  cases hp : l.pos with
  | both w b =>
    rw [hp] at hf h
    simp only [PLayer.layer, hp] at h ⊢
    cases hs : cfg.sep
    · simp only [Bool.false_eq_true, if_false, List.mem_singleton, true_and, Layer.jBlock]
      refine ⟨ho, ?_, ?_⟩
      · rw [hf.2.2.1]; rcases h with h | h <;> omega
      · rw [hf.2.2.1]
        rcases h with h | h
        · rw [if_pos h.1, h.2]
        · rw [if_neg (by omega), h.2]
    · simp only [if_true]
      rcases h with h | h
      · have : i ≠ l.din := by omega
        simp only [this, decide_false, Bool.false_eq_true, if_false, List.mem_cons, true_or, true_and, Layer.wBlock]
        exact ⟨ho, by rw [hf.2.2.1]; exact h.1, by rw [hf.2.2.1, h.2]⟩
      · simp only [h.1, decide_true, if_true, Layer.bBlock]
        refine ⟨by simp, ho, by omega, h.2.symm⟩
  | weight w =>
    rw [hp] at hf h
    simp only [PLayer.layer, hp, List.mem_singleton, true_and, Layer.wBlock] at h ⊢
    exact ⟨ho, by rw [hf.2.2]; exact h.1, by rw [hf.2.2, h.2]⟩
  | bias b =>
    rw [hp] at hf h
    simp only [PLayer.layer, hp, List.mem_singleton, true_and, Layer.bBlock] at h ⊢
    exact ⟨ho, by omega, h.2.symm⟩

theorem block_coord {l : PLayer} (hf : l.Fits shapes) {o₀ i₀ p₀ : Nat} (h₀ : l.Coord shapes o₀ i₀ p₀) {o j : Nat}
    (ho : o < (l.blockAt cfg shapes data (decide (i₀ = l.din))).rows)
    (hj : j < (l.blockAt cfg shapes data (decide (i₀ = l.din))).cols) :
    ∃ i, l.Coord shapes o i ((l.blockAt cfg shapes data (decide (i₀ = l.din))).idx o j) ∧
      (cfg.sep = true → (i = l.din ↔ i₀ = l.din)) := by
  obtain ⟨_, h₀⟩ := h₀
  unfold PLayer.Fits at hf
  unfold PLayer.blockAt at ho hj ⊢
  unfold PLayer.Coord
  cases hp : l.pos with
  | both w b =>
    rw [hp] at hf h₀
    simp only [hp] at ho hj h₀ ⊢
    cases hs : cfg.sep
    · simp only [hs, Bool.false_eq_true, if_false, Layer.jBlock, PLayer.layer] at ho hj ⊢
      rw [hf.2.2.1] at hj
      refine ⟨j, ⟨ho, ?_⟩, fun h => h.elim⟩
      rw [hf.2.2.1]
      by_cases hlt : j < l.din
      · exact Or.inl ⟨hlt, by rw [if_pos hlt]⟩
      · exact Or.inr ⟨by omega, by rw [if_neg hlt]⟩
    · simp only [hs, if_true] at ho hj ⊢
      by_cases hi : i₀ = l.din
      · simp only [hi, decide_true, if_true, Layer.bBlock, PLayer.layer] at ho hj ⊢
        exact ⟨l.din, ⟨ho, Or.inr ⟨rfl, trivial⟩⟩, fun _ => by simp⟩
      · simp only [hi, decide_false, Bool.false_eq_true, if_false, Layer.wBlock, PLayer.layer] at ho hj ⊢
        rw [hf.2.2.1] at hj
        exact ⟨j, ⟨ho, Or.inl ⟨hj, by rw [hf.2.2.1]⟩⟩, fun _ => by simp; omega⟩
  | weight w =>
    rw [hp] at hf h₀
    simp only [hp, Layer.wBlock, PLayer.layer] at ho hj h₀ ⊢
    rw [hf.2.2] at hj
    refine ⟨j, ⟨ho, hj, by rw [hf.2.2]⟩, fun _ => ?_⟩
    have := h₀.1
    omega
  | bias b =>
    rw [hp] at hf h₀
    simp only [hp, Layer.bBlock, PLayer.layer] at ho hj h₀ ⊢
    exact ⟨l.din, ⟨ho, rfl, trivial⟩, fun _ => by simp [h₀.1]⟩

theorem coord_position {l : PLayer} (hf : l.Fits shapes) {o i p : Nat} (h : l.Coord shapes o i p) :
    ∃ q ∈ l.pos.positions, q < shapes.length ∧ ∃ s < (shapes.getD q []).prod, p = offset shapes q + s ∧
      ((i < l.din ∧ s = o * l.din + i ∧ l.pos.hasWeight = true ∧ l.pos.positions.head? = some q) ∨
        (i = l.din ∧ s = o ∧ l.pos.positions.getLast? = some q ∧ ∀ w, l.pos ≠ .weight w)) := by
  obtain ⟨ho, h⟩ := h
  unfold PLayer.Fits at hf
  have hb : ∀ b, shapes.getD b [] = [l.dout] → o < (shapes.getD b []).prod := by
    intro b hb; rw [hb]; simpa using ho
  cases hp : l.pos with
  | both w b =>
    rw [hp] at hf h
    rcases h with h | h
    · exact ⟨w, by simp [LayerPos.positions], hf.1.1, _, weight_index_lt hf.2.1 hf.2.2.1 ho h.1, h.2,
        Or.inl ⟨h.1, rfl, rfl, rfl⟩⟩
    · exact ⟨b, by simp [LayerPos.positions], hf.1.2, _, hb b hf.2.2.2, h.2,
        Or.inr ⟨h.1, rfl, rfl, by simp⟩⟩
  | weight w =>
    rw [hp] at hf h
    exact ⟨w, by simp [LayerPos.positions], hf.1, _, weight_index_lt hf.2.1 hf.2.2 ho h.1, h.2,
        Or.inl ⟨h.1, rfl, rfl, rfl⟩⟩
  | bias b =>
    rw [hp] at hf h
    exact ⟨b, by simp [LayerPos.positions], hf.1, _, hb b hf.2, h.2, Or.inr ⟨h.1, rfl, rfl, by simp⟩⟩

theorem positions_nodup (hnet : PNet shapes layers) : (layers.flatMap fun l => l.pos.positions).Nodup :=
  hnet.perm.nodup_iff.mpr List.nodup_range

theorem layer_of_position (hnet : PNet shapes layers) {l l' : PLayer} (hl : l ∈ layers) (hl' : l' ∈ layers) {q : Nat}
    (hq : q ∈ l.pos.positions) (hq' : q ∈ l'.pos.positions) : l = l' := by
  have h := List.pairwise_iff_getElem.mp (List.nodup_flatMap.mp (positions_nodup hnet)).2
  obtain ⟨m, hm, rfl⟩ := List.mem_iff_getElem.mp hl
  obtain ⟨m', hm', rfl⟩ := List.mem_iff_getElem.mp hl'
  rcases Nat.lt_trichotomy m m' with hlt | rfl | hlt
  · exact (h m m' hm hm' hlt hq hq').elim
  · rfl
  · exact (h m' m hm' hm hlt hq' hq).elim

/-- A coordinate belongs to one layer only, and is a weight or a bias. -/
theorem coord_layer (hnet : PNet shapes layers) {l l' : PLayer} (hl : l ∈ layers) (hl' : l' ∈ layers) {o i o' i' p : Nat}
    (h : l.Coord shapes o i p) (h' : l'.Coord shapes o' i' p) : l = l' ∧ (i = l.din ↔ i' = l'.din) := by
  obtain ⟨q, hq, hqlt, s, hs, e, hk⟩ := coord_position (hnet.fits l hl) h
  obtain ⟨q', hq', hqlt', s', hs', e', hk'⟩ := coord_position (hnet.fits l' hl') h'
  have hqq : q = q' := by
    by_contra hne
    exact offset_ne hne hqlt hqlt' hs hs' (e ▸ e')
  subst hqq
  have hll := layer_of_position hnet hl hl' hq hq'
  subst hll
  refine ⟨rfl, ?_⟩
  have hnd : l.pos.positions.Nodup := (List.nodup_flatMap.mp (positions_nodup hnet)).1 l hl
  rcases hk with hk | hk <;> rcases hk' with hk' | hk'
  · omega
  · exfalso
    cases hp : l.pos with
    | both w b =>
      rw [hp] at hk hk' hnd
      simp [LayerPos.positions] at hk hk' hnd
      exact hnd (by omega)
    | weight w => exact hk'.2.2.2 w hp
    | bias b => rw [hp] at hk; simp [LayerPos.hasWeight] at hk
  · exfalso
    cases hp : l.pos with
    | both w b =>
      rw [hp] at hk hk' hnd
      simp [LayerPos.positions] at hk hk' hnd
      exact hnd (by omega)
    | weight w => exact hk.2.2.2 w hp
    | bias b => rw [hp] at hk'; simp [LayerPos.hasWeight] at hk'
  · simp [hk.1, hk'.1]

/-- Every coordinate is an entry of some layer. -/
theorem coord_cover (hnet : PNet shapes layers) {p : Nat} (hp : p < total shapes) :
    ∃ l ∈ layers, ∃ o i, l.Coord shapes o i p := by
  obtain ⟨q, hq, s, hs, e⟩ := offset_cover hp
  obtain ⟨l, hl, hql⟩ := List.mem_flatMap.mp (hnet.perm.mem_iff.mpr (List.mem_range.mpr hq))
  have hf := hnet.fits l hl
  unfold PLayer.Fits at hf
  refine ⟨l, hl, ?_⟩
  unfold PLayer.Coord
  cases hpos : l.pos with
  | both w b =>
    rw [hpos] at hf hql
    simp only [LayerPos.positions, List.mem_cons, List.not_mem_nil, or_false] at hql
    rcases hql with rfl | rfl
    · obtain ⟨h1, h2, h3⟩ := offset_split hf.2.1 hf.2.2.1 hs
      exact ⟨_, _, h1, Or.inl ⟨h2, by rw [e, ← h3]⟩⟩
    · rw [hf.2.2.2] at hs
      exact ⟨s, l.din, by simpa using hs, Or.inr ⟨rfl, e⟩⟩
  | weight w =>
    rw [hpos] at hf hql
    simp only [LayerPos.positions, List.mem_singleton] at hql
    subst hql
    obtain ⟨h1, h2, h3⟩ := offset_split hf.2.1 hf.2.2 hs
    exact ⟨_, _, h1, h2, by rw [e, ← h3]⟩
  | bias b =>
    rw [hpos] at hf hql
    simp only [LayerPos.positions, List.mem_singleton] at hql
    subst hql
    rw [hf.2] at hs
    exact ⟨s, l.din, by simpa using hs, rfl, e⟩

/-- **C87** (entries of KFAC): entries between parameters of different layers vanish, and with `separate_weight_and_bias` those
between weight and bias; all others are products of an entry of the gradient factor and an entry of the input factor with the
inputs extended by ones. This does not depend on which parameters are treated. -/
theorem kfac_entry (hnet : PNet shapes layers) (hN : cfg.N = data.length) (hd : data ≠ [])
    (hS : ∀ l ∈ layers, l.S ≠ 0) (M : Mat ℝ)
    (hM : IsKron (kfacBlocks cfg.sep shapes (layers.map (PLayer.layer cfg data))) M) {l l' : PLayer} (hl : l ∈ layers)
    (hl' : l' ∈ layers) {o i o' i' p p' : Nat} (h : l.Coord shapes o i p) (h' : l'.Coord shapes o' i' p') :
    M p p' = open Classical in if l.name = l'.name ∧ (cfg.sep = true → (i = l.din ↔ i' = l.din)) then
      specGradFactor cfg l.klayer data o o' * extFactor cfg l data i' i else 0 := by
  have hmem : ∀ {l : PLayer}, l ∈ layers → ∀ {b}, b ∈ (l.layer cfg data).blocks cfg.sep shapes →
      ∃ a, ∃ ha : a < (kfacBlocks cfg.sep shapes (layers.map (PLayer.layer cfg data))).length,
        (kfacBlocks cfg.sep shapes (layers.map (PLayer.layer cfg data)))[a] = b := by
    intro l hl b hb
    exact List.mem_iff_getElem.mp (List.mem_flatMap.mpr ⟨_, List.mem_map_of_mem hl, hb⟩)
  obtain ⟨hb, h1, h2, h3⟩ := coord_block (cfg := cfg) (data := data) (hnet.fits l hl) h
  obtain ⟨hb', h1', h2', h3'⟩ := coord_block (cfg := cfg) (data := data) (hnet.fits l' hl') h'
  obtain ⟨a, ha, ea⟩ := hmem hl hb
  generalize hbs : kfacBlocks cfg.sep shapes (layers.map (PLayer.layer cfg data)) = bs at *
  by_cases hc : l.name = l'.name ∧ (cfg.sep = true → (i = l.din ↔ i' = l.din))
  · rw [if_pos hc]
    have hll : l = l' := by
      obtain ⟨m, hm, rfl⟩ := List.mem_iff_getElem.mp hl
      obtain ⟨m', hm', rfl⟩ := List.mem_iff_getElem.mp hl'
      have := (hnet.names.getElem_inj_iff (i := m) (j := m') (hi := by simpa using hm) (hj := by simpa using hm')).mp
        (by simpa using hc.1)
      subst this
      rfl
    subst hll
    have hsame : l.blockAt cfg shapes data (decide (i' = l.din)) = l.blockAt cfg shapes data (decide (i = l.din)) := by
      unfold PLayer.blockAt
      cases hp : l.pos with
      | both w b =>
        cases hs : cfg.sep
        · simp
        · simp only [decide_eq_true_eq, if_true, (hc.2 hs)]
      | weight w => rfl
      | bias b => rfl
    rw [hsame] at h1' h2' h3'
    have key := hM ⟨⟨a, ha⟩, ⟨⟨o, by simpa only [Fin.getElem_fin, ea] using h1⟩,
        ⟨l.colAt cfg i, by simpa only [Fin.getElem_fin, ea] using h2⟩⟩⟩
      ⟨⟨a, ha⟩, ⟨⟨o', by simpa only [Fin.getElem_fin, ea] using h1'⟩,
        ⟨l.colAt cfg i', by simpa only [Fin.getElem_fin, ea] using h2'⟩⟩⟩
    simp only [KIdx.pos, KIdx.entry, Fin.getElem_fin, ea, if_true, h3, h3'] at key
    rw [key]
    have hf := hnet.fits l hl
    have hext := extFactor_bias (cfg := cfg) (l := l) hN hd (hS l hl)
    obtain ⟨_, hh⟩ := h
    obtain ⟨_, hh'⟩ := h'
    unfold PLayer.blockAt PLayer.colAt
    cases hp : l.pos with
    | both w b =>
      rw [hp] at hh hh'
      cases hs : cfg.sep
      · simp only [Bool.false_eq_true, if_false, Layer.jBlock, PLayer.layer]
        rw [specInputFactor_eq_ext]
        exact Or.inl (by simp [KLayer.joint, PLayer.klayer, hp, LayerPos.dict, Dict.has, hs])
      · have hiff := hc.2 hs
        by_cases hi : i = l.din
        · have hi' := hiff.mp hi
          simp only [if_true, hi, hi', decide_true, Layer.bBlock, PLayer.layer, hext]
        · have hi' : i' ≠ l.din := fun h => hi (hiff.mpr h)
          simp only [if_true, hi, hi', decide_false, Bool.false_eq_true, if_false, Layer.wBlock, PLayer.layer]
          rw [specInputFactor_eq_ext _ _ _ (Or.inr ⟨hi', hi⟩)]
    | weight w =>
      rw [hp] at hh hh'
      simp only [Layer.wBlock, PLayer.layer]
      rw [specInputFactor_eq_ext _ _ _ (Or.inr ⟨by have := hh'.1; omega, by have := hh.1; omega⟩)]
    | bias b =>
      rw [hp] at hh hh'
      simp only [Layer.bBlock, PLayer.layer, hh.1, hh'.1, hext]
  · rw [if_neg hc]
    obtain ⟨a', ha', ea'⟩ := hmem hl' hb'
    have key := hM ⟨⟨a, ha⟩, ⟨⟨o, by simpa only [Fin.getElem_fin, ea] using h1⟩,
        ⟨l.colAt cfg i, by simpa only [Fin.getElem_fin, ea] using h2⟩⟩⟩
      ⟨⟨a', ha'⟩, ⟨⟨o', by simpa only [Fin.getElem_fin, ea'] using h1'⟩,
        ⟨l'.colAt cfg i', by simpa only [Fin.getElem_fin, ea'] using h2'⟩⟩⟩
    simp only [KIdx.pos, KIdx.entry, Fin.getElem_fin, ea, ea', h3, h3', Fin.mk.injEq] at key
    rw [key, if_neg]
    rintro rfl
    have hbb : l.blockAt cfg shapes data (decide (i = l.din)) = l'.blockAt cfg shapes data (decide (i' = l'.din)) := by
      rw [← ea, ← ea']
    rw [hbb] at h1 h2 h3
    obtain ⟨i'', hco, hkind⟩ := block_coord (hnet.fits l' hl') h' h1 h2
    rw [h3] at hco
    obtain ⟨hll, hii⟩ := coord_layer hnet hl hl' h hco
    subst hll
    exact hc ⟨rfl, fun hs => hii.trans (hkind hs)⟩

end entries


/-! ## Selections -/

/-- The selected positions of a layer, in terms of positions in the selection. -/
def LayerPos.select (sel : List Nat) : LayerPos → Option LayerPos
  | .both w b => if w ∈ sel then (if b ∈ sel then some (.both (sel.idxOf w) (sel.idxOf b)) else some (.weight (sel.idxOf w)))
      else if b ∈ sel then some (.bias (sel.idxOf b)) else none
  | .weight w => if w ∈ sel then some (.weight (sel.idxOf w)) else none
  | .bias b => if b ∈ sel then some (.bias (sel.idxOf b)) else none

/-- The layer with its selected parameters; layers without selected parameters are not treated. -/
def PLayer.select (sel : List Nat) (l : PLayer) : Option PLayer := (l.pos.select sel).map fun p => { l with pos := p }

/-- The selected entries of the mapping. -/
def selectMapping (sel : List Nat) (mapping : Dict (Dict Nat)) : Dict (Dict Nat) :=
  (mapping.map fun e => (e.1, (e.2.filter fun p => decide (p.2 ∈ sel)).map fun p => (p.1, sel.idxOf p.2))).filter fun e =>
    !e.2.isEmpty

theorem idxOf_select {ids sel : List Nat} (hids : ids.Nodup) (hsel : ∀ p ∈ sel, p < ids.length) {id : Nat} :
    (id ∈ sel.map (fun p => ids.getD p 0) ↔ id ∈ ids ∧ ids.idxOf id ∈ sel) ∧
      (id ∈ ids → (sel.map fun p => ids.getD p 0).idxOf id = sel.idxOf (ids.idxOf id)) := by
  have hget : ∀ p ∈ sel, ∀ id ∈ ids, (ids.getD p 0 = id ↔ p = ids.idxOf id) := by
    intro p hp id hid
    have hlt := hsel p hp
    have e : ids.getD p 0 = ids[p] := by simp [List.getD, hlt]
    rw [e]
    constructor
    · rintro rfl
      exact (hids.idxOf_getElem p hlt).symm
    · rintro rfl
      exact List.getElem_idxOf hlt
  constructor
  · rw [List.mem_map]
    constructor
    · rintro ⟨p, hp, rfl⟩
      have hlt := hsel p hp
      have e : ids.getD p 0 = ids[p] := by simp [List.getD, hlt]
      have hm : ids.getD p 0 ∈ ids := by rw [e]; exact List.getElem_mem hlt
      exact ⟨hm, by rw [← (hget p hp _ hm).mp rfl]; exact hp⟩
    · rintro ⟨hid, hs⟩
      exact ⟨_, hs, (hget _ hs _ hid).mpr rfl⟩
  · intro hid
    clear hsel
    induction sel with
    | nil => rfl
    | cons p sel ih =>
      rw [List.map_cons, List.idxOf_cons, List.idxOf_cons]
      have h := hget p (by simp) id hid
      by_cases hc : ids.getD p 0 = id
      · have := h.mp hc
        have e1 : (ids.getD p 0 == id) = true := by simpa using hc
        have e2 : (p == ids.idxOf id) = true := by simpa using this
        rw [e1, e2]
        rfl
      · have hne : p ≠ ids.idxOf id := fun h' => hc (h.mpr h')
        simp only [beq_iff_eq, hc, hne, if_false, cond_eq_ite]
        rw [ih fun p hp => hget p (by simp [hp])]

/-- **C87** (mapping): if KFAC supports all parameters, it supports every selection, and the mapping is the mapping for all
parameters without the others. -/
theorem computeMapping_select {ids sel : List Nat} {mods : List Mod} (hnames : (mods.map Mod.name).Nodup)
    (hps : ∀ m ∈ mods, (m.params.map Prod.fst).Nodup) {mapping : Dict (Dict Nat)}
    (h : computeMapping ids mods = .ok mapping) (hsel : sel.Nodup) (hlt : ∀ p ∈ sel, p < ids.length) :
    computeMapping (sel.map fun p => ids.getD p 0) mods = .ok (selectMapping sel mapping) := by
  have hcond : ids.Nodup ∧ ∀ id ∈ ids, Owned mods id := by
    have h1 := (computeMapping_raises_iff ids mods hnames hps).1
    rw [h] at h1
    have h2 := fun hx => (nomatch h1.mpr hx : False)
    by_contra hc
    refine h2 ?_
    by_cases hn : ids.Nodup
    · right
      by_contra hall
      push Not at hall
      exact hc ⟨hn, hall⟩
    · exact Or.inl hn
  obtain ⟨hids, howned⟩ := hcond
  have hidx := fun id => idxOf_select (id := id) hids hlt
  have hnot : ∀ e, computeMapping (sel.map fun p => ids.getD p 0) mods ≠ .error e := by
    intro e he
    have h2 := computeMapping_raises_iff (sel.map fun p => ids.getD p 0) mods hnames hps
    have := h2.2 e he
    subst this
    rcases h2.1.mp he with hn | ⟨id, hid, ho⟩
    · refine hn (List.Nodup.map_on ?_ hsel)
      intro p hp q hq hpq
      have hp' := hlt p hp
      have hq' := hlt q hq
      simp only [List.getD, List.getElem?_eq_getElem hp', List.getElem?_eq_getElem hq', Option.getD_some] at hpq
      exact hids.getElem_inj_iff.mp hpq
    · exact ho (howned id ((hidx id).1.mp hid).1)
  have hown : ∀ ps, ownPositions (sel.map fun p => ids.getD p 0) ps =
      ((ownPositions ids ps).filter fun p => decide (p.2 ∈ sel)).map fun p => (p.1, sel.idxOf p.2) := by
    intro ps
    induction ps with
    | nil => rfl
    | cons p ps ih =>
      unfold ownPositions at ih ⊢
      by_cases hi : p.2 ∈ ids
      · by_cases hs : ids.idxOf p.2 ∈ sel
        · have : p.2 ∈ sel.map fun p => ids.getD p 0 := (hidx _).1.mpr ⟨hi, hs⟩
          rw [List.filter_cons_of_pos (by simpa using this), List.filter_cons_of_pos (by simpa using hi), List.map_cons,
            List.map_cons, List.filter_cons_of_pos (by simpa using hs), List.map_cons, ih, (hidx _).2 hi]
        · have : p.2 ∉ sel.map fun p => ids.getD p 0 := fun hm => hs ((hidx _).1.mp hm).2
          rw [List.filter_cons_of_neg (by simpa using this), List.filter_cons_of_pos (by simpa using hi),
            List.map_cons, List.filter_cons_of_neg (by simpa using hs), ih]
      · have : p.2 ∉ sel.map fun p => ids.getD p 0 := fun hm => hi ((hidx _).1.mp hm).1
        rw [List.filter_cons_of_neg (by simpa using this), List.filter_cons_of_neg (by simpa using hi), ih]
  have hval : ∀ ids' m', computeMapping ids' mods = .ok m' →
      m' = (mods.filter (Mod.relevant ids')).map fun m => (m.name, ownPositions ids' m.params) := by
    intro ids' m' h'
    unfold computeMapping at h'
    rw [moduleLoop_eq ids' mods [] [] (by simpa [Dict.keys] using hnames) hps] at h'
    simp only [List.nil_append] at h'
    split at h'
    · cases h'
    · exact (Except.ok.inj h').symm
  have hempty : ∀ ids' (m : Mod), m.params.any (fun p => decide (p.2 ∈ ids')) = !(ownPositions ids' m.params).isEmpty := by
    intro ids' m
    unfold ownPositions
    induction m.params with
    | nil => rfl
    | cons p ps ih =>
      by_cases hp : p.2 ∈ ids'
      · simp [hp]
      · rw [List.any_cons, ih, List.filter_cons_of_neg (by simpa using hp)]
        simp [hp]
  cases hc : computeMapping (sel.map fun p => ids.getD p 0) mods with
  | error e => exact (hnot e hc).elim
  | ok m' =>
    rw [hval _ _ hc, hval _ _ h]
    congr 1
    unfold selectMapping
    clear h hc hnot hnames hps howned hval
    induction mods with
    | nil => rfl
    | cons m ms ih =>
      by_cases hs : m.supported = true
      · by_cases hr : Mod.relevant ids m = true
        · by_cases hr' : Mod.relevant (sel.map fun p => ids.getD p 0) m = true
          · have hne : (!(ownPositions (sel.map fun p => ids.getD p 0) m.params).isEmpty) = true := by
              rw [← hempty]
              simpa [Mod.relevant, hs] using hr'
            rw [List.filter_cons_of_pos hr, List.filter_cons_of_pos hr', List.map_cons, List.map_cons, List.map_cons,
              List.filter_cons_of_pos (by rw [← hown]; exact hne), ih, hown]
          · have hne : ¬ (!(ownPositions (sel.map fun p => ids.getD p 0) m.params).isEmpty) = true := by
              rw [← hempty]
              simpa [Mod.relevant, hs] using hr'
            rw [List.filter_cons_of_pos hr, List.filter_cons_of_neg hr', List.map_cons, List.map_cons,
              List.filter_cons_of_neg (by rw [← hown]; exact hne), ih]
        · have hr' : ¬ Mod.relevant (sel.map fun p => ids.getD p 0) m = true := by
            intro hx
            refine hr ?_
            simp only [Mod.relevant, hs, Bool.true_and, List.any_eq_true, decide_eq_true_eq] at hx ⊢
            obtain ⟨p, hp, hm⟩ := hx
            exact ⟨p, hp, ((hidx _).1.mp hm).1⟩
          rw [List.filter_cons_of_neg hr, List.filter_cons_of_neg hr', ih]
      · rw [List.filter_cons_of_neg (by simp [Mod.relevant, hs]), List.filter_cons_of_neg (by simp [Mod.relevant, hs]), ih]

theorem dict_select (sel : List Nat) (p : LayerPos) :
    ((p.dict.filter fun e => decide (e.2 ∈ sel)).map fun e => (e.1, sel.idxOf e.2)) =
      match p.select sel with
      | some p' => p'.dict
      | none => [] := by
  cases p with
  | both w b => by_cases hw : w ∈ sel <;> by_cases hb : b ∈ sel <;> simp [LayerPos.select, LayerPos.dict, hw, hb]
  | weight w => by_cases hw : w ∈ sel <;> simp [LayerPos.select, LayerPos.dict, hw]
  | bias b => by_cases hb : b ∈ sel <;> simp [LayerPos.select, LayerPos.dict, hb]

theorem dict_isEmpty (p : LayerPos) : p.dict.isEmpty = false := by cases p <;> rfl

/-- The mapping of the selected layers. -/
theorem pMapping_select (sel : List Nat) (layers : List PLayer) :
    pMapping (layers.filterMap (PLayer.select sel)) = selectMapping sel (pMapping layers) := by
  induction layers with
  | nil => rfl
  | cons l ls ih =>
    have h := dict_select sel l.pos
    have hsel : PLayer.select sel l = (l.pos.select sel).map fun p => { l with pos := p } := rfl
    rw [List.filterMap_cons]
    unfold pMapping selectMapping at ih ⊢
    rw [List.map_cons, List.map_cons, h]
    cases hp : l.pos.select sel with
    | none =>
      rw [hp] at hsel
      simp only [hsel, Option.map_none]
      rw [List.filter_cons_of_neg (by simp), ih]
    | some p' =>
      rw [hp] at hsel
      simp only [hsel, Option.map_some]
      rw [List.filter_cons_of_pos (by simp [dict_isEmpty]), List.map_cons, ih]

section selection

variable {cfg : KfacCfg} {shapes : List (List Nat)} {sel : List Nat} {layers : List PLayer}

theorem selShapes_idxOf {p : Nat} (hp : p ∈ sel) : (selShapes shapes sel).getD (sel.idxOf p) [] = shapes.getD p [] := by
  have hi := List.idxOf_lt_length_of_mem hp
  rw [selShapes_getD hi, List.getElem_idxOf hi]

theorem selIndex_idxOf {p s : Nat} (hp : p ∈ sel) (hs : s < (shapes.getD p []).prod) :
    selIndex shapes sel (offset (selShapes shapes sel) (sel.idxOf p) + s) = offset shapes p + s := by
  have hi := List.idxOf_lt_length_of_mem hp
  have := selIndex_offset (shapes := shapes) sel (sel.idxOf p) s hi (by rw [List.getElem_idxOf hi]; exact hs)
  rw [this, List.getElem_idxOf hi]

theorem select_cases {l l' : PLayer} (h : l.select sel = some l') :
    l'.name = l.name ∧ l'.din = l.din ∧ l'.dout = l.dout ∧ l'.S = l.S ∧ l.pos.select sel = some l'.pos := by
  unfold PLayer.select at h
  cases hp : l.pos.select sel with
  | none => rw [hp] at h; cases h
  | some p =>
    rw [hp] at h
    simp only [Option.map_some, Option.some.injEq] at h
    subst h
    exact ⟨rfl, rfl, rfl, rfl, rfl⟩

theorem positions_select (sel : List Nat) (p : LayerPos) :
    (match p.select sel with
      | some p' => p'.positions
      | none => []) = (p.positions.filter fun q => decide (q ∈ sel)).map fun q => sel.idxOf q := by
  cases p with
  | both w b => by_cases hw : w ∈ sel <;> by_cases hb : b ∈ sel <;> simp [LayerPos.select, LayerPos.positions, hw, hb]
  | weight w => by_cases hw : w ∈ sel <;> simp [LayerPos.select, LayerPos.positions, hw]
  | bias b => by_cases hb : b ∈ sel <;> simp [LayerPos.select, LayerPos.positions, hb]

/-- The selected layers are a network for the selected parameters. -/
theorem pnet_select (hnet : PNet shapes layers) (hs : Selects shapes sel) :
    PNet (selShapes shapes sel) (layers.filterMap (PLayer.select sel)) := by
  refine ⟨?_, ?_, ?_⟩
  · intro l' hl'
    obtain ⟨l, hl, hsel⟩ := List.mem_filterMap.mp hl'
    obtain ⟨_, hdin, hdout, _, hpos⟩ := select_cases hsel
    have hf := hnet.fits l hl
    unfold PLayer.Fits at hf ⊢
    have hlen : ∀ {p}, p ∈ sel → sel.idxOf p < (selShapes shapes sel).length := by
      intro p hp
      rw [selShapes_length]
      exact List.idxOf_lt_length_of_mem hp
    cases hp : l.pos with
    | both w b =>
      rw [hp] at hf hpos
      unfold LayerPos.select at hpos
      by_cases hw : w ∈ sel
      · by_cases hb : b ∈ sel
        · simp only [hw, hb, if_true, Option.some.injEq] at hpos
          rw [← hpos]
          simp only [wCols, selShapes_idxOf hw, selShapes_idxOf hb, hdin, hdout]
          exact ⟨⟨hlen hw, hlen hb⟩, hf.2⟩
        · simp only [hw, hb, if_true, if_false, Option.some.injEq] at hpos
          rw [← hpos]
          simp only [wCols, selShapes_idxOf hw, hdin, hdout]
          exact ⟨hlen hw, hf.2.1, hf.2.2.1⟩
      · by_cases hb : b ∈ sel
        · simp only [hw, hb, if_true, if_false, Option.some.injEq] at hpos
          rw [← hpos]
          simp only [selShapes_idxOf hb, hdout]
          exact ⟨hlen hb, hf.2.2.2⟩
        · simp [hw, hb] at hpos
    | weight w =>
      rw [hp] at hf hpos
      unfold LayerPos.select at hpos
      by_cases hw : w ∈ sel
      · simp only [hw, if_true, Option.some.injEq] at hpos
        rw [← hpos]
        simp only [wCols, selShapes_idxOf hw, hdin, hdout]
        exact ⟨hlen hw, hf.2⟩
      · simp [hw] at hpos
    | bias b =>
      rw [hp] at hf hpos
      unfold LayerPos.select at hpos
      by_cases hb : b ∈ sel
      · simp only [hb, if_true, Option.some.injEq] at hpos
        rw [← hpos]
        simp only [selShapes_idxOf hb, hdout]
        exact ⟨hlen hb, hf.2⟩
      · simp [hb] at hpos
  · have hsub : ((layers.filterMap (PLayer.select sel)).map PLayer.name).Sublist (layers.map PLayer.name) := by
      clear hnet
      induction layers with
      | nil => simp
      | cons l ls ih =>
        rw [List.filterMap_cons]
        cases h : l.select sel with
        | none => exact ih.cons _
        | some l' =>
          rw [List.map_cons, List.map_cons, (select_cases h).1]
          exact ih.cons_cons _
    exact hsub.nodup hnet.names
  · have h1 : (layers.filterMap (PLayer.select sel)).flatMap (fun l => l.pos.positions) =
        ((layers.flatMap fun l => l.pos.positions).filter fun q => decide (q ∈ sel)).map fun q => sel.idxOf q := by
      clear hnet
      induction layers with
      | nil => rfl
      | cons l ls ih =>
        have h := positions_select sel l.pos
        have hsel : PLayer.select sel l = (l.pos.select sel).map fun p => { l with pos := p } := rfl
        rw [List.filterMap_cons, List.flatMap_cons, List.filter_append, List.map_append, ← h, ← ih]
        cases hp : l.pos.select sel with
        | none =>
          rw [hp] at hsel
          simp [hsel]
        | some p' =>
          rw [hp] at hsel
          simp [hsel]
    rw [h1]
    have h2 := (hnet.perm.filter fun q => decide (q ∈ sel)).map fun q => sel.idxOf q
    refine h2.trans ?_
    have h3 : ((List.range shapes.length).filter fun q => decide (q ∈ sel)).Perm sel := by
      rw [List.perm_ext_iff_of_nodup (List.nodup_range.filter _) hs.nodup]
      intro q
      simp only [List.mem_filter, List.mem_range, decide_eq_true_eq]
      exact ⟨fun h => h.2, fun h => ⟨hs.lt q h, h⟩⟩
    refine (h3.map fun q => sel.idxOf q).trans ?_
    rw [selShapes_length]
    have h4 : (sel.map fun q => sel.idxOf q) = List.range sel.length := by
      apply List.ext_getElem
      · simp
      · intro a ha _
        simp only [List.getElem_map, List.getElem_range]
        exact hs.nodup.idxOf_getElem a (by simpa using ha)
    rw [h4]

/-- Coordinates of the selection are coordinates of the same entries among all parameters. -/
theorem coord_select {l l' : PLayer} (hf : l.Fits shapes) (h : l.select sel = some l') {o i p : Nat}
    (hc : l'.Coord (selShapes shapes sel) o i p) : l.Coord shapes o i (selIndex shapes sel p) := by
  obtain ⟨_, hdin, hdout, _, hpos⟩ := select_cases h
  obtain ⟨ho, hc⟩ := hc
  rw [hdout] at ho
  unfold PLayer.Fits at hf
  unfold PLayer.Coord
  refine ⟨ho, ?_⟩
  have hb' : ∀ b, shapes.getD b [] = [l.dout] → o < (shapes.getD b []).prod := by
    intro b hb; rw [hb]; simpa using ho
  cases hp : l.pos with
  | both w b =>
    rw [hp] at hf hpos
    unfold LayerPos.select at hpos
    by_cases hw : w ∈ sel
    · by_cases hb : b ∈ sel
      · simp only [hw, hb, if_true, Option.some.injEq] at hpos
        rw [← hpos, hdin] at hc
        rcases hc with hc | hc
        · exact Or.inl ⟨hc.1, by rw [hc.2, selIndex_idxOf hw (weight_index_lt hf.2.1 hf.2.2.1 ho hc.1)]⟩
        · exact Or.inr ⟨hc.1, by rw [hc.2, selIndex_idxOf hb (hb' b hf.2.2.2)]⟩
      · simp only [hw, hb, if_true, if_false, Option.some.injEq] at hpos
        rw [← hpos, hdin] at hc
        exact Or.inl ⟨hc.1, by rw [hc.2, selIndex_idxOf hw (weight_index_lt hf.2.1 hf.2.2.1 ho hc.1)]⟩
    · by_cases hb : b ∈ sel
      · simp only [hw, hb, if_true, if_false, Option.some.injEq] at hpos
        rw [← hpos, hdin] at hc
        exact Or.inr ⟨hc.1, by rw [hc.2, selIndex_idxOf hb (hb' b hf.2.2.2)]⟩
      · simp [hw, hb] at hpos
  | weight w =>
    rw [hp] at hf hpos
    unfold LayerPos.select at hpos
    by_cases hw : w ∈ sel
    · simp only [hw, if_true, Option.some.injEq] at hpos
      rw [← hpos, hdin] at hc
      exact ⟨hc.1, by rw [hc.2, selIndex_idxOf hw (weight_index_lt hf.2.1 hf.2.2 ho hc.1)]⟩
    · simp [hw] at hpos
  | bias b =>
    rw [hp] at hf hpos
    unfold LayerPos.select at hpos
    by_cases hb : b ∈ sel
    · simp only [hb, if_true, Option.some.injEq] at hpos
      rw [← hpos, hdin] at hc
      exact ⟨hc.1, by rw [hc.2, selIndex_idxOf hb (hb' b hf.2)]⟩
    · simp [hb] at hpos

/-- **C87** (KFAC): for all Fisher types, both approximations, joint and separate treatment of weight and bias: KFAC on a selection of
the parameters is the restriction of KFAC on all parameters, if `num_data` is right. -/
theorem kfac_selection (hnet : PNet shapes layers) (hs : Selects shapes sel) (batches : List (List KDatum))
    (hd : batches.flatten ≠ []) (hN : cfg.N = batches.flatten.length) (hS : ∀ l ∈ layers, l.S ≠ 0) (hT : cfg.T ≠ 0)
    (hC : cfg.C ≠ 0) (hmc : cfg.mcSamples ≠ 0) :
    IsRestriction shapes sel (pKfac cfg shapes layers batches)
      (pKfac cfg (selShapes shapes sel) (layers.filterMap (PLayer.select sel)) batches) := by
  have hne : batches ≠ [] := by
    rintro rfl
    exact hd rfl
  have hnet' := pnet_select hnet hs
  have hkl := pnet_kfacLayers hnet batches hne hT hC hmc
  have hkl' := pnet_kfacLayers hnet' batches hne hT hC hmc
  obtain ⟨⟨M, hM⟩, -⟩ := kfac_matrix_exists _ _ _ _ _ _ hkl
  obtain ⟨⟨M', hM'⟩, -⟩ := kfac_matrix_exists _ _ _ _ _ _ hkl'
  refine restriction_of_subMatrix hs rfl rfl rfl rfl (kfac_represents _ _ _ _ _ _ hkl M hM)
    (kfac_represents _ _ _ _ _ _ hkl' M' hM') ?_
  intro r hr c hc
  have hS' : ∀ l ∈ layers.filterMap (PLayer.select sel), l.S ≠ 0 := by
    intro l' hl'
    obtain ⟨l, hl, hsel⟩ := List.mem_filterMap.mp hl'
    rw [(select_cases hsel).2.2.2.1]
    exact hS l hl
  obtain ⟨l', hl', o, i, hco⟩ := coord_cover hnet' hr
  obtain ⟨m', hm', o₂, i₂, hco₂⟩ := coord_cover hnet' hc
  obtain ⟨l, hl, hsel⟩ := List.mem_filterMap.mp hl'
  obtain ⟨m, hm, hsel₂⟩ := List.mem_filterMap.mp hm'
  rw [kfac_entry hnet' hN hd hS' M' hM' hl' hm' hco hco₂]
  unfold subMatrix
  rw [kfac_entry hnet hN hd hS M hM hl hm (coord_select (hnet.fits l hl) hsel hco)
    (coord_select (hnet.fits m hm) hsel₂ hco₂)]
  obtain ⟨h1, h2, h3, h4, -⟩ := select_cases hsel
  obtain ⟨h1', -⟩ := select_cases hsel₂
  have hg : specGradFactor cfg l'.klayer batches.flatten = specGradFactor cfg l.klayer batches.flatten := by
    funext a b
    unfold specGradFactor specGradVec
    simp only [PLayer.klayer, h1, h4]
  have he : extFactor cfg l' batches.flatten = extFactor cfg l batches.flatten := by
    funext a b
    unfold extFactor
    simp only [h1, h2, h4]
  rw [hg, he, h1, h1', h2]

end selection

/-! ## Examples -/

/-- A linear layer with two inputs and one output, followed by one without bias. -/
def selLayers : List PLayer := [⟨"fc", .both 0 1, 2, 1, 1⟩, ⟨"out", .weight 2, 1, 1, 1⟩]

theorem selLayers_net : PNet [[1, 2], [1], [1, 1]] selLayers := by
  refine ⟨?_, by simp [selLayers], by simp [selLayers, LayerPos.positions, List.range, List.range.loop]⟩
  intro l hl
  simp only [selLayers, List.mem_cons, List.not_mem_nil, or_false] at hl
  rcases hl with rfl | rfl <;> simp [PLayer.Fits, wCols]

/-- The network's mapping when only the second layer's weight and the first layer's bias are treated, in this order. -/
example : selLayers.filterMap (PLayer.select [2, 1]) = [⟨"fc", .bias 1, 2, 1, 1⟩, ⟨"out", .weight 0, 1, 1, 1⟩] := by
  simp [selLayers, PLayer.select, LayerPos.select, List.idxOf_cons]

noncomputable def selDatum : KDatum := ⟨fun _ _ _ => 3, fun _ _ _ _ _ => 1, fun _ _ _ => 2, fun _ _ _ => 5⟩

/-- KFAC on the bias of the first layer and the weight of the second is the restriction of KFAC on all three parameters. -/
example (fisher : FisherType) (approx : KfacApprox) (sep : Bool) :
    IsRestriction [[1, 2], [1], [1, 1]] [2, 1]
      (pKfac ⟨fisher, approx, .mse, true, 1, 2, 1, 1, sep⟩ [[1, 2], [1], [1, 1]] selLayers [[selDatum], [selDatum]])
      (pKfac ⟨fisher, approx, .mse, true, 1, 2, 1, 1, sep⟩ [[1, 1], [1]]
        [⟨"fc", .bias 1, 2, 1, 1⟩, ⟨"out", .weight 0, 1, 1, 1⟩] [[selDatum], [selDatum]]) := by
  have h := kfac_selection (cfg := ⟨fisher, approx, .mse, true, 1, 2, 1, 1, sep⟩) (sel := [2, 1]) selLayers_net
    ⟨by simp, by simp⟩ [[selDatum], [selDatum]] (by simp) (by simp) (by simp [selLayers]) (by simp) (by simp) (by simp)
  have e : selLayers.filterMap (PLayer.select [2, 1]) = [⟨"fc", .bias 1, 2, 1, 1⟩, ⟨"out", .weight 0, 1, 1, 1⟩] := by
    simp [selLayers, PLayer.select, LayerPos.select, List.idxOf_cons]
  rw [e] at h
  exact h

/-- One layer with weight and bias. -/
def oneLayer : List PLayer := [⟨"fc", .both 0 1, 1, 1, 1⟩]

theorem oneLayer_net : PNet [[1, 1], [1]] oneLayer := by
  refine ⟨?_, by simp [oneLayer], by simp [oneLayer, LayerPos.positions, List.range, List.range.loop]⟩
  intro l hl
  simp only [oneLayer, List.mem_singleton] at hl
  subst hl
  simp [PLayer.Fits, wCols]

/-- Configuration with `num_data = 2`. -/
def twoDataCfg : KfacCfg := ⟨.forwardOnly, .expand, .mse, false, 1, 2, 1, 1, false⟩

/-- C87: `num_data` must be right. With one datum and `num_data = 2`, the product of KFAC on weight and bias with `(0, 1)` has second
entry `1 / 2`; the product of KFAC on the bias alone with `1` is `1`. -/
theorem kfac_selection_num_data :
    ¬ IsRestriction [[1, 1], [1]] [1] (pKfac twoDataCfg [[1, 1], [1]] oneLayer [[selDatum]])
      (pKfac twoDataCfg (selShapes [[1, 1], [1]] [1]) (oneLayer.filterMap (PLayer.select [1])) [[selDatum]]) := by
  intro h
  have hs : Selects [[1, 1], [1]] [1] := ⟨by simp, by simp⟩
  have e : oneLayer.filterMap (PLayer.select [1]) = [⟨"fc", .bias 0, 1, 1, 1⟩] := by
    simp [oneLayer, PLayer.select, LayerPos.select]
  have hnet' := pnet_select oneLayer_net hs
  have hkl := pnet_kfacLayers (cfg := twoDataCfg) oneLayer_net [[selDatum]] (by simp) (by simp [twoDataCfg]) (by simp [twoDataCfg])
    (by simp [twoDataCfg])
  have hkl' := pnet_kfacLayers (cfg := twoDataCfg) hnet' [[selDatum]] (by simp) (by simp [twoDataCfg]) (by simp [twoDataCfg])
    (by simp [twoDataCfg])
  obtain ⟨⟨M, hM⟩, -⟩ := kfac_matrix_exists _ _ _ _ _ _ hkl
  obtain ⟨⟨M', hM'⟩, -⟩ := kfac_matrix_exists _ _ _ _ _ _ hkl'
  have m1 : M 1 1 = 1 / 2 := by
    have := hM ⟨⟨0, by simp [kfacBlocks, oneLayer, Layer.blocks, PLayer.layer, twoDataCfg]⟩, ⟨⟨0, by
        simp [kfacBlocks, oneLayer, Layer.blocks, PLayer.layer, twoDataCfg, Layer.jBlock]⟩, ⟨1, by
        simp [kfacBlocks, oneLayer, Layer.blocks, PLayer.layer, twoDataCfg, Layer.jBlock, wCols]⟩⟩⟩
      ⟨⟨0, by simp [kfacBlocks, oneLayer, Layer.blocks, PLayer.layer, twoDataCfg]⟩, ⟨⟨0, by
        simp [kfacBlocks, oneLayer, Layer.blocks, PLayer.layer, twoDataCfg, Layer.jBlock]⟩, ⟨1, by
        simp [kfacBlocks, oneLayer, Layer.blocks, PLayer.layer, twoDataCfg, Layer.jBlock, wCols]⟩⟩⟩
    simp [KIdx.pos, KIdx.entry, kfacBlocks, oneLayer, Layer.blocks, PLayer.layer, twoDataCfg, Layer.jBlock, wCols,
      specGradFactor, specInputFactor, specInputVec, PLayer.klayer, KLayer.joint, LayerPos.dict, Dict.has, offset] at this
    rw [this]; norm_num
  have m2 : M' 0 0 = 1 := by
    rw [e] at hM'
    have := hM' ⟨⟨0, by simp [kfacBlocks, Layer.blocks, PLayer.layer, twoDataCfg]⟩, ⟨⟨0, by
        simp [kfacBlocks, Layer.blocks, PLayer.layer, twoDataCfg, Layer.bBlock]⟩, ⟨0, by
        simp [kfacBlocks, Layer.blocks, PLayer.layer, twoDataCfg, Layer.bBlock]⟩⟩⟩
      ⟨⟨0, by simp [kfacBlocks, Layer.blocks, PLayer.layer, twoDataCfg]⟩, ⟨⟨0, by
        simp [kfacBlocks, Layer.blocks, PLayer.layer, twoDataCfg, Layer.bBlock]⟩, ⟨0, by
        simp [kfacBlocks, Layer.blocks, PLayer.layer, twoDataCfg, Layer.bBlock]⟩⟩⟩
    simpa [KIdx.pos, KIdx.entry, kfacBlocks, Layer.blocks, PLayer.layer, twoDataCfg, Layer.bBlock,
      specGradFactor, PLayer.klayer, LayerPos.dict, Dict.has, offset] using this
  have hv : HasShapes [(⟨[1, 1], [1]⟩ : Tensor ℝ)] (selShapes [[1, 1], [1]] [1]) 1 := by
    simp [HasShapes, selShapes, Tensor.WF]
  obtain ⟨Y, y1, y2, y3⟩ := h 1 [⟨[1, 1], [1]⟩] hv
  obtain ⟨Y', z1, z2, z3⟩ := kfac_represents _ _ _ _ _ _ hkl M hM 1 _ (padParams_hasShapes hv)
  obtain ⟨Z, w1, w2, w3⟩ := kfac_represents _ _ _ _ _ _ hkl' M' hM' 1 _ hv
  have hY : Y = Y' := by
    have := y1.symm.trans z1
    exact Except.ok.inj this
  have hZ : pickParams [1] Y = Z := Except.ok.inj (y3.symm.trans w1)
  have p1 := pickParams_entry y2 hs (r := 0) (k := 0) (by simp [selShapes, total]) (by omega)
  have p2 : (flatData Y).getD (1 * 1 + 0) 0 = 1 / 2 := by
    rw [hY, z3.2 1 (by simp [LinOp.nrows, LinOp.outFlat, kfacOp]) 0 (by omega)]
    simp [LinOp.ncols, LinOp.inFlat, kfacOp, Finset.sum_range_succ, flatData, padParams, List.range, List.range.loop, m1]
  have p3 : (flatData Z).getD (0 * 1 + 0) 0 = 1 := by
    rw [w3.2 0 (by simp [LinOp.nrows, LinOp.outFlat, kfacOp, selShapes]) 0 (by omega)]
    simp [LinOp.ncols, LinOp.inFlat, kfacOp, flatData, selShapes, m2]
  rw [hZ, p3] at p1
  have : selIndex [[1, 1], [1]] [1] 0 = 1 := by simp [selIndex, offset]
  rw [this, p2] at p1
  norm_num at p1

end Curvlinops
