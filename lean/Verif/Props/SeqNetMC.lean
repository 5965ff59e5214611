import Verif.Props.SeqNet

/-!
# C73: Monte-Carlo KFAC on feed-forward networks
-/

namespace Curvlinops

open MeasureTheory ProbabilityTheory

variable {D T C : Nat} {k : LossKind}

section

variable {Ω : Type _} [MeasurableSpace Ω] {P : Measure Ω}

/-- Kronecker products are linear in the gradient factor: the expected entry inside a block is the entry for the expected
gradient factor. -/
theorem kron_expected (sep : Bool) (shapes : List (List Nat)) (ls : List (Layer ℝ × (Ω → Factor ℝ)))
    (hdim : ∀ x ∈ ls, ∀ ω, (x.2 ω).dim = x.1.B.dim)
    (hE : ∀ x ∈ ls, ∀ i j, Integrable (fun ω => (x.2 ω).mat i j) P ∧ ∫ ω, (x.2 ω).mat i j ∂P = x.1.B.mat i j)
    (M : Ω → Mat ℝ) (hM : ∀ ω, IsKron (kfacBlocks sep shapes (ls.map fun x => { x.1 with B := x.2 ω })) (M ω))
    (b : KBlock ℝ) (hb : b ∈ kfacBlocks sep shapes (ls.map Prod.fst)) (i j i' j' : Nat) (hi : i < b.rows) (hj : j < b.cols)
    (hi' : i' < b.rows) (hj' : j' < b.cols) :
    Integrable (fun ω => M ω (b.idx i j) (b.idx i' j')) P ∧
      ∫ ω, M ω (b.idx i j) (b.idx i' j') ∂P = b.B i i' * b.A j' j := by
  obtain ⟨l, hl, hbl⟩ := List.mem_flatMap.mp hb
  obtain ⟨x, hx, rfl⟩ := List.mem_map.mp hl
  have hrows : b.B = x.1.B.mat ∧ b.rows = x.1.B.dim := by
    unfold Layer.blocks at hbl
    cases hp : x.1.pos with
    | weight w =>
      simp only [hp, List.mem_singleton] at hbl
      subst hbl
      exact ⟨rfl, rfl⟩
    | bias w =>
      simp only [hp, List.mem_singleton] at hbl
      subst hbl
      exact ⟨rfl, rfl⟩
    | both w b' =>
      cases sep <;> simp [hp] at hbl
      · subst hbl
        exact ⟨rfl, rfl⟩
      · rcases hbl with rfl | rfl <;> exact ⟨rfl, rfl⟩
  have hω : ∀ ω, (⟨b.rows, b.cols, b.A, (x.2 ω).mat, b.idx⟩ : KBlock ℝ) ∈
      kfacBlocks sep shapes (ls.map fun x => { x.1 with B := x.2 ω }) := by
    intro ω
    refine List.mem_flatMap.mpr ⟨_, List.mem_map_of_mem hx, ?_⟩
    have hd := hdim x hx ω
    unfold Layer.blocks at hbl ⊢
    cases hp : x.1.pos with
    | weight w =>
      simp only [hp, List.mem_singleton] at hbl ⊢
      subst hbl
      simp [Layer.wBlock, hd]
    | bias w =>
      simp only [hp, List.mem_singleton] at hbl ⊢
      subst hbl
      simp [Layer.bBlock, hd]
    | both w b' =>
      cases sep <;> simp [hp] at hbl ⊢
      · subst hbl
        simp [Layer.jBlock, hd]
      · rcases hbl with rfl | rfl
        · exact Or.inl (by simp [Layer.wBlock, hd])
        · exact Or.inr (by simp [Layer.bBlock, hd])
  have hval : ∀ ω, M ω (b.idx i j) (b.idx i' j') = (x.2 ω).mat i i' * b.A j' j := fun ω =>
    kron_block_entry (hM ω) (hω ω) hi hi' hj hj'
  obtain ⟨h1, h2⟩ := hE x hx i i'
  simp only [hval]
  refine ⟨h1.mul_const _, ?_⟩
  rw [integral_mul_const, h2, hrows.1]

/-- The random datum comes from an input of the network. -/
def SeqNet.Draws (shapes : List (List Nat)) (net : SeqNet D T C) (θ : Nat → ℝ) (d : RandDatum Ω k C) (h : Fin D → ℝ) : Prop :=
  ∃ y sqrt lossGrad, d.base = net.datum shapes θ h sqrt lossGrad ∧ (List.range T).map d.term = net.terms shapes θ h y

/-- The data for given random numbers. -/
noncomputable def fixAll (batches : List (List (RandDatum Ω k C))) (ω : Ω) : List (List KDatum) :=
  batches.map (·.map fun d => (d.fix ω).toKDatum)

omit [MeasurableSpace Ω] in
theorem specInputFactor_fixAll (cfg : KfacCfg) (l : KLayer) (batches : List (List (RandDatum Ω k C))) (ω : Ω) :
    specInputFactor cfg l (fixAll batches ω).flatten = specInputFactor cfg l (batches.flatten.map RandDatum.base) := by
  unfold fixAll
  rw [← List.map_flatten]
  funext i j
  unfold specInputFactor
  cases cfg.approx <;> simp only [List.map_map] <;> rfl

/-- The expected matrix of Monte-Carlo KFAC on a network, inside the blocks. -/
theorem seqNet_mc_expected {cfg : KfacCfg} {shapes : List (List Nat)} {net : SeqNet D T C} {n : Nat}
    (hs : net.Setting cfg shapes n) (hf : cfg.fisher = .mc) (hloss : cfg.loss = k)
    (batches : List (List (RandDatum Ω k C))) (hne : batches ≠ []) (hgood : ∀ d ∈ batches.flatten, d.Good P cfg.mcSamples T)
    (ω₀ : Ω) :
    ExpectedLayers P cfg net.klayers batches
      (net.layersWith cfg (batches.flatten.map RandDatum.base) fun st => expGradFactor cfg st.klayer batches.flatten) ∧
    ∃ M : Ω → Mat ℝ, (∀ ω, Represents (net.kfac cfg shapes (fixAll batches ω)) (M ω)) ∧ ∃ M' : Mat ℝ,
      IsKron (kfacBlocks cfg.sep shapes (net.layersWith cfg (batches.flatten.map RandDatum.base) fun st =>
        expGradFactor cfg st.klayer batches.flatten)) M' ∧
      ∀ p q, net.SameBlock cfg.sep shapes p q → Integrable (fun ω => M ω p q) P ∧ ∫ ω, M ω p q ∂P = M' p q := by
  have hT : cfg.T ≠ 0 := by rw [hs.terms]; exact hs.T_ne
  have hC : cfg.C ≠ 0 := by rw [hs.outDim]; exact hs.C_ne
  have hK := fun ω => seqNet_kfacLayers (cfg := cfg) hs.fit hs.all (fixAll batches ω) (by simpa [fixAll] using hne) hT hC hs.mc
  have hlayers : ∀ ω, net.layers cfg (fixAll batches ω).flatten =
      net.layersWith cfg (batches.flatten.map RandDatum.base) fun st => specGradFactor cfg st.klayer (fixAll batches ω).flatten := by
    intro ω
    unfold SeqNet.layers SeqNet.layersWith
    simp only [specInputFactor_fixAll]
  have hunb : ∀ st ∈ net.stages, ∀ i j,
      Integrable (fun ω => specGradFactor cfg st.klayer (fixAll batches ω).flatten i j) P ∧
      ∫ ω, specGradFactor cfg st.klayer (fixAll batches ω).flatten i j ∂P = expGradFactor cfg st.klayer batches.flatten i j := by
    intro st hst i j
    have hkl : st.klayer ∈ net.klayers := List.mem_map_of_mem hst
    obtain ⟨B, hB, hE⟩ := kfac_mc_unbiased P hf hloss hs.outDim hs.C_ne hs.mc hT net.klayers (SeqNet.klayers_names hs.fit) batches
      hne (by rw [hs.terms]; exact hgood) st.klayer hkl
    have hBω : ∀ ω, (B ω).mat = specGradFactor cfg st.klayer (fixAll batches ω).flatten := by
      intro ω
      have h2 := kfac_grad_factor cfg net.klayers (SeqNet.klayers_names hs.fit) (fixAll batches ω) (by simpa [fixAll] using hne) hT
        hC hs.mc st.klayer hkl
      have h1 := hB ω
      unfold fixAll at h2
      rw [h2, Option.some.injEq] at h1
      rw [← h1]
      rfl
    simpa only [hBω] using hE i j
  refine ⟨⟨?_, ?_⟩, ?_⟩
  · intro l hl hw ω
    obtain ⟨st, hst, rfl⟩ := List.mem_map.mp hl
    have := (hK ω).inCov_get ⟨st.name, st.pos, ⟨st.din + (if st.klayer.joint cfg then 1 else 0),
      specInputFactor cfg st.klayer (fixAll batches ω).flatten⟩, ⟨st.dout, specGradFactor cfg st.klayer (fixAll batches ω).flatten⟩⟩
      (List.mem_map.mpr ⟨st, hst, rfl⟩) hw
    rw [specInputFactor_fixAll] at this
    exact this
  · intro l hl
    obtain ⟨st, hst, rfl⟩ := List.mem_map.mp hl
    refine ⟨fun ω => ⟨st.dout, specGradFactor cfg st.klayer (fixAll batches ω).flatten⟩, fun ω => ?_,
      fun i j => (hunb st hst i j).2.symm⟩
    exact (hK ω).gradCov_get ⟨st.name, st.pos, ⟨st.din + (if st.klayer.joint cfg then 1 else 0),
      specInputFactor cfg st.klayer (fixAll batches ω).flatten⟩, ⟨st.dout, specGradFactor cfg st.klayer (fixAll batches ω).flatten⟩⟩
      (List.mem_map.mpr ⟨st, hst, rfl⟩)
  · have htiles : Tiles (kfacBlocks cfg.sep shapes (net.layersWith cfg (batches.flatten.map RandDatum.base) fun st =>
        expGradFactor cfg st.klayer batches.flatten)) (shapes.map List.prod).sum := by
      refine tiles_of_perm _ _ ?_
      rw [← range_flatMap_posCoords, kfacBlocks, List.flatMap_assoc]
      refine (perm_flatMap_of_forall _ _ _ fun l hl => Layer.blocks_coords cfg.sep shapes l ?_).trans ?_
      · obtain ⟨st, hst, rfl⟩ := List.mem_map.mp hl
        exact (hK ω₀).fits ⟨st.name, st.pos, ⟨st.din + (if st.klayer.joint cfg then 1 else 0),
          specInputFactor cfg st.klayer (fixAll batches ω₀).flatten⟩,
          ⟨st.dout, specGradFactor cfg st.klayer (fixAll batches ω₀).flatten⟩⟩ (List.mem_map.mpr ⟨st, hst, rfl⟩)
      · rw [← List.flatMap_assoc]
        refine List.Perm.flatMap_right _ ?_
        have := (hK ω₀).perm
        unfold SeqNet.layers SeqNet.layersWith at this
        rw [List.flatMap_map] at this
        unfold SeqNet.layersWith
        rw [List.flatMap_map]
        exact this
    have hMω : ∀ ω, ∃ M, IsKron (kfacBlocks cfg.sep shapes (net.layers cfg (fixAll batches ω).flatten)) M := fun ω =>
      (kfac_matrix_exists _ _ _ _ _ _ (hK ω)).1
    choose M hM using hMω
    refine ⟨M, fun ω => kfac_represents _ _ _ _ _ _ (hK ω) _ (hM ω), _, scatter_isKron _ _ htiles, fun p q hpq => ?_⟩
    obtain ⟨b, hb, i, hi, j, hj, i', hi', j', hj', rfl, rfl⟩ := hpq.block hs.fit (batches.flatten.map RandDatum.base)
      fun st => expGradFactor cfg st.klayer batches.flatten
    rw [kron_block_entry (scatter_isKron _ _ htiles) hb hi hi' hj hj']
    refine kron_expected cfg.sep shapes (net.stages.map fun st => ((⟨st.name, st.pos,
        ⟨st.din + (if st.klayer.joint cfg then 1 else 0), specInputFactor cfg st.klayer (batches.flatten.map RandDatum.base)⟩,
        ⟨st.dout, expGradFactor cfg st.klayer batches.flatten⟩⟩ : Layer ℝ),
      fun ω => ⟨st.dout, specGradFactor cfg st.klayer (fixAll batches ω).flatten⟩)) ?_ ?_ M ?_ b ?_ i j i' j' hi hj hi' hj'
    · intro x hx ω
      obtain ⟨st, hst, rfl⟩ := List.mem_map.mp hx
      rfl
    · intro x hx i j
      obtain ⟨st, hst, rfl⟩ := List.mem_map.mp hx
      exact hunb st hst i j
    · intro ω
      have := hM ω
      rw [hlayers] at this
      rw [List.map_map]
      exact this
    · rw [List.map_map]
      exact hb

/-- C73 (Monte-Carlo): on one datum, for a feed-forward network whose layers are evaluated at one position, the expectation of
Monte-Carlo KFAC's matrix equals the GGN inside the blocks, for every supported loss and number of loss terms. -/
theorem seqNet_mc_single {cfg : KfacCfg} {shapes : List (List Nat)} {net : SeqNet D T C} (hs : net.Setting cfg shapes 1)
    (hS : ∀ st ∈ net.stages, st.S = 1) (hf : cfg.fisher = .mc) (hloss : cfg.loss = k) (d : RandDatum Ω k C)
    (hgood : d.Good P cfg.mcSamples T) {θ : Nat → ℝ} (h : Fin D → ℝ) (hd : net.Draws shapes θ d h) (hdiff : net.DiffAt shapes θ h)
    (ω₀ : Ω) :
    ∃ M : Ω → Mat ℝ, (∀ ω, Represents (net.kfac cfg shapes [[(d.fix ω).toKDatum]]) (M ω)) ∧
      ∀ p q, net.SameBlock cfg.sep shapes p q → Integrable (fun ω => M ω p q) P ∧ ∫ ω, M ω p q ∂P =
        riskMatrix (redOf cfg.mean) (datumMatrix cfg.mean T lossHessian) [(List.range T).map d.term] p q := by
  obtain ⟨hexp, M, hM, M', hM', hE⟩ := seqNet_mc_expected (P := P) hs hf hloss [[d]] (by simp) (by simpa using hgood) ω₀
  refine ⟨M, hM, fun p q hpq => ⟨(hE p q hpq).1, (hE p q hpq).2.trans ?_⟩⟩
  obtain ⟨b, hb, i, hi, j, hj, i', hi', j', hj', rfl, rfl⟩ := hpq.block hs.fit ([[d]].flatten.map RandDatum.base)
    fun st => expGradFactor cfg st.klayer [[d]].flatten
  obtain ⟨y, sqrt, lossGrad, hbase, hterm⟩ := hd
  have hne : Nonempty Ω := ⟨ω₀⟩
  have hSn : ∀ l ∈ net.layersWith cfg ([[d]].flatten.map RandDatum.base) (fun st => expGradFactor cfg st.klayer [[d]].flatten),
      net.S l.name = 1 := by
    intro l hl
    obtain ⟨st, hst, rfl⟩ := List.mem_map.mp hl
    exact (SeqNet.S_eq hs.fit hst).trans (hS st hst)
  have hsh := hs.shared ([[d]].flatten.map RandDatum.base) fun st => expGradFactor cfg st.klayer [[d]].flatten
  have hsh' : SharedSetting C cfg shapes net.klayers (net.layersWith cfg ([[d]].flatten.map RandDatum.base)
      fun st => expGradFactor cfg st.klayer [[d]].flatten) (fun _ => 1) 1 :=
    { hsh with
      klayer := fun l hl => by
        have := hsh.klayer l hl
        rw [hSn l hl] at this
        exact this }
  have hchain := seqNet_chain hs.fit hdiff sqrt lossGrad y (net.layersWith cfg ([[d]].flatten.map RandDatum.base)
    fun st => expGradFactor cfg st.klayer [[d]].flatten) SeqNet.layers_stage
  have hchain' : SharedChainRule shapes (net.layersWith cfg ([[d]].flatten.map RandDatum.base)
      fun st => expGradFactor cfg st.klayer [[d]].flatten) (fun _ => 1) T d.base ((List.range T).map d.term) := by
    rw [hbase, hterm]
    refine ⟨hchain.terms, ?_, ?_⟩
    · intro l hl
      have := hchain.weight l hl
      rw [hSn l hl] at this
      exact this
    · intro l hl
      have := hchain.bias l hl
      rw [hSn l hl] at this
      exact this
  have := kfac_mc_single hsh' hf hloss d (by rw [hs.terms]; exact hgood) (by rw [hs.terms]; exact hchain') hexp M' hM' b hb i j i' j'
    hi hj hi' hj'
  rw [this, hs.terms]

/-- C73 (Monte-Carlo, linear): for a feed-forward network that is affine after each layer and `MSELoss`, in the setting of the
chosen approximation, the expectation of Monte-Carlo KFAC's matrix equals the GGN inside the blocks, for all inputs and all
partitions into batches. -/
theorem seqNet_mc_linear {cfg : KfacCfg} {shapes : List (List Nat)} {net : SeqNet D T C}
    (batches : List (List (RandDatum Ω .mse C))) (hs : net.Setting cfg shapes batches.flatten.length)
    (hf : cfg.fisher = .mc) (hloss : cfg.loss = .mse) (hgood : ∀ d ∈ batches.flatten, d.Good P cfg.mcSamples T) {θ : Nat → ℝ}
    (g : String → Nat → Nat → ℝ)
    (hd : ∀ d ∈ batches.flatten, ∃ h, net.Draws shapes θ d h ∧ net.DiffAt shapes θ h ∧ net.AffineAfter cfg.approx shapes θ g h)
    (ω₀ : Ω) :
    ∃ M : Ω → Mat ℝ,
      (∀ ω, Represents (net.kfac cfg shapes (batches.map (·.map fun d => (d.fix ω).toKDatum))) (M ω)) ∧
      ∀ p q, net.SameBlock cfg.sep shapes p q → Integrable (fun ω => M ω p q) P ∧ ∫ ω, M ω p q ∂P =
        riskMatrix (redOf cfg.mean) (datumMatrix cfg.mean T lossHessian)
          (batches.flatten.map fun d => (List.range T).map d.term) p q := by
  have hne : batches ≠ [] := by
    rintro rfl
    exact hs.N_ne rfl
  have hne' : Nonempty Ω := ⟨ω₀⟩
  obtain ⟨hexp, M, hM, M', hM', hE⟩ := seqNet_mc_expected (P := P) hs hf hloss batches hne hgood ω₀
  refine ⟨M, hM, fun p q hpq => ⟨(hE p q hpq).1, (hE p q hpq).2.trans ?_⟩⟩
  obtain ⟨b, hb, i, hi, j, hj, i', hi', j', hj', rfl, rfl⟩ := hpq.block hs.fit (batches.flatten.map RandDatum.base)
    fun st => expGradFactor cfg st.klayer batches.flatten
  have := kfac_mc_linear batches (hs.shared _ _) hf hloss (by rw [hs.terms]; exact hgood) (fun d hd' => by
      obtain ⟨h, ⟨y, sqrt, lossGrad, hbase, hterm⟩, hdiff, -⟩ := hd d hd'
      rw [hs.terms, hbase, hterm]
      exact seqNet_chain hs.fit hdiff sqrt lossGrad y _ SeqNet.layers_stage) g (fun d hd' => by
      obtain ⟨h, ⟨y, sqrt, lossGrad, hbase, hterm⟩, -, haff⟩ := hd d hd'
      rw [hbase]
      exact haff.linear hs sqrt lossGrad _ _) hexp M' hM' b hb i j i' j' hi hj hi' hj'
  rw [this, hs.terms]

end

/-! ## Example: two layers with an exponential activation -/

/-- Weights `(2, 2)` and `(1, 2)`, a bias for the first layer. -/
def expShapes : List (List Nat) := [[2, 2], [2], [1, 2]]

/-- `Linear(2, 2)` followed by the exponential function. -/
noncomputable def expStage1 : Stage 2 where
  name := "0"
  pos := .both 0 1
  S := 1
  din := 2
  dout := 2
  W := fun _ _ => 0
  b := fun _ => 0
  pre := fun h x => h x.2
  post := fun hz i => Real.exp (hz.2 (0, i))

/-- `Linear(2, 1, bias=False)`. -/
noncomputable def expStage2 : Stage 2 where
  name := "2"
  pos := .weight 2
  S := 1
  din := 2
  dout := 1
  W := fun _ _ => 0
  b := fun _ => 0
  pre := fun h x => h x.2
  post := fun hz _ => hz.2 (0, 0)

/-- The network. -/
noncomputable def expNet : SeqNet 2 1 1 := ⟨[expStage1, expStage2], fun h _ _ => h 0⟩

theorem expNet_predict (h : Fin 2 → ℝ) (θ : Nat → ℝ) : expNet.predict expShapes h θ 0 0 =
    θ 6 * Real.exp (θ 0 * h 0 + θ 1 * h 1 + θ 4) + θ 7 * Real.exp (θ 2 * h 0 + θ 3 * h 1 + θ 5) := by
  simp [SeqNet.predict, expNet, forward, Stage.step, Stage.layerOut, Stage.weight, Stage.bias, expStage1, expStage2, offset, expShapes,
    Fin.sum_univ_two]

/-- Joint treatment of weights and biases, one datum. -/
def expCfg (fisher : FisherType) : KfacCfg :=
  { fisher := fisher, approx := .expand, loss := .mse, mean := false, mcSamples := 1, N := 1, T := 1, C := 1, sep := false }

theorem expNet_setting (fisher : FisherType) : expNet.Setting (expCfg fisher) expShapes 1 where
  fit := by
    refine ⟨?_, by simp [expNet, expStage1, expStage2], by simp [expNet, expStage1, expStage2, LayerPos.positions]⟩
    intro st hst
    simp only [expNet, List.mem_cons, List.not_mem_nil, or_false] at hst
    rcases hst with rfl | rfl
    · simp [Stage.Fits, expStage1, expShapes, wCols]
    · simp [Stage.Fits, expStage2, expShapes, wCols]
  all := by
    intro p hp
    have hp : p < 3 := hp
    by_cases h : p = 2
    · exact ⟨expStage2, by simp [expNet], by simp [expStage2, LayerPos.positions, h]⟩
    · exact ⟨expStage1, by simp [expNet], by simp [expStage1, LayerPos.positions]; omega⟩
  N := rfl
  N_ne := by simp
  terms := rfl
  T_ne := by simp
  outDim := rfl
  C_ne := by simp
  mc := by simp [expCfg]
  S_ne := by
    intro st hst
    simp only [expNet, List.mem_cons, List.not_mem_nil, or_false] at hst
    rcases hst with rfl | rfl <;> simp [expStage1, expStage2]

theorem expNet_diff (θ : Nat → ℝ) (h : Fin 2 → ℝ) : expNet.DiffAt expShapes θ h where
  stages := by
    refine ⟨?_, ?_, ?_, ?_, trivial⟩
    · simp only [expStage1]
      fun_prop
    · simp only [expStage1]
      fun_prop
    · simp only [expStage2]
      fun_prop
    · simp only [expStage2]
      fun_prop
  out := by
    intro t c
    simp only [expNet]
    fun_prop

theorem expNet_S : ∀ st ∈ expNet.stages, st.S = 1 := by
  intro st hst
  simp only [expNet, List.mem_cons, List.not_mem_nil, or_false] at hst
  rcases hst with rfl | rfl <;> rfl

/-- The first weight and the first bias are in one block if weights and biases are treated jointly. -/
theorem expNet_block (fisher : FisherType) : expNet.SameBlock (expCfg fisher).sep expShapes 0 4 :=
  ⟨expStage1, by simp [expNet], 0, by simp [expStage1, LayerPos.positions], 1, by simp [expStage1, LayerPos.positions],
    by simp [expCfg], ⟨0, by simp [expShapes], by simp [offset, expShapes]⟩, 0, by simp [expShapes], by simp [offset, expShapes]⟩

/-- An input with label `y`. -/
noncomputable def expInput (h : Fin 2 → ℝ) (y : ℝ) : NetInput 2 1 1 .mse :=
  ⟨h, fun _ _ => y, fun _ _ _ => Real.sqrt 2, fun _ _ _ => 0⟩

theorem expNet_pderiv (h : Fin 2 → ℝ) (θ : Nat → ℝ) :
    pderiv (fun θ => expNet.predict expShapes h θ 0 0) 0 θ = θ 6 * (h 0 * Real.exp (θ 0 * h 0 + θ 1 * h 1 + θ 4)) ∧
    pderiv (fun θ => expNet.predict expShapes h θ 0 0) 4 θ = θ 6 * Real.exp (θ 0 * h 0 + θ 1 * h 1 + θ 4) := by
  simp only [expNet_predict]
  constructor
  · refine pderiv_eq ?_
    have e : ∀ t, (fun t => (Function.update θ 0 t) 6 * Real.exp ((Function.update θ 0 t) 0 * h 0 + (Function.update θ 0 t) 1 * h 1 +
        (Function.update θ 0 t) 4) + (Function.update θ 0 t) 7 * Real.exp ((Function.update θ 0 t) 2 * h 0 +
        (Function.update θ 0 t) 3 * h 1 + (Function.update θ 0 t) 5)) t = θ 6 * Real.exp (t * h 0 + θ 1 * h 1 + θ 4) +
        θ 7 * Real.exp (θ 2 * h 0 + θ 3 * h 1 + θ 5) := by
      intro t
      simp [Function.update]
    rw [funext e]
    have := (((((hasDerivAt_id' (θ 0)).mul_const (h 0)).add_const (θ 1 * h 1)).add_const (θ 4)).exp.const_mul (θ 6)).add_const
      (θ 7 * Real.exp (θ 2 * h 0 + θ 3 * h 1 + θ 5))
    exact this.congr_deriv (by ring)
  · refine pderiv_eq ?_
    have e : ∀ t, (fun t => (Function.update θ 4 t) 6 * Real.exp ((Function.update θ 4 t) 0 * h 0 + (Function.update θ 4 t) 1 * h 1 +
        (Function.update θ 4 t) 4) + (Function.update θ 4 t) 7 * Real.exp ((Function.update θ 4 t) 2 * h 0 +
        (Function.update θ 4 t) 3 * h 1 + (Function.update θ 4 t) 5)) t = θ 6 * Real.exp (θ 0 * h 0 + θ 1 * h 1 + t) +
        θ 7 * Real.exp (θ 2 * h 0 + θ 3 * h 1 + θ 5) := by
      intro t
      simp [Function.update]
    rw [funext e]
    have := (((hasDerivAt_id' (θ 4)).const_add (θ 0 * h 0 + θ 1 * h 1)).exp.const_mul (θ 6)).add_const
      (θ 7 * Real.exp (θ 2 * h 0 + θ 3 * h 1 + θ 5))
    exact this.congr_deriv (by ring)

/-- Entry between the first weight and the first bias: KFAC has `2 ∂f/∂W₀₀ ∂f/∂b₀`, for all inputs and parameters. -/
example (θ : Nat → ℝ) (h : Fin 2 → ℝ) (y : ℝ) :
    ∃ M, Represents (expNet.kfac (expCfg .type2) expShapes [[(expInput h y).datum expShapes expNet θ]]) M ∧
      M 0 4 = 2 * (h 0 * (θ 6 * Real.exp (θ 0 * h 0 + θ 1 * h 1 + θ 4)) ^ 2) := by
  obtain ⟨M, hM, hE⟩ := seqNet_type2_single (expNet_setting .type2) expNet_S rfl rfl (by simp) (expInput h y) (expNet_diff θ h) (by
      intro t
      refine ⟨[1, 1], [0], fun _ _ => Real.sqrt 2, rfl, by simp [ValidTarget], ?_, fun _ _ => rfl⟩
      simp only [lossHessianSqrt, redOf, expCfg, sqrtScale]
      simp
      funext i j
      simp [Subsingleton.elim i j])
  refine ⟨M, hM, (hE 0 4 (expNet_block _)).trans ?_⟩
  simp [riskMatrix, datumMatrix, termSandwich, redOf, expCfg, termWeight, lossHessian, hess_mse, NetInput.terms, SeqNet.terms,
    expInput]
  rw [(expNet_pderiv h θ).1, (expNet_pderiv h θ).2]
  ring

/-- Empirical KFAC has the product of the gradients of the loss. -/
example (θ : Nat → ℝ) (h : Fin 2 → ℝ) (y : ℝ) :
    ∃ M, Represents (expNet.kfac (expCfg .empirical) expShapes [[NetInput.datum (k := .mse) expShapes expNet θ ⟨h, fun _ _ => y, fun _ _ _ => 0,
        fun _ _ _ => 2 * (expNet.predict expShapes h θ 0 0 - y)⟩]]) M ∧
      M 0 4 = (2 * (expNet.predict expShapes h θ 0 0 - y)) ^ 2 * (h 0 * (θ 6 * Real.exp (θ 0 * h 0 + θ 1 * h 1 + θ 4)) ^ 2) := by
  obtain ⟨M, hM, hE⟩ := seqNet_empirical_single (k := .mse) (expNet_setting .empirical) expNet_S rfl rfl rfl
    ⟨h, fun _ _ => y, fun _ _ _ => 0, fun _ _ _ => 2 * (expNet.predict expShapes h θ 0 0 - y)⟩ (expNet_diff θ h) (by
      intro t c
      obtain rfl : t = 0 := Subsingleton.elim _ _
      obtain rfl : c = 0 := Subsingleton.elim _ _
      rw [pderiv_mse])
  refine ⟨M, hM, (hE 0 4 (expNet_block _)).trans ?_⟩
  simp [riskMatrix, datumMatrix, termSandwich, redOf, expCfg, termWeight, lossGradOuter, pderiv_mse, NetInput.terms, SeqNet.terms]
  rw [(expNet_pderiv h θ).1, (expNet_pderiv h θ).2]
  ring

/-- The same datum with a label that is drawn from the predictive distribution. -/
noncomputable def expRand (θ : Nat → ℝ) (h : Fin 2 → ℝ) : RandDatum (Fin 1 → ℝ) .mse 1 where
  base := (expInput h 0).datum expShapes expNet θ
  term := fun _ => ⟨fun c p => if hc : c < 1 then pderiv (fun θ => expNet.predict expShapes h θ 0 ⟨c, hc⟩) p θ else 0,
    expNet.predict expShapes h θ 0, fun _ => 0⟩
  draw := fun _ _ ω => ω

/-- The expected entry of Monte-Carlo KFAC. -/
example (θ : Nat → ℝ) (h : Fin 2 → ℝ) :
    ∃ M : (Fin 1 → ℝ) → Mat ℝ,
      (∀ ω, Represents (expNet.kfac (expCfg .mc) expShapes [[((expRand θ h).fix ω).toKDatum]]) (M ω)) ∧
      ∫ ω, M ω 0 4 ∂stdNormal 1 = 2 * (h 0 * (θ 6 * Real.exp (θ 0 * h 0 + θ 1 * h 1 + θ 4)) ^ 2) := by
  obtain ⟨M, hM, hE⟩ := seqNet_mc_single (P := stdNormal 1) (expNet_setting .mc) expNet_S rfl rfl (expRand θ h)
    ⟨fun _ _ _ _ => measurable_id.aemeasurable, fun _ _ _ _ => Measure.map_id, fun _ _ t ht t' ht' htt => by omega⟩ h
    ⟨fun _ _ => 0, fun _ _ _ => Real.sqrt 2, fun _ _ _ => 0, rfl, rfl⟩ (expNet_diff θ h) 0
  refine ⟨M, hM, (hE 0 4 (expNet_block _)).2.trans ?_⟩
  simp [riskMatrix, datumMatrix, termSandwich, redOf, expCfg, termWeight, lossHessian, hess_mse, expRand]
  rw [(expNet_pderiv h θ).1, (expNet_pderiv h θ).2]
  ring

/-! ## Example: two linear layers -/

/-- `Linear(2, 2)` without activation. -/
noncomputable def linStage1 : Stage 2 where
  name := "0"
  pos := .both 0 1
  S := 1
  din := 2
  dout := 2
  W := fun _ _ => 0
  b := fun _ => 0
  pre := fun h x => h x.2
  post := fun hz i => hz.2 (0, i)

/-- The network without activation. -/
noncomputable def linNet : SeqNet 2 1 1 := ⟨[linStage1, expStage2], fun h _ _ => h 0⟩

theorem linNet_setting (fisher : FisherType) (n : Nat) (hn : n ≠ 0) : linNet.Setting { expCfg fisher with N := n } expShapes n where
  fit := by
    refine ⟨?_, by simp [linNet, linStage1, expStage2], by simp [linNet, linStage1, expStage2, LayerPos.positions]⟩
    intro st hst
    simp only [linNet, List.mem_cons, List.not_mem_nil, or_false] at hst
    rcases hst with rfl | rfl
    · simp [Stage.Fits, linStage1, expShapes, wCols]
    · simp [Stage.Fits, expStage2, expShapes, wCols]
  all := by
    intro p hp
    have hp : p < 3 := hp
    by_cases h : p = 2
    · exact ⟨expStage2, by simp [linNet], by simp [expStage2, LayerPos.positions, h]⟩
    · exact ⟨_, List.mem_cons_self, by simp [linStage1, LayerPos.positions]; omega⟩
  N := rfl
  N_ne := hn
  terms := rfl
  T_ne := by simp
  outDim := rfl
  C_ne := by simp
  mc := by simp [expCfg]
  S_ne := by
    intro st hst
    simp only [linNet, List.mem_cons, List.not_mem_nil, or_false] at hst
    rcases hst with rfl | rfl <;> simp [linStage1, expStage2]

theorem linNet_diff (θ : Nat → ℝ) (h : Fin 2 → ℝ) : linNet.DiffAt expShapes θ h where
  stages := by
    refine ⟨?_, ?_, ?_, ?_, trivial⟩
    · simp only [linStage1]
      fun_prop
    · simp only [linStage1]
      fun_prop
    · simp only [expStage2]
      fun_prop
    · simp only [expStage2]
      fun_prop
  out := by
    intro t c
    simp only [linNet]
    fun_prop

/-- Derivatives of the prediction in the layers' outputs: the second weight, and one. -/
def linG (θ : Nat → ℝ) (name : String) (o _ : Nat) : ℝ :=
  if name = "0" then (if o < 2 then θ (6 + o) else 0) else if o = 0 then 1 else 0

theorem linNet_affine (θ : Nat → ℝ) (h : Fin 2 → ℝ) : linNet.AffineAfter .expand expShapes θ (linG θ) h := by
  refine ⟨by simp, fun before st rest hsplit => ?_⟩
  rcases before with _ | ⟨a, _ | ⟨a', before⟩⟩
  · simp only [linNet, List.nil_append, List.cons.injEq] at hsplit
    obtain ⟨rfl, rfl⟩ := hsplit
    refine ⟨fun _ => rfl, ?_, fun _ _ => 0, ?_⟩
    · intro o ho c
      have ho : 2 ≤ o := ho
      simp [linG, linStage1, show ¬ o < 2 by omega]
    · intro z t c
      have hsum : ∀ f : Fin 1 × Fin 2 → ℝ, ∑ a, f a = f (0, 0) + f (0, 1) := by
        intro f
        simp [Fintype.sum_prod_type]
      refine Eq.trans ?_ (congrArg (· + (0 : ℝ)) (hsum _).symm)
      simp [linNet, forward, Stage.step, Stage.layerOut, Stage.weight, Stage.bias, expStage2, offset, expShapes, Fin.sum_univ_two, linG,
        linStage1]
  · simp only [linNet, List.cons_append, List.nil_append, List.cons.injEq] at hsplit
    obtain ⟨rfl, rfl, rfl⟩ := hsplit
    refine ⟨fun _ => rfl, ?_, fun _ _ => 0, ?_⟩
    · intro o ho c
      have ho : 1 ≤ o := ho
      simp [linG, expStage2, show o ≠ 0 by omega]
    · intro z t c
      have hsum : ∀ f : Fin 1 × Fin 1 → ℝ, ∑ a, f a = f (0, 0) := by
        intro f
        simp [Fintype.sum_prod_type]
      refine Eq.trans ?_ (congrArg (· + (0 : ℝ)) (hsum _).symm)
      simp [linNet, forward, expStage2, linG]
  · simp [linNet] at hsplit

/-- Three data in two batches: KFAC has the entries of the GGN. -/
example (θ : Nat → ℝ) (h₁ h₂ h₃ : Fin 2 → ℝ) (y₁ y₂ y₃ : ℝ) :
    ∃ M, Represents (linNet.kfac { expCfg .type2 with N := 3 } expShapes
        ([[expInput h₁ y₁, expInput h₂ y₂], [expInput h₃ y₃]].map (·.map (NetInput.datum expShapes linNet θ)))) M ∧
      ∀ p q, linNet.SameBlock false expShapes p q → M p q = riskMatrix .sum (datumMatrix false 1 lossHessian)
        ([expInput h₁ y₁, expInput h₂ y₂, expInput h₃ y₃].map (NetInput.terms expShapes linNet θ)) p q := by
  refine seqNet_type2_linear (cfg := { expCfg .type2 with N := 3 }) [[expInput h₁ y₁, expInput h₂ y₂], [expInput h₃ y₃]]
    (linNet_setting .type2 3 (by simp)) rfl rfl (linG θ) (fun x _ => linNet_diff θ x.h) (fun x _ => linNet_affine θ x.h) ?_
  intro x hx t
  have hx' : x.sqrt = fun _ _ _ => Real.sqrt 2 := by
    simp only [List.flatten_cons, List.flatten_nil, List.append_nil, List.mem_append, List.mem_cons, List.not_mem_nil, or_false] at hx
    rcases hx with (rfl | rfl) | rfl <;> rfl
  refine ⟨[1, 1], [0], fun _ _ => Real.sqrt 2, rfl, by simp [ValidTarget], ?_, fun _ _ => by rw [hx']⟩
  simp only [lossHessianSqrt, redOf, expCfg, sqrtScale]
  simp
  funext i j
  simp [Subsingleton.elim i j]

/-- A datum with a label that is drawn from the predictive distribution. -/
noncomputable def linRand (θ : Nat → ℝ) (h : Fin 2 → ℝ) : RandDatum (Fin 1 → ℝ) .mse 1 where
  base := (expInput h 0).datum expShapes linNet θ
  term := fun _ => ⟨fun c p => if hc : c < 1 then pderiv (fun θ => linNet.predict expShapes h θ 0 ⟨c, hc⟩) p θ else 0,
    linNet.predict expShapes h θ 0, fun _ => 0⟩
  draw := fun _ _ ω => ω

/-- Three data in two batches, with the same random numbers for all data: the expectation has the entries of the GGN. -/
example (θ : Nat → ℝ) (h₁ h₂ h₃ : Fin 2 → ℝ) :
    ∃ M : (Fin 1 → ℝ) → Mat ℝ, (∀ ω, Represents (linNet.kfac { expCfg .mc with N := 3 } expShapes
        ([[linRand θ h₁, linRand θ h₂], [linRand θ h₃]].map (·.map fun d => (d.fix ω).toKDatum))) (M ω)) ∧
      ∀ p q, linNet.SameBlock false expShapes p q → Integrable (fun ω => M ω p q) (stdNormal 1) ∧
        ∫ ω, M ω p q ∂stdNormal 1 = riskMatrix .sum (datumMatrix false 1 lossHessian)
          ([linRand θ h₁, linRand θ h₂, linRand θ h₃].map fun d => (List.range 1).map d.term) p q := by
  have hmem : ∀ d ∈ [[linRand θ h₁, linRand θ h₂], [linRand θ h₃]].flatten, ∃ h, d = linRand θ h := by
    intro d hd
    simp only [List.flatten_cons, List.flatten_nil, List.append_nil, List.mem_append, List.mem_cons, List.not_mem_nil, or_false] at hd
    rcases hd with (rfl | rfl) | rfl <;> exact ⟨_, rfl⟩
  refine seqNet_mc_linear (cfg := { expCfg .mc with N := 3 }) [[linRand θ h₁, linRand θ h₂], [linRand θ h₃]]
    (linNet_setting .mc 3 (by simp)) rfl rfl (fun d hd => ?_) (θ := θ) (linG θ) (fun d hd => ?_) 0
  · obtain ⟨h, rfl⟩ := hmem d hd
    exact ⟨fun _ _ _ _ => measurable_id.aemeasurable, fun _ _ _ _ => Measure.map_id, fun _ _ t ht t' ht' htt => by omega⟩
  · obtain ⟨h, rfl⟩ := hmem d hd
    exact ⟨h, ⟨fun _ _ => 0, fun _ _ _ => Real.sqrt 2, fun _ _ _ => 0, rfl, rfl⟩, linNet_diff θ h, linNet_affine θ h⟩

end Curvlinops
