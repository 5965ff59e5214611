import Verif.Props.SeqNetMC
import Verif.Props.KfacInverseFresh
import Verif.Props.LossOptions

/-!
# KFAC's inverse on feed-forward networks

Where KFAC equals the GGN inside the blocks (C73), `KFACInverseLinearOperator` with exact damping is the inverse of the
block-diagonal of the GGN plus damping times identity.
-/

namespace Curvlinops

variable {D T C : Nat} {k : LossKind} {Θ B G : Type}

/-- Coordinates of the same Kronecker block belong to the same layer (and parameter, if treated separately). -/
theorem SeqNet.sameBlock_of_block {cfg : KfacCfg} {shapes : List (List Nat)} {net : SeqNet D T C} (hfit : net.Fits shapes)
    (data : List KDatum) (B : Stage D → Mat ℝ) {b : KBlock ℝ} (hb : b ∈ kfacBlocks cfg.sep shapes (net.layersWith cfg data B))
    {i j i' j' : Nat} (hi : i < b.rows) (hj : j < b.cols) (hi' : i' < b.rows) (hj' : j' < b.cols) :
    net.SameBlock cfg.sep shapes (b.idx i j) (b.idx i' j') := by
  obtain ⟨l, hl, hbl⟩ := List.mem_flatMap.mp hb
  obtain ⟨st, hst, rfl⟩ := List.mem_map.mp hl
  have hf := hfit.fits st hst
  unfold Stage.Fits at hf
  have hw : ∀ w, (shapes.getD w []).head? = some st.dout → ∀ i < st.dout, ∀ j < wCols shapes w,
      i * wCols shapes w + j < (shapes.getD w []).prod := by
    intro w hh i hi j hj
    unfold wCols at hj ⊢
    cases hc : shapes.getD w [] with
    | nil => rw [hc] at hh; cases hh
    | cons a t =>
      rw [hc] at hh hj
      simp only [List.head?_cons, Option.some.injEq] at hh
      simp only [List.tail_cons] at hj ⊢
      rw [List.prod_cons, hh]
      calc i * t.prod + j < i * t.prod + t.prod := by omega
        _ = (i + 1) * t.prod := by ring
        _ ≤ st.dout * t.prod := Nat.mul_le_mul_right _ hi
  cases hp : st.pos with
  | weight w =>
    rw [hp] at hf
    simp only [Layer.blocks, hp, List.mem_singleton] at hbl
    subst hbl
    exact ⟨st, hst, w, by simp [hp, LayerPos.positions], w, by simp [hp, LayerPos.positions], fun _ => rfl,
      ⟨_, hw w hf.2.1 i hi j hj, rfl⟩, _, hw w hf.2.1 i' hi' j' hj', rfl⟩
  | bias b =>
    rw [hp] at hf
    simp only [Layer.blocks, hp, List.mem_singleton] at hbl
    subst hbl
    exact ⟨st, hst, b, by simp [hp, LayerPos.positions], b, by simp [hp, LayerPos.positions], fun _ => rfl,
      ⟨i, by rw [hf.2]; simpa using (show i < st.dout from hi), rfl⟩, i', by rw [hf.2]; simpa using (show i' < st.dout from hi'), rfl⟩
  | both w b =>
    rw [hp] at hf
    obtain ⟨-, -, hh, -, hbs⟩ := hf
    cases hs : cfg.sep with
    | true =>
      simp only [Layer.blocks, hp, hs, if_true, List.mem_cons, List.not_mem_nil, or_false] at hbl
      rcases hbl with rfl | rfl
      · exact ⟨st, hst, w, by simp [hp, LayerPos.positions], w, by simp [hp, LayerPos.positions], fun _ => rfl,
          ⟨_, hw w hh i hi j hj, rfl⟩, _, hw w hh i' hi' j' hj', rfl⟩
      · exact ⟨st, hst, b, by simp [hp, LayerPos.positions], b, by simp [hp, LayerPos.positions], fun _ => rfl,
          ⟨i, by rw [hbs]; simpa using (show i < st.dout from hi), rfl⟩, i', by rw [hbs]; simpa using (show i' < st.dout from hi'), rfl⟩
    | false =>
      simp only [Layer.blocks, hp, hs, Bool.false_eq_true, if_false, List.mem_singleton] at hbl
      subst hbl
      have key : ∀ i < st.dout, ∀ j, ∃ a ∈ st.pos.positions, ∃ r < (shapes.getD a []).prod,
          (if j < wCols shapes w then offset shapes w + (i * wCols shapes w + j) else offset shapes b + i) = offset shapes a + r := by
        intro i hi j
        by_cases hj : j < wCols shapes w
        · exact ⟨w, by simp [hp, LayerPos.positions], _, hw w hh i hi j hj, by rw [if_pos hj]⟩
        · exact ⟨b, by simp [hp, LayerPos.positions], i, by rw [hbs]; simpa using hi, by rw [if_neg hj]⟩
      obtain ⟨a, ha, r, hr, e⟩ := key i hi j
      obtain ⟨a', ha', r', hr', e'⟩ := key i' hi' j'
      exact ⟨st, hst, a, ha, a', ha', by simp, ⟨r, hr, e⟩, r', hr', e'⟩

/-- KFAC's matrix is zero between different blocks. -/
theorem seqNet_off_block {cfg : KfacCfg} {shapes : List (List Nat)} {net : SeqNet D T C} (hfit : net.Fits shapes)
    (data : List KDatum) (B : Stage D → Mat ℝ) {N : Nat} (ht : Tiles (kfacBlocks cfg.sep shapes (net.layersWith cfg data B)) N)
    {M : Mat ℝ} (hM : IsKron (kfacBlocks cfg.sep shapes (net.layersWith cfg data B)) M) {p q : Nat} (hp : p < N) (hq : q < N)
    (hpq : ¬ net.SameBlock cfg.sep shapes p q) : M p q = 0 := by
  obtain ⟨x, rfl, -⟩ := ht.2 p hp
  obtain ⟨y, rfl, -⟩ := ht.2 q hq
  rw [hM x y, KIdx.entry, if_neg]
  intro h
  obtain ⟨l, i, j⟩ := x
  obtain ⟨l', i', j'⟩ := y
  simp only at h
  subst h
  exact hpq (SeqNet.sameBlock_of_block hfit data B (List.getElem_mem l.2) i.2 j.2 i'.2 j'.2)

open Classical in
/-- The matrix `F` inside the blocks, zero between different blocks, plus `δ` times the identity. -/
noncomputable def SeqNet.dampedBlocks (sep : Bool) (shapes : List (List Nat)) (net : SeqNet D T C) (F : Mat ℝ) (δ : ℝ) : Mat ℝ :=
  fun p q => (if net.SameBlock sep shapes p q then F p q else 0) + if p = q then δ else 0

/-- `KFACInverseLinearOperator` with exact damping, for a KFAC operator on the network that equals `F` inside the blocks. -/
theorem seqNet_inverse_exact {cfg : KfacCfg} {shapes : List (List Nat)} {net : SeqNet D T C} {n : Nat} (hs : net.Setting cfg shapes n)
    (hnet : net.stages ≠ []) (w : KWorld Θ B G) (s₀ : KState Θ) (hf : s₀.IsFresh) (hcfg : s₀.cfg = cfg) (hw : w.layers = net.klayers)
    (hdata : w.data ≠ []) (F : Mat ℝ)
    (hF : ∃ M, Represents (net.kfac cfg shapes (w.batches s₀.model cfg (w.seeded s₀.seed) w.data)) M ∧
      ∀ p q, net.SameBlock cfg.sep shapes p q → M p q = F p q)
    (la : LinAlg) (hla : la.Correct) (dt : FloatType) (icfg : InvCfg) (hex : icfg.exact = true) (δ : ℝ)
    (hδ : icfg.damping = .value δ) (hpos : 0 < δ) :
    ∃ E, Represents (KInvState.op w la dt shapes ⟨s₀, icfg, []⟩) E ∧
      MatInv (shapes.map List.prod).sum (net.dampedBlocks cfg.sep shapes F δ) E := by
  subst hcfg
  have hne := batches_ne_nil w s₀.model s₀.cfg (w.seeded s₀.seed) hdata
  have hK := seqNet_kfacLayers (cfg := s₀.cfg) hs.fit hs.all (w.batches s₀.model s₀.cfg (w.seeded s₀.seed) w.data) hne
    (by rw [hs.terms]; exact hs.T_ne) (by rw [hs.outDim]; exact hs.C_ne) hs.mc
  have hmap : w.mapping = net.mapping := by
    unfold KWorld.mapping SeqNet.mapping
    rw [hw, SeqNet.klayers, List.map_map]
    rfl
  have hfac : w.factors s₀ = kfacFactors s₀.cfg net.klayers (w.batches s₀.model s₀.cfg (w.seeded s₀.seed) w.data) := by
    unfold KWorld.factors
    rw [hw]
  have hK' := hK
  rw [← hmap, ← hfac] at hK'
  have hg : w.Good s₀.cfg := ⟨by rw [hw]; exact SeqNet.klayers_names hs.fit, by
    rw [hw, SeqNet.klayers]
    simpa using hnet, hdata, by rw [hs.terms]; exact hs.T_ne, by rw [hs.outDim]; exact hs.C_ne, hs.mc⟩
  obtain ⟨⟨M, hM⟩, -⟩ := kfac_matrix_exists _ _ _ _ _ _ hK
  have ht := kfac_tiles _ _ _ _ _ _ hK
  obtain ⟨E, hE, hI⟩ := kfacInverse_fresh_exact w s₀ hf hg la hla dt shapes _ hK' icfg hex δ hδ hpos M hM
  obtain ⟨M', hM', hF'⟩ := hF
  have hrep := kfac_represents _ _ _ _ _ _ hK M hM
  have key : ∀ p < (shapes.map List.prod).sum, ∀ q < (shapes.map List.prod).sum,
      M p q + (if p = q then δ else 0) = net.dampedBlocks s₀.cfg.sep shapes F δ p q := by
    intro p hp q hq
    unfold SeqNet.dampedBlocks
    congr 1
    by_cases h : net.SameBlock s₀.cfg.sep shapes p q
    · rw [if_pos h, ← hF' p q h]
      exact represents_unique _ M M' hrep hM' p q hp hq
    · rw [if_neg h]
      exact seqNet_off_block hs.fit _ _ ht hM hp hq h
  refine ⟨E, hE, fun r hr c hc => ?_⟩
  obtain ⟨h1, h2⟩ := hI r hr c hc
  refine ⟨h1 ▸ Finset.sum_congr rfl fun m hm => ?_, h2 ▸ Finset.sum_congr rfl fun m hm => ?_⟩
  · rw [← key r hr m (Finset.mem_range.mp hm)]
  · rw [← key m (Finset.mem_range.mp hm) c hc]

/-- The network with its data, as KFAC's hooks see it. No random numbers are needed for the type-2 and the empirical Fisher. -/
noncomputable def SeqNet.world (shapes : List (List Nat)) (net : SeqNet D T C) (batches : List (List (NetInput D T C k))) :
    KWorld (Nat → ℝ) (List (NetInput D T C k)) Unit :=
  ⟨net.klayers, batches, fun _ => (), fun θ _ _ b => (b.map (NetInput.datum shapes net θ), ())⟩

theorem seqNet_world_batches (shapes : List (List Nat)) (net : SeqNet D T C) (batches data : List (List (NetInput D T C k)))
    (θ : Nat → ℝ) (cfg : KfacCfg) (g : Unit) :
    (net.world shapes batches).batches θ cfg g data = data.map (·.map (NetInput.datum shapes net θ)) := by
  induction data with
  | nil => rfl
  | cons b data ih => rw [KWorld.batches, ih]; rfl

theorem KState.fresh_isFresh (model : Θ) (cfg : KfacCfg) (seed : Nat) (shape : Nat × Nat) (progressbar : Bool) :
    (KState.fresh model cfg seed shape progressbar).IsFresh := ⟨rfl, rfl, rfl, rfl, rfl, rfl, rfl, rfl⟩

/-- C80 (type-2, one datum): the inverse of a new KFAC operator with exact damping `δ > 0` multiplies with the inverse of the
block-diagonal of the GGN plus `δ` times the identity. -/
theorem naturalGradient_type2_single {cfg : KfacCfg} {shapes : List (List Nat)} {net : SeqNet D 1 C} (hs : net.Setting cfg shapes 1)
    (hnet : net.stages ≠ []) (hS : ∀ st ∈ net.stages, st.S = 1) (hmc : cfg.mcSamples = 1) (hf : cfg.fisher = .type2)
    (hk : k = .ce → C ≠ 1) {θ : Nat → ℝ} (x : NetInput D 1 C k) (hd : net.DiffAt shapes θ x.h) (hx : x.SqrtOk shapes net θ cfg.mean)
    (seed : Nat) (shape : Nat × Nat) (progressbar : Bool) (la : LinAlg) (hla : la.Correct) (dt : FloatType) (icfg : InvCfg)
    (hex : icfg.exact = true) (δ : ℝ) (hδ : icfg.damping = .value δ) (hpos : 0 < δ) :
    ∃ E, Represents (KInvState.op (net.world shapes [[x]]) la dt shapes ⟨.fresh θ cfg seed shape progressbar, icfg, []⟩) E ∧
      MatInv (shapes.map List.prod).sum (net.dampedBlocks cfg.sep shapes
        (riskMatrix (redOf cfg.mean) (datumMatrix cfg.mean 1 lossHessian) [x.terms shapes net θ]) δ) E :=
  seqNet_inverse_exact hs hnet _ _ (KState.fresh_isFresh _ _ _ _ _) rfl rfl (by simp [SeqNet.world]) _
    (by
      rw [seqNet_world_batches]
      exact seqNet_type2_single hs hS hmc hf hk x hd hx) la hla dt icfg hex δ hδ hpos

/-- C80 (empirical Fisher, one datum). -/
theorem naturalGradient_empirical_single {cfg : KfacCfg} {shapes : List (List Nat)} {net : SeqNet D 1 C}
    (hs : net.Setting cfg shapes 1) (hnet : net.stages ≠ []) (hS : ∀ st ∈ net.stages, st.S = 1) (hmc : cfg.mcSamples = 1)
    (hf : cfg.fisher = .empirical) (hloss : cfg.loss = k) {θ : Nat → ℝ} (x : NetInput D 1 C k) (hd : net.DiffAt shapes θ x.h)
    (hx : x.GradOk shapes net θ) (seed : Nat) (shape : Nat × Nat) (progressbar : Bool) (la : LinAlg) (hla : la.Correct)
    (dt : FloatType) (icfg : InvCfg) (hex : icfg.exact = true) (δ : ℝ) (hδ : icfg.damping = .value δ) (hpos : 0 < δ) :
    ∃ E, Represents (KInvState.op (net.world shapes [[x]]) la dt shapes ⟨.fresh θ cfg seed shape progressbar, icfg, []⟩) E ∧
      MatInv (shapes.map List.prod).sum (net.dampedBlocks cfg.sep shapes
        (riskMatrix (redOf cfg.mean) (datumMatrix cfg.mean 1 lossGradOuter) [x.terms shapes net θ]) δ) E :=
  seqNet_inverse_exact hs hnet _ _ (KState.fresh_isFresh _ _ _ _ _) rfl rfl (by simp [SeqNet.world]) _
    (by
      rw [seqNet_world_batches]
      exact seqNet_empirical_single hs hS hmc hf hloss x hd hx) la hla dt icfg hex δ hδ hpos

/-- C80 (type-2, linear after each layer, square loss): for any data in any mini-batches. -/
theorem naturalGradient_type2_linear {cfg : KfacCfg} {shapes : List (List Nat)} {net : SeqNet D T C}
    (batches : List (List (NetInput D T C .mse))) (hs : net.Setting cfg shapes batches.flatten.length) (hnet : net.stages ≠ [])
    (hf : cfg.fisher = .type2) (hmc : cfg.mcSamples = 1) {θ : Nat → ℝ} (g : String → Nat → Nat → ℝ)
    (hd : ∀ x ∈ batches.flatten, net.DiffAt shapes θ x.h)
    (hg : ∀ x ∈ batches.flatten, net.AffineAfter cfg.approx shapes θ g x.h)
    (hx : ∀ x ∈ batches.flatten, x.SqrtOk shapes net θ cfg.mean) (seed : Nat) (shape : Nat × Nat) (progressbar : Bool)
    (la : LinAlg) (hla : la.Correct) (dt : FloatType) (icfg : InvCfg) (hex : icfg.exact = true) (δ : ℝ)
    (hδ : icfg.damping = .value δ) (hpos : 0 < δ) :
    ∃ E, Represents (KInvState.op (net.world shapes batches) la dt shapes ⟨.fresh θ cfg seed shape progressbar, icfg, []⟩) E ∧
      MatInv (shapes.map List.prod).sum (net.dampedBlocks cfg.sep shapes (riskMatrix (redOf cfg.mean)
        (datumMatrix cfg.mean T lossHessian) (batches.flatten.map (NetInput.terms shapes net θ))) δ) E :=
  seqNet_inverse_exact hs hnet _ _ (KState.fresh_isFresh _ _ _ _ _) rfl rfl
    (by
      rintro rfl
      exact hs.N_ne rfl) _
    (by
      rw [seqNet_world_batches]
      exact seqNet_type2_linear batches hs hf hmc g hd hg hx) la hla dt icfg hex δ hδ hpos

theorem offset_cover {shapes : List (List Nat)} {r : Nat} (hr : r < (shapes.map List.prod).sum) :
    ∃ a < shapes.length, ∃ s < (shapes.getD a []).prod, r = offset shapes a + s := by
  induction shapes generalizing r with
  | nil => simp at hr
  | cons t shapes ih =>
    by_cases h : r < t.prod
    · exact ⟨0, by simp, r, by simpa using h, by simp [offset]⟩
    · simp only [List.map_cons, List.sum_cons] at hr
      obtain ⟨a, ha, s, hs, e⟩ := ih (r := r - t.prod) (by omega)
      refine ⟨a + 1, by simpa using ha, s, by simpa using hs, ?_⟩
      simp only [offset, List.take_succ_cons, List.map_cons, List.sum_cons] at e ⊢
      omega

/-- With a single layer, whose parameters are treated jointly, there is only one block: the inverted matrix is the whole one plus
damping. -/
theorem dampedBlocks_single {sep : Bool} {shapes : List (List Nat)} {net : SeqNet D T C} {st : Stage D} (h : net.stages = [st])
    (hall : ∀ p < shapes.length, p ∈ st.pos.positions) (hsep : sep = true → st.pos.positions.length = 1) (F : Mat ℝ) (δ : ℝ)
    (p q : Nat) (hp : p < (shapes.map List.prod).sum) (hq : q < (shapes.map List.prod).sum) :
    net.dampedBlocks sep shapes F δ p q = F p q + if p = q then δ else 0 := by
  unfold SeqNet.dampedBlocks
  obtain ⟨a, ha, r, hr, e⟩ := offset_cover hp
  obtain ⟨a', ha', r', hr', e'⟩ := offset_cover hq
  rw [if_pos]
  refine ⟨st, by rw [h]; exact List.mem_singleton_self _, a, hall a ha, a', hall a' ha', fun hs => ?_, ⟨r, hr, e⟩, r', hr', e'⟩
  obtain ⟨b, hb⟩ := List.length_eq_one_iff.mp (hsep hs)
  have h1 := hall a ha
  have h2 := hall a' ha'
  rw [hb, List.mem_singleton] at h1 h2
  rw [h1, h2]

/-! ## Examples -/

/-- The input's square root of the loss Hessian is the one of the square loss. -/
theorem expInput_sqrtOk (θ : Nat → ℝ) (h : Fin 2 → ℝ) (y : ℝ) : (expInput h y).SqrtOk expShapes expNet θ (expCfg .type2).mean := by
  intro t
  refine ⟨[1, 1], [0], fun _ _ => Real.sqrt 2, rfl, by simp [ValidTarget], ?_, fun _ _ => rfl⟩
  simp only [lossHessianSqrt, redOf, expCfg, sqrtScale]
  simp
  funext i j
  simp [Subsingleton.elim i j]

/-- The network with exponential activations, damping `1/10`, any linear algebra routines that are correct: the product of the damped
block-diagonal GGN with the inverse has a zero at the entry between the first weight and the first bias. -/
example (θ : Nat → ℝ) (h : Fin 2 → ℝ) (y : ℝ) (la : LinAlg) (hla : la.Correct) (cache retry : Bool) :
    ∃ E, Represents (KInvState.op (expNet.world expShapes [[expInput h y]]) la .lower expShapes
        ⟨.fresh θ (expCfg .type2) 0 (8, 8) false, ⟨.value (1 / 10), false, 0, true, cache, retry⟩, []⟩) E ∧
      ∑ m ∈ Finset.range 8, expNet.dampedBlocks false expShapes (riskMatrix (redOf false) (datumMatrix false 1 lossHessian)
        [(expInput h y).terms expShapes expNet θ]) (1 / 10) 0 m * E m 4 = 0 := by
  obtain ⟨E, hE, hI⟩ := naturalGradient_type2_single (expNet_setting .type2) (by simp [expNet]) expNet_S rfl rfl (by simp)
    (expInput h y) (expNet_diff θ h) (expInput_sqrtOk θ h y) 0 (8, 8) false la hla .lower ⟨.value (1 / 10), false, 0, true, cache, retry⟩
    rfl (1 / 10) rfl (by norm_num)
  exact ⟨E, hE, (hI 0 (by simp [expShapes]) 4 (by simp [expShapes])).1⟩

/-- `Linear(2, 1, bias=False)` as the only layer. -/
noncomputable def rowNet : SeqNet 2 1 1 := ⟨[{ expStage2 with pos := .weight 0 }], fun h _ _ => h 0⟩

theorem rowNet_setting (fisher : FisherType) : rowNet.Setting (expCfg fisher) [[1, 2]] 1 where
  fit := by
    refine ⟨?_, by simp [rowNet, expStage2], by simp [rowNet, expStage2, LayerPos.positions]⟩
    intro st hst
    simp only [rowNet, List.mem_singleton] at hst
    subst hst
    simp [Stage.Fits, expStage2, wCols]
  all := by
    intro p hp
    have hp : p < 1 := hp
    exact ⟨_, by simp only [rowNet]; exact List.mem_singleton_self _, by simp [LayerPos.positions]; omega⟩
  N := rfl
  N_ne := by simp
  terms := rfl
  T_ne := by simp
  outDim := rfl
  C_ne := by simp
  mc := by simp [expCfg]
  S_ne := by
    intro st hst
    simp only [rowNet, List.mem_singleton] at hst
    subst hst
    simp [expStage2]

/-- `f(x) = θ₀ x₀ + θ₁ x₁` with square loss at `x = (1, 0)`: the GGN is `[[2, 0], [0, 0]]`, and the inverse with damping `δ` is
`[[1/(2+δ), 0], [0, 1/δ]]`. -/
example (θ : Nat → ℝ) (y δ : ℝ) (hδ : 0 < δ) (la : LinAlg) (hla : la.Correct) (cache retry : Bool) :
    ∃ E, Represents (KInvState.op (rowNet.world [[1, 2]] [[expInput ![1, 0] y]]) la .float64 [[1, 2]]
        ⟨.fresh θ (expCfg .type2) 0 (2, 2) false, ⟨.value δ, false, 0, true, cache, retry⟩, []⟩) E ∧
      E 0 0 = 1 / (2 + δ) ∧ E 0 1 = 0 ∧ E 1 1 = 1 / δ := by
  obtain ⟨E, hE, hI⟩ := naturalGradient_type2_single (rowNet_setting .type2) (by simp [rowNet])
    (by
      intro st hst
      simp only [rowNet, List.mem_singleton] at hst
      subst hst
      rfl) rfl rfl (by simp) (expInput ![1, 0] y)
    ⟨⟨by simp only [expStage2]; fun_prop, by simp only [expStage2]; fun_prop, trivial⟩, fun t c => by simp only [rowNet]; fun_prop⟩
    (by
      intro t
      refine ⟨[1, 1], [0], fun _ _ => Real.sqrt 2, rfl, by simp [ValidTarget], ?_, fun _ _ => rfl⟩
      simp only [lossHessianSqrt, redOf, expCfg, sqrtScale]
      simp
      funext i j
      simp [Subsingleton.elim i j]) 0 (2, 2) false la hla .float64 ⟨.value δ, false, 0, true, cache, retry⟩ rfl δ rfl hδ
  refine ⟨E, hE, ?_⟩
  have hp : ∀ θ : Nat → ℝ, rowNet.predict [[1, 2]] ![1, 0] θ 0 0 = θ 0 := by
    intro θ
    simp [SeqNet.predict, rowNet, forward, Stage.step, Stage.layerOut, Stage.weight, Stage.bias, expStage2, offset, Fin.sum_univ_two]
  have hd : ∀ p, pderiv (fun θ => rowNet.predict [[1, 2]] ![1, 0] θ 0 0) p θ = if p = 0 then 1 else 0 := by
    intro p
    simp only [hp]
    by_cases h : p = 0
    · subst h
      rw [if_pos rfl]
      refine HasDerivAt.deriv ?_
      simpa using hasDerivAt_id' (θ 0)
    · rw [if_neg h]
      refine HasDerivAt.deriv ?_
      simpa [Function.update, Ne.symm h] using hasDerivAt_const (θ p) (θ 0)
  have hG : ∀ p < 2, ∀ q < 2, rowNet.dampedBlocks false [[1, 2]] (riskMatrix (redOf false) (datumMatrix false 1 lossHessian)
      [(expInput ![1, 0] y).terms [[1, 2]] rowNet θ]) δ p q = (if p = 0 ∧ q = 0 then 2 else 0) + if p = q then δ else 0 := by
    intro p hp' q hq'
    rw [dampedBlocks_single (st := { expStage2 with pos := .weight 0 }) rfl
      (by intro p hp; have hp : p < 1 := hp; simp [LayerPos.positions]; omega) (by simp) _ _ _ _ (by simpa using hp') (by simpa using hq')]
    congr 1
    simp [riskMatrix, datumMatrix, termSandwich, redOf, termWeight, lossHessian, hess_mse, NetInput.terms, SeqNet.terms, expInput, hd]
    split_ifs <;> simp_all
  have hI' : ∀ r < 2, ∀ c < 2, ∑ m ∈ Finset.range 2, ((if r = 0 ∧ m = 0 then (2 : ℝ) else 0) + if r = m then δ else 0) * E m c =
      if r = c then 1 else 0 := by
    intro r hr c hc
    rw [← (hI r (by simpa using hr) c (by simpa using hc)).1]
    refine Finset.sum_congr (by simp) fun m hm => ?_
    rw [← hG r hr m (Finset.mem_range.mp hm)]
    rfl
  have h00 := hI' 0 (by norm_num) 0 (by norm_num)
  have h01 := hI' 0 (by norm_num) 1 (by norm_num)
  have h11 := hI' 1 (by norm_num) 1 (by norm_num)
  simp [Finset.sum_range_succ] at h00 h01 h11
  have : (2 : ℝ) + δ ≠ 0 := by positivity
  refine ⟨?_, ?_, ?_⟩
  · field_simp
    linarith
  · rcases h01 with h | h
    · exact absurd h this
    · exact h
  · field_simp
    linarith

/-- Three data in two mini-batches, no activation function: exact damping inverts the damped block-diagonal of the GGN on all data. -/
example (θ : Nat → ℝ) (h₁ h₂ h₃ : Fin 2 → ℝ) (y₁ y₂ y₃ δ : ℝ) (hδ : 0 < δ) (la : LinAlg) (hla : la.Correct) :
    ∃ E, Represents (KInvState.op (linNet.world expShapes [[expInput h₁ y₁, expInput h₂ y₂], [expInput h₃ y₃]]) la .float64 expShapes
        ⟨.fresh θ { expCfg .type2 with N := 3 } 0 (8, 8) false, ⟨.value δ, false, 0, true, true, true⟩, []⟩) E ∧
      MatInv 8 (linNet.dampedBlocks false expShapes (riskMatrix .sum (datumMatrix false 1 lossHessian)
        ([expInput h₁ y₁, expInput h₂ y₂, expInput h₃ y₃].map (NetInput.terms expShapes linNet θ))) δ) E := by
  refine naturalGradient_type2_linear (cfg := { expCfg .type2 with N := 3 }) [[expInput h₁ y₁, expInput h₂ y₂], [expInput h₃ y₃]]
    (linNet_setting .type2 3 (by simp)) (by simp [linNet]) rfl rfl (linG θ) (fun x _ => linNet_diff θ x.h)
    (fun x _ => linNet_affine θ x.h) ?_ 0 (8, 8) false la hla .float64 _ rfl δ rfl hδ
  intro x hx t
  have hx' : x.sqrt = fun _ _ _ => Real.sqrt 2 := by
    simp only [List.flatten_cons, List.flatten_nil, List.append_nil, List.mem_append, List.mem_cons, List.not_mem_nil, or_false] at hx
    rcases hx with (rfl | rfl) | rfl <;> rfl
  refine ⟨[1, 1], [0], fun _ _ => Real.sqrt 2, rfl, by simp [ValidTarget], ?_, fun _ _ => by rw [hx']⟩
  simp only [lossHessianSqrt, redOf, expCfg, sqrtScale]
  simp
  funext i j
  simp [Subsingleton.elim i j]

end Curvlinops
