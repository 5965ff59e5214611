import Verif.Lemmas.KfacInverseLoop
import Verif.Props.KfacPsd

/-!
# The product with the KFAC inverse (C41, C42)
-/

namespace Curvlinops

variable {Θ B G : Type}

/-! ## From layers to the operator -/

/-- The state's product, if every layer's product has the entries `ent`. -/
theorem kfacInv_product {β : Type _} (w : KWorld Θ B G) (la : LinAlg) (dt : FloatType) (shapes : List (List Nat))
    (st : KInvState Θ) (A : KState Θ) (hens : ensureKfac w none st.A = (.ok (), A)) (layers : List (Layer ℝ))
    (hK : KfacLayers A.cfg.sep shapes w.mapping A.inCov A.gradCov layers)
    (hc : CacheOk la st.cfg dt A.inCov A.gradCov st.cache) (g : β → KBlock ℝ)
    (ent ment : β → Nat → Nat → Nat → Nat → ℝ) (bs : Layer ℝ → List β) (inv : Layer ℝ → KInv)
    (hcomp : ∀ l ∈ layers, computeInverseFactors la st.cfg dt (A.inCov.get l.name) (A.gradCov.get l.name) = .ok (inv l))
    (hlayer : ∀ l ∈ layers, ∀ K X, HasShapes X shapes K → (∀ p ∈ l.pos.positions, p < X.length) →
      ∃ ws, invLayer st.cfg A.cfg.sep (inv l) X l.pos.dict = .ok ws ∧
        GWrites g ent shapes K (flatData X) (bs l) l.pos.positions ws)
    (hcoords : ∀ l ∈ layers, ((bs l).flatMap fun b => (g b).coords).Perm (l.pos.positions.flatMap (posCoords shapes)))
    (D : Mat ℝ) (hD : BlockDiag g ment (layers.flatMap bs) D)
    (hinv : ∀ l ∈ layers, ∀ b ∈ bs l, ∀ i < (g b).rows, ∀ j < (g b).cols, ∀ i'' < (g b).rows, ∀ j'' < (g b).cols,
      ∑ i' ∈ Finset.range (g b).rows, ∑ j' ∈ Finset.range (g b).cols, ment b i j i' j' * ent b i' j' i'' j'' =
          (if i = i'' ∧ j = j'' then 1 else 0) ∧
        ∑ i' ∈ Finset.range (g b).rows, ∑ j' ∈ Finset.range (g b).cols, ent b i j i' j' * ment b i' j' i'' j'' =
          if i = i'' ∧ j = j'' then 1 else 0) :
    ∃ E, Represents (st.op w la dt shapes) E ∧ MatInv (shapes.map List.prod).sum D E := by
  have ht : GTiles g (layers.flatMap bs) (shapes.map List.prod).sum := by
    rw [GTiles, ← range_flatMap_posCoords, List.flatMap_assoc]
    refine (perm_flatMap_of_forall _ _ layers hcoords).trans ?_
    rw [← List.flatMap_assoc]
    exact hK.perm.flatMap_right _
  refine inverse_of_writes _ shapes rfl rfl g ent ment (layers.flatMap bs) ht _ hK.perm ?_ D hD ?_
  · intro K Xs hX
    have hlt : ∀ l ∈ layers, ∀ p ∈ l.pos.positions, p < Xs.length := by
      intro l hl p hp
      rw [hX.length]
      exact List.mem_range.mp (hK.perm.mem_iff.mp (List.mem_flatMap.mpr ⟨l, hl, hp⟩))
    have hnd : (layers.flatMap fun l => l.pos.positions).Nodup := hK.perm.nodup_iff.mpr List.nodup_range
    obtain ⟨ws, cache', hw, hloop, -⟩ := invLoop_writes la st.cfg dt A.cfg.sep shapes A.inCov A.gradCov g ent bs inv K Xs
      layers hcomp (fun l hl => hlayer l hl K Xs hX (hlt l hl)) hnd Xs (fun _ _ _ _ => rfl) st.cache hc
    refine ⟨ws, setAll Xs ws, hw, ?_, by rw [setAll_length, hX.length], fun p t hpt => ?_⟩
    · simp only [KInvState.op, KInvState.matmat, hens, hK.mapping_eq, hloop]
    · refine setAll_mem ws Xs p t hpt (by rw [hw.1]; exact hnd) ?_
      have : p ∈ layers.flatMap fun l => l.pos.positions := by
        rw [← hw.1]
        exact List.mem_map.mpr ⟨(p, t), hpt, rfl⟩
      rw [hX.length]
      exact List.mem_range.mp (hK.perm.mem_iff.mp this)
  · intro b hb
    obtain ⟨l, hl, hbl⟩ := List.mem_flatMap.mp hb
    exact hinv l hl b hbl

/-! ## Inverses of damped factors -/

/-- The result of an operation that succeeds. -/
def okOr {γ : Type _} (x : Py γ) (d : γ) : γ :=
  match x with
  | .ok v => v
  | .error _ => d

/-- The layer with damped factors. -/
def Layer.damped (a b : ℝ) (l : Layer ℝ) : Layer ℝ := { l with A := l.A.addDiag a, B := l.B.addDiag b }

theorem invertFactor_ok {la : LinAlg} (hla : la.Correct) (retry : Bool) (dt : FloatType) (M : Factor ℝ) (d : ℝ)
    (hM : (M.addDiag d).PosDef) :
    ∃ N, (invertFactor la retry dt M (.fin d)).1 = .ok N ∧ (M.addDiag d).IsInv N := by
  obtain ⟨L, hL, hr⟩ := hla.cholesky dt _ hM
  refine ⟨la.choleskyInverse L, ?_, hla.inverse _ _ hM hr⟩
  simp only [invertFactor, dampedCholesky, hL]

/-- Blocks of a layer and of another layer with the same parameters. -/
def Layer.pairs (sep : Bool) (shapes : List (List Nat)) (l l' : Layer ℝ) : List (KBlock ℝ × KBlock ℝ) :=
  match l.pos with
  | .both w b => if sep then [(l.wBlock shapes w, l'.wBlock shapes w), (l.bBlock shapes b, l'.bBlock shapes b)] else
      [(l.jBlock shapes w b, l'.jBlock shapes w b)]
  | .weight w => [(l.wBlock shapes w, l'.wBlock shapes w)]
  | .bias b => [(l.bBlock shapes b, l'.bBlock shapes b)]

theorem Layer.pairs_fst (sep : Bool) (shapes : List (List Nat)) (l l' : Layer ℝ) :
    (l.pairs sep shapes l').map Prod.fst = l.blocks sep shapes := by
  unfold Layer.pairs Layer.blocks
  cases l.pos <;> simp only <;> try split
  all_goals rfl

theorem Layer.pairs_snd (sep : Bool) (shapes : List (List Nat)) (l l' : Layer ℝ) (h : l'.pos = l.pos) :
    (l.pairs sep shapes l').map Prod.snd = l'.blocks sep shapes := by
  unfold Layer.pairs Layer.blocks
  rw [h]
  cases l.pos <;> simp only <;> try split
  all_goals rfl

/-- Kronecker products of inverse matrices are inverse. -/
theorem kron_inv {I J : Nat} {A A' B B' : Nat → Nat → ℝ}
    (hA : ∀ i < J, ∀ j < J, ∑ k ∈ Finset.range J, A i k * A' k j = if i = j then 1 else 0)
    (hB : ∀ i < I, ∀ j < I, ∑ k ∈ Finset.range I, B i k * B' k j = if i = j then 1 else 0)
    (i j i'' j'' : Nat) (hi : i < I) (hj : j < J) (hi'' : i'' < I) (hj'' : j'' < J) :
    ∑ i' ∈ Finset.range I, ∑ j' ∈ Finset.range J, (B i i' * A' j' j) * (B' i' i'' * A j'' j') =
      if i = i'' ∧ j = j'' then 1 else 0 := by
  have : ∀ i' ∈ Finset.range I, ∑ j' ∈ Finset.range J, (B i i' * A' j' j) * (B' i' i'' * A j'' j') =
      (B i i' * B' i' i'') * ∑ j' ∈ Finset.range J, A j'' j' * A' j' j := by
    intro i' _
    rw [Finset.mul_sum]
    exact Finset.sum_congr rfl fun j' _ => by ring
  rw [Finset.sum_congr rfl this, ← Finset.sum_mul, hB i hi i'' hi'', hA j'' hj'' j hj]
  by_cases h1 : i = i'' <;> by_cases h2 : j = j'' <;> simp [h1, h2, eq_comm]

/-- The products without exact damping are those of KFAC, with the inverses in place of the factors. -/
theorem invLayer_inverses (cfg : InvCfg) (hex : cfg.exact = false) (sep : Bool) (l : Layer ℝ) (X : List (Tensor ℝ)) :
    invLayer cfg sep (.inverses (if l.pos.hasWeight then some l.A else none) (some l.B)) X l.pos.dict =
      layerProduct sep [(l.name, l.A)] [(l.name, l.B)] X l.name l.pos.dict := by
  have hA : Dict.getE [(l.name, l.A)] l.name = .ok l.A := by simp [Dict.getE, Dict.get]
  have hB : Dict.getE [(l.name, l.B)] l.name = .ok l.B := by simp [Dict.getE, Dict.get]
  cases hp : l.pos with
  | both w b =>
    cases sep with
    | true =>
      simp only [invLayer, layerProduct, LayerPos.dict, LayerPos.hasWeight, if_true, pyMapM, invWeight, invBias, hex,
        needTensor, hA, hB, bind, Except.bind]
    | false =>
      simp only [invLayer, layerProduct, LayerPos.dict, LayerPos.hasWeight, if_true, invJoint, hex, needTensor, hA, hB,
        bind, Except.bind, Dict.get, List.lookup]
      simp
  | weight w =>
    cases sep <;> simp only [invLayer, layerProduct, LayerPos.dict, LayerPos.hasWeight, if_true, pyMapM, invWeight, hex,
        needTensor, hA, hB, bind, Except.bind, Dict.get, List.lookup]
    all_goals simp
  | bias b =>
    cases sep <;> simp only [invLayer, layerProduct, LayerPos.dict, LayerPos.hasWeight, pyMapM, invBias, hex,
        needTensor, hB, bind, Except.bind, Dict.get, List.lookup]
    all_goals simp

theorem mem_pairs_inv {sep : Bool} {shapes : List (List Nat)} {l l' : Layer ℝ} (hfit : l.Fits sep shapes)
    (hA : l.pos.hasWeight = true → l.A.IsInv l'.A) (hB : l.B.IsInv l'.B) (p : KBlock ℝ × KBlock ℝ)
    (hp : p ∈ l.pairs sep shapes l') :
    (p.1.rows = p.2.rows ∧ p.1.cols = p.2.cols ∧ ∀ i j, p.1.idx i j = p.2.idx i j) ∧
    (∀ i < p.2.cols, ∀ j < p.2.cols, ∑ k ∈ Finset.range p.2.cols, p.1.A i k * p.2.A k j = (if i = j then 1 else 0) ∧
      ∑ k ∈ Finset.range p.2.cols, p.2.A i k * p.1.A k j = if i = j then 1 else 0) ∧
    ∀ i < p.2.rows, ∀ j < p.2.rows, ∑ k ∈ Finset.range p.2.rows, p.1.B i k * p.2.B k j = (if i = j then 1 else 0) ∧
      ∑ k ∈ Finset.range p.2.rows, p.2.B i k * p.1.B k j = if i = j then 1 else 0 := by
  have hBB : ∀ i < l'.B.dim, ∀ j < l'.B.dim,
      ∑ k ∈ Finset.range l'.B.dim, l.B.mat i k * l'.B.mat k j = (if i = j then 1 else 0) ∧
      ∑ k ∈ Finset.range l'.B.dim, l'.B.mat i k * l.B.mat k j = if i = j then 1 else 0 := by
    rw [hB.1]; exact hB.2
  have hW : ∀ w, l.A.dim = wCols shapes w → l.pos.hasWeight = true →
      ((l.wBlock shapes w).rows = (l'.wBlock shapes w).rows ∧ (l.wBlock shapes w).cols = (l'.wBlock shapes w).cols ∧
        ∀ i j, (l.wBlock shapes w).idx i j = (l'.wBlock shapes w).idx i j) ∧
      ∀ i < wCols shapes w, ∀ j < wCols shapes w,
        ∑ k ∈ Finset.range (wCols shapes w), l.A.mat i k * l'.A.mat k j = (if i = j then 1 else 0) ∧
        ∑ k ∈ Finset.range (wCols shapes w), l'.A.mat i k * l.A.mat k j = if i = j then 1 else 0 := by
    intro w hd hw
    refine ⟨⟨hB.1.symm, rfl, fun _ _ => rfl⟩, ?_⟩
    rw [← hd]; exact (hA hw).2
  have hb : ∀ b, ((l.bBlock shapes b).rows = (l'.bBlock shapes b).rows ∧
      (l.bBlock shapes b).cols = (l'.bBlock shapes b).cols ∧
        ∀ i j, (l.bBlock shapes b).idx i j = (l'.bBlock shapes b).idx i j) ∧
      ∀ i < 1, ∀ j < 1, ∑ k ∈ Finset.range 1, (1 : ℝ) * 1 = (if i = j then 1 else 0) ∧
        ∑ k ∈ Finset.range 1, (1 : ℝ) * 1 = if i = j then 1 else 0 := by
    intro b
    refine ⟨⟨hB.1.symm, rfl, fun _ _ => rfl⟩, fun i hi j hj => ?_⟩
    have : i = j := by omega
    simp [this]
  unfold Layer.Fits at hfit
  unfold Layer.pairs at hp
  cases hpos : l.pos with
  | both w b =>
    simp only [hpos] at hfit hp
    cases sep with
    | true =>
      simp only [if_true, List.mem_cons, List.not_mem_nil, or_false] at hp
      rcases hp with rfl | rfl
      · exact ⟨(hW w (by simpa using hfit.2.2) (by rw [hpos]; rfl)).1,
          (hW w (by simpa using hfit.2.2) (by rw [hpos]; rfl)).2, hBB⟩
      · exact ⟨(hb b).1, (hb b).2, hBB⟩
    | false =>
      simp only [Bool.false_eq_true, if_false, List.mem_singleton] at hp
      subst hp
      refine ⟨⟨hB.1.symm, rfl, fun _ _ => rfl⟩, ?_, hBB⟩
      have := (hA (by rw [hpos]; rfl)).2
      rw [show l.A.dim = wCols shapes w + 1 by simpa using hfit.2.2] at this
      exact this
  | weight w =>
    simp only [hpos, List.mem_singleton] at hfit hp
    subst hp
    exact ⟨(hW w hfit.2 (by rw [hpos]; rfl)).1, (hW w hfit.2 (by rw [hpos]; rfl)).2, hBB⟩
  | bias b =>
    simp only [hpos, List.mem_singleton] at hfit hp
    subst hp
    exact ⟨(hb b).1, (hb b).2, hBB⟩

theorem Layer.Fits.of_dims {sep : Bool} {shapes : List (List Nat)} {l l' : Layer ℝ} (h : l.Fits sep shapes)
    (hp : l'.pos = l.pos) (hA : l.pos.hasWeight = true → l'.A.dim = l.A.dim) (hB : l'.B.dim = l.B.dim) :
    l'.Fits sep shapes := by
  unfold Layer.Fits at h ⊢
  rw [hp, hB]
  cases hpos : l.pos with
  | both w b => simp only [hpos] at h ⊢; rw [hA (by rw [hpos]; rfl)]; exact h
  | weight w => simp only [hpos] at h ⊢; rw [hA (by rw [hpos]; rfl)]; exact h
  | bias b => simp only [hpos] at h ⊢; exact h

/-- **C41**: without exact damping the operator multiplies with the inverse of the KFAC matrix of the damped factors
`A + a`, `B + b`, for every set of layers with positive definite damped factors, both treatments of weight and bias,
every number of columns, every precision and whatever has been cached before. `a` and `b` are the finite damping values
that are computed for the layer (see C43). -/
theorem kfacInverse_damped (w : KWorld Θ B G) (la : LinAlg) (hla : la.Correct) (dt : FloatType) (shapes : List (List Nat))
    (st : KInvState Θ) (A : KState Θ) (hens : ensureKfac w none st.A = (.ok (), A)) (layers : List (Layer ℝ))
    (hK : KfacLayers A.cfg.sep shapes w.mapping A.inCov A.gradCov layers)
    (hbias : ∀ l ∈ layers, l.pos.hasWeight = false → A.inCov.get l.name = none)
    (hc : CacheOk la st.cfg dt A.inCov A.gradCov st.cache) (hex : st.cfg.exact = false) (a b : Layer ℝ → ℝ)
    (hd : ∀ l ∈ layers, computeDamping st.cfg (A.inCov.get l.name) (A.gradCov.get l.name) =
      .ok (.fin (a l), .fin (b l)))
    (hA : ∀ l ∈ layers, l.pos.hasWeight = true → (l.A.addDiag (a l)).PosDef)
    (hB : ∀ l ∈ layers, (l.B.addDiag (b l)).PosDef) (D : Mat ℝ)
    (hD : IsKron (kfacBlocks A.cfg.sep shapes (layers.map fun l => l.damped (a l) (b l))) D) :
    ∃ E, Represents (st.op w la dt shapes) E ∧ MatInv (shapes.map List.prod).sum D E := by
  let inv : Layer ℝ → Layer ℝ := fun l =>
    ⟨l.name, l.pos, okOr (invertFactor la st.cfg.retry dt l.A (.fin (a l))).1 l.A,
      okOr (invertFactor la st.cfg.retry dt l.B (.fin (b l))).1 l.B⟩
  have hiA : ∀ l ∈ layers, l.pos.hasWeight = true →
      (invertFactor la st.cfg.retry dt l.A (.fin (a l))).1 = .ok (inv l).A ∧ (l.A.addDiag (a l)).IsInv (inv l).A := by
    intro l hl hw
    obtain ⟨N, hN, hI⟩ := invertFactor_ok hla st.cfg.retry dt l.A (a l) (hA l hl hw)
    have : (inv l).A = N := by simp only [inv, hN, okOr]
    rw [this]
    exact ⟨hN, hI⟩
  have hiB : ∀ l ∈ layers,
      (invertFactor la st.cfg.retry dt l.B (.fin (b l))).1 = .ok (inv l).B ∧ (l.B.addDiag (b l)).IsInv (inv l).B := by
    intro l hl
    obtain ⟨N, hN, hI⟩ := invertFactor_ok hla st.cfg.retry dt l.B (b l) (hB l hl)
    have : (inv l).B = N := by simp only [inv, hN, okOr]
    rw [this]
    exact ⟨hN, hI⟩
  have hfitD : ∀ l ∈ layers, (l.damped (a l) (b l)).Fits A.cfg.sep shapes := fun l hl =>
    (hK.fits l hl).of_dims rfl (fun _ => rfl) rfl
  have hfitI : ∀ l ∈ layers, (inv l).Fits A.cfg.sep shapes := fun l hl =>
    (hK.fits l hl).of_dims rfl (fun hw => (hiA l hl hw).2.1) (hiB l hl).2.1
  have hpair : ∀ l ∈ layers, ∀ p ∈ (l.damped (a l) (b l)).pairs A.cfg.sep shapes (inv l), _ := fun l hl =>
    mem_pairs_inv (l := l.damped (a l) (b l)) (l' := inv l) (hfitD l hl) (fun hw => (hiA l hl hw).2) (hiB l hl).2
  refine kfacInv_product w la dt shapes st A hens layers hK hc Prod.snd (fun p => kronEnt p.2) (fun p => kronEnt p.1)
    (fun l => (l.damped (a l) (b l)).pairs A.cfg.sep shapes (inv l))
    (fun l => .inverses (if l.pos.hasWeight then some (inv l).A else none) (some (inv l).B)) ?_ ?_ ?_ D ?_ ?_
  · intro l hl
    have hg := hK.gradCov_get l hl
    have hdl := hd l hl
    simp only [computeInverseFactors, hex, Bool.false_eq_true, if_false, hdl, bind, Except.bind]
    rw [hg]
    cases hw : l.pos.hasWeight with
    | true =>
      rw [hK.inCov_get l hl hw]
      simp only [optM, (hiA l hl hw).1, (hiB l hl).1, if_true]
    | false =>
      rw [hbias l hl hw]
      simp only [optM, (hiB l hl).1, Bool.false_eq_true, if_false]
  · intro l hl K X hX hpos
    obtain ⟨ws, hws, hw⟩ := layer_writes A.cfg.sep shapes [(l.name, (inv l).A)] [(l.name, (inv l).B)] K X hX (inv l)
      (hfitI l hl) hpos (fun _ => by simp [Dict.get, inv]) (by simp [Dict.get, inv])
    refine ⟨ws, ?_, ?_⟩
    · rw [← hws]
      exact invLayer_inverses st.cfg hex A.cfg.sep (inv l) X
    · refine gwrites_of_layerWrites _ _ _ _ _ _ _ ?_
      rw [Layer.pairs_snd A.cfg.sep shapes (l.damped (a l) (b l)) (inv l) rfl]
      exact hw
  · intro l hl
    have := Layer.blocks_coords A.cfg.sep shapes (inv l) (hfitI l hl)
    rw [← Layer.pairs_snd A.cfg.sep shapes (l.damped (a l) (b l)) (inv l) rfl, List.flatMap_map] at this
    exact this
  · have h1 : kfacBlocks A.cfg.sep shapes (layers.map fun l => l.damped (a l) (b l)) =
        (layers.flatMap fun l => (l.damped (a l) (b l)).pairs A.cfg.sep shapes (inv l)).map Prod.fst := by
      rw [kfacBlocks, List.flatMap_map, List.map_flatMap]
      refine congrArg List.flatten (List.map_congr_left fun l _ => ?_)
      exact (Layer.pairs_fst _ _ _ _).symm
    rw [h1, isKron_iff, blockDiag_map] at hD
    refine hD.congr (fun p hp => ?_) fun _ _ _ _ _ _ _ _ _ _ => rfl
    obtain ⟨l, hl, hpl⟩ := List.mem_flatMap.mp hp
    obtain ⟨⟨h1, h2, h3⟩, -⟩ := hpair l hl p hpl
    exact ⟨h1.symm, h2.symm, fun i _ j _ => (h3 i j).symm⟩
  · intro l hl p hp i hi j hj i'' hi'' j'' hj''
    obtain ⟨-, h2, h3⟩ := hpair l hl p hp
    refine ⟨?_, ?_⟩
    · exact kron_inv (fun i hi j hj => (h2 i hi j hj).2) (fun i hi j hj => (h3 i hi j hj).1) i j i'' j'' hi hj hi'' hj''
    · exact kron_inv (fun i hi j hj => (h2 i hi j hj).1) (fun i hi j hj => (h3 i hi j hj).2) i j i'' j'' hi hj hi'' hj''

/-! ## Exact damping -/

/-- A bias is treated on its own. -/
def LayerPos.ownBias (sep : Bool) : LayerPos → Bool
  | .both _ _ => sep
  | .weight _ => false
  | .bias _ => true

/-- The blocks of a layer with the eigendecompositions that are used for them. -/
def Layer.eigs (sep : Bool) (shapes : List (List Nat)) (l : Layer ℝ) (eA eB : Eigen) : List (KBlock ℝ × Eigen × Eigen) :=
  match l.pos with
  | .both w b => if sep then [(l.wBlock shapes w, eA, eB), (l.bBlock shapes b, unitEigen, eB)] else
      [(l.jBlock shapes w b, eA, eB)]
  | .weight w => [(l.wBlock shapes w, eA, eB)]
  | .bias b => [(l.bBlock shapes b, unitEigen, eB)]

theorem Layer.eigs_fst (sep : Bool) (shapes : List (List Nat)) (l : Layer ℝ) (eA eB : Eigen) :
    (l.eigs sep shapes eA eB).map Prod.fst = l.blocks sep shapes := by
  unfold Layer.eigs Layer.blocks
  cases l.pos <;> simp only <;> try split
  all_goals rfl

/-- The decompositions belong to the block, and the damped eigenvalues do not vanish. -/
structure BlockEigen (δ : ℝ) (x : KBlock ℝ × Eigen × Eigen) : Prop where
  colsA : ∀ p < x.1.cols, ∀ q < x.1.cols,
    ∑ i ∈ Finset.range x.1.cols, x.2.1.vecs i p * x.2.1.vecs i q = if p = q then 1 else 0
  rowsA : ∀ i < x.1.cols, ∀ j < x.1.cols,
    ∑ p ∈ Finset.range x.1.cols, x.2.1.vecs i p * x.2.1.vecs j p = if i = j then 1 else 0
  decompA : ∀ i < x.1.cols, ∀ j < x.1.cols,
    ∑ p ∈ Finset.range x.1.cols, x.2.1.vecs i p * x.2.1.vals p * x.2.1.vecs j p = x.1.A i j
  colsB : ∀ p < x.1.rows, ∀ q < x.1.rows,
    ∑ i ∈ Finset.range x.1.rows, x.2.2.vecs i p * x.2.2.vecs i q = if p = q then 1 else 0
  rowsB : ∀ i < x.1.rows, ∀ j < x.1.rows,
    ∑ p ∈ Finset.range x.1.rows, x.2.2.vecs i p * x.2.2.vecs j p = if i = j then 1 else 0
  decompB : ∀ i < x.1.rows, ∀ j < x.1.rows,
    ∑ p ∈ Finset.range x.1.rows, x.2.2.vecs i p * x.2.2.vals p * x.2.2.vecs j p = x.1.B i j
  ne : ∀ p < x.1.rows, ∀ q < x.1.cols, x.2.2.vals p * x.2.1.vals q + δ ≠ 0

theorem mem_eigs {sep : Bool} {shapes : List (List Nat)} {l : Layer ℝ} {eA eB : Eigen} {δ : ℝ} (hfit : l.Fits sep shapes)
    (hA : l.pos.hasWeight = true → l.A.IsEigen eA) (hB : l.B.IsEigen eB)
    (hneW : l.pos.hasWeight = true → ∀ p < l.B.dim, ∀ q < l.A.dim, eB.vals p * eA.vals q + δ ≠ 0)
    (hneB : l.pos.ownBias sep = true → ∀ p < l.B.dim, eB.vals p + δ ≠ 0) (x : KBlock ℝ × Eigen × Eigen)
    (hx : x ∈ l.eigs sep shapes eA eB) : BlockEigen δ x := by
  have hW : ∀ w, l.A.dim = wCols shapes w → l.pos.hasWeight = true → BlockEigen δ (l.wBlock shapes w, eA, eB) := by
    intro w hd hw
    have h1 := (hA hw).orthonormal
    have h2 := (hA hw).rows
    have h3 := (hA hw).decomp
    have h4 := hneW hw
    rw [hd] at h1 h2 h3 h4
    exact ⟨h1, h2, h3, hB.orthonormal, hB.rows, hB.decomp, h4⟩
  have hb : ∀ b, l.pos.ownBias sep = true → BlockEigen δ (l.bBlock shapes b, unitEigen, eB) := by
    intro b ho
    refine ⟨?_, ?_, ?_, hB.orthonormal, hB.rows, hB.decomp, ?_⟩
    · intro p hp q hq
      have : p = q := by simp only [Layer.bBlock] at hp hq; omega
      simp [this, Layer.bBlock, unitEigen]
    · intro p hp q hq
      have : p = q := by simp only [Layer.bBlock] at hp hq; omega
      simp [this, Layer.bBlock, unitEigen]
    · intro p hp q hq
      simp [Layer.bBlock, unitEigen]
    · intro p hp q hq
      simpa [unitEigen] using hneB ho p hp
  unfold Layer.Fits at hfit
  unfold Layer.eigs at hx
  cases hpos : l.pos with
  | both w b =>
    simp only [hpos] at hfit hx
    cases sep with
    | true =>
      simp only [if_true, List.mem_cons, List.not_mem_nil, or_false] at hx
      rcases hx with rfl | rfl
      · exact hW w (by simpa using hfit.2.2) (by rw [hpos]; rfl)
      · exact hb b (by rw [hpos]; rfl)
    | false =>
      simp only [Bool.false_eq_true, if_false, List.mem_singleton] at hx
      subst hx
      have hw : l.pos.hasWeight = true := by rw [hpos]; rfl
      have hd : l.A.dim = wCols shapes w + 1 := by simpa using hfit.2.2
      have h1 := (hA hw).orthonormal
      have h2 := (hA hw).rows
      have h3 := (hA hw).decomp
      have h4 := hneW hw
      rw [hd] at h1 h2 h3 h4
      exact ⟨h1, h2, h3, hB.orthonormal, hB.rows, hB.decomp, h4⟩
  | weight w =>
    simp only [hpos, List.mem_singleton] at hfit hx
    subst hx
    exact hW w hfit.2 (by rw [hpos]; rfl)
  | bias b =>
    simp only [hpos, List.mem_singleton] at hfit hx
    subst hx
    exact hb b (by rw [hpos]; rfl)

/-- The entries of the exactly damped inverse of a block. -/
noncomputable def exactEnt (δ : ℝ) (x : KBlock ℝ × Eigen × Eigen) : Nat → Nat → Nat → Nat → ℝ :=
  kfeEnt x.1.rows x.1.cols x.2.1 x.2.2 fun p q => (x.2.2.vals p * x.2.1.vals q + δ)⁻¹

/-- The products with exact damping. -/
theorem invLayer_exact (cfg : InvCfg) (hex : cfg.exact = true) (δ : ℝ) (hδ : cfg.damping = .value δ) (sep : Bool)
    (shapes : List (List Nat)) (l : Layer ℝ) (eA eB : Eigen) (hfit : l.Fits sep shapes)
    (hA : l.pos.hasWeight = true → eA.dim = l.A.dim) (hB : eB.dim = l.B.dim) (K : Nat) (X : List (Tensor ℝ))
    (hX : HasShapes X shapes K) (hpos : ∀ p ∈ l.pos.positions, p < X.length) :
    ∃ ws, invLayer cfg sep (.eigens (if l.pos.hasWeight then some eA else none) (some eB)) X l.pos.dict = .ok ws ∧
      GWrites Prod.fst (exactEnt δ) shapes K (flatData X) (l.eigs sep shapes eA eB) l.pos.positions ws := by
  have hnum : cfg.damping.number = .ok δ := by rw [hδ]; rfl
  have hW : ∀ w (hw : w < X.length), (shapes.getD w []).head? = some l.B.dim → eA.dim = wCols shapes w →
      ∃ u, exactWeight δ eA eB X[w] = .ok u ∧
        GWrites Prod.fst (exactEnt δ) shapes K (flatData X) [(l.wBlock shapes w, eA, eB)] [w] [(w, u)] := by
    intro w hw h hd
    have hs : (X[w]).shape = l.B.dim :: ((shapes.getD w []).tail ++ [K]) := by
      rw [hX.getElem_shape w hw, wShape h]; rfl
    obtain ⟨u, hu, hus, huwf, hue⟩ := exactWeight_spec δ eA eB X[w] l.B.dim _ K hs hd hB
    exact ⟨u, hu, weight_gwrites shapes K X hX l w hw h Prod.fst (exactEnt δ) (l.wBlock shapes w, eA, eB) rfl u hus huwf hue⟩
  have hb : ∀ b (hb : b < X.length), shapes.getD b [] = [l.B.dim] →
      ∃ u, exactBias δ eB X[b] = .ok u ∧
        GWrites Prod.fst (exactEnt δ) shapes K (flatData X) [(l.bBlock shapes b, unitEigen, eB)] [b] [(b, u)] := by
    intro b hb h
    have hs : (X[b]).shape = [l.B.dim, K] := by rw [hX.getElem_shape b hb, h]; rfl
    obtain ⟨u, hu, hus, huwf, hue⟩ := exactBias_spec δ eB X[b] l.B.dim K hs hB
    exact ⟨u, hu, bias_gwrites shapes K X hX l b hb h Prod.fst (exactEnt δ) (l.bBlock shapes b, unitEigen, eB) rfl u hus huwf hue⟩
  unfold Layer.Fits at hfit
  unfold Layer.eigs
  cases hp : l.pos with
  | both w b =>
    simp only [hp] at hfit hpos ⊢
    have hw : w < X.length := hpos w (by simp [LayerPos.positions])
    have hb' : b < X.length := hpos b (by simp [LayerPos.positions])
    have hd := hA (by rw [hp]; rfl)
    cases sep with
    | true =>
      obtain ⟨u, hu, huw⟩ := hW w hw hfit.1 (by rw [hd]; simpa using hfit.2.2)
      obtain ⟨v, hv, hvw⟩ := hb b hb' hfit.2.1
      refine ⟨[(w, u), (b, v)], ?_, huw.append hvw⟩
      simp [invLayer, LayerPos.dict, pyMapM, listGet_ok _ _ hw, listGet_ok _ _ hb', invWeight, invBias, hex, needTensor,
        LayerPos.hasWeight, hnum, hu, hv, bind, Except.bind]
    | false =>
      have hs : (X[w]).shape = l.B.dim :: ((shapes.getD w []).tail ++ [K]) := by
        rw [hX.getElem_shape w hw, wShape hfit.1]; rfl
      have hs' : (X[b]).shape = [l.B.dim, K] := by rw [hX.getElem_shape b hb', hfit.2.1]; rfl
      obtain ⟨w', b', hok, hws, hwwf, hbs', hbwf, hval⟩ := exactJoint_spec δ eA eB X[w] X[b] l.B.dim _ K hs hs'
        (by rw [hd]; exact hfit.2.2) hB
      refine ⟨[(w, w'), (b, b')], ?_, joint_gwrites shapes K X hX l w b hw hb' hfit.1 hfit.2.1 Prod.fst (exactEnt δ)
        (l.jBlock shapes w b, eA, eB) rfl w' b' hws hwwf hbs' hbwf hval⟩
      have h1 : Dict.get [("weight", w), ("bias", b)] "weight" = some w := rfl
      have h2 : Dict.get [("weight", w), ("bias", b)] "bias" = some b := by
        simp [Dict.get, List.lookup]
      simp only [invLayer, LayerPos.dict, h1, h2, listGet_ok _ _ hw, listGet_ok _ _ hb', invJoint, hex, needTensor,
        LayerPos.hasWeight, if_true, hnum, hok, bind, Except.bind]
  | weight w =>
    simp only [hp] at hfit hpos ⊢
    have hw : w < X.length := hpos w (by simp [LayerPos.positions])
    obtain ⟨u, hu, huw⟩ := hW w hw hfit.1 (by rw [hA (by rw [hp]; rfl)]; exact hfit.2)
    refine ⟨[(w, u)], ?_, huw⟩
    have h2 : Dict.get [("weight", w)] "bias" = none := by simp [Dict.get, List.lookup]
    cases sep <;>
      simp [invLayer, LayerPos.dict, h2, pyMapM, listGet_ok _ _ hw, invWeight, hex, needTensor,
        LayerPos.hasWeight, hnum, hu, bind, Except.bind]
  | bias b =>
    simp only [hp] at hfit hpos ⊢
    have hb' : b < X.length := hpos b (by simp [LayerPos.positions])
    obtain ⟨v, hv, hvw⟩ := hb b hb' hfit
    refine ⟨[(b, v)], ?_, hvw⟩
    have h1 : Dict.get [("bias", b)] "weight" = none := by simp [Dict.get, List.lookup]
    cases sep <;>
      simp [invLayer, LayerPos.dict, h1, pyMapM, listGet_ok _ _ hb', invBias, hex, needTensor,
        LayerPos.hasWeight, hnum, hv, bind, Except.bind]

/-- **C42**: with exact damping the operator multiplies with the inverse of `KFAC + δ I`, for every set of layers with
symmetric factors and non-vanishing damped eigenvalues, both treatments of weight and bias, every number of columns. -/
theorem kfacInverse_exact (w : KWorld Θ B G) (la : LinAlg) (hla : la.Correct) (dt : FloatType) (shapes : List (List Nat))
    (st : KInvState Θ) (A : KState Θ) (hens : ensureKfac w none st.A = (.ok (), A)) (layers : List (Layer ℝ))
    (hK : KfacLayers A.cfg.sep shapes w.mapping A.inCov A.gradCov layers)
    (hbias : ∀ l ∈ layers, l.pos.hasWeight = false → A.inCov.get l.name = none)
    (hc : CacheOk la st.cfg dt A.inCov A.gradCov st.cache) (hex : st.cfg.exact = true) (δ : ℝ)
    (hδ : st.cfg.damping = .value δ) (hA : ∀ l ∈ layers, l.pos.hasWeight = true → l.A.Sym)
    (hB : ∀ l ∈ layers, l.B.Sym)
    (hneW : ∀ l ∈ layers, l.pos.hasWeight = true → ∀ eA eB, la.eigh l.A = .ok eA → la.eigh l.B = .ok eB →
      ∀ p < l.B.dim, ∀ q < l.A.dim, eB.vals p * eA.vals q + δ ≠ 0)
    (hneB : ∀ l ∈ layers, l.pos.ownBias A.cfg.sep = true → ∀ eB, la.eigh l.B = .ok eB →
      ∀ p < l.B.dim, eB.vals p + δ ≠ 0) (M : Mat ℝ)
    (hM : IsKron (kfacBlocks A.cfg.sep shapes layers) M) :
    ∃ E, Represents (st.op w la dt shapes) E ∧
      MatInv (shapes.map List.prod).sum (fun r c => M r c + if r = c then δ else 0) E := by
  let eA : Layer ℝ → Eigen := fun l => okOr (la.eigh l.A) unitEigen
  let eB : Layer ℝ → Eigen := fun l => okOr (la.eigh l.B) unitEigen
  have hiA : ∀ l ∈ layers, l.pos.hasWeight = true → la.eigh l.A = .ok (eA l) ∧ l.A.IsEigen (eA l) := by
    intro l hl hw
    obtain ⟨e, he, hI⟩ := hla.eigh l.A (hA l hl hw)
    have : eA l = e := by simp only [eA, he, okOr]
    rw [this]
    exact ⟨he, hI⟩
  have hiB : ∀ l ∈ layers, la.eigh l.B = .ok (eB l) ∧ l.B.IsEigen (eB l) := by
    intro l hl
    obtain ⟨e, he, hI⟩ := hla.eigh l.B (hB l hl)
    have : eB l = e := by simp only [eB, he, okOr]
    rw [this]
    exact ⟨he, hI⟩
  have hbl : ∀ l ∈ layers, ∀ x ∈ l.eigs A.cfg.sep shapes (eA l) (eB l), BlockEigen δ x := fun l hl =>
    mem_eigs (hK.fits l hl) (fun hw => (hiA l hl hw).2) (hiB l hl).2
      (fun hw => hneW l hl hw _ _ (hiA l hl hw).1 (hiB l hl).1) fun ho => hneB l hl ho _ (hiB l hl).1
  have hcoords : ∀ l ∈ layers, ((l.eigs A.cfg.sep shapes (eA l) (eB l)).flatMap fun b => b.1.coords).Perm
      (l.pos.positions.flatMap (posCoords shapes)) := by
    intro l hl
    have := Layer.blocks_coords A.cfg.sep shapes l (hK.fits l hl)
    rw [← Layer.eigs_fst A.cfg.sep shapes l (eA l) (eB l), List.flatMap_map] at this
    exact this
  refine kfacInv_product w la dt shapes st A hens layers hK hc Prod.fst (exactEnt δ)
    (fun x i j i' j' => kronEnt x.1 i j i' j' + δ * if i = i' ∧ j = j' then 1 else 0)
    (fun l => l.eigs A.cfg.sep shapes (eA l) (eB l))
    (fun l => .eigens (if l.pos.hasWeight then some (eA l) else none) (some (eB l))) ?_ ?_ hcoords _ ?_ ?_
  · intro l hl
    simp only [computeInverseFactors, hex, if_true, hK.gradCov_get l hl, bind, Except.bind]
    cases hw : l.pos.hasWeight with
    | true =>
      rw [hK.inCov_get l hl hw]
      simp only [optM, (hiA l hl hw).1, (hiB l hl).1, if_true]
    | false =>
      rw [hbias l hl hw]
      simp only [optM, (hiB l hl).1, Bool.false_eq_true, if_false]
  · intro l hl K X hX hpos
    exact invLayer_exact st.cfg hex δ hδ A.cfg.sep shapes l (eA l) (eB l) (hK.fits l hl)
      (fun hw => (hiA l hl hw).2.dim) (hiB l hl).2.dim K X hX hpos
  · have h1 : kfacBlocks A.cfg.sep shapes layers =
        (layers.flatMap fun l => l.eigs A.cfg.sep shapes (eA l) (eB l)).map Prod.fst := by
      rw [kfacBlocks, List.map_flatMap]
      exact congrArg List.flatten (List.map_congr_left fun l _ => (Layer.eigs_fst _ _ _ _ _).symm)
    rw [h1, isKron_iff, blockDiag_map] at hM
    have ht : GTiles Prod.fst (layers.flatMap fun l => l.eigs A.cfg.sep shapes (eA l) (eB l))
        (shapes.map List.prod).sum := by
      rw [GTiles, ← range_flatMap_posCoords, List.flatMap_assoc]
      refine (perm_flatMap_of_forall _ _ layers hcoords).trans ?_
      rw [← List.flatMap_assoc]
      exact hK.perm.flatMap_right _
    have h1 := blockDiag_one ht
    intro a ha a' ha' i hi j hj i' hi' j' hj'
    have e1 := hM a ha a' ha' i hi j hj i' hi' j' hj'
    have e2 := h1 a ha a' ha' i hi j hj i' hi' j' hj'
    simp only [id] at e1 e2 ⊢
    rw [e1]
    have e3 : ∀ P : Prop, ∀ _ : Decidable P, (if P then δ else 0) = δ * if P then 1 else 0 := by
      intro P _
      split_ifs <;> simp
    rw [e3, e2]
    by_cases haa : a = a'
    · simp [haa]
    · simp [haa]
  · intro l hl x hx i hi j hj i'' hi'' j'' hj''
    have hb := hbl l hl x hx
    have hkr : ∀ i < x.1.rows, ∀ j < x.1.cols, ∀ i' < x.1.rows, ∀ j' < x.1.cols,
        kronEnt x.1 i j i' j' + δ * (if i = i' ∧ j = j' then 1 else 0) =
          kfeEnt x.1.rows x.1.cols x.2.1 x.2.2 (fun p q => x.2.2.vals p * x.2.1.vals q + δ) i j i' j' :=
      fun i hi j hj i' hi' j' hj' => (kfeEnt_kron x.1.A x.1.B δ hb.decompA hb.decompB hb.rowsA hb.rowsB i j i' j' hi hj hi'
        hj').symm
    refine ⟨?_, ?_⟩
    · rw [← kfeEnt_one (fun p q => (x.2.2.vals p * x.2.1.vals q + δ) * (x.2.2.vals p * x.2.1.vals q + δ)⁻¹)
        (fun p hp q hq => mul_inv_cancel₀ (hb.ne p hp q hq)) hb.rowsA hb.rowsB i j i'' j'' hi hj hi'' hj'',
        ← kfeEnt_mul _ _ hb.colsA hb.colsB]
      refine Finset.sum_congr rfl fun i' hi' => Finset.sum_congr rfl fun j' hj' => ?_
      rw [hkr i hi j hj i' (Finset.mem_range.mp hi') j' (Finset.mem_range.mp hj')]
      rfl
    · rw [← kfeEnt_one (fun p q => (x.2.2.vals p * x.2.1.vals q + δ)⁻¹ * (x.2.2.vals p * x.2.1.vals q + δ))
        (fun p hp q hq => inv_mul_cancel₀ (hb.ne p hp q hq)) hb.rowsA hb.rowsB i j i'' j'' hi hj hi'' hj'',
        ← kfeEnt_mul _ _ hb.colsA hb.colsB]
      refine Finset.sum_congr rfl fun i' hi' => Finset.sum_congr rfl fun j' hj' => ?_
      rw [hkr i' (Finset.mem_range.mp hi') j' (Finset.mem_range.mp hj') i'' hi'' j'' hj'']
      rfl

/-! ## Cancellation of products -/

/-- Multiplying with a matrix and with its inverse cancels, in both orders. -/
theorem represents_cancel (op op' : LinOp ℝ) (shapes : List (List Nat)) (h1 : op.inShape = shapes) (h2 : op.outShape = shapes)
    (h3 : op'.inShape = shapes) (h4 : op'.outShape = shapes) (D E : Mat ℝ) (hE : Represents op E) (hD : Represents op' D)
    (hI : ∀ r < (shapes.map List.prod).sum, ∀ c < (shapes.map List.prod).sum,
      ∑ m ∈ Finset.range (shapes.map List.prod).sum, D r m * E m c = if r = c then 1 else 0) (K : Nat)
    (Xs : List (Tensor ℝ)) (hX : HasShapes Xs shapes K) :
    ∃ Ys Zs, (op.matmat Xs).1 = .ok Ys ∧ (op'.matmat Ys).1 = .ok Zs ∧ HasShapes Zs shapes K ∧
      flatData Zs = flatData Xs := by
  obtain ⟨Ys, hY, hYs, -, hYe⟩ := hE K Xs (by rw [h1]; exact hX)
  rw [h2] at hYs
  obtain ⟨Zs, hZ, hZs, hZl, hZe⟩ := hD K Ys (by rw [h3]; exact hYs)
  rw [h4] at hZs
  refine ⟨Ys, Zs, hY, hZ, hZs, ?_⟩
  have hn : op'.nrows = (shapes.map List.prod).sum := by rw [LinOp.nrows, LinOp.outFlat, h4]
  have hn' : op'.ncols = (shapes.map List.prod).sum := by rw [LinOp.ncols, LinOp.inFlat, h3]
  have hm : op.nrows = (shapes.map List.prod).sum := by rw [LinOp.nrows, LinOp.outFlat, h2]
  have hm' : op.ncols = (shapes.map List.prod).sum := by rw [LinOp.ncols, LinOp.inFlat, h1]
  rw [hn, hn'] at hZe
  rw [hm, hm'] at hYe
  have hZl := hZs.flatData_length
  have hXl := hX.flatData_length
  refine List.ext_getElem (by rw [hZl, hXl]) fun n hz hx => ?_
  rw [hZl] at hz
  have hK : 0 < K := by
    rcases Nat.eq_zero_or_pos K with h | h
    · rw [h, Nat.mul_zero] at hz; omega
    · exact h
  have hr : n / K < (shapes.map List.prod).sum := Nat.div_lt_of_lt_mul (by rw [Nat.mul_comm]; exact hz)
  have hk : n % K < K := Nat.mod_lt _ hK
  have hnk : n / K * K + n % K = n := by rw [Nat.mul_comm]; exact Nat.div_add_mod n K
  have := hZe (n / K) hr (n % K) hk
  rw [hnk] at this
  have hg : ∀ (l : List ℝ) (h : n < l.length), l.getD n 0 = l[n] := fun l h => by simp [h]
  rw [← hg _ (by rw [hZl]; exact hz), ← hg _ hx, this]
  have hy : ∀ m ∈ Finset.range (shapes.map List.prod).sum, D (n / K) m * (flatData Ys).getD (m * K + n % K) 0 =
      ∑ c ∈ Finset.range (shapes.map List.prod).sum, (D (n / K) m * E m c) * (flatData Xs).getD (c * K + n % K) 0 := by
    intro m hm
    rw [hYe m (Finset.mem_range.mp hm) (n % K) hk, Finset.mul_sum]
    exact Finset.sum_congr rfl fun c _ => by ring
  rw [Finset.sum_congr rfl hy, Finset.sum_comm]
  have : ∀ c ∈ Finset.range (shapes.map List.prod).sum, ∑ m ∈ Finset.range (shapes.map List.prod).sum,
      (D (n / K) m * E m c) * (flatData Xs).getD (c * K + n % K) 0 =
        (if n / K = c then (flatData Xs).getD (c * K + n % K) 0 else 0) := by
    intro c hc
    rw [← Finset.sum_mul, hI _ hr c (Finset.mem_range.mp hc)]
    split_ifs <;> simp
  rw [Finset.sum_congr rfl this, Finset.sum_ite_eq, if_pos (Finset.mem_range.mpr hr), hnk]

end Curvlinops
