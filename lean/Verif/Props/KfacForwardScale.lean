import Verif.Props.KfacInvariance

/-!
# C112, limits: `FORWARD_ONLY` and the scale of outputs
-/

namespace Curvlinops

theorem lineNet_setting_forward : lineNet.Setting (expCfg .forwardOnly) [[1, 1]] 1 :=
  ⟨lineNet_setting.fit, lineNet_setting.all, rfl, by simp, rfl, by simp, rfl, by simp, by simp [expCfg], lineNet_setting.S_ne⟩

theorem lineNet_factors_forward (θ : Nat → ℝ) (x y : ℝ) :
    (lineNet.layers (expCfg .forwardOnly) [(lineInput x y).datum [[1, 1]] lineNet θ]).map (fun l => (l.A.mat 0 0, l.B.mat 0 0)) = [(x * x, 1)] := by
  simp [SeqNet.layers, SeqNet.layersWith, lineNet, specInputFactor, specGradFactor, expCfg, Stage.klayer, specInputVec,
    NetInput.datum, SeqNet.datum, hookInput, lineInput]

theorem lineChange_factors_forward (θ : Nat → ℝ) (a c x y : ℝ) :
    (((lineChange a c).net (expCfg .forwardOnly) lineNet).layers (expCfg .forwardOnly)
      [(lineInput x y).datum [[1, 1]] ((lineChange a c).net (expCfg .forwardOnly) lineNet) θ]).map (fun l => (l.A.mat 0 0, l.B.mat 0 0)) =
      [(a * x * (a * x), 1)] := by
  simp [SeqNet.layers, SeqNet.layersWith, lineNet, NetChange.net, NetChange.stage, Stage.mapped, lineChange, specInputFactor, specGradFactor, expCfg,
    Stage.klayer, KLayer.joint, LayerPos.dict, Dict.has, specInputVec, NetInput.datum, SeqNet.datum, hookInput, lineInput]

/-- KFAC on networks whose only layer is `Linear(1, 1, bias=False)` multiplies with the product of both factors. -/
theorem line_kfac {net : SeqNet 1 1 1} {cfg : KfacCfg} (hs : net.Setting cfg [[1, 1]] 1) {st : Stage 1} (hst : net.stages = [st])
    (hpos : st.pos = .weight 0) (hdin : st.din = 1) (hdout : st.dout = 1) (data : List KDatum) {α β : ℝ}
    (hF : (net.layers cfg data).map (fun l => (l.A.mat 0 0, l.B.mat 0 0)) = [(α, β)]) :
    Represents (net.kfac cfg [[1, 1]] [data]) fun _ _ => β * α := by
  have hK := seqNet_kfacLayers (cfg := cfg) hs.fit hs.all [data] (by simp) (by rw [hs.terms]; exact hs.T_ne)
    (by rw [hs.outDim]; exact hs.C_ne) hs.mc
  refine kfac_represents _ _ _ _ _ _ hK _ ?_
  clear hK
  simp only [List.flatten_cons, List.flatten_nil, List.append_nil]
  obtain ⟨name, pos, S, din, dout, W, bb, pre, post⟩ := st
  dsimp only at hpos hdin hdout
  subst hpos
  subst hdin
  subst hdout
  rw [SeqNet.layers, SeqNet.layersWith, hst] at hF ⊢
  simp only [List.map_cons, List.map_nil, List.cons.injEq, and_true, Prod.mk.injEq] at hF ⊢
  obtain ⟨h1, h2⟩ := hF
  have hb : ∀ A B : Factor ℝ, (kfacBlocks cfg.sep [[1, 1]] [⟨name, .weight 0, A, B⟩]).length = 1 := by
    intro A B
    simp [kfacBlocks, Layer.blocks]
  rintro ⟨⟨l, hl⟩, i, j⟩ ⟨⟨l', hl'⟩, i', j'⟩
  have e1 : l = 0 := Nat.lt_one_iff.mp ((hb _ _) ▸ hl)
  have e2 : l' = 0 := Nat.lt_one_iff.mp ((hb _ _) ▸ hl')
  subst e1
  subst e2
  have hi : (i : Nat) = 0 := Nat.lt_one_iff.mp i.2
  have hi' : (i' : Nat) = 0 := Nat.lt_one_iff.mp i'.2
  have hj : (j : Nat) = 0 := Nat.lt_one_iff.mp j.2
  have hj' : (j' : Nat) = 0 := Nat.lt_one_iff.mp j'.2
  simp only [KIdx.entry, if_true, hi, hi', hj, hj']
  rw [← h1, ← h2]
  simp [kfacBlocks, Layer.blocks, Layer.wBlock]

/-- **C112** (limits): with `FORWARD_ONLY`, multiplication of the outputs of a layer with a number other than `±1` is not followed: the
networks make the same predictions, KFAC on the new one is not `Tᵀ KFAC T`. -/
theorem kfac_forwardOnly_not_invariant (y : ℝ) (θ' : Nat → ℝ) {a c x : ℝ} (ha : a ≠ 0) (hx : x ≠ 0) (hc : c * c ≠ 1) :
    (∀ g, ((lineChange a c).net (expCfg .forwardOnly) lineNet).predict [[1, 1]] g θ' = lineNet.predict [[1, 1]] g fun _ => c * a * θ' 0) ∧
    ¬ IsPullback (fun _ _ => c * a)
      (lineNet.kfac (expCfg .forwardOnly) [[1, 1]] [[(lineInput x y).datum [[1, 1]] lineNet fun _ => c * a * θ' 0]])
      (((lineChange a c).net (expCfg .forwardOnly) lineNet).kfac (expCfg .forwardOnly) [[1, 1]]
        [[(lineInput x y).datum [[1, 1]] ((lineChange a c).net (expCfg .forwardOnly) lineNet) θ']]) := by
  constructor
  · intro g
    refine NetChange.predict (NetChange.same lineNet_setting_forward (lineChange_one a c) (M := fun _ _ => c * a) (lineChange_paramMap a c)
      (lineChange_fixed a c) ?_) g
    intro p hp
    simp
  · intro h
    have hE := line_kfac lineNet_setting_forward (st := _) rfl rfl rfl rfl _ (lineNet_factors_forward (fun _ => c * a * θ' 0) x y)
    have hE' := line_kfac (lineNet_setting_forward.change (ch := lineChange a c)) (st := _) rfl rfl rfl rfl _ (lineChange_factors_forward θ' a c x y)
    have hX : ∀ v : ℝ, HasShapes [⟨[1, 1, 1], [v]⟩] [[1, 1]] 1 := by
      intro v
      simp [HasShapes, Tensor.WF]
    obtain ⟨Y, Y', h1, h2, -, -, h3⟩ := h 1 [⟨[1, 1, 1], [1]⟩] [⟨[1, 1, 1], [c * a]⟩] (hX 1) (hX _) (by
      refine ⟨rfl, fun r hr k hk => ?_⟩
      obtain rfl : r = 0 := Nat.lt_one_iff.mp hr
      obtain rfl : k = 0 := Nat.lt_one_iff.mp hk
      show (c * a : ℝ) = ∑ q ∈ Finset.range 1, c * a * [(1 : ℝ)].getD (q * 1 + 0) 0
      simp)
    obtain ⟨Z, z1, -, z2⟩ := hE 1 _ (hX (c * a))
    obtain ⟨Z', z1', -, z2'⟩ := hE' 1 _ (hX 1)
    obtain rfl : Y = Z := by
      rw [h1] at z1
      exact Except.ok.inj z1
    obtain rfl : Y' = Z' := by
      rw [h2] at z1'
      exact Except.ok.inj z1'
    have e1 := z2.2 0 Nat.one_pos 0 Nat.one_pos
    have e2 := z2'.2 0 Nat.one_pos 0 Nat.one_pos
    have e3 := h3.2 0 Nat.one_pos 0 Nat.one_pos
    have f1 : (flatData Y).getD 0 0 = 1 * (x * x) * (c * a) := e1.trans (Finset.sum_range_one _)
    have f2 : (flatData Y').getD 0 0 = 1 * (a * x * (a * x)) * 1 := e2.trans (Finset.sum_range_one _)
    have f3 : (flatData Y').getD 0 0 = c * a * (flatData Y).getD 0 0 := e3.trans (Finset.sum_range_one _)
    rw [f1, f2] at f3
    refine hc (mul_left_cancel₀ (a := a * x * (a * x)) (by simp [ha, hx]) ?_)
    linear_combination -f3

/-- Outputs multiplied with two, inputs as they are. -/
example (θ' : Nat → ℝ) := kfac_forwardOnly_not_invariant 3 θ' (a := 1) (c := 2) (x := 5) one_ne_zero (by norm_num) (by norm_num)

/-- With factor `-1` it is followed. -/
example (y x : ℝ) (θ' : Nat → ℝ) : IsPullback (fun _ _ => -1 * 1)
    (lineNet.kfac (expCfg .forwardOnly) [[1, 1]] [[(lineInput x y).datum [[1, 1]] lineNet fun _ => -1 * 1 * θ' 0]])
    (((lineChange 1 (-1)).net (expCfg .forwardOnly) lineNet).kfac (expCfg .forwardOnly) [[1, 1]]
      [[(lineInput x y).datum [[1, 1]] ((lineChange 1 (-1)).net (expCfg .forwardOnly) lineNet) θ']]) := by
  refine (seqNet_kfac_change lineNet_setting_forward (fun st hst _ => ?_) (lineChange_one 1 (-1))
    (NetChange.same lineNet_setting_forward (lineChange_one 1 (-1)) (M := fun _ _ => -1 * 1) (lineChange_paramMap 1 (-1)) (lineChange_fixed 1 (-1)) (by intro p hp; simp))
    [[lineInput x y]] (by simp) (fun _ _ _ _ => lineNet_diff _ _) (lineChange_paramMap 1 (-1))).1
  simp only [lineNet, List.mem_singleton] at hst
  subst hst
  intro i hi j hj
  obtain rfl : i = 0 := Nat.lt_one_iff.mp hi
  obtain rfl : j = 0 := Nat.lt_one_iff.mp hj
  show ∑ p ∈ Finset.range 1, (-1 : ℝ) * -1 = _
  simp

end Curvlinops
