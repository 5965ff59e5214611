import Verif.Props.KfacPsd
import Verif.Props.LossSqrt
import Mathlib.Tactic.IntervalCases

/-!
# C35: KFAC on a single datum

The network enters through the chain rule for layers without weight sharing: the derivative of the output with respect
to weight entry `(o, i)` is the derivative with respect to entry `o` of the layer's output times entry `i` of the
layer's input, and for the bias entry `o` it is the former alone.
-/

namespace Curvlinops

variable {k : LossKind} {C : Nat}

/-- The chain rule at the layers, for a datum with one loss term and layers without weight sharing. `d` is what KFAC's
hooks see, `t` the loss term with the Jacobian of its prediction in all (flattened) parameters. -/
structure ChainRule (shapes : List (List Nat)) (layers : List (Layer ℝ)) (d : KDatum) (t : Term k C) : Prop where
  weight : ∀ l ∈ layers, ∀ w, (l.pos = .weight w ∨ ∃ b, l.pos = .both w b) → ∀ (c : Fin C) (o i : Nat),
    o < l.B.dim → i < wCols shapes w → t.J c (offset shapes w + (o * wCols shapes w + i)) = d.jac l.name 0 o 0 c * d.x l.name 0 i
  bias : ∀ l ∈ layers, ∀ b, (l.pos = .bias b ∨ ∃ w, l.pos = .both w b) → ∀ (c : Fin C) (o : Nat),
    o < l.B.dim → t.J c (offset shapes b + o) = d.jac l.name 0 o 0 c

/-- The settings for one datum with one loss term, and layers without weight sharing. -/
structure SingleDatum (C : Nat) (cfg : KfacCfg) (shapes : List (List Nat)) (klayers : List KLayer)
    (layers : List (Layer ℝ)) : Prop where
  N : cfg.N = 1
  T : cfg.T = 1
  outDim : cfg.C = C
  C_ne : C ≠ 0
  mc : cfg.mcSamples = 1
  names : (klayers.map KLayer.name).Nodup
  klayer : ∀ l ∈ layers, ∃ kl ∈ klayers, kl.name = l.name ∧ kl.pos = l.pos.dict ∧ kl.S = 1 ∧
    ∀ w, (l.pos = .weight w ∨ ∃ b, l.pos = .both w b) → kl.din = wCols shapes w

theorem specInputFactor_single {cfg : KfacCfg} (hN : cfg.N = 1) (l : KLayer) (hS : l.S = 1) (d : KDatum) (i j : Nat) :
    specInputFactor cfg l [d] i j = specInputVec cfg l d 0 i * specInputVec cfg l d 0 j := by
  unfold specInputFactor specMeanInput specInputVec
  cases cfg.approx <;> simp [hN, hS]

theorem specGradFactor_single {cfg : KfacCfg} (hf : cfg.fisher ≠ .forwardOnly) (l : KLayer) (hS : l.S = 1) (d : KDatum)
    (i j : Nat) :
    specGradFactor cfg l [d] i j = specGradScale cfg * ((specCotangents cfg d).map fun v =>
      specGradVec cfg l d v 0 i * specGradVec cfg l d v 0 j).sum := by
  unfold specGradFactor
  cases hff : cfg.fisher <;> cases cfg.approx <;> simp_all

/-- The gradient factor is a sandwich of the matrix `H` in the prediction, if `H` is the scaled sum of outer products of
the propagated vectors. -/
theorem specGradFactor_sandwich {cfg : KfacCfg} (hf : cfg.fisher ≠ .forwardOnly) (hT : cfg.T = 1) (hC : cfg.C = C)
    (l : KLayer) (hS : l.S = 1) (d : KDatum) (H : Fin C → Fin C → ℝ)
    (hH : ∀ c c' : Fin C, specGradScale cfg * ((specCotangents cfg d).map fun v => v 0 c * v 0 c').sum = H c c')
    (i j : Nat) :
    specGradFactor cfg l [d] i j = ∑ c : Fin C, ∑ c' : Fin C, d.jac l.name 0 i 0 c * H c c' * d.jac l.name 0 j 0 c' := by
  rw [specGradFactor_single hf l hS]
  have hv : ∀ (v : Nat → Nat → ℝ) o, specGradVec cfg l d v 0 o = ∑ c : Fin C, d.jac l.name 0 o 0 c * v 0 c := by
    intro v o
    unfold specGradVec
    rw [hT, hC]
    simp [Finset.sum_range]
  simp only [hv, ← hH]
  generalize specCotangents cfg d = vs
  induction vs with
  | nil => simp
  | cons v vs ih =>
    simp only [List.map_cons, List.sum_cons, mul_add, add_mul, Finset.sum_add_distrib] at ih ⊢
    rw [ih, Finset.sum_mul_sum, Finset.mul_sum]
    congr 1
    refine Finset.sum_congr rfl fun c _ => ?_
    rw [Finset.mul_sum]
    refine Finset.sum_congr rfl fun c' _ => ?_
    ring

theorem kron_block_entry {bs : List (KBlock ℝ)} {M : Mat ℝ} (hM : IsKron bs M) {b : KBlock ℝ} (hb : b ∈ bs) {i i' j j' : Nat}
    (hi : i < b.rows) (hi' : i' < b.rows) (hj : j < b.cols) (hj' : j' < b.cols) :
    M (b.idx i j) (b.idx i' j') = b.B i i' * b.A j' j := by
  obtain ⟨n, hn, rfl⟩ := List.getElem_of_mem hb
  have := hM ⟨⟨n, hn⟩, ⟨i, hi⟩, ⟨j, hj⟩⟩ ⟨⟨n, hn⟩, ⟨i', hi'⟩, ⟨j', hj'⟩⟩
  simpa [KIdx.pos, KIdx.entry] using this

theorem Dict.has_dict_weight (p : LayerPos) : p.dict.has "weight" = p.hasWeight := by
  cases p <;> rfl

/-- C35, common part: on one datum with one loss term, the entries of KFAC's matrix inside the block of any layer are
those of `Jᵀ H J`. -/
theorem kfac_single_blocks {cfg : KfacCfg} {klayers : List KLayer} {shapes : List (List Nat)} {mapping : Dict (Dict Nat)}
    {layers : List (Layer ℝ)} (hs : SingleDatum C cfg shapes klayers layers) (hf : cfg.fisher ≠ .forwardOnly) (d : KDatum)
    (t : Term k C) (hd : ChainRule shapes layers d t)
    (h : KfacLayers cfg.sep shapes mapping (kfacFactors cfg klayers [[d]]).1 (kfacFactors cfg klayers [[d]]).2 layers)
    (M : Mat ℝ) (hM : IsKron (kfacBlocks cfg.sep shapes layers) M) (H : Fin C → Fin C → ℝ)
    (hH : ∀ c c' : Fin C, specGradScale cfg * ((specCotangents cfg d).map fun v => v 0 c * v 0 c').sum = H c c')
    (b : KBlock ℝ) (hb : b ∈ kfacBlocks cfg.sep shapes layers) (i j i' j' : Nat) (hi : i < b.rows) (hj : j < b.cols)
    (hi' : i' < b.rows) (hj' : j' < b.cols) :
    M (b.idx i j) (b.idx i' j') = termSandwich t H (b.idx i j) (b.idx i' j') := by
  rw [kron_block_entry hM hb hi hi' hj hj']
  obtain ⟨l, hl, hb⟩ := List.mem_flatMap.mp hb
  obtain ⟨kl, hkl, hname, hpos, hS, hdin⟩ := hs.klayer l hl
  -- the factors
  have hB : ∀ o o', l.B.mat o o' = ∑ c : Fin C, ∑ c' : Fin C, d.jac l.name 0 o 0 c * H c c' * d.jac l.name 0 o' 0 c' := by
    intro o o'
    have h1 := h.gradCov_get l hl
    have h2 := kfac_grad_factor cfg klayers hs.names [[d]] (by simp) (by rw [hs.T]; simp) (by rw [hs.outDim]; exact hs.C_ne)
      (by rw [hs.mc]; simp) kl hkl
    rw [hname, h1] at h2
    simp only [Option.some.injEq] at h2
    rw [h2, ← hname]
    exact specGradFactor_sandwich hf hs.T hs.outDim kl hS d H hH o o'
  have hA : l.pos.hasWeight = true → ∀ i i', l.A.mat i i' = specInputVec cfg kl d 0 i * specInputVec cfg kl d 0 i' := by
    intro hw i i'
    have h1 := h.inCov_get l hl hw
    have h2 := kfac_input_factor cfg klayers hs.names [[d]] (by simp) kl hkl
      (by rw [hpos, Dict.has_dict_weight]; exact hw)
    rw [hname, h1] at h2
    simp only [Option.some.injEq] at h2
    rw [h2]
    exact specInputFactor_single hs.N kl hS d i i'
  -- a block with inputs `a` such that the chain rule holds
  suffices hfin : ∃ a : Nat → ℝ, (∀ o o', b.B o o' = l.B.mat o o') ∧
      (∀ i < b.cols, ∀ i' < b.cols, b.A i i' = a i * a i') ∧
      ∀ (c : Fin C), ∀ o < b.rows, ∀ i < b.cols, t.J c (b.idx o i) = d.jac l.name 0 o 0 c * a i by
    obtain ⟨a, e1, e2, e3⟩ := hfin
    rw [e1, e2 _ hj' _ hj, hB]
    unfold termSandwich
    rw [Finset.sum_mul]
    refine Finset.sum_congr rfl fun c _ => ?_
    rw [Finset.sum_mul]
    refine Finset.sum_congr rfl fun c' _ => ?_
    rw [e3 c i hi j hj, e3 c' i' hi' j' hj']
    ring
  have vec_sep : ∀ w, (l.pos = .weight w ∨ ∃ b, l.pos = .both w b) → kl.joint cfg = false → ∀ i,
      specInputVec cfg kl d 0 i = d.x l.name 0 i := by
    intro w _ hj i
    simp [specInputVec, hj, hname]
  unfold Layer.blocks at hb
  cases hp : l.pos with
  | both w bp =>
    simp only [hp] at hb hpos
    cases hsep : cfg.sep with
    | true =>
      simp only [hsep, if_true, List.mem_cons, List.not_mem_nil, or_false] at hb
      have hjf : kl.joint cfg = false := by simp [KLayer.joint, hsep]
      rcases hb with rfl | rfl
      · refine ⟨fun i => d.x l.name 0 i, fun _ _ => rfl, fun i _ i' _ => ?_, fun c o ho i hic => ?_⟩
        · show l.A.mat i i' = _
          rw [hA (by rw [hp]; rfl), vec_sep w (Or.inr ⟨bp, hp⟩) hjf, vec_sep w (Or.inr ⟨bp, hp⟩) hjf]
        · exact hd.weight l hl w (Or.inr ⟨bp, hp⟩) c o i ho hic
      · refine ⟨fun _ => 1, fun _ _ => rfl, fun i _ i' _ => by simp [Layer.bBlock], fun c o ho i hic => ?_⟩
        rw [mul_one]
        exact hd.bias l hl bp (Or.inr ⟨w, hp⟩) c o ho
    | false =>
      simp only [hsep, Bool.false_eq_true, if_false, List.mem_cons, List.not_mem_nil, or_false] at hb
      subst hb
      have hjt : kl.joint cfg = true := by
        rw [KLayer.joint, hpos, hsep]; rfl
      have hdw := hdin w (Or.inr ⟨bp, hp⟩)
      refine ⟨fun i => specInputVec cfg kl d 0 i, fun _ _ => rfl, fun i _ i' _ => hA (by rw [hp]; rfl) i i',
        fun c o ho i hi => ?_⟩
      simp only [Layer.jBlock] at hi ho ⊢
      by_cases hlt : i < wCols shapes w
      · rw [if_pos hlt, hd.weight l hl w (Or.inr ⟨bp, hp⟩) c o i ho hlt]
        have : i ≠ kl.din := by omega
        simp [specInputVec, this, hname]
      · rw [if_neg hlt, hd.bias l hl bp (Or.inr ⟨w, hp⟩) c o ho]
        have : i = kl.din := by omega
        simp [specInputVec, hjt, this]
  | weight w =>
    simp only [hp, List.mem_cons, List.not_mem_nil, or_false] at hb
    subst hb
    have hjf : kl.joint cfg = false := by
      rw [KLayer.joint, hpos, hp]; rfl
    refine ⟨fun i => d.x l.name 0 i, fun _ _ => rfl, fun i _ i' _ => ?_, fun c o ho i hic => ?_⟩
    · show l.A.mat i i' = _
      rw [hA (by rw [hp]; rfl), vec_sep w (Or.inl hp) hjf, vec_sep w (Or.inl hp) hjf]
    · exact hd.weight l hl w (Or.inl hp) c o i ho hic
  | bias bp =>
    simp only [hp, List.mem_cons, List.not_mem_nil, or_false] at hb
    subst hb
    refine ⟨fun _ => 1, fun _ _ => rfl, fun i _ i' _ => by simp [Layer.bBlock], fun c o ho i hic => ?_⟩
    rw [mul_one]
    exact hd.bias l hl bp (Or.inl hp) c o ho

theorem riskMatrix_single (mean : Bool) (H : Term k C → Fin C → Fin C → ℝ) (t : Term k C) (r c : Nat) :
    riskMatrix (redOf mean) (datumMatrix mean 1 H) [[t]] r c = termWeight k mean 1 C * termSandwich t (H t) r c := by
  simp [riskMatrix, datumMatrix]

theorem termSandwich_smul (t : Term k C) (w : ℝ) (H : Fin C → Fin C → ℝ) (r c : Nat) :
    w * termSandwich t H r c = termSandwich t (fun i j => w * H i j) r c := by
  unfold termSandwich
  rw [Finset.mul_sum]
  refine Finset.sum_congr rfl fun i _ => ?_
  rw [Finset.mul_sum]
  exact Finset.sum_congr rfl fun j _ => by ring

/-- C35, part (type-2): for one datum with one loss term and layers without weight sharing, whatever the treatment of
weights and biases, the entries of type-2 KFAC's matrix inside a layer's block are those of the matrix of the GGN
operator on the same datum. `d.sqrt` is the result of `loss_hessian_matrix_sqrt`. (With more loss terms per datum this
is false, see `kfac_two_terms`.) -/
theorem kfac_type2_single_partial {cfg : KfacCfg} {klayers : List KLayer} {shapes : List (List Nat)}
    {mapping : Dict (Dict Nat)} {layers : List (Layer ℝ)} (hs : SingleDatum C cfg shapes klayers layers)
    (hf : cfg.fisher = .type2) (d : KDatum) (t : Term k C) (hk : k = .ce → C ≠ 1) (hd : ChainRule shapes layers d t)
    (targetShape : List Nat) (ht : targetShape.head? = some 1) (target : List ℝ) (hbin : ValidTarget k target)
    (hsqrt : ∃ S, lossHessianSqrt (.known k (redOf cfg.mean)) [1, C] t.f targetShape target = .ok S ∧
      ∀ c l : Fin C, d.sqrt 0 c l = S c l)
    (h : KfacLayers cfg.sep shapes mapping (kfacFactors cfg klayers [[d]]).1 (kfacFactors cfg klayers [[d]]).2 layers)
    (M : Mat ℝ) (hM : IsKron (kfacBlocks cfg.sep shapes layers) M) (b : KBlock ℝ)
    (hb : b ∈ kfacBlocks cfg.sep shapes layers) (i j i' j' : Nat) (hi : i < b.rows) (hj : j < b.cols)
    (hi' : i' < b.rows) (hj' : j' < b.cols) :
    Represents (kfacOp shapes cfg.sep mapping (kfacFactors cfg klayers [[d]]).1 (kfacFactors cfg klayers [[d]]).2) M ∧
    M (b.idx i j) (b.idx i' j') =
      riskMatrix (redOf cfg.mean) (datumMatrix cfg.mean 1 lossHessian) [[t]] (b.idx i j) (b.idx i' j') := by
  refine ⟨kfac_represents _ _ _ _ _ _ h M hM, ?_⟩
  rw [riskMatrix_single, termSandwich_smul]
  refine kfac_single_blocks hs (by rw [hf]; simp) d t hd h M hM _ (fun c c' => ?_) b hb i j i' j' hi hj hi' hj'
  obtain ⟨S, hS, hdS⟩ := hsqrt
  obtain ⟨S', hS', hSS⟩ := lossHessianSqrt_partial k cfg.mean hs.C_ne hk t.f targetShape ht target hbin t.y
  rw [hS] at hS'
  simp only [Except.ok.injEq] at hS'
  subst hS'
  have h1 : ((specCotangents cfg d).map fun v => v 0 c * v 0 c').sum = ∑ l : Fin C, S c l * S c' l := by
    unfold specCotangents
    rw [hf]
    simp only [List.map_map, Function.comp_def]
    rw [sum_range_list, hs.outDim, Finset.sum_range]
    exact Finset.sum_congr rfl fun l _ => by rw [hdS, hdS]
  have h2 : specGradScale cfg = 1 := by
    unfold specGradScale
    rw [hs.mc, hs.N, hs.T, hf]
    simp
  rw [h1, h2, hSS, hess_div_const (termLoss k t.y), one_mul, div_eq_inv_mul]
  congr 1
  unfold reductionFactor termWeight
  cases cfg.mean <;> cases k <;> simp

/-- C35, part (empirical): the same for empirical KFAC and the empirical Fisher operator. -/
theorem kfac_empirical_single_partial {cfg : KfacCfg} {klayers : List KLayer} {shapes : List (List Nat)}
    {mapping : Dict (Dict Nat)} {layers : List (Layer ℝ)} (hs : SingleDatum C cfg shapes klayers layers)
    (hf : cfg.fisher = .empirical) (hloss : cfg.loss = k) (d : KDatum) (t : Term k C) (hd : ChainRule shapes layers d t)
    (hgrad : ∀ c : Fin C, d.lossGrad 0 0 c = pderiv (termLoss k t.y) c t.f)
    (h : KfacLayers cfg.sep shapes mapping (kfacFactors cfg klayers [[d]]).1 (kfacFactors cfg klayers [[d]]).2 layers)
    (M : Mat ℝ) (hM : IsKron (kfacBlocks cfg.sep shapes layers) M) (b : KBlock ℝ)
    (hb : b ∈ kfacBlocks cfg.sep shapes layers) (i j i' j' : Nat) (hi : i < b.rows) (hj : j < b.cols)
    (hi' : i' < b.rows) (hj' : j' < b.cols) :
    Represents (kfacOp shapes cfg.sep mapping (kfacFactors cfg klayers [[d]]).1 (kfacFactors cfg klayers [[d]]).2) M ∧
    M (b.idx i j) (b.idx i' j') =
      riskMatrix (redOf cfg.mean) (datumMatrix cfg.mean 1 lossGradOuter) [[t]] (b.idx i j) (b.idx i' j') := by
  refine ⟨kfac_represents _ _ _ _ _ _ h M hM, ?_⟩
  rw [riskMatrix_single, termSandwich_smul]
  refine kfac_single_blocks hs (by rw [hf]; simp) d t hd h M hM _ (fun c c' => ?_) b hb i j i' j' hi hj hi' hj'
  unfold specCotangents lossGradOuter
  rw [hf]
  simp only [List.map_cons, List.map_nil, List.sum_cons, List.sum_nil, add_zero, hgrad]
  congr 1
  unfold specGradScale termWeight
  rw [hs.mc, hs.N, hs.T, hs.outDim, hf, hloss]
  cases cfg.mean <;> cases k <;> simp

/-! ## Examples and counterexample -/

/-- Settings of the examples. -/
def exactCfg (fisher : FisherType) (T : Nat) : KfacCfg :=
  { fisher := fisher, approx := .expand, loss := .mse, mean := false, mcSamples := 1, N := 1, T := T, C := 1, sep := true }

/-- A linear layer with weight of shape `(1, 2)` and input `(2, 3)`. -/
noncomputable def exactDatum : KDatum where
  x := fun _ _ i => if i = 0 then 2 else 3
  jac := fun _ _ _ _ _ => 1
  sqrt := fun _ _ _ => Real.sqrt 2
  lossGrad := fun _ _ _ => 10

/-- The loss term of the example: prediction `5`, target `0`. -/
def exactTerm : Term .mse 1 := ⟨fun _ p => if p = 0 then 2 else 3, fun _ => 5, fun _ => 0⟩

noncomputable def exactLayers (fisher : FisherType) : List (Layer ℝ) :=
  [⟨"lin", .weight 0, ⟨2, specInputFactor (exactCfg fisher 1) ⟨"lin", [("weight", 0)], 2, 1, 1⟩ [exactDatum]⟩,
    ⟨1, specGradFactor (exactCfg fisher 1) ⟨"lin", [("weight", 0)], 2, 1, 1⟩ [exactDatum]⟩⟩]

theorem exactLayers_single (fisher : FisherType) :
    SingleDatum 1 (exactCfg fisher 1) [[1, 2]] [⟨"lin", [("weight", 0)], 2, 1, 1⟩] (exactLayers fisher) where
  N := rfl
  T := rfl
  outDim := rfl
  C_ne := by simp
  mc := rfl
  names := by simp
  klayer := by
    intro l hl
    simp only [exactLayers, List.mem_singleton] at hl
    subst hl
    refine ⟨_, List.mem_singleton.mpr rfl, rfl, rfl, rfl, ?_⟩
    intro w hw
    rcases hw with hw | ⟨b, hw⟩
    · simp only [LayerPos.weight.injEq] at hw
      subst hw
      simp [wCols]
    · cases hw

theorem exactLayers_chain (fisher : FisherType) : ChainRule [[1, 2]] (exactLayers fisher) exactDatum exactTerm where
  weight := by
    intro l hl w hw c o i ho hi
    simp only [exactLayers, List.mem_singleton] at hl
    subst hl
    rcases hw with hw | ⟨b, hw⟩
    · simp only [LayerPos.weight.injEq] at hw
      subst hw
      have ho : o = 0 := by simpa using ho
      subst ho
      simp [offset, exactTerm, exactDatum]
    · cases hw
  bias := by
    intro l hl b hb
    simp only [exactLayers, List.mem_singleton] at hl
    subst hl
    rcases hb with hb | ⟨w, hb⟩ <;> cases hb

theorem exactLayers_kfac (fisher : FisherType) :
    KfacLayers true [[1, 2]] [("lin", [("weight", 0)])]
      (kfacFactors (exactCfg fisher 1) [⟨"lin", [("weight", 0)], 2, 1, 1⟩] [[exactDatum]]).1
      (kfacFactors (exactCfg fisher 1) [⟨"lin", [("weight", 0)], 2, 1, 1⟩] [[exactDatum]]).2 (exactLayers fisher) where
  mapping_eq := rfl
  perm := by simp [exactLayers, LayerPos.positions]
  inCov_get := by
    intro l hl _
    simp only [exactLayers, List.mem_singleton] at hl
    subst hl
    rw [kfac_input_factor (exactCfg fisher 1) [⟨"lin", [("weight", 0)], 2, 1, 1⟩] (by simp) [[exactDatum]] (by simp)
      ⟨"lin", [("weight", 0)], 2, 1, 1⟩ (by simp) rfl]
    rfl
  gradCov_get := by
    intro l hl
    simp only [exactLayers, List.mem_singleton] at hl
    subst hl
    rw [kfac_grad_factor (exactCfg fisher 1) [⟨"lin", [("weight", 0)], 2, 1, 1⟩] (by simp) [[exactDatum]] (by simp)
      (by simp [exactCfg]) (by simp [exactCfg]) (by simp [exactCfg]) ⟨"lin", [("weight", 0)], 2, 1, 1⟩ (by simp)]
    rfl
  fits := by
    intro l hl
    simp only [exactLayers, List.mem_singleton] at hl
    subst hl
    simp [Layer.Fits, wCols]

example (M : Mat ℝ) (hM : IsKron (kfacBlocks true [[1, 2]] (exactLayers .type2)) M) :
    M 0 1 = riskMatrix .sum (datumMatrix false 1 lossHessian) [[exactTerm]] 0 1 :=
  (kfac_type2_single_partial (exactLayers_single .type2) rfl exactDatum exactTerm (by simp) (exactLayers_chain .type2) [1, 1]
    rfl [0] (by intro h; cases h) ⟨fun _ _ => Real.sqrt 2, by
      simp only [lossHessianSqrt, redOf, exactCfg, sqrtScale]
      simp
      funext i j
      simp [Subsingleton.elim i j], fun _ _ => rfl⟩ (exactLayers_kfac .type2) M hM _ (List.mem_singleton.mpr rfl) 0 0 0 1
    (by simp [Layer.wBlock]) (by simp [Layer.wBlock, wCols]) (by simp [Layer.wBlock]) (by simp [Layer.wBlock, wCols])).2

example (M : Mat ℝ) (hM : IsKron (kfacBlocks true [[1, 2]] (exactLayers .empirical)) M) :
    M 0 1 = riskMatrix .sum (datumMatrix false 1 lossGradOuter) [[exactTerm]] 0 1 :=
  (kfac_empirical_single_partial (k := .mse) (exactLayers_single .empirical) rfl rfl exactDatum exactTerm (exactLayers_chain .empirical)
    (by intro c; rw [pderiv_mse]; simp [exactDatum, exactTerm]; norm_num) (exactLayers_kfac .empirical) M hM _
    (List.mem_singleton.mpr rfl) 0 0 0 1
    (by simp [Layer.wBlock]) (by simp [Layer.wBlock, wCols]) (by simp [Layer.wBlock]) (by simp [Layer.wBlock, wCols])).2

/-- A linear layer with one input and two outputs, whose outputs are two loss terms of one datum (output shape
`(1, 2, 1)`). -/
noncomputable def twoTermDatum : KDatum where
  x := fun _ _ _ => 1
  jac := fun _ _ o t _ => if o = t then 1 else 0
  sqrt := fun _ _ _ => Real.sqrt 2
  lossGrad := fun _ _ _ => 2

/-- C35: with two loss terms per datum and no weight sharing, type-2 KFAC differs from the GGN on a single datum:
the off-diagonal entry of the weight's block is `2` instead of `0`. Likewise empirical KFAC and the empirical Fisher
(`4` instead of `0`). The terms' Jacobians satisfy the chain rule, and `MSELoss` has prediction `1` and target `0`. -/
theorem kfac_two_terms (ts : List (Term .mse 1))
    (hts : ts = [⟨fun _ p => if p = 0 then 1 else 0, fun _ => 1, fun _ => 0⟩,
      ⟨fun _ p => if p = 1 then 1 else 0, fun _ => 1, fun _ => 0⟩]) :
    (∀ n (hn : n < ts.length) c o, o < 2 → (ts[n]).J c o = twoTermDatum.jac "lin" 0 o n c * twoTermDatum.x "lin" 0 0) ∧
    (∃ A B, (kfacFactors (exactCfg .type2 2) [⟨"lin", [("weight", 0)], 1, 2, 1⟩] [[twoTermDatum]]).1.get "lin" = some A ∧
      (kfacFactors (exactCfg .type2 2) [⟨"lin", [("weight", 0)], 1, 2, 1⟩] [[twoTermDatum]]).2.get "lin" = some B ∧
      B.mat 0 1 * A.mat 0 0 = 2) ∧
    riskMatrix .sum (datumMatrix false 2 lossHessian) [ts] 0 1 = 0 ∧
    (∃ A B, (kfacFactors (exactCfg .empirical 2) [⟨"lin", [("weight", 0)], 1, 2, 1⟩] [[twoTermDatum]]).1.get "lin" = some A ∧
      (kfacFactors (exactCfg .empirical 2) [⟨"lin", [("weight", 0)], 1, 2, 1⟩] [[twoTermDatum]]).2.get "lin" = some B ∧
      B.mat 0 1 * A.mat 0 0 = 4) ∧
    riskMatrix .sum (datumMatrix false 2 lossGradOuter) [ts] 0 1 = 0 := by
  subst hts
  have hin : ∀ fisher, (kfacFactors (exactCfg fisher 2) [⟨"lin", [("weight", 0)], 1, 2, 1⟩] [[twoTermDatum]]).1.get "lin" =
      _ := fun fisher => kfac_input_factor (exactCfg fisher 2) [⟨"lin", [("weight", 0)], 1, 2, 1⟩] (by simp)
    [[twoTermDatum]] (by simp) ⟨"lin", [("weight", 0)], 1, 2, 1⟩ (by simp) rfl
  have hgr : ∀ fisher, (kfacFactors (exactCfg fisher 2) [⟨"lin", [("weight", 0)], 1, 2, 1⟩] [[twoTermDatum]]).2.get "lin" =
      _ := fun fisher => kfac_grad_factor (exactCfg fisher 2) [⟨"lin", [("weight", 0)], 1, 2, 1⟩] (by simp)
    [[twoTermDatum]] (by simp) (by simp [exactCfg]) (by simp [exactCfg]) (by simp [exactCfg])
    ⟨"lin", [("weight", 0)], 1, 2, 1⟩ (by simp)
  refine ⟨?_, ⟨_, _, hin _, hgr _, ?_⟩, ?_, ⟨_, _, hin _, hgr _, ?_⟩, ?_⟩
  · intro n hn c o ho
    have : n < 2 := hn
    interval_cases n <;> simp [twoTermDatum]
  · simp [specGradFactor, specInputFactor, exactCfg, specGradScale, specCotangents, specGradVec, twoTermDatum,
      specInputVec, KLayer.joint, Finset.sum_range_succ]
  · simp [riskMatrix, datumMatrix, termSandwich]
  · simp [specGradFactor, specInputFactor, exactCfg, specGradScale, specCotangents, specGradVec, twoTermDatum,
      specInputVec, KLayer.joint, Finset.sum_range_succ]
    norm_num
  · simp [riskMatrix, datumMatrix, termSandwich]

end Curvlinops
