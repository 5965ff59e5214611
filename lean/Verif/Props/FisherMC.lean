import Verif.Props.LossCurvature
import Verif.Lemmas.Moments
import Mathlib.Algebra.BigOperators.Ring.Finset

/-!
# C17, C18, C19: the Monte-Carlo Fisher
-/

namespace Curvlinops

variable {k : LossKind} {C : Nat}

/-! ## C19: one fixed matrix -/

/-- A mini-batch with drawn labels. -/
structure LabeledBatch (k : LossKind) (C S : Nat) where
  data : List (List (Term k C))
  draws : Fin S → Fin data.flatten.length → TermDraw k C

/-- Specification: average over the samples of the outer products of the would-be gradients. -/
noncomputable def sampleOuter {S : Nat} (f : Fin C → ℝ) (draws : Fin S → TermDraw k C) : Fin C → Fin C → ℝ := fun i j =>
  (∑ s, wouldBeGrad k f (draws s) i * wouldBeGrad k f (draws s) j) / S

/-- Specification: the Monte-Carlo Fisher on a data set whose `N` data have `T` loss terms each, for given draws. -/
noncomputable def mcMatrix {S : Nat} (mean : Bool) (N T : Nat) (lbs : List (LabeledBatch k C S)) : Mat ℝ := fun r c =>
  termWeight k mean (N * T) C * (lbs.map fun lb => ∑ m : Fin lb.data.flatten.length,
    termSandwich lb.data.flatten[m] (sampleOuter lb.data.flatten[m].f fun s => lb.draws s m) r c).sum

theorem mcReductionFactor_eq (k : LossKind) (mean : Bool) (n C : Nat) :
    mcReductionFactor k mean n C = reductionFactor k mean n C := by
  unfold mcReductionFactor reductionFactor
  cases mean <;> cases k <;> simp

theorem hess_mcPseudoLoss {S : Nat} (mean : Bool) (ts : List (Term k C)) (draws : Fin S → Fin ts.length → TermDraw k C)
    (m m' : Fin ts.length) (i j : Fin C) :
    hess (mcPseudoLoss (mcReductionFactor k mean ts.length C)
        fun s x => wouldBeGrad k (ts[x.1]).f (draws s x.1) x.2) (outs ts) (m, i) (m', j) =
      if m = m' then sampleOuter ts[m].f (fun s => draws s m) i j / reductionFactor k mean ts.length C else 0 := by
  have hF : (mcPseudoLoss (mcReductionFactor k mean ts.length C)
        fun s x => wouldBeGrad k (ts[x.1]).f (draws s x.1) x.2) =
      fun f : Fin ts.length × Fin C → ℝ => (∑ m, (fun (m : Fin ts.length) (r : Fin C → ℝ) =>
        ∑ s : Fin S, (1 / 2 / S : ℝ) * (∑ c, r c * wouldBeGrad k ts[m].f (draws s m) c) ^ 2) m fun c => f (m, c)) /
          reductionFactor k mean ts.length C := by
    funext f
    unfold mcPseudoLoss
    rw [mcReductionFactor_eq, Finset.sum_comm, Finset.mul_sum, Finset.sum_div]
    refine Finset.sum_congr rfl fun m _ => ?_
    rw [Finset.mul_sum, Finset.sum_div]
    refine Finset.sum_congr rfl fun s _ => ?_
    norm_num
    ring
  rw [hF]
  refine (hess_rows (fun (m : Fin ts.length) (r : Fin C → ℝ) =>
        ∑ s : Fin S, (1 / 2 / S : ℝ) * (∑ c, r c * wouldBeGrad k ts[m].f (draws s m) c) ^ 2) _ m m' i j
          (outs ts)).trans ?_
  congr 2
  rw [hess_sum_sq (1 / 2 / S) (fun s c => wouldBeGrad k ts[m].f (draws s m) c)]
  unfold sampleOuter
  rw [Finset.sum_div]
  exact Finset.sum_congr rfl fun s _ => by ring

theorem mcBatch_represents {S : Nat} (shapes : List (List Nat)) (hshapes : shapes ≠ []) (mean : Bool)
    (ts : List (Term k C)) (draws : Fin S → Fin ts.length → TermDraw k C) :
    BatchRepresents shapes (mcBatch shapes mean S ts draws) (fun r c =>
      (∑ m, termSandwich ts[m] (sampleOuter ts[m].f fun s => draws s m) r c) / reductionFactor k mean ts.length C) := by
  intro K M hM
  obtain ⟨Y, y1, y2, y3⟩ := ggnMatmatBatch_represents shapes hshapes (termsJ ts) (flat2 (hess (mcPseudoLoss
      (mcReductionFactor k mean ts.length C) fun s x => wouldBeGrad k (ts[x.1]).f (draws s x.1) x.2) (outs ts)))
    [ts.length, C] K M hM
  refine ⟨Y, y1, y2, y3.1, fun r hr l hl => ?_⟩
  rw [y3.2 r hr l hl]
  refine Finset.sum_congr rfl fun c _ => ?_
  congr 1
  exact contraction_rows ts _ (fun m => sampleOuter ts[m].f fun s => draws s m) _ (hess_mcPseudoLoss mean ts draws) r c

/-- The labels drawn in one traversal of the data. -/
def drawAll (rng : Rng k C) (S : Nat) : List (List (List (Term k C))) → rng.G → List (LabeledBatch k C S)
  | [], _ => []
  | b :: bs, g => ⟨b, (rng.draw g S b.flatten).1⟩ :: drawAll rng S bs (rng.draw g S b.flatten).2

theorem drawAll_data (rng : Rng k C) (S : Nat) : ∀ (bs : List (List (List (Term k C)))) (g : rng.G),
    (drawAll rng S bs g).map (·.data) = bs
  | [], _ => rfl
  | b :: bs, g => by simp [drawAll, drawAll_data rng S bs]

theorem mcLoop_eq (rng : Rng k C) (shapes : List (List Nat)) (mean : Bool) (S nData : Nat) (hS : S ≠ 0) (M : List (Tensor ℝ)) :
    ∀ (bs : List (List (List (Term k C)))) (_ : ∀ b ∈ bs, BinaryTargets k b.flatten) (g : rng.G) (AM : List (Tensor ℝ)),
    (mcLoop rng shapes mean S nData M bs g AM).1 =
      matmatLoop (redOf mean) nData (fun lb : LabeledBatch k C S => lb.data.length)
        (fun lb => mcBatch shapes mean S lb.data.flatten lb.draws) M (drawAll rng S bs g) AM
  | [], _, _, _ => rfl
  | b :: bs, hb, g, AM => by
    simp only [mcLoop, drawAll, matmatLoop, redOf, if_pos (hb b (by simp)), if_neg hS]
    cases (normalizationFactor (if mean then Reduction.mean else .sum) b.length nData : Py ℝ) with
    | error e => rfl
    | ok c =>
      simp only
      cases mcBatch shapes mean S b.flatten (rng.draw g S b.flatten).1 M with
      | error e => rfl
      | ok cur =>
        simp only
        cases zipUpdate (fun t u => t.addScaled c u) AM cur with
        | error e => rfl
        | ok AM' => exact mcLoop_eq rng shapes mean S nData hS M bs (fun b hb' => hb b (by simp [hb'])) _ AM'

/-- The linear operator, in a given state. -/
noncomputable def mcOp (rng : Rng k C) (cfg : McConfig k C) (st : McState rng) : LinOp ℝ :=
  { inShape := cfg.shapes, outShape := cfg.shapes, matmat := fun M => ((mcMatmat rng cfg st M).1, M) }

theorem mcOp_draws (rng : Rng k C) (cfg : McConfig k C) (hS : cfg.mcSamples ≠ 0) (hshapes : cfg.shapes ≠ []) (T : Nat)
    (hne : ∀ b ∈ cfg.data, b ≠ []) (hT : ∀ b ∈ cfg.data, ∀ d ∈ b, d.length = T)
    (hbin : ∀ b ∈ cfg.data, BinaryTargets k b.flatten) (hN : cfg.nData ≠ 0 ∨ cfg.data = []) (st : McState rng) :
    Represents (mcOp rng cfg st)
      (mcMatrix cfg.mean cfg.nData T (drawAll rng cfg.mcSamples cfg.data (rng.seed st.genDevice cfg.seed))) := by
  let dev := st.genDevice
  change Represents _ (mcMatrix cfg.mean cfg.nData T (drawAll rng cfg.mcSamples cfg.data (rng.seed dev cfg.seed)))
  generalize hl : drawAll rng cfg.mcSamples cfg.data (rng.seed dev cfg.seed) = lbs
  have hdata : lbs.map (·.data) = cfg.data := by rw [← hl]; exact drawAll_data _ _ _ _
  have hmem : ∀ lb ∈ lbs, lb.data ∈ cfg.data := fun lb h => hdata ▸ List.mem_map_of_mem h
  have hpos : ∀ lb ∈ lbs, 0 < lb.data.length ∧ cfg.nData ≠ 0 := by
    intro lb h
    refine ⟨List.length_pos_of_ne_nil (hne _ (hmem lb h)), ?_⟩
    rcases hN with hN | hN
    · exact hN
    · have := hmem lb h
      rw [hN] at this
      simp at this
  have key := curvatureOp_represents (redOf cfg.mean) cfg.nData (fun lb : LabeledBatch k C cfg.mcSamples => lb.data.length)
    (fun lb => mcBatch cfg.shapes cfg.mean cfg.mcSamples lb.data.flatten lb.draws) _ cfg.shapes
    (fun lb => if redOf cfg.mean = .mean then (lb.data.length : ℝ) / (cfg.nData : ℝ) else 1) lbs
    (fun lb _ => mcBatch_represents cfg.shapes hshapes cfg.mean lb.data.flatten lb.draws) (by
      intro lb h
      have := hpos lb h
      unfold normalizationFactor
      rw [if_neg this.2]
      rcases redOf_cases cfg.mean with h | h <;> simp [h])
  intro K Xs hXs
  obtain ⟨Y, y1, y2, y3⟩ := key K Xs hXs
  refine ⟨Y, ?_, y2, y3.1, fun r hr l hl => ?_⟩
  · change (mcLoop rng cfg.shapes cfg.mean cfg.mcSamples cfg.nData Xs cfg.data (rng.seed dev cfg.seed)
      (Xs.map Tensor.zerosLike)).1 = _
    rw [mcLoop_eq _ _ _ _ _ hS _ _ hbin, hl]
    exact y1
  · rw [y3.2 r hr l hl]
    refine Finset.sum_congr rfl fun c _ => ?_
    congr 1
    unfold mcMatrix
    rw [← List.sum_map_mul_left]
    refine congrArg List.sum (List.map_congr_left fun lb h => ?_)
    have hw : (reductionFactor k cfg.mean lb.data.flatten.length C)⁻¹ =
        (if redOf cfg.mean = .mean then (lb.data.length : ℝ)⁻¹ else 1) * termWeight k cfg.mean T C := by
      rw [length_flatten_const (hT _ (hmem lb h)), reductionFactor_batch]
    rw [div_eq_mul_inv _ (reductionFactor k cfg.mean _ C), hw]
    generalize (∑ m : Fin lb.data.flatten.length, _ : ℝ) = x
    have hb : (lb.data.length : ℝ) ≠ 0 := by have := (hpos lb h).1; exact_mod_cast this.ne'
    unfold termWeight redOf
    cases cfg.mean
    · simp
    · by_cases hk : k = .ce
      · simp [hk]; field_simp
      · simp [hk]; field_simp

theorem nData_cases {D : Type _} {n : Nat} {data : List (List D)} (hne : ∀ b ∈ data, b ≠ [])
    (hN : n = data.flatten.length) : n ≠ 0 ∨ data = [] := by
  rcases data with _ | ⟨b, bs⟩
  · exact Or.inr rfl
  · refine Or.inl ?_
    have := List.length_pos_of_ne_nil (hne b (by simp))
    rw [hN, List.flatten_cons, List.length_append]
    omega

/-- C19: with binary targets for `BCEWithLogitsLoss`, for every state of the operator there are labels such that *all*
products (any number of columns) multiply with the matrix
`weight Σ_n J_nᵀ (1/M Σ_m g_nm g_nmᵀ) J_n`. -/
theorem mcOp_represents (rng : Rng k C) (cfg : McConfig k C) (hS : cfg.mcSamples ≠ 0) (hshapes : cfg.shapes ≠ []) (T : Nat)
    (hne : ∀ b ∈ cfg.data, b ≠ []) (hT : ∀ b ∈ cfg.data, ∀ d ∈ b, d.length = T)
    (hbin : ∀ b ∈ cfg.data, BinaryTargets k b.flatten) (hN : cfg.nData = cfg.data.flatten.length) (st : McState rng) :
    ∃ lbs : List (LabeledBatch k C cfg.mcSamples), lbs.map (·.data) = cfg.data ∧
      Represents (mcOp rng cfg st) (mcMatrix cfg.mean cfg.nData T lbs) :=
  ⟨_, drawAll_data _ _ _ _, mcOp_draws rng cfg hS hshapes T hne hT hbin (nData_cases hne hN) st⟩

/-- C19: the matrix is symmetric positive semi-definite, whatever the labels. -/
theorem mcMatrix_symm_psd {S : Nat} (mean : Bool) (N T P : Nat) (lbs : List (LabeledBatch k C S)) :
    (∀ r c, mcMatrix mean N T lbs r c = mcMatrix mean N T lbs c r) ∧ QuadNonneg P (mcMatrix mean N T lbs) := by
  have hpsd : ∀ (f : Fin C → ℝ) (d : Fin S → TermDraw k C) (u : Fin C → ℝ),
      0 ≤ ∑ i, ∑ j, u i * sampleOuter f d i j * u j := by
    intro f d u
    have e : ∑ i, ∑ j, u i * sampleOuter f d i j * u j = (∑ s, (∑ i, wouldBeGrad k f (d s) i * u i) ^ 2) / S := by
      unfold sampleOuter
      simp only [← outer_quad]
      rw [Finset.sum_comm, Finset.sum_div]
      rw [Finset.sum_comm]
      simp only [Finset.mul_sum, Finset.sum_mul, Finset.sum_div]
      rw [Finset.sum_comm (s := (Finset.univ : Finset (Fin S)))]
      refine Finset.sum_congr rfl fun i _ => ?_
      rw [Finset.sum_comm]
      exact Finset.sum_congr rfl fun j _ => Finset.sum_congr rfl fun s _ => by ring
    rw [e]; positivity
  constructor
  · intro r c
    unfold mcMatrix
    congr 2
    refine List.map_congr_left fun lb _ => Finset.sum_congr rfl fun m _ => termSandwich_symm _ _ (fun i j => ?_) r c
    unfold sampleOuter
    congr 1
    exact Finset.sum_congr rfl fun s _ => mul_comm _ _
  · refine quad_list_sum P (fun (lb : LabeledBatch k C S) r c => ∑ m : Fin lb.data.flatten.length,
      termSandwich lb.data.flatten[m] (sampleOuter lb.data.flatten[m].f fun s => lb.draws s m) r c) lbs _
      (termWeight_nonneg k mean _ C) fun lb _ v => ?_
    simp only [Finset.mul_sum, Finset.sum_mul]
    have hc : ∀ g : Nat → Nat → Fin lb.data.flatten.length → ℝ,
        ∑ r ∈ Finset.range P, ∑ c ∈ Finset.range P, ∑ m, g r c m =
        ∑ m, ∑ r ∈ Finset.range P, ∑ c ∈ Finset.range P, g r c m := by
      intro g
      have h1 : ∀ r, ∑ c ∈ Finset.range P, ∑ m, g r c m = ∑ m, ∑ c ∈ Finset.range P, g r c m := fun r => Finset.sum_comm
      simp only [h1]
      exact Finset.sum_comm
    rw [hc]
    exact Finset.sum_nonneg fun m _ => termSandwich_psd _ _ (hpsd _ _) P v

/-- C19: non-binary targets of `BCEWithLogitsLoss` raise `NotImplementedError`. -/
theorem mcMatmat_nonbinary (rng : Rng k C) (cfg : McConfig k C) (b : List (List (Term k C)))
    (bs : List (List (List (Term k C)))) (hdata : cfg.data = b :: bs) (hbin : ¬ BinaryTargets k b.flatten)
    (hN : cfg.nData ≠ 0) (st : McState rng) (M : List (Tensor ℝ)) :
    (mcMatmat rng cfg st M).1 = .error .notImplementedError := by
  unfold mcMatmat
  simp only [hdata, mcLoop]
  have : ∃ c, (normalizationFactor (if cfg.mean then Reduction.mean else .sum) b.length cfg.nData : Py ℝ) = .ok c := by
    unfold normalizationFactor
    rw [if_neg hN]
    cases cfg.mean <;> simp
  obtain ⟨c, hc⟩ := this
  rw [hc]
  simp only [if_neg hbin]

/-- C19: without samples (`mc_samples=0`) products raise `RuntimeError` for `CrossEntropyLoss` and `ZeroDivisionError` for the
other losses. -/
theorem mcMatmat_no_samples (rng : Rng k C) (cfg : McConfig k C) (hS : cfg.mcSamples = 0) (b : List (List (Term k C)))
    (bs : List (List (List (Term k C)))) (hdata : cfg.data = b :: bs) (hbin : BinaryTargets k b.flatten)
    (hN : cfg.nData ≠ 0) (st : McState rng) (M : List (Tensor ℝ)) :
    (mcMatmat rng cfg st M).1 = .error (if k = .ce then .runtimeError else .zeroDivisionError) := by
  unfold mcMatmat
  simp only [hdata, mcLoop]
  have : ∃ c, (normalizationFactor (if cfg.mean then Reduction.mean else .sum) b.length cfg.nData : Py ℝ) = .ok c := by
    unfold normalizationFactor
    rw [if_neg hN]
    cases cfg.mean <;> simp
  obtain ⟨c, hc⟩ := this
  rw [hc]
  simp only [if_pos hbin, if_pos hS]

/-- Targets are only checked for `BCEWithLogitsLoss`. -/
theorem binaryTargets_other (hk : k ≠ .bce) (ts : List (Term k C)) : BinaryTargets k ts := by
  cases k with
  | mse => trivial
  | ce => trivial
  | bce => exact absurd rfl hk

theorem binaryTargets_bce (ts : List (Term .bce C)) :
    BinaryTargets .bce ts ↔ ∀ t ∈ ts, ∀ c, t.y c = 0 ∨ t.y c = 1 := Iff.rfl

/-- C19: a product with targets of `BCEWithLogitsLoss` of which one in the first mini-batch is neither 0 nor 1 raises
`NotImplementedError`. -/
theorem mcMatmat_bce_nonbinary (rng : Rng .bce C) (cfg : McConfig .bce C) (b : List (List (Term .bce C)))
    (bs : List (List (List (Term .bce C)))) (hdata : cfg.data = b :: bs) (hN : cfg.nData ≠ 0) (d : List (Term .bce C))
    (hd : d ∈ b) (t : Term .bce C) (ht : t ∈ d) (c : Fin C) (h0 : t.y c ≠ 0) (h1 : t.y c ≠ 1) (st : McState rng)
    (M : List (Tensor ℝ)) : (mcMatmat rng cfg st M).1 = .error .notImplementedError := by
  refine mcMatmat_nonbinary rng cfg b bs hdata (fun h => ?_) hN st M
  rcases (binaryTargets_bce _).mp h t (List.mem_flatten.mpr ⟨d, hd, ht⟩) c with h | h
  · exact h0 h
  · exact h1 h

/-! ## C17: reproducibility -/

/-- C17: after any history of products, label draws and device moves, a product returns what it would have returned on a
fresh operator on the same device. -/
theorem mcMatmat_history (rng : Rng k C) (cfg : McConfig k C) (st : McState rng) (calls : List (McCall k C))
    (M : List (Tensor ℝ)) :
    let st' := calls.foldl (mcStep rng cfg) st
    (mcMatmat rng cfg st' M).1 = (mcMatmat rng cfg ⟨st'.device, none⟩ M).1 := by
  intro st'
  have hdev : ∀ st : McState rng, st.genDevice = st.device := by
    intro st
    unfold McState.genDevice
    cases st.generator with
    | none => rfl
    | some x =>
      by_cases h : x.1 = st.device
      · simp [h]
      · simp [h]
  unfold mcMatmat
  rw [hdev, hdev]

/-- C17: on one device, all products with the same matrix are equal. -/
theorem mcMatmat_reproducible (rng : Rng k C) (cfg : McConfig k C) (st : McState rng) (calls calls' : List (McCall k C))
    (hdev : (calls.foldl (mcStep rng cfg) st).device = (calls'.foldl (mcStep rng cfg) st).device)
    (M : List (Tensor ℝ)) :
    (mcMatmat rng cfg (calls.foldl (mcStep rng cfg) st) M).1 =
      (mcMatmat rng cfg (calls'.foldl (mcStep rng cfg) st) M).1 := by
  rw [mcMatmat_history rng cfg st calls M, mcMatmat_history rng cfg st calls' M, hdev]

theorem mcStep_device (rng : Rng k C) (cfg : McConfig k C) (calls : List (McCall k C)) :
    ∀ st : McState rng, (∀ d, McCall.toDevice d ∉ calls) → (calls.foldl (mcStep rng cfg) st).device = st.device := by
  induction calls with
  | nil => intro st _; rfl
  | cons c cs ih =>
    intro st h
    rw [List.foldl_cons, ih _ fun d hd => h d (by simp [hd])]
    cases c with
    | matmat M => rfl
    | sampleGradOutput S ts =>
      unfold mcStep
      cases st.generator with
      | none => rfl
      | some x => simp only; split <;> rfl
    | toDevice d => exact absurd (by simp) (h d)

/-- C17: the device is that of the last `to_device`; the operator then multiplies like a fresh operator on this device. -/
theorem mcStep_device_last (rng : Rng k C) (cfg : McConfig k C) (pre post : List (McCall k C)) (d : String)
    (h : ∀ d', McCall.toDevice d' ∉ post) (st : McState rng) (M : List (Tensor ℝ)) :
    ((pre ++ .toDevice d :: post).foldl (mcStep rng cfg) st).device = d ∧
      (mcMatmat rng cfg ((pre ++ .toDevice d :: post).foldl (mcStep rng cfg) st) M).1 = (mcMatmat rng cfg ⟨d, none⟩ M).1 := by
  have e : ((pre ++ .toDevice d :: post).foldl (mcStep rng cfg) st).device = d := by
    rw [List.foldl_append, List.foldl_cons, mcStep_device rng cfg post _ h]
    rfl
  exact ⟨e, by rw [mcMatmat_history, e]⟩

/-! ## C18: unbiasedness -/

/-- `CrossEntropyLoss`: the label is drawn from the predicted class probabilities. -/
theorem wouldBeGrad_ce_unbiased (f : Fin C → ℝ) (y : Fin C) (i j : Fin C) :
    ∑ s : Fin C, softmax f s * (wouldBeGrad .ce f s i * wouldBeGrad .ce f s j) = hess (termLoss .ce y) f i j := by
  rw [hess_ce]
  have h1 := sum_softmax f i
  have e : ∀ s : Fin C, softmax f s * (wouldBeGrad .ce f s i * wouldBeGrad .ce f s j) =
      softmax f s * (softmax f i * softmax f j) - (if i = s then softmax f s * softmax f j else 0) -
        (if j = s then softmax f s * softmax f i else 0) + (if i = s then (if j = s then softmax f s else 0) else 0) := by
    intro s
    simp only [wouldBeGrad]
    split_ifs <;> ring
  simp only [e, Finset.sum_add_distrib, Finset.sum_sub_distrib, ← Finset.sum_mul, h1, Finset.sum_ite_eq,
    Finset.mem_univ, if_true]
  by_cases h : i = j
  · subst h; simp; ring
  · simp [h, Ne.symm h]; ring

/-- Probability of a vector of independent bits. -/
noncomputable def bitsProb (p : Fin C → ℝ) (b : Fin C → Bool) : ℝ := ∏ c, if b c then p c else 1 - p c

theorem bits_expectation (p : Fin C → ℝ) (F : Fin C → Bool → ℝ) :
    ∑ b : Fin C → Bool, bitsProb p b * ∏ c, F c (b c) = ∏ c, (p c * F c true + (1 - p c) * F c false) := by
  unfold bitsProb
  simp only [← Finset.prod_mul_distrib]
  rw [← Fintype.piFinset_univ, ← Finset.prod_univ_sum (fun _ => Finset.univ)
    (fun c (x : Bool) => (if x = true then p c else 1 - p c) * F c x)]
  simp

/-- `BCEWithLogitsLoss`: the bits are drawn independently with the predicted probabilities. -/
theorem wouldBeGrad_bce_unbiased (f y : Fin C → ℝ) (i j : Fin C) :
    ∑ b : Fin C → Bool, bitsProb (fun c => Real.sigmoid (f c)) b * (wouldBeGrad .bce f b i * wouldBeGrad .bce f b j) =
      hess (termLoss .bce y) f i j := by
  rw [hess_bce]
  have e : ∀ b : Fin C → Bool, wouldBeGrad .bce f b i * wouldBeGrad .bce f b j =
      ∏ c, (fun (c : Fin C) (x : Bool) => (if c = i then Real.sigmoid (f c) - (if x then 1 else 0) else 1) *
        (if c = j then Real.sigmoid (f c) - (if x then 1 else 0) else 1)) c (b c) := by
    intro b
    simp only [Finset.prod_mul_distrib, Finset.prod_ite_eq', Finset.mem_univ, if_true, wouldBeGrad]
  simp only [e]
  rw [bits_expectation (fun c => Real.sigmoid (f c))
    (fun (c : Fin C) (x : Bool) => (if c = i then Real.sigmoid (f c) - (if x then 1 else 0) else 1) *
        (if c = j then Real.sigmoid (f c) - (if x then 1 else 0) else 1))]
  by_cases h : i = j
  · subst h
    rw [if_pos rfl, Finset.prod_eq_single i]
    · simp; ring
    · intro c _ hc; simp [hc]
    · intro h; exact absurd (Finset.mem_univ i) h
  · rw [if_neg h]
    refine Finset.prod_eq_zero (Finset.mem_univ i) ?_
    simp [h]; ring

open MeasureTheory

/-- `MSELoss`: with standard normal entries. -/
theorem wouldBeGrad_mse_unbiased (f y : Fin C → ℝ) (i j : Fin C) :
    ∫ z, wouldBeGrad .mse f z i * wouldBeGrad .mse f z j ∂(stdNormal C) = hess (termLoss .mse y) f i j := by
  rw [hess_mse]
  have hs : Real.sqrt 0.5 * Real.sqrt 0.5 = 0.5 := Real.mul_self_sqrt (by norm_num)
  have e : ∀ z : Fin C → ℝ, wouldBeGrad .mse f z i * wouldBeGrad .mse f z j = 2 * (z i * z j) := by
    intro z
    simp only [wouldBeGrad]
    have : 2 * (0 + Real.sqrt 0.5 * z i) * (2 * (0 + Real.sqrt 0.5 * z j)) =
      4 * (Real.sqrt 0.5 * Real.sqrt 0.5) * (z i * z j) := by ring
    rw [this, hs]; norm_num
  simp only [e]
  rw [integral_const_mul, stdNormal_moment]
  split <;> norm_num

/-- A (bad) generator: counts up, and always draws the current count modulo 2. -/
def countRng : Rng .ce 2 := ⟨Nat, fun _ s => s.toNat, fun g _ _ => (fun _ _ => Fin.ofNat 2 g, g + 1)⟩

example (st : McState countRng) : ∃ lbs : List (LabeledBatch .ce 2 3), lbs.map (·.data) = ceData ∧
    Represents (mcOp countRng ⟨[[2], [1, 1]], true, 7, 3, 3, ceData⟩ st) (mcMatrix true 3 1 lbs) :=
  mcOp_represents countRng ⟨[[2], [1, 1]], true, 7, 3, 3, ceData⟩ (by simp) (by simp) 1 (by simp [ceData]) (by simp [ceData])
    (fun _ _ => trivial) rfl st

-- without samples
example (st : McState countRng) (M : List (Tensor ℝ)) :
    (mcMatmat countRng ⟨[[2], [1, 1]], true, 7, 0, 3, ceData⟩ st M).1 = .error .runtimeError :=
  mcMatmat_no_samples countRng ⟨[[2], [1, 1]], true, 7, 0, 3, ceData⟩ rfl _ _ rfl trivial (by simp) st M

example (M M' : List (Tensor ℝ)) (ts : List (Term .ce 2)) :
    let cfg : McConfig .ce 2 := ⟨[[2], [1, 1]], true, 7, 3, 3, ceData⟩
    (mcMatmat countRng cfg ([.matmat M', .toDevice "cuda", .matmat M, .sampleGradOutput 5 ts, .toDevice "cpu"].foldl
      (mcStep countRng cfg) ⟨"cpu", none⟩) M).1 = (mcMatmat countRng cfg ⟨"cpu", none⟩ M).1 := by
  intro cfg
  rw [mcMatmat_history]
  rfl

example (M M' : List (Tensor ℝ)) :
    let cfg : McConfig .ce 2 := ⟨[[2], [1, 1]], true, 7, 3, 3, ceData⟩
    (mcMatmat countRng cfg ([.matmat M', .toDevice "cuda", .matmat M].foldl (mcStep countRng cfg) ⟨"cpu", none⟩) M).1 =
      (mcMatmat countRng cfg ⟨"cuda", none⟩ M).1 :=
  (mcStep_device_last countRng _ [.matmat M'] [.matmat M] "cuda" (by simp) _ M).2

end Curvlinops
