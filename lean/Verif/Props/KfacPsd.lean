import Verif.Model.KfacFactors
import Verif.Props.KfacFactors
import Verif.Props.KfacProduct
import Verif.Props.KfacScalars
import Verif.Props.Curvature
import Mathlib.Analysis.Matrix.PosDef

/-!
# C34: KFAC is symmetric positive semi-definite
-/

namespace Curvlinops

/-- The leading `n × n` part is a sum of outer products. -/
def IsGram (n : Nat) (F : Mat ℝ) : Prop :=
  ∃ rows : List (Nat → ℝ), ∀ i < n, ∀ j < n, F i j = (rows.map fun r => r i * r j).sum

theorem IsGram.add {n : Nat} {F G : Mat ℝ} (hF : IsGram n F) (hG : IsGram n G) :
    IsGram n fun i j => F i j + G i j := by
  obtain ⟨r, hr⟩ := hF
  obtain ⟨s, hs⟩ := hG
  exact ⟨r ++ s, fun i hi j hj => by simp [hr i hi j hj, hs i hi j hj]⟩

theorem isGram_scaled_gram (n : Nat) (rows : List (Nat → ℝ)) (c : ℝ) (hc : 0 ≤ c) :
    IsGram n fun i j => gram rows i j * c := by
  refine ⟨rows.map fun r i => Real.sqrt c * r i, fun i _ j _ => ?_⟩
  simp only [gram]
  rw [List.map_map, mul_comm, ← list_sum_map_mul_left]
  congr 1
  refine List.map_congr_left fun r _ => ?_
  simp only [Function.comp_apply]
  calc c * (r i * r j) = (Real.sqrt c * Real.sqrt c) * (r i * r j) := by rw [Real.mul_self_sqrt hc]
    _ = _ := by ring

theorem isGram_one (n : Nat) : IsGram n fun i j => if i = j then 1 else 0 := by
  refine ⟨(List.range n).map fun k i => if i = k then 1 else 0, fun i hi j _ => ?_⟩
  rw [List.map_map, Function.comp_def]
  simp only
  rw [sum_range_list, Finset.sum_eq_single i]
  · simp [eq_comm]
  · intro k _ hk
    simp [Ne.symm hk]
  · intro h
    exact absurd (Finset.mem_range.mpr hi) h

theorem isGram_const_one (n : Nat) : IsGram n fun _ _ => 1 := ⟨[fun _ => 1], by simp⟩

/-! ## All factors are sums of outer products -/

theorem inputCovariance_gram (cfg : KfacCfg) (l : KLayer) (b : List KDatum) (n : Nat) :
    IsGram n (inputCovariance cfg l b).mat := by
  have : (inputCovariance cfg l b).mat = fun i j => gram (b.flatMap (inputRows cfg l)) i j *
      (1 / (cfg.N * (match cfg.approx with | .expand => (l.S : ℝ) | .reduce => 1))) := by
    funext i j
    rw [← div_eq_mul_one_div]
    rfl
  rw [this]
  refine isGram_scaled_gram n _ _ ?_
  cases cfg.approx <;> positivity

theorem gradCovariance_gram (cfg : KfacCfg) (l : KLayer) (b : List KDatum) (k n : Nat) :
    IsGram n (gradCovariance cfg l b k).mat := by
  refine isGram_scaled_gram n _ _ ?_
  unfold correction
  split <;> positivity

/-- Invariant of the dictionaries. -/
def DictGram (d : Dict (Factor ℝ)) : Prop := ∀ name f, d.get name = some f → IsGram f.dim f.mat

/-- What is added or set. -/
def KEvent.Gram : KEvent → Prop
  | .input _ f => ∀ n, IsGram n f.mat
  | .grad _ f => ∀ n, IsGram n f.mat
  | .setGrad _ f => IsGram f.dim f.mat

theorem addCov_gram (d : Dict (Factor ℝ)) (name : String) (f : Factor ℝ) (hd : DictGram d) (hf : ∀ n, IsGram n f.mat) :
    DictGram (addCov d name f) := by
  intro name' g hg
  rw [addCov_get] at hg
  split at hg
  · cases hdn : d.get name' with
    | none =>
      rw [hdn] at hg
      simp only [Upd.apply, Option.some.injEq] at hg
      subst hg
      exact hf _
    | some e =>
      rw [hdn] at hg
      simp only [Upd.apply, Option.some.injEq] at hg
      subst hg
      exact (hd name' e hdn).add (hf _)
  · exact hd name' g hg

theorem applyEvent_gram (st : Dict (Factor ℝ) × Dict (Factor ℝ)) (e : KEvent) (h : DictGram st.1 ∧ DictGram st.2)
    (he : e.Gram) : DictGram (applyEvent st e).1 ∧ DictGram (applyEvent st e).2 := by
  cases e with
  | input n f => exact ⟨addCov_gram _ _ _ h.1 he, h.2⟩
  | grad n f => exact ⟨h.1, addCov_gram _ _ _ h.2 he⟩
  | setGrad n f =>
    refine ⟨h.1, fun name g hg => ?_⟩
    simp only [applyEvent, Dict.get_set] at hg
    split at hg
    · simp only [Option.some.injEq] at hg
      subst hg
      exact he
    · exact h.2 name g hg

theorem batchEvents_gram (cfg : KfacCfg) (layers : List KLayer) (b : List KDatum) :
    ∀ e ∈ batchEvents cfg layers b, e.Gram := by
  intro e he
  rcases List.mem_append.mp he with he | he
  · obtain ⟨l, _, rfl⟩ := List.mem_map.mp he
    exact inputCovariance_gram cfg l b
  · unfold backwardEvents at he
    cases hf : cfg.fisher <;> simp only [hf] at he
    case forwardOnly =>
      obtain ⟨l, _, rfl⟩ := List.mem_map.mp he
      exact isGram_one _
    all_goals
      obtain ⟨k, _, he⟩ := List.mem_flatMap.mp he
      obtain ⟨l, _, rfl⟩ := List.mem_map.mp he
      exact gradCovariance_gram cfg l b k

/-- **C34** (factors): every factor that `_compute_kfac` leaves, for whatever data, settings and batches, is a sum of
outer products. -/
theorem kfacFactors_gram (cfg : KfacCfg) (layers : List KLayer) (batches : List (List KDatum)) :
    DictGram (kfacFactors cfg layers batches).1 ∧ DictGram (kfacFactors cfg layers batches).2 := by
  rw [kfacFactors, foldl_batches]
  have hes : ∀ e ∈ batches.flatMap (batchEvents cfg layers), e.Gram := by
    intro e he
    obtain ⟨b, _, he⟩ := List.mem_flatMap.mp he
    exact batchEvents_gram cfg layers b e he
  have h0 : DictGram ([] : Dict (Factor ℝ)) := by
    intro name f hf
    cases hf
  generalize batches.flatMap (batchEvents cfg layers) = es at hes
  suffices ∀ st : Dict (Factor ℝ) × Dict (Factor ℝ), DictGram st.1 ∧ DictGram st.2 →
      DictGram (es.foldl applyEvent st).1 ∧ DictGram (es.foldl applyEvent st).2 from this _ ⟨h0, h0⟩
  induction es with
  | nil => exact fun st h => h
  | cons e es ih =>
    intro st h
    exact ih (fun e' he' => hes e' (by simp [he'])) _ (applyEvent_gram st e h (hes e (by simp)))

/-! ## Kronecker products -/

theorem list_sum_mul_sum {β γ : Type _} (l : List β) (m : List γ) (f : β → ℝ) (g : γ → ℝ) :
    (l.map f).sum * (m.map g).sum = (l.map fun b => (m.map fun c => f b * g c).sum).sum := by
  induction l with
  | nil => simp
  | cons b l ih => simp [add_mul, ih, list_sum_map_mul_left]

theorem finset_list_sum_comm {ι β : Type _} (s : Finset ι) (l : List β) (f : ι → β → ℝ) :
    ∑ x ∈ s, (l.map (f x)).sum = (l.map fun b => ∑ x ∈ s, f x b).sum := by
  induction l with
  | nil => simp
  | cons b l ih => simp [Finset.sum_add_distrib, ih]

theorem block_quad_nonneg (b : KBlock ℝ) (hA : IsGram b.cols b.A) (hB : IsGram b.rows b.B) (v : Nat → ℝ) :
    0 ≤ ∑ i : Fin b.rows, ∑ j : Fin b.cols, v (b.idx i j) *
        ∑ i' ∈ Finset.range b.rows, ∑ j' ∈ Finset.range b.cols, b.B i i' * b.A j' j * v (b.idx i' j') := by
  obtain ⟨q, hq⟩ := hA
  obtain ⟨r, hr⟩ := hB
  -- the quadratic form is a sum of squares
  have hsq : ∑ i : Fin b.rows, ∑ j : Fin b.cols, v (b.idx i j) *
      ∑ i' ∈ Finset.range b.rows, ∑ j' ∈ Finset.range b.cols, b.B i i' * b.A j' j * v (b.idx i' j') =
      (r.map fun s => (q.map fun t => (∑ i : Fin b.rows, ∑ j : Fin b.cols, s i * t j * v (b.idx i j)) ^ 2).sum).sum := by
    have hin : ∀ (i : Fin b.rows) (j : Fin b.cols),
        v (b.idx i j) * ∑ i' ∈ Finset.range b.rows, ∑ j' ∈ Finset.range b.cols,
          b.B i i' * b.A j' j * v (b.idx i' j') =
        (r.map fun s => (q.map fun t => s i * t j * v (b.idx i j) *
          ∑ i' : Fin b.rows, ∑ j' : Fin b.cols, s i' * t j' * v (b.idx i' j')).sum).sum := by
      intro i j
      have h1 : ∀ i' < b.rows, ∀ j' < b.cols, b.B i i' * b.A j' j * v (b.idx i' j') =
          (r.map fun s => (q.map fun t => s i * t j * (s i' * t j' * v (b.idx i' j'))).sum).sum := by
        intro i' hi' j' hj'
        rw [hr i i.2 i' hi', hq j' hj' j j.2, list_sum_mul_sum, mul_comm, ← list_sum_map_mul_left]
        congr 1
        refine List.map_congr_left fun s _ => ?_
        rw [← list_sum_map_mul_left]
        congr 1
        exact List.map_congr_left fun t _ => by ring
      have h2 : ∑ i' ∈ Finset.range b.rows, ∑ j' ∈ Finset.range b.cols, b.B i i' * b.A j' j * v (b.idx i' j') =
          (r.map fun s => (q.map fun t => s i * t j *
            ∑ i' : Fin b.rows, ∑ j' : Fin b.cols, s i' * t j' * v (b.idx i' j')).sum).sum := by
        rw [Finset.sum_congr rfl fun i' hi' => Finset.sum_congr rfl fun j' hj' =>
          h1 i' (Finset.mem_range.mp hi') j' (Finset.mem_range.mp hj')]
        simp only [Finset.sum_range, finset_list_sum_comm, ← Finset.mul_sum]
      rw [h2, ← list_sum_map_mul_left]
      congr 1
      refine List.map_congr_left fun s _ => ?_
      rw [← list_sum_map_mul_left]
      congr 1
      exact List.map_congr_left fun t _ => by ring
    simp only [hin, finset_list_sum_comm]
    congr 1
    refine List.map_congr_left fun s _ => ?_
    congr 1
    refine List.map_congr_left fun t _ => ?_
    rw [sq]
    simp only [Finset.sum_mul]
  refine le_of_le_of_eq ?_ hsq.symm
  refine List.sum_nonneg fun x hx => ?_
  obtain ⟨s, _, rfl⟩ := List.mem_map.mp hx
  refine List.sum_nonneg fun x hx => ?_
  obtain ⟨t, _, rfl⟩ := List.mem_map.mp hx
  exact sq_nonneg _

/-- A block-diagonal matrix of Kronecker products of sums of outer products is symmetric and positive
semi-definite. -/
theorem kron_psd (bs : List (KBlock ℝ)) (N : Nat) (h : Tiles bs N) (M : Mat ℝ) (hM : IsKron bs M)
    (hg : ∀ b ∈ bs, IsGram b.cols b.A ∧ IsGram b.rows b.B) :
    (∀ r < N, ∀ c < N, M r c = M c r) ∧ QuadNonneg N M := by
  have hsym : ∀ {n : Nat} {F : Mat ℝ}, IsGram n F → ∀ i < n, ∀ j < n, F i j = F j i := by
    intro n F ⟨rows, hr⟩ i hi j hj
    rw [hr i hi j hj, hr j hj i hi]
    congr 1
    exact List.map_congr_left fun r _ => mul_comm _ _
  constructor
  · intro r hr c hc
    obtain ⟨x, rfl, -⟩ := h.2 r hr
    obtain ⟨y, rfl, -⟩ := h.2 c hc
    rw [hM, hM, KIdx.entry, KIdx.entry]
    obtain ⟨l, i, j⟩ := x
    obtain ⟨l', i', j'⟩ := y
    by_cases hl : l = l'
    · subst hl
      have hb := hg bs[l] (List.getElem_mem _)
      simp only [if_true]
      rw [hsym hb.2 i i.2 i' i'.2, hsym hb.1 j' j'.2 j j.2]
    · rw [if_neg hl, if_neg (Ne.symm hl)]
  · intro v
    rw [h.sum_eq]
    simp only [h.sum_eq (bs := bs)]
    have hterm : ∀ x : KIdx bs, ∑ y : KIdx bs, v x.pos * M x.pos y.pos * v y.pos =
        v x.pos * ∑ i ∈ Finset.range (bs[x.1]).rows, ∑ j ∈ Finset.range (bs[x.1]).cols,
          (bs[x.1]).B x.2.1 i * (bs[x.1]).A j x.2.2 * v ((bs[x.1]).idx i j) := by
      intro x
      rw [← KIdx.sum_entry, Finset.mul_sum]
      exact Finset.sum_congr rfl fun y _ => by rw [hM]; ring
    simp only [hterm]
    rw [Fintype.sum_sigma]
    refine Finset.sum_nonneg fun l _ => ?_
    rw [Fintype.sum_prod_type]
    exact block_quad_nonneg bs[l] (hg bs[l] (List.getElem_mem _)).1 (hg bs[l] (List.getElem_mem _)).2 v

theorem kfacBlocks_gram {sep : Bool} {shapes : List (List Nat)} {mapping : Dict (Dict Nat)}
    {inCov gradCov : Dict (Factor ℝ)} {layers : List (Layer ℝ)} (h : KfacLayers sep shapes mapping inCov gradCov layers)
    (hi : DictGram inCov) (hg : DictGram gradCov) :
    ∀ b ∈ kfacBlocks sep shapes layers, IsGram b.cols b.A ∧ IsGram b.rows b.B := by
  intro b hb
  obtain ⟨l, hl, hb⟩ := List.mem_flatMap.mp hb
  have hB : IsGram l.B.dim l.B.mat := hg _ _ (h.gradCov_get l hl)
  have hA : l.pos.hasWeight = true → IsGram l.A.dim l.A.mat := fun hw => hi _ _ (h.inCov_get l hl hw)
  have hfit := h.fits l hl
  unfold Layer.Fits at hfit
  unfold Layer.blocks at hb
  cases hp : l.pos with
  | both w b' =>
    simp only [hp, LayerPos.hasWeight, forall_const] at hA hfit hb
    cases sep with
    | true =>
      simp only [if_true, add_zero] at hfit hb
      simp only [List.mem_cons, List.not_mem_nil, or_false] at hb
      rcases hb with rfl | rfl
      · simp only [Layer.wBlock, ← hfit.2.2]
        exact ⟨hA, hB⟩
      · exact ⟨isGram_const_one 1, hB⟩
    | false =>
      simp only [Bool.false_eq_true, if_false] at hfit hb
      simp only [List.mem_singleton] at hb
      subst hb
      simp only [Layer.jBlock, ← hfit.2.2]
      exact ⟨hA, hB⟩
  | weight w =>
    simp only [hp, LayerPos.hasWeight, forall_const] at hA hfit hb
    simp only [List.mem_singleton] at hb
    subst hb
    simp only [Layer.wBlock, ← hfit.2]
    exact ⟨hA, hB⟩
  | bias b' =>
    simp only [hp] at hb
    simp only [List.mem_singleton] at hb
    subst hb
    exact ⟨isGram_const_one 1, hB⟩

/-- **C34**: for every Fisher type, KFAC type, reduction, data and batches, the matrix that KFAC's products use is
symmetric and positive semi-definite. -/
theorem kfac_psd (cfg : KfacCfg) (klayers : List KLayer) (batches : List (List KDatum)) (shapes : List (List Nat))
    (mapping : Dict (Dict Nat)) (layers : List (Layer ℝ))
    (h : KfacLayers cfg.sep shapes mapping (kfacFactors cfg klayers batches).1 (kfacFactors cfg klayers batches).2 layers)
    (M : Mat ℝ) (hM : IsKron (kfacBlocks cfg.sep shapes layers) M) :
    (∀ r < (shapes.map List.prod).sum, ∀ c < (shapes.map List.prod).sum, M r c = M c r) ∧
      QuadNonneg (shapes.map List.prod).sum M := by
  obtain ⟨hi, hg⟩ := kfacFactors_gram cfg klayers batches
  exact kron_psd _ _ (kfac_tiles _ _ _ _ _ _ h) M hM (kfacBlocks_gram h hi hg)

theorem IsGram.det_nonneg {n : Nat} {F : Mat ℝ} (h : IsGram n F) : 0 ≤ matDet n F := by
  obtain ⟨rows, hr⟩ := h
  have hp : (Matrix.of fun i j : Fin n => F i j).PosSemidef := by
    refine Matrix.PosSemidef.of_dotProduct_mulVec_nonneg ?_ ?_
    · ext i j
      simp only [Matrix.conjTranspose_apply, Matrix.of_apply, star_trivial]
      rw [hr j j.2 i i.2, hr i i.2 j j.2]
      congr 1
      exact List.map_congr_left fun r _ => mul_comm _ _
    · intro x
      have : star x ⬝ᵥ (Matrix.of fun i j : Fin n => F i j).mulVec x =
          (rows.map fun r => (∑ i : Fin n, r i * x i) ^ 2).sum := by
        simp only [dotProduct, Matrix.mulVec, Matrix.of_apply, star_trivial, Pi.star_apply]
        rw [Finset.sum_congr rfl fun i _ => by
          rw [Finset.sum_congr rfl fun j _ => by rw [hr i i.2 j j.2]]]
        simp only [Finset.mul_sum, mul_comm _ (x _), ← list_sum_map_mul_left, finset_list_sum_comm]
        congr 1
        refine List.map_congr_left fun r _ => ?_
        rw [sq, Finset.sum_mul_sum]
        exact Finset.sum_congr rfl fun i _ => Finset.sum_congr rfl fun j _ => by ring
      rw [this]
      refine List.sum_nonneg fun y hy => ?_
      obtain ⟨r, _, rfl⟩ := List.mem_map.mp hy
      exact sq_nonneg _
  exact hp.det_nonneg

/-- **C31** (log-determinant on computed factors): the assumption on determinants in `kfacLogdet_eq` always holds for
the factors that KFAC computes. -/
theorem kfacLogdet_computed (cfg : KfacCfg) (klayers : List KLayer) (batches : List (List KDatum))
    (shapes : List (List Nat)) (mapping : Dict (Dict Nat)) (layers : List (Layer ℝ))
    (h : KfacLayers cfg.sep shapes mapping (kfacFactors cfg klayers batches).1 (kfacFactors cfg klayers batches).2 layers)
    (M : Mat ℝ) (hM : IsKron (kfacBlocks cfg.sep shapes layers) M)
    (hdim : ∀ l ∈ layers, 0 < l.B.dim ∧ (l.pos.hasWeight = true → 0 < l.A.dim)) :
    kfacLogdet cfg.sep mapping (kfacFactors cfg klayers batches).1 (kfacFactors cfg klayers batches).2 =
      .ok (FLog.ofReal (matDet (shapes.map List.prod).sum M)) := by
  obtain ⟨hi, hg⟩ := kfacFactors_gram cfg klayers batches
  exact kfacLogdet_eq h M hM hdim fun l hl =>
    ⟨(hg _ _ (h.gradCov_get l hl)).det_nonneg, fun hw => (hi _ _ (h.inCov_get l hl hw)).det_nonneg⟩

/-- A layer with a `1 × 1` weight. -/
theorem kfacLayers_single (cfg : KfacCfg) (kl : KLayer) (bs : List (List KDatum)) (hne : bs ≠ []) (hT : cfg.T ≠ 0)
    (hC : cfg.C ≠ 0) (hmc : cfg.mcSamples ≠ 0) (hkl : kl = ⟨"a", [("weight", 0)], 1, 1, 1⟩) :
    KfacLayers cfg.sep [[1, 1]] [("a", [("weight", 0)])] (kfacFactors cfg [kl] bs).1 (kfacFactors cfg [kl] bs).2
      [⟨"a", .weight 0, ⟨1, specInputFactor cfg kl bs.flatten⟩, ⟨1, specGradFactor cfg kl bs.flatten⟩⟩] := by
  have h1 := kfac_input_factor cfg [kl] (by simp) bs hne kl (by simp) (by rw [hkl]; rfl)
  have h2 := kfac_grad_factor cfg [kl] (by simp) bs hne hT hC hmc kl (by simp)
  have hj : kl.joint cfg = false := by rw [hkl]; simp [KLayer.joint, Dict.has]
  have hd : kl.din = 1 := by rw [hkl]
  have hdo : kl.dout = 1 := by rw [hkl]
  have hn : kl.name = "a" := by rw [hkl]
  rw [hj, hd, hn] at h1
  rw [hdo, hn] at h2
  refine ⟨rfl, by simp [LayerPos.positions], ?_, ?_, ?_⟩
  · intro l hl _
    simp only [List.mem_singleton] at hl
    subst hl
    exact h1
  · intro l hl
    simp only [List.mem_singleton] at hl
    subst hl
    exact h2
  · intro l hl
    simp only [List.mem_singleton] at hl
    subst hl
    simp [Layer.Fits, wCols]

/-- Non-vacuity: one layer with a `1 × 1` weight and two data in two batches. -/
example : ∃ (layers : List (Layer ℝ)) (M : Mat ℝ) (fs : Dict (Factor ℝ) × Dict (Factor ℝ)),
    fs = kfacFactors ⟨.empirical, .expand, .mse, true, 1, 2, 1, 1, true⟩ [⟨"a", [("weight", 0)], 1, 1, 1⟩]
      [[⟨fun _ _ _ => 1, fun _ _ _ _ _ => 1, fun _ _ _ => 0, fun _ _ _ => 2⟩],
       [⟨fun _ _ _ => 1, fun _ _ _ _ _ => 1, fun _ _ _ => 0, fun _ _ _ => 4⟩]] ∧
    KfacLayers true [[1, 1]] [("a", [("weight", 0)])] fs.1 fs.2 layers ∧
      IsKron (kfacBlocks true [[1, 1]] layers) M ∧ QuadNonneg 1 M ∧ layers.length = 1 := by
  have h := kfacLayers_single ⟨.empirical, .expand, .mse, true, 1, 2, 1, 1, true⟩ ⟨"a", [("weight", 0)], 1, 1, 1⟩
      [[⟨fun _ _ _ => 1, fun _ _ _ _ _ => 1, fun _ _ _ => 0, fun _ _ _ => 2⟩],
       [⟨fun _ _ _ => 1, fun _ _ _ _ _ => 1, fun _ _ _ => 0, fun _ _ _ => 4⟩]] (by simp) (by simp) (by simp) (by simp)
      rfl
  have hM := scatter_isKron _ _ (kfac_tiles _ _ _ _ _ _ h)
  exact ⟨_, _, _, rfl, h, hM, (kfac_psd _ _ _ _ _ _ h _ hM).2, rfl⟩

end Curvlinops
