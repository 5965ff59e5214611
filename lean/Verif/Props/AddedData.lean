import Verif.Props.KfacDampingOrder
import Verif.Props.KfacScaling

/-!
# C117: what happens to the operators if data are added

With reduction `sum`, the GGN and both Fishers can only grow (in the Loewner order); with reduction `mean`, they shrink at most by the
ratio of the numbers of data. KFAC may shrink by this ratio with reduction `sum`, and by its square with reduction `mean`.
-/

namespace Curvlinops

/-- Specification: all quadratic forms of `op'` are at least `c` times those of `op`. -/
def AtLeast (c : ℝ) (op op' : LinOp ℝ) : Prop :=
  ∃ M M', Represents op M ∧ Represents op' M' ∧ LoewnerLe op.nrows (fun r k => c * M r k) M'

theorem loewnerLe_mul (N : Nat) (c : ℝ) (M M' : Mat ℝ) :
    LoewnerLe N (fun r k => c * M r k) M' ↔ ∀ v : Nat → ℝ, c * ∑ r ∈ Finset.range N, v r * ∑ k ∈ Finset.range N, M r k * v k ≤
      ∑ r ∈ Finset.range N, v r * ∑ k ∈ Finset.range N, M' r k * v k := by
  have h : ∀ v : Nat → ℝ, ∑ r ∈ Finset.range N, v r * ∑ k ∈ Finset.range N, c * M r k * v k =
      c * ∑ r ∈ Finset.range N, v r * ∑ k ∈ Finset.range N, M r k * v k := by
    intro v
    rw [Finset.mul_sum]
    refine Finset.sum_congr rfl fun r _ => ?_
    simp only [mul_assoc, ← Finset.mul_sum]
    ring
  unfold LoewnerLe
  simp only [h]

/-- In terms of entries: the diagonal is ordered in the same way. -/
theorem AtLeast.diag {c : ℝ} {op op' : LinOp ℝ} (h : AtLeast c op op') {M M' : Mat ℝ} (hM : Represents op M) (hM' : Represents op' M')
    (hin : op'.inShape = op.inShape) (hout : op'.outShape = op.outShape) (hsq : op.ncols = op.nrows) (r : Nat) (hr : r < op.nrows) :
    c * M r r ≤ M' r r := by
  obtain ⟨E, E', hE, hE', hle⟩ := h
  have hn : op'.nrows = op.nrows := by simp only [LinOp.nrows, LinOp.outFlat, hout]
  have hc : op'.ncols = op.ncols := by simp only [LinOp.ncols, LinOp.inFlat, hin]
  rw [represents_unique op M E hM hE r r hr (by rw [hsq]; exact hr), represents_unique op' M' E' hM' hE' r r (by rw [hn]; exact hr)
    (by rw [hc, hsq]; exact hr)]
  exact hle.diag r hr

/-! ## GGN and Fishers -/

theorem riskMatrix_added {D : Type _} (red : Reduction) (hred : red = .mean ∨ red = .sum) (P : Nat) (a : D → Mat ℝ) (ds es : List D)
    (hpsd : ∀ d ∈ es, QuadNonneg P (a d)) :
    LoewnerLe P (fun r k => (if red = .mean then (ds.length : ℝ) / (ds ++ es).length else 1) * riskMatrix red a ds r k)
      (riskMatrix red a (ds ++ es)) := by
  rw [loewnerLe_mul]
  intro v
  rw [quad_assoc, quad_assoc, quad_riskMatrix, quad_riskMatrix, List.map_append, List.sum_append, mul_add, ← mul_assoc]
  have h1 : 0 ≤ (es.map fun d => ∑ r ∈ Finset.range P, ∑ c ∈ Finset.range P, v r * a d r c * v c).sum := by
    refine List.sum_nonneg fun x hx => ?_
    obtain ⟨d, hd, rfl⟩ := List.mem_map.mp hx
    exact hpsd d hd v
  rcases hred with rfl | rfl
  · simp only [if_true]
    have h2 : 0 ≤ ((ds ++ es).length : ℝ)⁻¹ := by positivity
    rcases ds.eq_nil_or_concat with rfl | ⟨l, x, rfl⟩
    · simp only [List.map_nil, List.sum_nil, mul_zero, zero_add]
      exact mul_nonneg h2 h1
    · have h3 : ((l.concat x).length : ℝ) ≠ 0 := by simp; positivity
      have h4 : ((l.concat x).length : ℝ) / ((l.concat x) ++ es).length * ((l.concat x).length : ℝ)⁻¹ =
          (((l.concat x) ++ es).length : ℝ)⁻¹ := by
        field_simp
      rw [h4]
      exact le_add_of_nonneg_right (mul_nonneg h2 h1)
  · simp only [reduceCtorEq, if_false, one_mul]
    exact le_add_of_nonneg_right h1

/-- C117 for any operator that sums positive semi-definite matrices of the data. -/
theorem curvatureOp_added {D : Type _} (shapes : List (List Nat)) (red : Reduction) (hred : red = .mean ∨ red = .sum) (a : D → Mat ℝ)
    (f : List D → List (Tensor ℝ) → Py (List (Tensor ℝ))) (batches added : List (List D))
    (hf : ∀ b ∈ batches ++ added, BatchRepresents shapes (f b) (batchMatrix red a b)) (hne : ∀ b ∈ batches ++ added, b ≠ [])
    (hpsd : ∀ d ∈ added.flatten, QuadNonneg (total shapes) (a d)) :
    AtLeast (if red = .mean then (batches.flatten.length : ℝ) / (batches ++ added).flatten.length else 1)
      (curvatureOp shapes red (inferNData List.length batches none) List.length f batches)
      (curvatureOp shapes red (inferNData List.length (batches ++ added) none) List.length f (batches ++ added)) := by
  refine ⟨_, _, curvatureOp_batching shapes red hred a f batches (fun b hb => hf b (by simp [hb])) (fun b hb => hne b (by simp [hb]))
    none (Or.inl rfl), curvatureOp_batching shapes red hred a f _ hf hne none (Or.inl rfl), ?_⟩
  rw [List.flatten_append]
  exact riskMatrix_added red hred _ a _ _ hpsd

variable {k : LossKind} {C : Nat}

/-- **C117** (GGN): adding data, its quadratic forms cannot decrease for reduction `sum`; for reduction `mean`, they cannot decrease
when multiplied by the number of data. -/
theorem ggn_added (shapes : List (List Nat)) (hshapes : shapes ≠ []) (mean : Bool) (T : Nat) (batches added : List (List (List (Term k C))))
    (hne : ∀ b ∈ batches ++ added, b ≠ []) (hT : ∀ b ∈ batches ++ added, ∀ d ∈ b, d.length = T) :
    AtLeast (if mean then (batches.flatten.length : ℝ) / (batches ++ added).flatten.length else 1)
      (curvatureOp shapes (redOf mean) (inferNData List.length batches none) List.length
        (fun b => ggnLossBatch shapes mean b.flatten) batches)
      (curvatureOp shapes (redOf mean) (inferNData List.length (batches ++ added) none) List.length
        (fun b => ggnLossBatch shapes mean b.flatten) (batches ++ added)) := by
  have h := curvatureOp_added shapes (redOf mean) (by cases mean <;> simp [redOf]) (datumMatrix mean T lossHessian)
    (fun b => ggnLossBatch shapes mean b.flatten) batches added (ggn_batch shapes hshapes T mean hT) hne
    fun d _ => datumMatrix_psd mean T _ _ lossHessian_psd d
  cases mean
  · simpa only [redOf_false, reduceCtorEq, Bool.false_eq_true, if_false] using h
  · simpa only [redOf_true, if_true] using h

/-- **C117** (empirical Fisher): as for the GGN. -/
theorem ef_added (shapes : List (List Nat)) (hshapes : shapes ≠ []) (mean : Bool) (T : Nat) (batches added : List (List (List (Term k C))))
    (hne : ∀ b ∈ batches ++ added, b ≠ []) (hT : ∀ b ∈ batches ++ added, ∀ d ∈ b, d.length = T) :
    AtLeast (if mean then (batches.flatten.length : ℝ) / (batches ++ added).flatten.length else 1)
      (curvatureOp shapes (redOf mean) (inferNData List.length batches none) List.length
        (fun b => efBatch shapes mean b.flatten) batches)
      (curvatureOp shapes (redOf mean) (inferNData List.length (batches ++ added) none) List.length
        (fun b => efBatch shapes mean b.flatten) (batches ++ added)) := by
  have h := curvatureOp_added shapes (redOf mean) (by cases mean <;> simp [redOf]) (datumMatrix mean T lossGradOuter)
    (fun b => efBatch shapes mean b.flatten) batches added (ef_batch shapes hshapes T mean hT) hne
    fun d _ => datumMatrix_psd mean T _ _ lossGradOuter_psd d
  cases mean
  · simpa only [redOf_false, reduceCtorEq, Bool.false_eq_true, if_false] using h
  · simpa only [redOf_true, if_true] using h

/-- Labels of the first batches do not depend on the batches after them. -/
theorem drawAll_append (rng : Rng k C) (S : Nat) (bs cs : List (List (List (Term k C)))) : ∀ g : rng.G,
    ∃ g', drawAll rng S (bs ++ cs) g = drawAll rng S bs g ++ drawAll rng S cs g' := by
  induction bs with
  | nil => exact fun g => ⟨g, by simp [drawAll]⟩
  | cons b bs ih =>
    intro g
    simp only [List.cons_append, drawAll]
    obtain ⟨g', h⟩ := ih _
    exact ⟨g', by rw [h]⟩

theorem mcMatrix_added {S : Nat} (mean : Bool) {N N' : Nat} (hN : N ≠ 0) (hN' : N' ≠ 0) (T P : Nat)
    (lbs lbs' : List (LabeledBatch k C S)) :
    LoewnerLe P (fun r c => (if mean then (N : ℝ) / N' else 1) * mcMatrix mean N T lbs r c) (mcMatrix mean N' T (lbs ++ lbs')) := by
  rw [loewnerLe_mul]
  intro v
  have e : mcMatrix mean N' T (lbs ++ lbs') = fun r c => (if mean then (N : ℝ) / N' else 1) * mcMatrix mean N T lbs r c +
      mcMatrix mean N' T lbs' r c := by
    funext r c
    unfold mcMatrix
    rw [List.map_append, List.sum_append, mul_add, ← mul_assoc]
    refine congrArg (· + _) (congrArg (· * _) ?_)
    unfold termWeight
    have h1 : (N : ℝ) ≠ 0 := by exact_mod_cast hN
    have h2 : (N' : ℝ) ≠ 0 := by exact_mod_cast hN'
    cases mean
    · simp
    · simp only [if_true, Nat.cast_mul]
      split_ifs <;> field_simp
  have h0 := (mcMatrix_symm_psd mean N' T P lbs').2 v
  have e2 : ∑ r ∈ Finset.range P, v r * ∑ c ∈ Finset.range P, mcMatrix mean N' T (lbs ++ lbs') r c * v c =
      (if mean then (N : ℝ) / N' else 1) * ∑ r ∈ Finset.range P, v r * ∑ c ∈ Finset.range P, mcMatrix mean N T lbs r c * v c +
      ∑ r ∈ Finset.range P, v r * ∑ c ∈ Finset.range P, mcMatrix mean N' T lbs' r c * v c := by
    rw [e, Finset.mul_sum, ← Finset.sum_add_distrib]
    refine Finset.sum_congr rfl fun r _ => ?_
    simp only [add_mul, Finset.sum_add_distrib, mul_assoc, ← Finset.mul_sum]
    ring
  rw [e2]
  rw [← quad_assoc] at h0
  exact le_add_of_nonneg_right h0

/-- **C117** (Monte-Carlo Fisher): as for the GGN, with the same seed and device, if the data are added after the others. -/
theorem mc_added (rng : Rng k C) (cfg : McConfig k C) (added : List (List (List (Term k C)))) (hS : cfg.mcSamples ≠ 0)
    (hsh : cfg.shapes ≠ []) (T : Nat) (hne : ∀ b ∈ cfg.data ++ added, b ≠ []) (hT : ∀ b ∈ cfg.data ++ added, ∀ d ∈ b, d.length = T)
    (hbin : ∀ b ∈ cfg.data ++ added, BinaryTargets k b.flatten) (hN : cfg.nData ≠ 0) {N' : Nat} (hN' : N' ≠ 0) (st st' : McState rng)
    (hdev : st.genDevice = st'.genDevice) :
    AtLeast (if cfg.mean then (cfg.nData : ℝ) / N' else 1) (mcOp rng cfg st)
      (mcOp rng { cfg with data := cfg.data ++ added, nData := N' } st') := by
  refine ⟨_, _, mcOp_draws rng cfg hS hsh T (fun b hb => hne b (by simp [hb])) (fun b hb => hT b (by simp [hb]))
    (fun b hb => hbin b (by simp [hb])) (Or.inl hN) st,
    mcOp_draws rng { cfg with data := cfg.data ++ added, nData := N' } hS hsh T hne hT hbin (Or.inl hN') st', ?_⟩
  obtain ⟨g', h⟩ := drawAll_append rng cfg.mcSamples cfg.data added (rng.seed st.genDevice cfg.seed)
  simp only [← hdev]
  rw [h]
  exact mcMatrix_added cfg.mean hN hN' T _ _ _

/-! ## KFAC -/

theorem isGram_mul {n : Nat} {F : Mat ℝ} (h : IsGram n F) {c : ℝ} (hc : 0 ≤ c) : IsGram n fun i j => c * F i j := by
  obtain ⟨rows, hr⟩ := h
  refine ⟨rows.map fun r i => Real.sqrt c * r i, fun i hi j hj => ?_⟩
  dsimp only
  rw [hr i hi j hj, List.map_map, ← List.sum_map_mul_left]
  refine congrArg List.sum (List.map_congr_left fun r _ => ?_)
  simp only [Function.comp_apply]
  calc c * (r i * r j) = (Real.sqrt c * Real.sqrt c) * (r i * r j) := by rw [Real.mul_self_sqrt hc]
    _ = _ := by ring

theorem isGram_sum {τ : Type _} (n : Nat) (ts : List τ) (F : τ → Mat ℝ) (h : ∀ t ∈ ts, IsGram n (F t)) :
    IsGram n fun i j => (ts.map fun t => F t i j).sum := by
  induction ts with
  | nil => exact ⟨[], by simp⟩
  | cons t ts ih =>
    simp only [List.map_cons, List.sum_cons]
    exact (h t (by simp)).add (ih fun s hs => h s (by simp [hs]))

theorem isGram_finset_sum (n S : Nat) (r : Nat → Nat → ℝ) : IsGram n fun i j => ∑ s ∈ Finset.range S, r s i * r s j :=
  ⟨(List.range S).map r, fun i _ j _ => by
    dsimp only
    rw [List.map_map, ← sum_range_list]
    rfl⟩

theorem isGram_outer (n : Nat) (r : Nat → ℝ) : IsGram n fun i j => r i * r j := ⟨[r], by simp⟩

/-- The input factor of the data is a sum of outer products. -/
theorem specInputFactor_gram (cfg : KfacCfg) (l : KLayer) (data : List KDatum) (n : Nat) : IsGram n (specInputFactor cfg l data) := by
  unfold specInputFactor
  cases cfg.approx
  · exact isGram_mul (isGram_sum n data _ fun d _ => isGram_finset_sum n l.S (specInputVec cfg l d)) (by positivity)
  · exact isGram_mul (isGram_sum n data _ fun d _ => isGram_outer n (specMeanInput cfg l d)) (by positivity)

theorem gradSum_gram (cfg : KfacCfg) (l : KLayer) (data : List KDatum) (n : Nat) : IsGram n (gradSum cfg l data) := by
  unfold gradSum
  cases cfg.approx
  · exact isGram_sum n data _ fun d _ => isGram_sum n (specCotangents cfg d) _ fun v _ => isGram_finset_sum n l.S (specGradVec cfg l d v)
  · exact isGram_sum n data _ fun d _ => isGram_sum n (specCotangents cfg d) _ fun v _ =>
      isGram_outer n fun i => ∑ s ∈ Finset.range l.S, specGradVec cfg l d v s i

theorem specGradScale_nonneg (cfg : KfacCfg) : 0 ≤ specGradScale cfg := by
  unfold specGradScale
  split_ifs <;> positivity

theorem specGradFactor_gram (cfg : KfacCfg) (l : KLayer) (data : List KDatum) (n : Nat) : IsGram n (specGradFactor cfg l data) := by
  by_cases hf : cfg.fisher = .forwardOnly
  · have : specGradFactor cfg l data = fun i j => if i = j then 1 else 0 := by
      funext i j
      simp [specGradFactor, hf]
    rw [this]
    exact isGram_one n
  · have : specGradFactor cfg l data = fun i j => specGradScale cfg * gradSum cfg l data i j := by
      funext i j
      exact specGradFactor_eq hf l data i j
    rw [this]
    exact isGram_mul (gradSum_gram cfg l data n) (specGradScale_nonneg cfg)

variable {shapes : List (List Nat)} {layers : List PLayer} {cfg : KfacCfg}

/-- The input factor after adding data. -/
theorem specInputFactor_added {N' : Nat} (hN : cfg.N ≠ 0) (hN' : N' ≠ 0) (l : KLayer) (data added : List KDatum) (i j : Nat) :
    specInputFactor { cfg with N := N' } l (data ++ added) i j =
      (cfg.N : ℝ) / N' * specInputFactor cfg l data i j + specInputFactor { cfg with N := N' } l added i j := by
  rw [← (factors_num_data (cfg := cfg) hN hN' l data i j).1]
  unfold specInputFactor
  cases cfg.approx
  · simp only [List.map_append, List.sum_append, mul_add]
  · simp only [List.map_append, List.sum_append, mul_add]

/-- The gradient factor after adding data. -/
theorem specGradFactor_added {N' : Nat} (hN : cfg.N ≠ 0) (hN' : N' ≠ 0) (hf : cfg.fisher ≠ .forwardOnly) (l : KLayer)
    (data added : List KDatum) (i j : Nat) :
    specGradFactor { cfg with N := N' } l (data ++ added) i j =
      (if cfg.mean then (cfg.N : ℝ) / N' else 1) * specGradFactor cfg l data i j + specGradFactor { cfg with N := N' } l added i j := by
  have h := (factors_num_data (cfg := cfg) hN hN' l data i j).2
  simp only [hf, ne_eq, not_false_eq_true, and_true] at h
  rw [← h, specGradFactor_eq (cfg := { cfg with N := N' }) hf, specGradFactor_eq (cfg := { cfg with N := N' }) hf,
    specGradFactor_eq (cfg := { cfg with N := N' }) hf, ← mul_add]
  refine congrArg (specGradScale _ * ·) ?_
  unfold gradSum
  cases cfg.approx
  · simp only [List.map_append, List.sum_append]
  · simp only [List.map_append, List.sum_append]

/-- `(g B + S) ⊗ (a A + R) ≽ a g (B ⊗ A)`. -/
theorem KBlock.quad_added (b : KBlock ℝ) (R S : Mat ℝ) (hA : IsGram b.cols b.A) (hB : IsGram b.rows b.B) (hR : IsGram b.cols R)
    (hS : IsGram b.rows S) {a g : ℝ} (ha : 0 ≤ a) (hg : 0 ≤ g) (v : Nat → ℝ) :
    a * g * b.quad v ≤ { b with A := fun i j => a * b.A i j + R i j, B := fun i j => g * b.B i j + S i j }.quad v := by
  have e1 := KBlock.quad_addB { b with A := fun i j => a * b.A i j + R i j, B := fun i j => g * b.B i j } S v
  have e2 := KBlock.quad_addA { b with A := fun i j => a * b.A i j, B := fun i j => g * b.B i j } R v
  have p1 : 0 ≤ { b with A := fun i j => a * b.A i j + R i j, B := S }.quad v :=
    block_quad_nonneg { b with A := fun i j => a * b.A i j + R i j, B := S } ((isGram_mul hA ha).add hR) hS v
  have p2 : 0 ≤ { b with A := R, B := fun i j => g * b.B i j }.quad v :=
    block_quad_nonneg { b with A := R, B := fun i j => g * b.B i j } hR (isGram_mul hB hg) v
  have e3 : { b with A := fun i j => a * b.A i j, B := fun i j => g * b.B i j }.quad v = a * g * b.quad v := by
    unfold KBlock.quad
    simp only [Finset.mul_sum]
    refine Finset.sum_congr rfl fun i _ => Finset.sum_congr rfl fun j _ => Finset.sum_congr rfl fun i' _ =>
      Finset.sum_congr rfl fun j' _ => by ring
  simp only at e1 e2
  rw [e1, e2, e3]
  linarith

/-- Factors of layers that are at least `a` and `g` times those of others. -/
theorem layer_quad_added {sep : Bool} {l l' : Layer ℝ} (hpos : l'.pos = l.pos) (hdA : l'.A.dim = l.A.dim) (hdB : l'.B.dim = l.B.dim)
    {a g c : ℝ} (ha : 0 ≤ a) (hg : 0 ≤ g) (hc : c ≤ a * g) (hcg : c ≤ g) (R S : Mat ℝ)
    (hA' : l'.A.mat = fun i j => a * l.A.mat i j + R i j) (hB' : l'.B.mat = fun i j => g * l.B.mat i j + S i j)
    (hA : ∀ n, IsGram n l.A.mat) (hB : ∀ n, IsGram n l.B.mat) (hR : ∀ n, IsGram n R) (hS : ∀ n, IsGram n S) (v : Nat → ℝ) :
    c * ((l.blocks sep shapes).map fun b => b.quad v).sum ≤ ((l'.blocks sep shapes).map fun b => b.quad v).sum := by
  obtain ⟨n, pos, ⟨dA, mA⟩, ⟨dB, mB⟩⟩ := l
  obtain ⟨n', pos', ⟨dA', mA'⟩, ⟨dB', mB'⟩⟩ := l'
  simp only at hpos hdA hdB hA' hB' hA hB
  subst hpos hdA hdB hA' hB'
  have nn : ∀ b : KBlock ℝ, IsGram b.cols b.A → IsGram b.rows b.B → 0 ≤ b.quad v := fun b h h' => block_quad_nonneg b h h' v
  have hbias : ∀ p, c * ((⟨n, pos', ⟨dA', mA⟩, ⟨dB', mB⟩⟩ : Layer ℝ).bBlock shapes p).quad v ≤
      ((⟨n', pos', ⟨dA', fun i j => a * mA i j + R i j⟩, ⟨dB', fun i j => g * mB i j + S i j⟩⟩ : Layer ℝ).bBlock shapes p).quad v := by
    intro p
    have h := KBlock.quad_added ((⟨n, pos', ⟨dA', mA⟩, ⟨dB', mB⟩⟩ : Layer ℝ).bBlock shapes p) (fun _ _ => 0) S
      (isGram_const_one _) (hB _) ⟨[], by simp⟩ (hS _) (a := 1) zero_le_one hg v
    have h0 := nn ((⟨n, pos', ⟨dA', mA⟩, ⟨dB', mB⟩⟩ : Layer ℝ).bBlock shapes p) (isGram_const_one _) (hB _)
    have h1 := mul_le_mul_of_nonneg_right hcg h0
    rw [one_mul] at h
    refine (h1.trans h).trans_eq ?_
    simp only [Layer.bBlock, mul_one, add_zero]
  have hweight : ∀ p, c * ((⟨n, pos', ⟨dA', mA⟩, ⟨dB', mB⟩⟩ : Layer ℝ).wBlock shapes p).quad v ≤
      ((⟨n', pos', ⟨dA', fun i j => a * mA i j + R i j⟩, ⟨dB', fun i j => g * mB i j + S i j⟩⟩ : Layer ℝ).wBlock shapes p).quad v := by
    intro p
    have h := KBlock.quad_added ((⟨n, pos', ⟨dA', mA⟩, ⟨dB', mB⟩⟩ : Layer ℝ).wBlock shapes p) R S (hA _) (hB _) (hR _) (hS _) ha hg v
    have h0 := nn ((⟨n, pos', ⟨dA', mA⟩, ⟨dB', mB⟩⟩ : Layer ℝ).wBlock shapes p) (hA _) (hB _)
    exact (mul_le_mul_of_nonneg_right hc h0).trans h
  have hjoint : ∀ p q, c * ((⟨n, pos', ⟨dA', mA⟩, ⟨dB', mB⟩⟩ : Layer ℝ).jBlock shapes p q).quad v ≤
      ((⟨n', pos', ⟨dA', fun i j => a * mA i j + R i j⟩, ⟨dB', fun i j => g * mB i j + S i j⟩⟩ : Layer ℝ).jBlock shapes p q).quad v := by
    intro p q
    have h := KBlock.quad_added ((⟨n, pos', ⟨dA', mA⟩, ⟨dB', mB⟩⟩ : Layer ℝ).jBlock shapes p q) R S (hA _) (hB _) (hR _) (hS _) ha hg v
    have h0 := nn ((⟨n, pos', ⟨dA', mA⟩, ⟨dB', mB⟩⟩ : Layer ℝ).jBlock shapes p q) (hA _) (hB _)
    exact (mul_le_mul_of_nonneg_right hc h0).trans h
  unfold Layer.blocks
  cases pos' with
  | both w b =>
    cases sep with
    | true =>
      simp only [if_true, List.map_cons, List.map_nil, List.sum_cons, List.sum_nil, add_zero, mul_add]
      exact add_le_add (hweight w) (hbias b)
    | false => simpa using hjoint w b
  | weight w => simpa using hweight w
  | bias b => simpa using hbias b

/-- **C117** (KFAC): adding data (and passing their new number `N'` as `num_data`), its quadratic forms decrease at most by the factor
`N / N'` for reduction `sum` and for `FORWARD_ONLY`, and `(N / N')²` for reduction `mean`. -/
theorem kfac_added (hnet : PNet shapes layers) (batches added : List (List KDatum)) (hne : batches ≠ []) (hT : cfg.T ≠ 0)
    (hC : cfg.C ≠ 0) (hmc : cfg.mcSamples ≠ 0) (hN : cfg.N ≠ 0) {N' : Nat} (hle : cfg.N ≤ N') :
    AtLeast (if cfg.mean = true ∧ cfg.fisher ≠ .forwardOnly then ((cfg.N : ℝ) / N') ^ 2 else (cfg.N : ℝ) / N')
      (pKfac cfg shapes layers batches) (pKfac { cfg with N := N' } shapes layers (batches ++ added)) := by
  have hN' : N' ≠ 0 := by omega
  have hkl := pnet_kfacLayers hnet batches hne hT hC hmc
  have hkl' := pnet_kfacLayers (cfg := { cfg with N := N' }) hnet (batches ++ added) (by simp [hne]) hT hC hmc
  obtain ⟨⟨M, hM⟩, -⟩ := kfac_matrix_exists _ _ _ _ _ _ hkl
  obtain ⟨⟨M', hM'⟩, -⟩ := kfac_matrix_exists _ _ _ _ _ _ hkl'
  refine ⟨M, M', kfac_represents _ _ _ _ _ _ hkl M hM, kfac_represents _ _ _ _ _ _ hkl' M' hM', ?_⟩
  rw [loewnerLe_mul]
  intro v
  have e1 := kron_quad _ _ (kfac_tiles _ _ _ _ _ _ hkl) M hM v
  have e2 := kron_quad _ _ (kfac_tiles _ _ _ _ _ _ hkl') M' hM' v
  refine le_trans (le_of_eq (congrArg (_ * ·) e1)) (le_trans ?_ (le_of_eq e2.symm))
  have hr0 : 0 ≤ (cfg.N : ℝ) / N' := by positivity
  have hr1 : (cfg.N : ℝ) / N' ≤ 1 := by
    rw [div_le_one (by positivity)]
    exact_mod_cast hle
  have hlayer : ∀ l : PLayer, (if cfg.mean = true ∧ cfg.fisher ≠ .forwardOnly then ((cfg.N : ℝ) / N') ^ 2 else (cfg.N : ℝ) / N') *
      (((l.layer cfg batches.flatten).blocks cfg.sep shapes).map fun b => b.quad v).sum ≤
      (((l.layer { cfg with N := N' } (batches ++ added).flatten).blocks cfg.sep shapes).map fun b => b.quad v).sum := by
    intro l
    have hA : (l.layer { cfg with N := N' } (batches ++ added).flatten).A.mat = fun i j => (cfg.N : ℝ) / N' *
        (l.layer cfg batches.flatten).A.mat i j + specInputFactor { cfg with N := N' } l.klayer added.flatten i j := by
      funext i j
      rw [List.flatten_append]
      exact specInputFactor_added hN hN' l.klayer _ _ i j
    by_cases hf : cfg.fisher = .forwardOnly
    · have hB : (l.layer { cfg with N := N' } (batches ++ added).flatten).B.mat = fun i j => 1 *
          (l.layer cfg batches.flatten).B.mat i j + (fun _ _ => (0 : ℝ)) i j := by
        funext i j
        change specGradFactor _ _ _ i j = 1 * specGradFactor _ _ _ i j + 0
        simp [specGradFactor, hf]
      exact layer_quad_added (a := (cfg.N : ℝ) / N') (g := 1)
        (c := if cfg.mean = true ∧ cfg.fisher ≠ .forwardOnly then ((cfg.N : ℝ) / N') ^ 2 else (cfg.N : ℝ) / N')
        (l := l.layer cfg batches.flatten) (l' := l.layer { cfg with N := N' } (batches ++ added).flatten) rfl rfl rfl hr0 zero_le_one (by simp [hf]) (by simpa [hf] using hr1) _
        (fun _ _ => 0) hA hB
        (specInputFactor_gram _ _ _) (specGradFactor_gram _ _ _) (specInputFactor_gram _ _ _) (fun n => ⟨[], by simp⟩) v
    · have hB : (l.layer { cfg with N := N' } (batches ++ added).flatten).B.mat = fun i j =>
          (if cfg.mean then (cfg.N : ℝ) / N' else 1) * (l.layer cfg batches.flatten).B.mat i j +
            specGradFactor { cfg with N := N' } l.klayer added.flatten i j := by
        funext i j
        rw [List.flatten_append]
        exact specGradFactor_added hN hN' hf l.klayer _ _ i j
      refine layer_quad_added (a := (cfg.N : ℝ) / N') (g := if cfg.mean then (cfg.N : ℝ) / N' else 1)
        (l := l.layer cfg batches.flatten) (l' := l.layer { cfg with N := N' } (batches ++ added).flatten)
        (R := specInputFactor { cfg with N := N' } l.klayer added.flatten)
        (S := specGradFactor { cfg with N := N' } l.klayer added.flatten) rfl rfl rfl hr0
        (by split_ifs <;> positivity) ?_ ?_ hA hB
        (specInputFactor_gram _ _ _) (specGradFactor_gram _ _ _) (specInputFactor_gram _ _ _) (specGradFactor_gram _ _ _) v
      · cases cfg.mean <;> simp [hf, sq]
      · cases cfg.mean
        · simpa [hf] using hr1
        · simp only [ne_eq, hf, not_false_eq_true, and_true, if_true]
          rw [sq]
          exact mul_le_of_le_one_left hr0 hr1
  unfold kfacBlocks
  clear e1 e2 hM hM' hkl hkl' hnet
  induction layers with
  | nil => simp
  | cons l ls ih =>
    simp only [List.map_cons, List.flatMap_cons, List.map_append, List.sum_append, mul_add]
    exact add_le_add (hlayer l) ih

/-- **C117** (KFAC): these factors occur. If all inputs of layers and all derivatives of the predictions vanish on the added data, and
no bias is treated jointly with its weight, KFAC is multiplied by `N / N'` (reduction `sum`, `FORWARD_ONLY`) or `(N / N')²` (`mean`);
blocks of biases have one factor less. -/
theorem kfac_added_zero (hnet : PNet shapes layers) (batches added : List (List KDatum)) (hne : batches ≠ []) (hT : cfg.T ≠ 0)
    (hC : cfg.C ≠ 0) (hmc : cfg.mcSamples ≠ 0) (hN : cfg.N ≠ 0) {N' : Nat} (hN' : N' ≠ 0)
    (hx : ∀ d ∈ added.flatten, ∀ n s i, d.x n s i = 0) (hJ : ∀ d ∈ added.flatten, ∀ n s o t c, d.jac n s o t c = 0)
    (hj : ∀ l ∈ layers, l.klayer.joint cfg = false) (w : Nat → ℝ)
    (hw : ∀ l ∈ layers, ∀ o i p, l.Coord shapes o i p →
      (l.sepBias cfg i → w p = if cfg.mean = true ∧ cfg.fisher ≠ .forwardOnly then (cfg.N : ℝ) / N' else 1) ∧
      (¬ l.sepBias cfg i → w p = if cfg.mean = true ∧ cfg.fisher ≠ .forwardOnly then ((cfg.N : ℝ) / N') ^ 2 else
        (cfg.N : ℝ) / N')) :
    IsRowScaled w (pKfac cfg shapes layers batches) (pKfac { cfg with N := N' } shapes layers (batches ++ added)) := by
  refine kfac_scaled (cfg := cfg) (cfg' := { cfg with N := N' }) hnet rfl batches (batches ++ added) hne (by simp [hne]) hT hC hmc hT
    hC hmc ((cfg.N : ℝ) / N') (if cfg.mean = true ∧ cfg.fisher ≠ .forwardOnly then (cfg.N : ℝ) / N' else 1)
    (fun l hl i j => ?_) (fun l hl i j => ?_) w fun l hl o i p hc => ⟨(hw l hl o i p hc).1, fun h => ?_⟩
  · rw [List.flatten_append, specInputFactor_added hN hN']
    refine add_eq_left.mpr ?_
    have hj' : ∀ cfg' : KfacCfg, cfg'.sep = cfg.sep → l.klayer.joint cfg' = false := by
      intro cfg' h
      have := hj l hl
      unfold KLayer.joint at this ⊢
      rw [h, this]
    unfold specInputFactor
    cases cfg.approx
    · refine mul_eq_zero_of_right _ (List.sum_eq_zero fun y hy => ?_)
      obtain ⟨d, hd, rfl⟩ := List.mem_map.mp hy
      exact Finset.sum_eq_zero fun s _ => by simp [specInputVec, hj', hx d hd]
    · refine mul_eq_zero_of_right _ (List.sum_eq_zero fun y hy => ?_)
      obtain ⟨d, hd, rfl⟩ := List.mem_map.mp hy
      simp [specMeanInput, hj', hx d hd]
  · by_cases hf : cfg.fisher = .forwardOnly
    · simp [specGradFactor, hf]
    · rw [List.flatten_append, specGradFactor_added hN hN' hf]
      simp only [hf, ne_eq, not_false_eq_true, and_true]
      refine add_eq_left.mpr ?_
      rw [specGradFactor_eq (cfg := { cfg with N := N' }) hf]
      have h0 : ∀ cfg' : KfacCfg, ∀ d ∈ added.flatten, ∀ v s o, specGradVec cfg' l.klayer d v s o = 0 := by
        intro cfg' d hd v s o
        simp [specGradVec, hJ d hd]
      refine mul_eq_zero_of_right _ ?_
      unfold gradSum
      cases cfg.approx
      · refine List.sum_eq_zero fun y hy => ?_
        obtain ⟨d, hd, rfl⟩ := List.mem_map.mp hy
        refine List.sum_eq_zero fun z hz => ?_
        obtain ⟨v, -, rfl⟩ := List.mem_map.mp hz
        exact Finset.sum_eq_zero fun s _ => by rw [h0 _ d hd, zero_mul]
      · refine List.sum_eq_zero fun y hy => ?_
        obtain ⟨d, hd, rfl⟩ := List.mem_map.mp hy
        refine List.sum_eq_zero fun z hz => ?_
        obtain ⟨v, -, rfl⟩ := List.mem_map.mp hz
        rw [Finset.sum_eq_zero fun s _ => h0 _ d hd v s i, zero_mul]
  · rw [(hw l hl o i p hc).2 h]
    split_ifs <;> ring

/-! ## Witness and examples -/

/-- One layer with a `1 × 1` weight and no bias. -/
def tinyLayers : List PLayer := [⟨"fc", .weight 0, 1, 1, 1⟩]

theorem tinyLayers_net : PNet [[1, 1]] tinyLayers := by
  refine ⟨?_, by simp [tinyLayers], by simp [tinyLayers, LayerPos.positions, List.range, List.range.loop]⟩
  intro l hl
  simp only [tinyLayers, List.mem_singleton] at hl
  subst hl
  simp [PLayer.Fits, wCols]

/-- A datum with zero input and zero derivatives. -/
noncomputable def zeroDatum : KDatum := ⟨fun _ _ _ => 0, fun _ _ _ _ _ => 0, fun _ _ _ => 0, fun _ _ _ => 0⟩

/-- Adding it to one datum halves KFAC with reduction `sum`. -/
theorem tiny_halved (fisher : FisherType) (approx : KfacApprox) :
    IsRowScaled (fun _ => 1 / 2) (pKfac ⟨fisher, approx, .mse, false, 1, 1, 1, 1, true⟩ [[1, 1]] tinyLayers [[selDatum]])
      (pKfac ⟨fisher, approx, .mse, false, 1, 2, 1, 1, true⟩ [[1, 1]] tinyLayers [[selDatum], [zeroDatum]]) := by
  refine kfac_added_zero (cfg := ⟨fisher, approx, .mse, false, 1, 1, 1, 1, true⟩) tinyLayers_net [[selDatum]] [[zeroDatum]] (by simp)
    (by simp) (by simp) (by simp) (by simp) (N' := 2) (by simp) (by simp [zeroDatum]) (by simp [zeroDatum])
    (by simp [KLayer.joint]) _ fun l hl o i p hc => ⟨fun h => ?_, fun _ => by simp⟩
  simp only [tinyLayers, List.mem_singleton] at hl
  subst hl
  have h1 := hc.2.1
  have h2 := h.1
  simp only at h1 h2
  omega

/-- The only entry of KFAC's matrix in the example. -/
theorem tiny_entry (fisher : FisherType) (approx : KfacApprox) (M : Mat ℝ)
    (hM : Represents (pKfac ⟨fisher, approx, .mse, false, 1, 1, 1, 1, true⟩ [[1, 1]] tinyLayers [[selDatum]]) M) : 0 < M 0 0 := by
  have hkl := pnet_kfacLayers (cfg := ⟨fisher, approx, .mse, false, 1, 1, 1, 1, true⟩) tinyLayers_net [[selDatum]] (by simp)
    (by simp) (by simp) (by simp)
  obtain ⟨⟨E, hE⟩, -⟩ := kfac_matrix_exists _ _ _ _ _ _ hkl
  rw [represents_unique _ M E hM (kfac_represents _ _ _ _ _ _ hkl E hE) 0 0 Nat.one_pos Nat.one_pos]
  have key := hE ⟨⟨0, by simp [kfacBlocks, tinyLayers, PLayer.layer, Layer.blocks]⟩, ⟨0, Nat.one_pos⟩, ⟨0, Nat.one_pos⟩⟩
    ⟨⟨0, by simp [kfacBlocks, tinyLayers, PLayer.layer, Layer.blocks]⟩, ⟨0, Nat.one_pos⟩, ⟨0, Nat.one_pos⟩⟩
  have hp : E 0 0 = specGradFactor ⟨fisher, approx, .mse, false, 1, 1, 1, 1, true⟩ ⟨"fc", [("weight", 0)], 1, 1, 1⟩ [selDatum] 0 0 *
      specInputFactor ⟨fisher, approx, .mse, false, 1, 1, 1, 1, true⟩ ⟨"fc", [("weight", 0)], 1, 1, 1⟩ [selDatum] 0 0 := key
  rw [hp]
  refine mul_pos ?_ ?_
  · cases fisher <;> cases approx <;>
      simp [specGradFactor, specGradScale, specCotangents, specGradVec, selDatum, List.range_succ]
  · cases approx <;> simp [specInputFactor, specInputVec, specMeanInput, KLayer.joint, selDatum]

/-- **C117** is false for KFAC with factor `1`, also with reduction `sum`, for all Fisher types and both approximations: adding a datum
may decrease quadratic forms. -/
theorem kfac_added_witness (fisher : FisherType) (approx : KfacApprox) :
    ¬ AtLeast 1 (pKfac ⟨fisher, approx, .mse, false, 1, 1, 1, 1, true⟩ [[1, 1]] tinyLayers [[selDatum]])
      (pKfac ⟨fisher, approx, .mse, false, 1, 2, 1, 1, true⟩ [[1, 1]] tinyLayers [[selDatum], [zeroDatum]]) := by
  intro h
  obtain ⟨M, M', hM, hM', -⟩ := id h
  have hle := h.diag hM hM' rfl rfl rfl 0 Nat.one_pos
  have hpos := tiny_entry fisher approx M hM
  have hs : M' 0 0 = 1 / 2 * M 0 0 := by
    have hX : HasShapes [(⟨[1, 1, 1], [1]⟩ : Tensor ℝ)] [[1, 1]] 1 := ⟨rfl, by simp [Tensor.WF]⟩
    obtain ⟨Y, Y', y1, y1', -, -, h2⟩ := tiny_halved fisher approx 1 _ hX
    obtain ⟨Z, z1, -, z3⟩ := hM 1 _ hX
    obtain ⟨Z', z1', -, z3'⟩ := hM' 1 _ hX
    rw [y1] at z1
    rw [y1'] at z1'
    cases z1
    cases z1'
    have a1 := z3.2 0 Nat.one_pos 0 Nat.one_pos
    have a2 := z3'.2 0 Nat.one_pos 0 Nat.one_pos
    have a3 := h2 0 Nat.one_pos 0 Nat.one_pos
    rw [a1, a2] at a3
    have hn : ∀ F : Mat ℝ, ∑ j ∈ Finset.range 1, F 0 j * (flatData [(⟨[1, 1, 1], [1]⟩ : Tensor ℝ)]).getD (j * 1 + 0) 0 = F 0 0 := by
      intro F
      simp [flatData]
    exact ((hn M').symm.trans a3).trans (congrArg (1 / 2 * ·) (hn M))
  rw [hs] at hle
  linarith

example : AtLeast (2 / 3) (curvatureOp [[2], [1, 1]] .mean (inferNData List.length (ceData.take 1) none) List.length
      (fun b => ggnLossBatch [[2], [1, 1]] true b.flatten) (ceData.take 1))
    (curvatureOp [[2], [1, 1]] .mean (inferNData List.length ceData none) List.length
      (fun b => ggnLossBatch [[2], [1, 1]] true b.flatten) ceData) := by
  have h := ggn_added [[2], [1, 1]] (by simp) true 1 (ceData.take 1) (ceData.drop 1) (by simp [ceData]) (by simp [ceData])
  rw [List.take_append_drop, redOf_true] at h
  have e : (if true = true then ((ceData.take 1).flatten.length : ℝ) / ceData.flatten.length else 1) = 2 / 3 := by
    simp [ceData]
  rw [e] at h
  exact h

example : AtLeast 1 (curvatureOp [[2], [1, 1]] .sum (inferNData List.length (ceData.take 1) none) List.length
      (fun b => efBatch [[2], [1, 1]] false b.flatten) (ceData.take 1))
    (curvatureOp [[2], [1, 1]] .sum (inferNData List.length ceData none) List.length
      (fun b => efBatch [[2], [1, 1]] false b.flatten) ceData) := by
  have h := ef_added [[2], [1, 1]] (by simp) false 1 (ceData.take 1) (ceData.drop 1) (by simp [ceData]) (by simp [ceData])
  rw [List.take_append_drop, redOf_false] at h
  simpa only [Bool.false_eq_true, if_false] using h

/-- Three data instead of one, weight and bias: KFAC with reduction `mean` is at least `1 / 9` of what it was. -/
example (fisher : FisherType) (hf : fisher ≠ .forwardOnly) (sep : Bool) :
    AtLeast (1 / 9) (pKfac ⟨fisher, .expand, .bce, true, 1, 1, 1, 1, sep⟩ [[1, 1], [1]] oneLayer [[selDatum]])
      (pKfac ⟨fisher, .expand, .bce, true, 1, 3, 1, 1, sep⟩ [[1, 1], [1]] oneLayer [[selDatum], [zeroDatum, selDatum]]) := by
  have h := kfac_added (cfg := ⟨fisher, .expand, .bce, true, 1, 1, 1, 1, sep⟩) oneLayer_net [[selDatum]] [[zeroDatum, selDatum]]
    (by simp) (by simp) (by simp) (by simp) (by simp) (N' := 3) (by simp)
  simp only [ne_eq, hf, not_false_eq_true, and_self, if_true] at h
  have e : (((1 : Nat) : ℝ) / (3 : Nat)) ^ 2 = 1 / 9 := by norm_num
  rw [e] at h
  exact h

end Curvlinops
