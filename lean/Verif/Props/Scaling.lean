import Verif.Props.Selection

/-!
# C88: how operators depend on the reduction, on `num_data`, and on the data set
-/

namespace Curvlinops

section generic

variable {α : Type _}

/-- All products of `op'` are those of `op` times `c`. -/
def IsScaled [Mul α] (c : α) (op op' : LinOp α) : Prop :=
  ∀ K M, HasShapes M op.inShape K → ∃ Y, (op.matmat M).1 = .ok Y ∧ HasShapes Y op.outShape K ∧
    (op'.matmat M).1 = .ok (Y.map fun t => ⟨t.shape, t.data.map (c * ·)⟩)

/-- All products of `op` are the products of `op₁` times `c₁` plus those of `op₂` times `c₂`. -/
def IsCombination [Zero α] [Add α] [Mul α] (c₁ : α) (op₁ : LinOp α) (c₂ : α) (op₂ op : LinOp α) : Prop :=
  ∀ K M, HasShapes M op.inShape K → ∃ Y Y₁ Y₂, (op.matmat M).1 = .ok Y ∧ (op₁.matmat M).1 = .ok Y₁ ∧ (op₂.matmat M).1 = .ok Y₂ ∧
    HasShapes Y op.outShape K ∧ HasShapes Y₁ op.outShape K ∧ HasShapes Y₂ op.outShape K ∧
    ∀ i, (flatData Y).getD i 0 = c₁ * (flatData Y₁).getD i 0 + c₂ * (flatData Y₂).getD i 0

theorem hasShapes_mul [Mul α] {Y : List (Tensor α)} {shapes : List (List Nat)} {K : Nat} (hY : HasShapes Y shapes K) (c : α) :
    HasShapes (Y.map fun t => (⟨t.shape, t.data.map (c * ·)⟩ : Tensor α)) shapes K := by
  refine ⟨?_, ?_⟩
  · rw [List.map_map, ← hY.1]; rfl
  · intro t ht
    obtain ⟨u, hu, rfl⟩ := List.mem_map.mp ht
    simpa [Tensor.WF] using hY.2 u hu

theorem isScaled_of_represents [CommSemiring α] {c : α} {op op' : LinOp α} {A A' : Mat α} (hin : op'.inShape = op.inShape)
    (hout : op'.outShape = op.outShape) (h : Represents op A) (h' : Represents op' A')
    (hA : ∀ r < op.nrows, ∀ j < op.ncols, A' r j = c * A r j) : IsScaled c op op' := by
  intro K M hM
  obtain ⟨Y, y1, y2, y3⟩ := h K M hM
  obtain ⟨Z, z1, z2, z3⟩ := h' K M (hin ▸ hM)
  refine ⟨Y, y1, y2, ?_⟩
  rw [z1]
  congr 1
  rw [hout] at z2
  have hn : op'.nrows = op.nrows := by simp only [LinOp.nrows, LinOp.outFlat, hout]
  have hc : op'.ncols = op.ncols := by simp only [LinOp.ncols, LinOp.inFlat, hin]
  rw [hn, hc] at z3
  refine hasShapes_ext z2 (hasShapes_mul y2 c) (isProduct_unique z3 ⟨?_, fun r hr k hk => ?_⟩)
  · exact (hasShapes_mul y2 c).flatData_length
  · have := flat_scale Y c (r * K + k)
    unfold Tensor.scale at this
    rw [this, y3.2 r hr k hk, Finset.mul_sum]
    exact Finset.sum_congr rfl fun j hj => by rw [hA r hr j (Finset.mem_range.mp hj), mul_assoc]

theorem isCombination_of_represents [CommSemiring α] {c₁ c₂ : α} {op₁ op₂ op : LinOp α} {A₁ A₂ A : Mat α}
    (hin₁ : op₁.inShape = op.inShape) (hout₁ : op₁.outShape = op.outShape) (hin₂ : op₂.inShape = op.inShape)
    (hout₂ : op₂.outShape = op.outShape) (h₁ : Represents op₁ A₁) (h₂ : Represents op₂ A₂) (h : Represents op A)
    (hA : ∀ r < op.nrows, ∀ j < op.ncols, A r j = c₁ * A₁ r j + c₂ * A₂ r j) : IsCombination c₁ op₁ c₂ op₂ op := by
  intro K M hM
  obtain ⟨Y, y1, y2, y3⟩ := h K M hM
  obtain ⟨Y₁, z1, z2, z3⟩ := h₁ K M (hin₁ ▸ hM)
  obtain ⟨Y₂, w1, w2, w3⟩ := h₂ K M (hin₂ ▸ hM)
  rw [hout₁] at z2
  rw [hout₂] at w2
  have hn : op₁.nrows = op.nrows := by simp only [LinOp.nrows, LinOp.outFlat, hout₁]
  have hc : op₁.ncols = op.ncols := by simp only [LinOp.ncols, LinOp.inFlat, hin₁]
  have hn' : op₂.nrows = op.nrows := by simp only [LinOp.nrows, LinOp.outFlat, hout₂]
  have hc' : op₂.ncols = op.ncols := by simp only [LinOp.ncols, LinOp.inFlat, hin₂]
  rw [hn, hc] at z3
  rw [hn', hc'] at w3
  refine ⟨Y, Y₁, Y₂, y1, z1, w1, y2, z2, w2, fun i => ?_⟩
  by_cases hi : i < op.nrows * K
  · have hK : 0 < K := by
      rcases Nat.eq_zero_or_pos K with h | h
      · rw [h] at hi; simp at hi
      · exact h
    have hr : i / K < op.nrows := by rwa [Nat.div_lt_iff_lt_mul hK]
    have hk := Nat.mod_lt i hK
    have hi' : i / K * K + i % K = i := by rw [Nat.mul_comm]; exact Nat.div_add_mod i K
    have e := y3.2 _ hr _ hk
    have e₁ := z3.2 _ hr _ hk
    have e₂ := w3.2 _ hr _ hk
    rw [hi'] at e e₁ e₂
    rw [e, e₁, e₂, Finset.mul_sum, Finset.mul_sum, ← Finset.sum_add_distrib]
    exact Finset.sum_congr rfl fun j hj => by rw [hA _ hr j (Finset.mem_range.mp hj)]; ring
  · have e := y3.1
    have e₁ := z3.1
    have e₂ := w3.1
    have hd : ∀ l : List α, l.length = op.nrows * K → l.getD i 0 = 0 := by
      intro l hl
      rw [List.getD_eq_getElem?_getD, List.getElem?_eq_none (by omega)]
      rfl
    rw [hd _ e, hd _ e₁, hd _ e₂]
    simp

theorem curvatureOp_inShape [DivisionRing α] {B : Type _} (shapes : List (List Nat)) (red : Reduction) (N : Nat) (size : B → Nat)
    (f : B → List (Tensor α) → Py (List (Tensor α))) (data : List B) : (curvatureOp shapes red N size f data).inShape = shapes := rfl

theorem curvatureOp_outShape [DivisionRing α] {B : Type _} (shapes : List (List Nat)) (red : Reduction) (N : Nat) (size : B → Nat)
    (f : B → List (Tensor α) → Py (List (Tensor α))) (data : List B) : (curvatureOp shapes red N size f data).outShape = shapes := rfl

/-! ## `num_data` -/

/-- **C88**: with reduction `sum`, `num_data` makes no difference, as long as it is not `0`. -/
theorem num_data_sum [DivisionRing α] {B : Type _} (shapes : List (List Nat)) (size : B → Nat)
    (f : B → List (Tensor α) → Py (List (Tensor α))) (data : List B) {N N' : Nat} (hN : N ≠ 0) (hN' : N' ≠ 0) :
    curvatureOp shapes .sum N size f data = curvatureOp shapes .sum N' size f data := by
  have h : ∀ b, (normalizationFactor .sum (size b) N : Py α) = normalizationFactor .sum (size b) N' := by
    intro b
    simp [normalizationFactor, hN, hN']
  have hl : ∀ M (bs : List B) AM, matmatLoop Reduction.sum N size f M bs AM = matmatLoop .sum N' size f M bs AM := by
    intro M bs
    induction bs with
    | nil => intro AM; rfl
    | cons b bs ih => intro AM; simp only [matmatLoop, h, ih]
  unfold curvatureOp curvatureMatmat
  simp only [hl]

/-- **C88**: `num_data = 0` raises `ZeroDivisionError` in every product, for both reductions, if there are data. -/
theorem num_data_zero [DivisionRing α] {B : Type _} (shapes : List (List Nat)) (red : Reduction) (size : B → Nat)
    (f : B → List (Tensor α) → Py (List (Tensor α))) (data : List B) (hd : data ≠ []) (M : List (Tensor α)) :
    ((curvatureOp shapes red 0 size f data).matmat M).1 = .error .zeroDivisionError := by
  obtain ⟨b, bs, rfl⟩ := List.exists_cons_of_ne_nil hd
  simp [curvatureOp, curvatureMatmat, matmatLoop, normalizationFactor]

/-- The matrix of an operator with any `num_data`. -/
theorem curvatureOp_num_data [Field α] [CharZero α] {D : Type _} (shapes : List (List Nat))
    (red : Reduction) (hred : red = .mean ∨ red = .sum) (a : D → Mat α)
    (f : List D → List (Tensor α) → Py (List (Tensor α))) (batches : List (List D))
    (hf : ∀ b ∈ batches, BatchRepresents shapes (f b) (batchMatrix red a b))
    (hne : ∀ b ∈ batches, b ≠ []) {N : Nat} (hN : N ≠ 0) :
    Represents (curvatureOp shapes red N List.length f batches) fun r c =>
      (if red = .mean then (N : α)⁻¹ else 1) * (batches.flatten.map fun d => a d r c).sum := by
  have key := curvatureOp_represents red N List.length f (batchMatrix red a) shapes
    (fun b => if red = .mean then (b.length : α) / (N : α) else 1) batches hf (by
      intro b hb
      unfold normalizationFactor
      rw [if_neg hN]
      rcases hred with rfl | rfl <;> simp)
  intro K Xs hXs
  obtain ⟨Y, y1, y2, y3⟩ := key K Xs hXs
  refine ⟨Y, y1, y2, y3.1, fun r hr k hk => ?_⟩
  rw [y3.2 r hr k hk]
  refine Finset.sum_congr rfl fun j _ => ?_
  congr 1
  unfold batchMatrix
  dsimp only
  rw [sum_map_flatten (fun d => a d r j) batches, ← List.sum_map_mul_left]
  refine congrArg List.sum (List.map_congr_left fun b hb => ?_)
  have h1 : (b.length : α) ≠ 0 := by
    have := List.length_pos_of_ne_nil (hne b hb)
    exact_mod_cast this.ne'
  have h2 : (N : α) ≠ 0 := by exact_mod_cast hN
  rcases hred with rfl | rfl
  · simp only [if_true]
    field_simp
  · simp

/-- **C88**: with reduction `mean` and `num_data = N'`, all products are those with the right number `N` of data times `N / N'`. -/
theorem num_data_mean [Field α] [CharZero α] {D : Type _} (shapes : List (List Nat)) (a : D → Mat α)
    (f : List D → List (Tensor α) → Py (List (Tensor α))) (batches : List (List D))
    (hf : ∀ b ∈ batches, BatchRepresents shapes (f b) (batchMatrix .mean a b))
    (hne : ∀ b ∈ batches, b ≠ []) (hb : batches ≠ []) {N' : Nat} (hN' : N' ≠ 0) :
    IsScaled ((batches.flatten.length : α) / N')
      (curvatureOp shapes .mean (inferNData List.length batches none) List.length f batches)
      (curvatureOp shapes .mean (inferNData List.length batches (some N')) List.length f batches) := by
  refine isScaled_of_represents rfl rfl
    (curvatureOp_batching shapes .mean (Or.inl rfl) a f batches hf hne none (Or.inl rfl))
    (curvatureOp_num_data shapes .mean (Or.inl rfl) a f batches hf hne hN') ?_
  intro r _ j _
  have h2 : (N' : α) ≠ 0 := by exact_mod_cast hN'
  have h1 : (batches.flatten.length : α) ≠ 0 := by
    obtain ⟨b, hb'⟩ := List.exists_mem_of_ne_nil _ hb
    have : batches.flatten ≠ [] := by
      obtain ⟨d, hd⟩ := List.exists_mem_of_ne_nil _ (hne b hb')
      exact List.ne_nil_of_mem (List.mem_flatten.mpr ⟨b, hb', hd⟩)
    have := List.length_pos_of_ne_nil this
    exact_mod_cast this.ne'
  unfold riskMatrix
  simp only [if_true]
  rw [← mul_assoc, div_mul_eq_mul_div, mul_inv_cancel₀ h1, one_div]
  rfl

/-! ## Unions of data sets -/

/-- **C88**: with reduction `sum`, the operator on two data sets together is the sum of the operators on each. -/
theorem union_sum [Field α] [CharZero α] {D : Type _} (shapes : List (List Nat)) (a : D → Mat α)
    (f : List D → List (Tensor α) → Py (List (Tensor α))) (b₁ b₂ : List (List D))
    (hf : ∀ b ∈ b₁ ++ b₂, BatchRepresents shapes (f b) (batchMatrix .sum a b)) (hne : ∀ b ∈ b₁ ++ b₂, b ≠ []) :
    IsCombination 1 (curvatureOp shapes .sum (inferNData List.length b₁ none) List.length f b₁)
      1 (curvatureOp shapes .sum (inferNData List.length b₂ none) List.length f b₂)
      (curvatureOp shapes .sum (inferNData List.length (b₁ ++ b₂) none) List.length f (b₁ ++ b₂)) := by
  refine isCombination_of_represents rfl rfl rfl rfl
    (curvatureOp_batching shapes .sum (Or.inr rfl) a f b₁ (fun b hb => hf b (by simp [hb])) (fun b hb => hne b (by simp [hb])) none
      (Or.inl rfl))
    (curvatureOp_batching shapes .sum (Or.inr rfl) a f b₂ (fun b hb => hf b (by simp [hb])) (fun b hb => hne b (by simp [hb])) none
      (Or.inl rfl))
    (curvatureOp_batching shapes .sum (Or.inr rfl) a f _ hf hne none (Or.inl rfl)) ?_
  intro r _ j _
  simp [riskMatrix]

/-- **C88**: with reduction `mean`, the operator on two data sets together is the average of the operators on each, weighted with their
numbers of data. -/
theorem union_mean [Field α] [CharZero α] {D : Type _} (shapes : List (List Nat)) (a : D → Mat α)
    (f : List D → List (Tensor α) → Py (List (Tensor α))) (b₁ b₂ : List (List D))
    (hf : ∀ b ∈ b₁ ++ b₂, BatchRepresents shapes (f b) (batchMatrix .mean a b)) (hne : ∀ b ∈ b₁ ++ b₂, b ≠ []) :
    IsCombination ((b₁.flatten.length : α) / (b₁.flatten.length + b₂.flatten.length : Nat))
      (curvatureOp shapes .mean (inferNData List.length b₁ none) List.length f b₁)
      ((b₂.flatten.length : α) / (b₁.flatten.length + b₂.flatten.length : Nat))
      (curvatureOp shapes .mean (inferNData List.length b₂ none) List.length f b₂)
      (curvatureOp shapes .mean (inferNData List.length (b₁ ++ b₂) none) List.length f (b₁ ++ b₂)) := by
  refine isCombination_of_represents rfl rfl rfl rfl
    (curvatureOp_batching shapes .mean (Or.inl rfl) a f b₁ (fun b hb => hf b (by simp [hb])) (fun b hb => hne b (by simp [hb])) none
      (Or.inl rfl))
    (curvatureOp_batching shapes .mean (Or.inl rfl) a f b₂ (fun b hb => hf b (by simp [hb])) (fun b hb => hne b (by simp [hb])) none
      (Or.inl rfl))
    (curvatureOp_batching shapes .mean (Or.inl rfl) a f _ hf hne none (Or.inl rfl)) ?_
  intro r _ j _
  have key : ∀ (l : List D) (n : α), (l.length : α) / n * ((l.length : α)⁻¹ * (l.map fun d => a d r j).sum) =
      n⁻¹ * (l.map fun d => a d r j).sum := by
    intro l n
    rcases l.eq_nil_or_concat with rfl | ⟨l', x, rfl⟩
    · simp
    · have : ((l' ++ [x]).length : α) ≠ 0 := by
        have : (l' ++ [x]).length ≠ 0 := by simp
        exact_mod_cast this
      simp only [List.concat_eq_append]
      rw [← mul_assoc]
      congr 1
      field_simp
  unfold riskMatrix
  simp only [if_true, key]
  rw [List.flatten_append, List.length_append, List.map_append, List.sum_append, mul_add]

/-- **C88**: `gradient_and_loss` with any `num_data`: for reduction `mean`, loss and gradient are divided by `num_data` instead of the
number of data. -/
theorem gradient_num_data [Field α] [CharZero α] {D : Type _} (shapes : List (List Nat)) (red : Reduction)
    (hred : red = .mean ∨ red = .sum) (l : D → α) (g : D → Nat → α)
    (lg : List D → α × List (Tensor α)) (batches : List (List D)) (hne : ∀ b ∈ batches, b ≠ [])
    (hloss : ∀ b ∈ batches, (lg b).1 = riskValue red l b)
    (hshape : ∀ b ∈ batches, HasVec (lg b).2 shapes)
    (hgrad : ∀ b ∈ batches, ∀ r < total shapes,
      (flatData (lg b).2).getD r 0 = riskValue red (fun d => g d r) b) {N : Nat} (hN : N ≠ 0) :
    ∃ G, gradientAndLoss shapes red (inferNData List.length batches (some N)) List.length (some lg) batches =
        .ok (G, (if red = .mean then (N : α)⁻¹ else 1) * (batches.flatten.map l).sum) ∧ HasVec G shapes ∧
      ∀ r < total shapes, (flatData G).getD r 0 =
        (if red = .mean then (N : α)⁻¹ else 1) * (batches.flatten.map fun d => g d r).sum := by
  have hvz : HasVec (shapes.map fun s => (⟨s, List.replicate s.prod 0⟩ : Tensor α)) shapes := by
    constructor
    · rw [List.map_map]; exact List.map_id shapes
    · intro t ht
      obtain ⟨s, _, rfl⟩ := List.mem_map.mp ht
      simp [Tensor.WF]
  have hz : ∀ r, (flatData (shapes.map fun s => (⟨s, List.replicate s.prod 0⟩ : Tensor α))).getD r 0 = 0 := by
    intro r
    have h := flat_zeros (shapes.map fun s => (⟨s, List.replicate s.prod 0⟩ : Tensor α)) r
    refine Eq.trans ?_ h
    refine congrArg (fun l => (flatData l).getD r 0) ?_
    rw [List.map_map]
    refine List.map_congr_left fun s _ => ?_
    simp [Tensor.zerosLike]
  obtain ⟨G, L, h1, h2, h3, h4⟩ := gradLossLoop_spec red N List.length lg
    (fun b => if red = .mean then (b.length : α) / (N : α) else 1) shapes batches _ 0 (by
      intro b _
      unfold normalizationFactor
      rw [if_neg hN]
      rcases hred with rfl | rfl <;> simp) hshape hvz
  have key : ∀ (v : D → α), (batches.map fun b => (if red = .mean then (b.length : α) / (N : α) else 1) * riskValue red v b).sum =
      (if red = .mean then (N : α)⁻¹ else 1) * (batches.flatten.map v).sum := by
    intro v
    rw [sum_map_flatten v batches, ← List.sum_map_mul_left]
    refine congrArg List.sum (List.map_congr_left fun b hb => ?_)
    have h1 : (b.length : α) ≠ 0 := by
      have := List.length_pos_of_ne_nil (hne b hb)
      exact_mod_cast this.ne'
    have h2 : (N : α) ≠ 0 := by exact_mod_cast hN
    unfold riskValue
    rcases hred with rfl | rfl
    · simp only [if_true]
      field_simp
    · simp
  refine ⟨G, ?_, h2, fun r hr => ?_⟩
  · have e : gradientAndLoss shapes red (inferNData List.length batches (some N)) List.length (some lg) batches = .ok (G, L) := h1
    rw [e, h3, zero_add, ← key l]
    refine congrArg (fun x => Except.ok (G, List.sum x)) (List.map_congr_left fun b hb => ?_)
    rw [hloss b hb]
  · rw [h4 r hr, hz, zero_add, ← key]
    exact congrArg List.sum (List.map_congr_left fun b hb => by rw [hgrad b hb r hr])

end generic

/-! ## Operators with the supported losses -/

section losses

variable {k : LossKind} {C : Nat} (shapes : List (List Nat)) (hshapes : shapes ≠ []) (T : Nat)

theorem redOf_true : redOf true = .mean := rfl

theorem redOf_false : redOf false = .sum := rfl

include hshapes

theorem ggn_batch (mean : Bool) {batches : List (List (List (Term k C)))} (hT : ∀ b ∈ batches, ∀ d ∈ b, d.length = T) :
    ∀ b ∈ batches, BatchRepresents shapes (ggnLossBatch shapes mean b.flatten)
      (batchMatrix (redOf mean) (datumMatrix mean T lossHessian) b) :=
  fun b hb => batchRepresents_rows shapes hshapes mean T b (hT b hb) _ _ (hess_batchLoss mean b.flatten)

theorem ef_batch (mean : Bool) {batches : List (List (List (Term k C)))} (hT : ∀ b ∈ batches, ∀ d ∈ b, d.length = T) :
    ∀ b ∈ batches, BatchRepresents shapes (efBatch shapes mean b.flatten)
      (batchMatrix (redOf mean) (datumMatrix mean T lossGradOuter) b) :=
  fun b hb => batchRepresents_rows shapes hshapes mean T b (hT b hb) _ _ (hess_efPseudoLoss mean b.flatten)

/-- **C88** (GGN): with reduction `mean` and `num_data = N'`, the products are scaled by `N / N'`. -/
theorem ggn_num_data (batches : List (List (List (Term k C)))) (hne : ∀ b ∈ batches, b ≠ []) (hb : batches ≠ [])
    (hT : ∀ b ∈ batches, ∀ d ∈ b, d.length = T) {N' : Nat} (hN' : N' ≠ 0) :
    IsScaled ((batches.flatten.length : ℝ) / N')
      (curvatureOp shapes .mean (inferNData List.length batches none) List.length
        (fun b => ggnLossBatch shapes true b.flatten) batches)
      (curvatureOp shapes .mean (inferNData List.length batches (some N')) List.length
        (fun b => ggnLossBatch shapes true b.flatten) batches) :=
  num_data_mean shapes _ _ batches (ggn_batch shapes hshapes T true hT) hne hb hN'

/-- **C88** (empirical Fisher): with reduction `mean` and `num_data = N'`, the products are scaled by `N / N'`. -/
theorem ef_num_data (batches : List (List (List (Term k C)))) (hne : ∀ b ∈ batches, b ≠ []) (hb : batches ≠ [])
    (hT : ∀ b ∈ batches, ∀ d ∈ b, d.length = T) {N' : Nat} (hN' : N' ≠ 0) :
    IsScaled ((batches.flatten.length : ℝ) / N')
      (curvatureOp shapes .mean (inferNData List.length batches none) List.length
        (fun b => efBatch shapes true b.flatten) batches)
      (curvatureOp shapes .mean (inferNData List.length batches (some N')) List.length
        (fun b => efBatch shapes true b.flatten) batches) :=
  num_data_mean shapes _ _ batches (ef_batch shapes hshapes T true hT) hne hb hN'

omit hshapes in
theorem riskMatrix_reduction (H : Term k C → Fin C → Fin C → ℝ) (ds : List (List (Term k C))) (r c : Nat) :
    riskMatrix .mean (datumMatrix true T H) ds r c =
      termWeight k true (ds.length * T) C * riskMatrix .sum (datumMatrix false T H) ds r c := by
  unfold riskMatrix datumMatrix termWeight
  simp only [if_true, List.sum_map_mul_left, reduceCtorEq, if_false, one_mul, Bool.false_eq_true]
  rw [← mul_assoc]
  congr 1
  by_cases hk : k = .ce <;> simp [hk] <;> ring

/-- **C88** (GGN): the operator with reduction `mean` is the one with reduction `sum`, divided by the number of all loss terms, and for
`MSELoss` and `BCEWithLogitsLoss` also by the dimension of a term. -/
theorem ggn_reduction (batches : List (List (List (Term k C)))) (hne : ∀ b ∈ batches, b ≠ [])
    (hT : ∀ b ∈ batches, ∀ d ∈ b, d.length = T) :
    IsScaled (if k = .ce then 1 / ((batches.flatten.length * T : Nat) : ℝ) else
        1 / (((batches.flatten.length * T : Nat) : ℝ) * C))
      (curvatureOp shapes .sum (inferNData List.length batches none) List.length
        (fun b => ggnLossBatch shapes false b.flatten) batches)
      (curvatureOp shapes .mean (inferNData List.length batches none) List.length
        (fun b => ggnLossBatch shapes true b.flatten) batches) := by
  have h := ggnLossOp_represents shapes hshapes false T batches hne hT
  have h' := ggnLossOp_represents shapes hshapes true T batches hne hT
  rw [redOf_false] at h
  rw [redOf_true] at h'
  refine isScaled_of_represents (by rw [curvatureOp_inShape, curvatureOp_inShape])
    (by rw [curvatureOp_outShape, curvatureOp_outShape]) h h' fun r _ j _ => ?_
  rw [riskMatrix_reduction T lossHessian batches.flatten r j, termWeight, if_pos rfl]

/-- **C88** (empirical Fisher): as for the GGN. The empirical Fisher with reduction `mean` is thus *not* the sum of outer products of
gradients of the reduced loss, which would be divided by the square. -/
theorem ef_reduction (batches : List (List (List (Term k C)))) (hne : ∀ b ∈ batches, b ≠ [])
    (hT : ∀ b ∈ batches, ∀ d ∈ b, d.length = T) :
    IsScaled (if k = .ce then 1 / ((batches.flatten.length * T : Nat) : ℝ) else
        1 / (((batches.flatten.length * T : Nat) : ℝ) * C))
      (curvatureOp shapes .sum (inferNData List.length batches none) List.length
        (fun b => efBatch shapes false b.flatten) batches)
      (curvatureOp shapes .mean (inferNData List.length batches none) List.length
        (fun b => efBatch shapes true b.flatten) batches) := by
  have h := efOp_represents shapes hshapes false T batches hne hT
  have h' := efOp_represents shapes hshapes true T batches hne hT
  rw [redOf_false] at h
  rw [redOf_true] at h'
  refine isScaled_of_represents (by rw [curvatureOp_inShape, curvatureOp_inShape])
    (by rw [curvatureOp_outShape, curvatureOp_outShape]) h h' fun r _ j _ => ?_
  rw [riskMatrix_reduction T lossGradOuter batches.flatten r j, termWeight, if_pos rfl]

omit hshapes in
/-- **C88** (Monte-Carlo Fisher): with the same seed and generators on the same device, the same labels are drawn for both reductions and
all `num_data`, and the products differ by the factor of the other operators. -/
theorem mc_reduction (rng : Rng k C) (cfg : McConfig k C) (hS : cfg.mcSamples ≠ 0) (hsh : cfg.shapes ≠ [])
    (hne : ∀ b ∈ cfg.data, b ≠ []) (hT : ∀ b ∈ cfg.data, ∀ d ∈ b, d.length = T)
    (hbin : ∀ b ∈ cfg.data, BinaryTargets k b.flatten) (hN : cfg.nData ≠ 0) (st st' : McState rng)
    (hdev : st.genDevice = st'.genDevice) :
    IsScaled (if k = .ce then 1 / ((cfg.nData * T : Nat) : ℝ) else 1 / (((cfg.nData * T : Nat) : ℝ) * C))
      (mcOp rng { cfg with mean := false } st) (mcOp rng { cfg with mean := true } st') := by
  refine isScaled_of_represents rfl rfl (mcOp_draws rng { cfg with mean := false } hS hsh T hne hT hbin (Or.inl hN) st)
    (mcOp_draws rng { cfg with mean := true } hS hsh T hne hT hbin (Or.inl hN) st') fun r _ j _ => ?_
  unfold mcMatrix termWeight
  simp [hdev]

omit hshapes in
/-- **C88** (Monte-Carlo Fisher): with reduction `mean`, `num_data = N'` instead of `N` scales the products by `N / N'`. -/
theorem mc_num_data (rng : Rng k C) (cfg : McConfig k C) (hS : cfg.mcSamples ≠ 0) (hmean : cfg.mean = true) (hsh : cfg.shapes ≠ [])
    (hne : ∀ b ∈ cfg.data, b ≠ []) (hT : ∀ b ∈ cfg.data, ∀ d ∈ b, d.length = T)
    (hbin : ∀ b ∈ cfg.data, BinaryTargets k b.flatten) (hN : cfg.nData ≠ 0) {N' : Nat} (hN' : N' ≠ 0) (st st' : McState rng)
    (hdev : st.genDevice = st'.genDevice) :
    IsScaled ((cfg.nData : ℝ) / N') (mcOp rng cfg st) (mcOp rng { cfg with nData := N' } st') := by
  refine isScaled_of_represents rfl rfl (mcOp_draws rng cfg hS hsh T hne hT hbin (Or.inl hN) st)
    (mcOp_draws rng { cfg with nData := N' } hS hsh T hne hT hbin (Or.inl hN') st') fun r _ j _ => ?_
  unfold mcMatrix termWeight
  simp only [hmean, if_true, hdev]
  rw [← mul_assoc]
  congr 1
  have h1 : (cfg.nData : ℝ) ≠ 0 := by exact_mod_cast hN
  have h2 : (N' : ℝ) ≠ 0 := by exact_mod_cast hN'
  by_cases hk : k = .ce
  · simp only [hk, if_true]; push_cast; field_simp
  · simp only [hk, if_false]; push_cast; field_simp

end losses

/-! ## The Hessian -/

section hessian

variable {P O : Nat} (shapes : List (List Nat)) (hshapes : shapes ≠ []) (blockSizes : List Int)
  (hpos : ∀ s ∈ blockSizes, 0 < s) (hsum : blockSizes.sum = shapes.length) (parts : List (List (List Nat)))
  (hparts : IsSplit shapes blockSizes parts) (θ : Fin P → ℝ) (batches : List (List (NetDatum P O)))
  (hdiff : ∀ d ∈ batches.flatten, ContDiffAt ℝ 2 (fun θ => d.loss (d.f θ)) θ)

include hshapes hpos hsum hparts hdiff

theorem hessian_batch (red : Reduction) : ∀ b ∈ batches, BatchRepresents shapes (netHessianBatch shapes blockSizes red θ b)
    (batchMatrix red (fun d : NetDatum P O => blockDiagonal (parts.map total) (natMat (hess (fun θ => d.loss (d.f θ)) θ))) b) := by
  intro b hb
  have h := hessianBatch_blocks shapes hshapes blockSizes hpos hsum parts hparts red
    (fun d : NetDatum P O => natMat (hess (fun θ => d.loss (d.f θ)) θ)) b
  have e : netHessianBatch shapes blockSizes red θ b = hessianMatmatBatch shapes blockSizes
      (batchMatrix red (fun d : NetDatum P O => natMat (hess (fun θ => d.loss (d.f θ)) θ)) b) := by
    funext M
    unfold netHessianBatch
    rw [natMat_hess_netLoss red b θ fun d hd => hdiff d (List.mem_flatten_of_mem hb hd)]
    exact congrArg (fun A => hessianMatmatBatch shapes blockSizes A M) (riskMatrix_eq_batchMatrix red _ b)
  rw [e]
  exact h

/-- **C88** (Hessian): with reduction `mean` and `num_data = N'`, the products are scaled by `N / N'`, for all block sizes. -/
theorem hessian_num_data (hne : ∀ b ∈ batches, b ≠ []) (hb : batches ≠ []) {N' : Nat} (hN' : N' ≠ 0) :
    IsScaled ((batches.flatten.length : ℝ) / N')
      (curvatureOp shapes .mean (inferNData List.length batches none) List.length (netHessianBatch shapes blockSizes .mean θ) batches)
      (curvatureOp shapes .mean (inferNData List.length batches (some N')) List.length
        (netHessianBatch shapes blockSizes .mean θ) batches) :=
  num_data_mean shapes _ _ batches (hessian_batch shapes hshapes blockSizes hpos hsum parts hparts θ batches hdiff .mean) hne hb hN'

/-- **C88** (Hessian): if the loss of a datum is multiplied by `w` when the reduction changes from `sum` to `mean` (`w` is the reciprocal
of the number of its terms, or of its entries), the operator is multiplied by `w / N`. -/
theorem hessian_reduction (hne : ∀ b ∈ batches, b ≠ []) (w : ℝ) :
    IsScaled (w / batches.flatten.length)
      (curvatureOp shapes .sum (inferNData List.length batches none) List.length (netHessianBatch shapes blockSizes .sum θ) batches)
      (curvatureOp shapes .mean (inferNData List.length batches none) List.length
        (netHessianBatch shapes blockSizes .mean θ)
        (batches.map fun b => b.map fun d => { d with loss := fun f => w * d.loss f })) := by
  have hfl : (batches.map fun b => b.map fun d : NetDatum P O => { d with loss := fun f => w * d.loss f }).flatten =
      batches.flatten.map fun d => { d with loss := fun f => w * d.loss f } := by rw [List.map_flatten]
  have hdiff' : ∀ d ∈ (batches.map fun b => b.map fun d : NetDatum P O => { d with loss := fun f => w * d.loss f }).flatten,
      ContDiffAt ℝ 2 (fun θ => d.loss (d.f θ)) θ := by
    intro d hd
    rw [hfl] at hd
    obtain ⟨d', hd', rfl⟩ := List.mem_map.mp hd
    exact contDiffAt_const.mul (hdiff d' hd')
  have h1 := curvatureOp_batching shapes .sum (Or.inr rfl) _ _ batches
    (hessian_batch shapes hshapes blockSizes hpos hsum parts hparts θ batches hdiff .sum) hne none (Or.inl rfl)
  have h2 := curvatureOp_batching shapes .mean (Or.inl rfl) _ _ _
    (hessian_batch shapes hshapes blockSizes hpos hsum parts hparts θ _ hdiff' .mean) (by
      intro b hb
      obtain ⟨b', hb', rfl⟩ := List.mem_map.mp hb
      simpa using hne b' hb') none (Or.inl rfl)
  have hn : inferNData List.length (batches.map fun b => b.map fun d : NetDatum P O => { d with loss := fun f => w * d.loss f })
      none = inferNData List.length batches none := by
    simp [inferNData, Function.comp_def]
  rw [hn] at h2
  refine isScaled_of_represents (by rw [curvatureOp_inShape, curvatureOp_inShape])
    (by rw [curvatureOp_outShape, curvatureOp_outShape]) h1 h2 fun r _ j _ => ?_
  unfold riskMatrix
  rw [hfl]
  simp only [if_true, List.length_map, List.map_map, Function.comp_def, reduceCtorEq, if_false, one_mul]
  have hm : ∀ d : NetDatum P O, blockDiagonal (parts.map total) (natMat (hess (fun θ => w * d.loss (d.f θ)) θ)) r j =
      w * blockDiagonal (parts.map total) (natMat (hess (fun θ => d.loss (d.f θ)) θ)) r j := by
    intro d
    unfold blockDiagonal natMat
    simp only [hess_const_mul]
    split_ifs <;> simp
  simp only [hm, List.sum_map_mul_left]
  rw [← mul_assoc, div_eq_mul_inv, mul_comm w]

end hessian

/-! ## Examples -/

/-- Three data with `num_data = 6`: all products with the GGN are halved. -/
example : IsScaled (1 / 2)
    (curvatureOp [[2], [1, 1]] .mean (inferNData List.length ceData none) List.length
      (fun b => ggnLossBatch [[2], [1, 1]] true b.flatten) ceData)
    (curvatureOp [[2], [1, 1]] .mean (inferNData List.length ceData (some 6)) List.length
      (fun b => ggnLossBatch [[2], [1, 1]] true b.flatten) ceData) := by
  have h := ggn_num_data [[2], [1, 1]] (by simp) 1 ceData (by simp [ceData]) (by simp [ceData]) (by simp [ceData]) (N' := 6) (by simp)
  have e : ((ceData.flatten.length : Nat) : ℝ) / (6 : Nat) = 1 / 2 := by
    simp [ceData]
    norm_num
  rw [e] at h
  exact h

/-- Reduction `mean` divides the empirical Fisher by the three loss terms. -/
example : IsScaled (1 / 3)
    (curvatureOp [[2], [1, 1]] .sum (inferNData List.length ceData none) List.length
      (fun b => efBatch [[2], [1, 1]] false b.flatten) ceData)
    (curvatureOp [[2], [1, 1]] .mean (inferNData List.length ceData none) List.length
      (fun b => efBatch [[2], [1, 1]] true b.flatten) ceData) := by
  have h := ef_reduction [[2], [1, 1]] (by simp) 1 ceData (by simp [ceData]) (by simp [ceData])
  have e : (if LossKind.ce = .ce then 1 / ((ceData.flatten.length * 1 : Nat) : ℝ) else
      1 / (((ceData.flatten.length * 1 : Nat) : ℝ) * (2 : Nat))) = 1 / 3 := by
    simp [ceData]
  rw [e] at h
  exact h

/-- The empirical Fisher of the first mini-batch counts twice as much as that of the second. -/
example : IsCombination ((([ceData.head (by simp [ceData])] : List (List (List (Term .ce 2)))).flatten.length : ℝ) /
      (([ceData.head (by simp [ceData])] : List (List (List (Term .ce 2)))).flatten.length + ceData.tail.flatten.length : Nat))
    (curvatureOp [[2], [1, 1]] .mean (inferNData List.length [ceData.head (by simp [ceData])] none) List.length
      (fun b => efBatch [[2], [1, 1]] true b.flatten) [ceData.head (by simp [ceData])])
    ((ceData.tail.flatten.length : ℝ) /
      (([ceData.head (by simp [ceData])] : List (List (List (Term .ce 2)))).flatten.length + ceData.tail.flatten.length : Nat))
    (curvatureOp [[2], [1, 1]] .mean (inferNData List.length ceData.tail none) List.length
      (fun b => efBatch [[2], [1, 1]] true b.flatten) ceData.tail)
    (curvatureOp [[2], [1, 1]] .mean (inferNData List.length ([ceData.head (by simp [ceData])] ++ ceData.tail) none) List.length
      (fun b => efBatch [[2], [1, 1]] true b.flatten) ([ceData.head (by simp [ceData])] ++ ceData.tail)) :=
  union_mean [[2], [1, 1]] _ _ _ _ (ef_batch [[2], [1, 1]] (by simp) 1 true (by simp [ceData])) (by simp [ceData])

example : ((curvatureOp [[2]] .sum (0 : Nat) List.length
    (fun (_ : List Unit) (M : List (Tensor ℝ)) => .ok M) [[()]]).matmat [⟨[2, 1], [1, 2]⟩]).1 = .error .zeroDivisionError :=
  num_data_zero [[2]] .sum List.length _ [[()]] (by simp) _

end Curvlinops
