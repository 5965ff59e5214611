import Verif.Model.ExportRounding
import Verif.Props.MixedPrecision
import Verif.Props.UtilityRounding

/-!
# C140: rounding errors of exported operators, entry by entry, and of what is computed with them
-/

namespace Curvlinops

open scoped _root_.Matrix

variable {ρ σ : Rounding} {D : Type _} {m n k : Nat}

/-- Specification: products of PyTorch's operator with one vector, in the precision of the parameters, are accurate up to `g - 1`, where `M'` bounds the
matrix. -/
def OpWithin (g : ℝ) (A : LinOp (Fl ρ)) (M M' : Matrix (Fin m) (Fin n) ℝ) : Prop :=
  A.nrows = m ∧ A.ncols = n ∧ A.outShape ≠ [] ∧ ∀ (Xs : List (Tensor (Fl ρ))) (x : Fin n → Fl ρ), HasShapes Xs A.inShape 1 → flatData Xs = List.ofFn x →
    ∃ Ys, (A.matmat Xs).1 = .ok Ys ∧ HasShapes Ys A.outShape 1 ∧ ∃ y : Fin m → Fl ρ, flatData Ys = List.ofFn y ∧
      ∀ i, Within g (y i) (∑ j, M i j * (x j).val) (∑ j, M' i j * |(x j).val|)

/-- A number is cast, multiplied and cast back. -/
theorem cast_product {g c₁ c₂ : ℝ} (hg : 1 ≤ g) (hc₂ : 0 ≤ c₂) {M M' : Fin n → ℝ} (hM : ∀ j, |M j| ≤ M' j)
    {x x' : Fin n → ℝ} (hx : ∀ j, |x' j - x j| ≤ c₁ * |x j|) {y z : ℝ} (hy : |y - ∑ j, M j * x' j| ≤ (g - 1) * ∑ j, M' j * |x' j|)
    (hz : |z - y| ≤ c₂ * |y|) : |z - ∑ j, M j * x j| ≤ ((1 + c₂) * g * (1 + c₁) - 1) * ∑ j, M' j * |x j| := by
  have hM0 : ∀ j, 0 ≤ M' j := fun j => (abs_nonneg _).trans (hM j)
  have e1 : ∑ j, M' j * |x' j| ≤ (1 + c₁) * ∑ j, M' j * |x j| := by
    rw [Finset.mul_sum]
    refine Finset.sum_le_sum fun j _ => ?_
    have : |x' j| ≤ (1 + c₁) * |x j| := by
      have := abs_sub_abs_le_abs_sub (x' j) (x j)
      linarith [hx j]
    calc M' j * |x' j| ≤ M' j * ((1 + c₁) * |x j|) := mul_le_mul_of_nonneg_left this (hM0 j)
      _ = _ := by ring
  have e2 : |∑ j, M j * x' j - ∑ j, M j * x j| ≤ c₁ * ∑ j, M' j * |x j| := by
    rw [← Finset.sum_sub_distrib, Finset.mul_sum]
    refine (Finset.abs_sum_le_sum_abs _ _).trans (Finset.sum_le_sum fun j _ => ?_)
    rw [← mul_sub, abs_mul]
    calc |M j| * |x' j - x j| ≤ M' j * (c₁ * |x j|) := mul_le_mul (hM j) (hx j) (abs_nonneg _) (hM0 j)
      _ = _ := by ring
  have e3 : |∑ j, M j * x' j| ≤ ∑ j, M' j * |x' j| := (Finset.abs_sum_le_sum_abs _ _).trans (Finset.sum_le_sum fun j _ => by
    rw [abs_mul]
    exact mul_le_mul_of_nonneg_right (hM j) (abs_nonneg _))
  have e4 : |y| ≤ g * ∑ j, M' j * |x' j| := by
    have := abs_sub_abs_le_abs_sub y (∑ j, M j * x' j)
    linarith
  have e5 : |z - ∑ j, M j * x j| ≤ |z - y| + |y - ∑ j, M j * x' j| + |∑ j, M j * x' j - ∑ j, M j * x j| := by
    have := abs_add_three (z - y) (y - ∑ j, M j * x' j) (∑ j, M j * x' j - ∑ j, M j * x j)
    rwa [sub_add_sub_cancel, sub_add_sub_cancel] at this
  have e6 : c₂ * |y| ≤ c₂ * (g * ((1 + c₁) * ∑ j, M' j * |x j|)) :=
    mul_le_mul_of_nonneg_left (e4.trans (mul_le_mul_of_nonneg_left e1 (by linarith))) hc₂
  have e7 : (g - 1) * ∑ j, M' j * |x' j| ≤ (g - 1) * ((1 + c₁) * ∑ j, M' j * |x j|) := mul_le_mul_of_nonneg_left e1 (by linarith)
  calc |z - ∑ j, M j * x j| ≤ c₂ * (g * ((1 + c₁) * ∑ j, M' j * |x j|)) + (g - 1) * ((1 + c₁) * ∑ j, M' j * |x j|) + c₁ * ∑ j, M' j * |x j| := by linarith
    _ = _ := by ring

/-- **C140** (export): products with the export of an operator whose products have the accuracy `g` have the accuracy `(1 + c₂) g (1 + c₁)`, where `c₁` and
`c₂` are the relative errors of the casts to PyTorch's and back to NumPy's type. -/
theorem export_within {g c₁ c₂ : ℝ} (hg : 1 ≤ g) (hc₂ : 0 ≤ c₂) {A : LinOp (Fl ρ)} {M M' : Matrix (Fin m) (Fin n) ℝ}
    (hA : OpWithin g A M M') (hM : ∀ i j, |M i j| ≤ M' i j) (h₁ : ∀ x : Fl σ, |(flCast ρ x).val - x.val| ≤ c₁ * |x.val|)
    (h₂ : ∀ x : Fl ρ, |(flCast σ x).val - x.val| ≤ c₂ * |x.val|) (dt : DType) (dtype : Option DType) :
    SciWithin ((1 + c₂) * g * (1 + c₁)) (exportCast (flCast ρ) (flCast σ) A dt dtype).toSci M M' := by
  obtain ⟨hr, hc, hs, hmul⟩ := hA
  refine ⟨hr, hc, fun x => ?_⟩
  set x' : Fin n → Fl ρ := fun i => flCast ρ (x i) with hx'
  obtain ⟨y, y1, -, y', rfl, y3⟩ := callFn_cast_vec (flCast ρ) (flCast σ) A dt hs (List.ofFn x) (by simp [hc])
    (fun y => ∃ y' : Fin m → Fl ρ, y = List.ofFn y' ∧ ∀ i, Within g (y' i) (∑ j, M i j * (x' j).val) (∑ j, M' i j * |(x' j).val|)) (by
      intro Xs hXs hX
      obtain ⟨Ys, z1, z2, y, z3, z4⟩ := hmul Xs x' hXs (by rw [hX, List.map_ofFn]; rfl)
      exact ⟨Ys, z1, z2, y, z3, z4⟩)
  refine ⟨fun i => flCast σ (y' i), dot_vec_of_impl (by simp [ScipyOp.toSci, exportCast, hc]) (by simp [ScipyOp.toSci, exportCast, hr]) ?_, fun i => ⟨?_, ?_⟩⟩
  · show callFn (scipyCompatibleCast (flCast ρ) (flCast σ) A dt) _ = _
    rw [y1, List.map_ofFn]
    rfl
  · refine (Finset.abs_sum_le_sum_abs _ _).trans (Finset.sum_le_sum fun j _ => ?_)
    rw [abs_mul]
    exact mul_le_mul_of_nonneg_right (hM i j) (abs_nonneg _)
  · exact cast_product hg hc₂ (hM i) (fun j => h₁ (x j)) (y3 i).2 (h₂ (y' i))

/-- **C140** (curvature matrices): the accuracy of the products over all mini-batches (C100), for the mean (sum) of the matrices of the data. -/
theorem curvature_within (shapes : List (List Nat)) (hs : shapes ≠ []) (hn : total shapes = n) (red : Reduction) (hred : red = .mean ∨ red = .sum)
    (H A : D → Matrix (Fin n) (Fin n) ℝ) (hHA : ∀ d r c, |H d r c| ≤ A d r c) (η : ℝ) (hη : 0 ≤ η)
    (f : List D → List (Tensor (Fl ρ)) → Py (List (Tensor (Fl ρ)))) (batches : List (List D)) (hne : ∀ b ∈ batches, b ≠ [])
    (hrep : ∀ k ≤ batches.flatten.length, ρ.rnd k = k) (hf : AccurateBatches shapes red H A η f batches) :
    OpWithin (1 + batchError ρ red η batches.length) (curvatureOp shapes red (inferNData List.length batches none) List.length f batches)
      (riskMat red H batches.flatten) (riskMat red A batches.flatten) := by
  refine ⟨by simpa [LinOp.nrows, LinOp.outFlat, curvatureOp, total] using hn, by simpa [LinOp.ncols, LinOp.inFlat, curvatureOp, total] using hn, hs,
    fun Xs x hXs hX => ?_⟩
  obtain ⟨Y, z1, z2, z3⟩ := matmat_rounding shapes 1 red hred
    (fun d r => if h : r < n then (H d *ᵥ flVec x) ⟨r, h⟩ else 0)
    (fun d r => if h : r < n then (A d *ᵥ absVec (flVec x)) ⟨r, h⟩ else 0)
    (fun d r => by
      by_cases h : r < n
      · simp only [dif_pos h]; exact abs_mulVec_le _ _ (hHA d) _ _
      · simp [dif_neg h]) η hη f batches hne hrep Xs hXs (by
      intro b hb
      obtain ⟨Y, w1, w2, w3⟩ := hf b hb Xs x hXs hX
      refine ⟨Y, w1, w2, fun r hr => ?_⟩
      have hr' : r < n := by simpa [hn] using hr
      have := w3 ⟨r, hr'⟩
      rw [riskMat_mulVec, riskMat_mulVec] at this
      simpa only [dif_pos hr'] using this)
  have hlen : (flatData Y).length = n := by
    have h1 : (shapes.map List.prod).sum = n := hn
    have h2 := z2.flatData_length
    simpa [h1] using h2
  refine ⟨Y, z1, z2, fun i => (flatData Y).getD i 0, ?_, fun i => ⟨?_, ?_⟩⟩
  · refine List.ext_getElem (by simp [hlen]) fun i h1 h2 => ?_
    simp [List.getD_eq_getElem?_getD, List.getElem?_eq_getElem h1]
  · exact abs_mulVec_le _ _ (abs_riskMat_le red H A hHA _) (flVec x) i
  · have := z3 i (by simp [hn])
    simp only [dif_pos i.2] at this
    have e1 := riskMat_mulVec red H batches.flatten (flVec x) i
    have e2 := riskMat_mulVec red A batches.flatten (absVec (flVec x)) i
    rw [add_sub_cancel_left]
    simp only [Matrix.mulVec, dotProduct, flVec, absVec] at e1 e2 this ⊢
    rw [e1, e2]
    exact this

/-- **C140** (KFAC): the accuracy of KFAC's products (C132). -/
theorem kfac_within (π : Rounding) (τ τ' : FlSum ρ) {η : ℝ} (cfg : KfacCfg) (shapes : List (List Nat)) (hs : shapes ≠ [])
    (layers : List PLayer) (batches : List (List (Computed ρ))) {B p q : Nat} {eA eG : ℝ}
    (hrun : RoundedRun π η cfg shapes layers batches B p q eA eG)
    (M M' : Mat ℝ) (hM : IsKron (kfacBlocks cfg.sep shapes (layers.map (PLayer.layer cfg (batches.flatten.map Computed.exact)))) M)
    (hM' : IsKron (kfacBlocks cfg.sep shapes (layers.map (PLayer.boundLayer cfg batches.flatten))) M') :
    OpWithin (m := (shapes.map List.prod).sum) (n := (shapes.map List.prod).sum) ((1 + eA) * (1 + eG) * (1 + ρ.u) ^ (p + q))
      (kfacOpFl τ' shapes cfg.sep (pMapping layers)
        (kfacFactorsFl π τ cfg (layers.map PLayer.klayer) (batches.map fun b => b.map Computed.fl)).1
        (kfacFactorsFl π τ cfg (layers.map PLayer.klayer) (batches.map fun b => b.map Computed.fl)).2)
      (fun i j => M i j) (fun i j => M' i j) := by
  refine ⟨rfl, rfl, hs, fun Xs x hX hx => ?_⟩
  obtain ⟨Ys, hY, hYs, hb⟩ := kfac_product_rounding π τ τ' cfg shapes layers batches hrun M M' hM hM' 1 Xs hX
  have hlen : (flatData Ys).length = (shapes.map List.prod).sum := by
    have := hYs.flatData_length
    simpa [total] using this
  refine ⟨Ys, hY, hYs, fun i => (flatData Ys).getD i 0, ?_, fun i => ⟨?_, ?_⟩⟩
  · refine List.ext_getElem (by simp [hlen]) fun i h1 h2 => ?_
    simp [List.getD_eq_getElem?_getD, h1]
  · refine (Finset.abs_sum_le_sum_abs _ _).trans (Finset.sum_le_sum fun j _ => ?_)
    rw [abs_mul]
    exact mul_le_mul_of_nonneg_right (hrun.abs_le τ M M' hM hM' i j i.2 j.2) (abs_nonneg _)
  · have h := hb i i.2 0 one_pos
    have hvj : ∀ j : Fin (shapes.map List.prod).sum, (flatData Xs).getD j 0 = x j := fun j => by
      rw [hx]
      simp [List.getD_eq_getElem?_getD]
    simp only [mul_one, add_zero, Finset.sum_range, hvj] at h
    exact h

/-- Accuracy of the entries is accuracy in norm, so that the theorems on `NeumannInverseLinearOperator` (C101) apply. -/
theorem SciWithin.accurate (N : Seminorm ℝ (Fin n → ℝ)) (hN : MonotoneNorm N) {g : ℝ} (hg : 1 ≤ g) {L : SciOp (Fl ρ)} {M M' : Matrix (Fin n) (Fin n) ℝ}
    (hL : SciWithin g L M M') (κ : ℝ) (hκ : ∀ v, N (M' *ᵥ absVec v) ≤ κ * N v) : AccurateRep N L M ((g - 1) * κ) := by
  refine ⟨hL.1, hL.2.1, fun x => ?_⟩
  obtain ⟨y, h1, h2⟩ := hL.2.2 x
  refine ⟨y, h1, ?_⟩
  have : N (flVec y - M *ᵥ flVec x) ≤ N ((g - 1) • (M' *ᵥ absVec (flVec x))) := hN _ _ fun i => by
    rw [Pi.smul_apply, smul_eq_mul]
    exact (h2 i).2.trans (le_abs_self _)
  rw [map_smul_eq_mul, Real.norm_eq_abs, abs_of_nonneg (by linarith)] at this
  rw [mul_assoc]
  exact this.trans (mul_le_mul_of_nonneg_left (hκ _) (by linarith))

/-! ## What is computed with exported operators -/

section exported

variable {g c₁ c₂ : ℝ} {A : LinOp (Fl ρ)} {M M' : Matrix (Fin n) (Fin n) ℝ} {W : Type _}

/-- **C140** (trace): Hutchinson's estimate of the trace of an exported operator. -/
theorem exported_trace (hσ : SignsExact σ) (τ : FlSum σ) (hg : 1 ≤ g) (hc₁ : 0 ≤ c₁) (hc₂ : 0 ≤ c₂) (hA : OpWithin g A M M')
    (hM : ∀ i j, |M i j| ≤ M' i j) (h₁ : ∀ x : Fl σ, |(flCast ρ x).val - x.val| ≤ c₁ * |x.val|)
    (h₂ : ∀ x : Fl ρ, |(flCast σ x).val - x.val| ≤ c₂ * |x.val|) (dt : DType) (dtype : Option DType) (E : Ext (Fl σ) W) (w : (Fin n → Bool) → W)
    (hw : DrawsBits E w) :
    ∃ F : (Fin n → Bool) → Fl σ,
      (∀ b, (hutchTraceFl τ (E.withOp (exportCast (flCast ρ) (flCast σ) A dt dtype).toSci) n (.str "rademacher") (w b)).1 = .ok (F b)) ∧
      |signMean (fun b => (F b).val) - M.trace| ≤ ((1 + c₂) * g * (1 + c₁) * (1 + σ.u) ^ n - 1) * ∑ i, ∑ j, M' i j := by
  have hG : 1 ≤ (1 + c₂) * g * (1 + c₁) :=
    one_le_mul_of_one_le_of_one_le (one_le_mul_of_one_le_of_one_le (by linarith) hg) (by linarith)
  exact hutchTraceFl_rademacher hσ τ _ hG _ _ ((export_within hg hc₂ hA hM h₁ h₂ dt dtype).multiplies E) w hw

/-- **C140** (blocks): Hutchinson's estimate of the trace of a principal sub-matrix of an exported operator. -/
theorem exported_block_trace (hσ : SignsExact σ) (τ : FlSum σ) (hg : 1 ≤ g) (hc₁ : 0 ≤ c₁) (hc₂ : 0 ≤ c₂) (hA : OpWithin g A M M')
    (hM : ∀ i j, |M i j| ≤ M' i j) (h₁ : ∀ x : Fl σ, |(flCast ρ x).val - x.val| ≤ c₁ * |x.val|)
    (h₂ : ∀ x : Fl ρ, |(flCast σ x).val - x.val| ≤ c₂ * |x.val|) (dt : DType) (dtype : Option DType) (E : Ext (Fl σ) W) (w : (Fin k → Bool) → W)
    (hw : DrawsBits E w) (idx : Fin k → Fin n) (hidx : Function.Injective idx) :
    ∃ s, mkSubmatrix ⟨(exportCast (flCast ρ) (flCast σ) A dt dtype).toSci, (exportCast (flCast ρ) (flCast σ) A dt dtype).adjSci⟩ (idxList idx)
        (idxList idx) = .ok s ∧ ∃ F : (Fin k → Bool) → Fl σ,
      (∀ b, (hutchTraceFl τ (E.withOp s.toSci) k (.str "rademacher") (w b)).1 = .ok (F b)) ∧
      |signMean (fun b => (F b).val) - ∑ i, M (idx i) (idx i)| ≤
        ((1 + c₂) * g * (1 + c₁) * (1 + σ.u) ^ k - 1) * ∑ i, ∑ j, M' (idx i) (idx j) := by
  have hG : 1 ≤ (1 + c₂) * g * (1 + c₁) :=
    one_le_mul_of_one_le_of_one_le (one_le_mul_of_one_le_of_one_le (by linarith) hg) (by linarith)
  obtain ⟨s, h1, h2⟩ := submatrix_within ⟨(exportCast (flCast ρ) (flCast σ) A dt dtype).toSci, (exportCast (flCast ρ) (flCast σ) A dt dtype).adjSci⟩
    (export_within hg hc₂ hA hM h₁ h₂ dt dtype) idx idx hidx hidx
  exact ⟨s, h1, hutchTraceFl_rademacher hσ τ _ hG _ _ (h2.multiplies E) w hw⟩

/-- **C140** (deflation): Hutchinson's estimate of the trace of an exported operator without some pairs, plus the removed numbers. -/
theorem exported_deflated_trace (hσ : SignsExact σ) (τ : FlSum σ) (path : OuterPath) (hg : 1 ≤ g) (hc₁ : 0 ≤ c₁) (hc₂ : 0 ≤ c₂) (hA : OpWithin g A M M')
    (hM : ∀ i j, |M i j| ≤ M' i j) (h₁ : ∀ x : Fl σ, |(flCast ρ x).val - x.val| ≤ c₁ * |x.val|)
    (h₂ : ∀ x : Fl ρ, |(flCast σ x).val - x.val| ≤ c₂ * |x.val|) (dt : DType) (dtype : Option DType) (E : Ext (Fl σ) W) (w : (Fin n → Bool) → W)
    (hw : DrawsBits E w) (c : Fin k → Fl σ) (V : Fin n → Fin k → Fl σ) :
    ∃ L, deflateFl τ path (exportCast (flCast ρ) (flCast σ) A dt dtype).toSci n (List.ofFn c) (List.ofFn fun j => List.ofFn fun i => V i j) = .ok L ∧
      ∃ F : (Fin n → Bool) → Fl σ, (∀ b, (hutchTraceFl τ (E.withOp L) n (.str "rademacher") (w b)).1 = .ok (F b)) ∧
      |signMean (fun b => (F b).val) + ∑ j, (c j).val - M.trace| ≤
        ((1 + c₂) * g * (1 + c₁) * (1 + σ.u) ^ (2 * n + k + 3) - 1) * ∑ i, ∑ j, (M' i j + ∑ l, |(c l).val| * (|(V i l).val| * |(V j l).val|)) +
          ∑ j, |(c j).val| * |1 - ∑ i, (V i j).val ^ 2| := by
  have hG : 1 ≤ (1 + c₂) * g * (1 + c₁) :=
    one_le_mul_of_one_le_of_one_le (one_le_mul_of_one_le_of_one_le (by linarith) hg) (by linarith)
  exact deflatedFl_trace hσ τ path hG (export_within hg hc₂ hA hM h₁ h₂ dt dtype) c V E w hw

/-- **C140** (inverse): `NeumannInverseLinearOperator` of the exported operator plus damping, for a contraction `q`. `κ` bounds `M' + |d| I` in the norm. -/
theorem exported_neumann (N : Seminorm ℝ (Fin n → ℝ)) (hN : MonotoneNorm N) (hg : 1 ≤ g) (hc₁ : 0 ≤ c₁) (hc₂ : 0 ≤ c₂) (hA : OpWithin g A M M')
    (hM : ∀ i j, |M i j| ≤ M' i j) (h₁ : ∀ x : Fl σ, |(flCast ρ x).val - x.val| ≤ c₁ * |x.val|)
    (h₂ : ∀ x : Fl ρ, |(flCast σ x).val - x.val| ≤ c₂ * |x.val|) (dt : DType) (dtype : Option DType) (d : Fl σ) (κ : ℝ) (hκ0 : 0 ≤ κ)
    (hκ : ∀ v, N ((M' + |d.val| • 1) *ᵥ absVec v) ≤ κ * N v) (h : NeumannHyper (Fl σ)) (q δ : ℝ) (hq0 : 0 ≤ q)
    (hq : ∀ v, N (v - h.scale.val • ((M + d.val • 1) *ᵥ v)) ≤ q * N v) (hδ : δ = ((1 + c₂) * g * (1 + c₁) * (1 + σ.u) ^ 2 - 1) * κ)
    (hθ : flContraction σ.u q (|h.scale.val| * δ) < 1) (x : Fin n → Fl σ) (z : Fin n → ℝ) (hz : (M + d.val • 1) *ᵥ z = flVec x) :
    ∃ L, dampedSci (exportCast (flCast ρ) (flCast σ) A dt dtype).toSci d = .ok L ∧ ∃ y : Fin n → Fl σ,
      (neumannOp (fun _ => false) L h).dot (.vec (List.ofFn x)) = .ok (.vec (List.ofFn y)) ∧
      N (flVec y - z) ≤ q ^ (h.numTerms + 1) * N z +
        |h.scale.val| * ((1 + σ.u) ^ (h.numTerms + 1) / (1 - flContraction σ.u q (|h.scale.val| * δ)) -
          (1 - q ^ (h.numTerms + 1)) / (1 - q)) * N (flVec x) := by
  have hG : 1 ≤ (1 + c₂) * g * (1 + c₁) :=
    one_le_mul_of_one_le_of_one_le (one_le_mul_of_one_le_of_one_le (by linarith) hg) (by linarith)
  obtain ⟨L, h1, h2⟩ := damped_within hG (export_within hg hc₂ hA hM h₁ h₂ dt dtype) d
  have hG' : 1 ≤ (1 + c₂) * g * (1 + c₁) * (1 + σ.u) ^ 2 := one_le_mul_of_one_le_of_one_le hG (one_le_pow_u _)
  have h3 := h2.accurate N hN hG' κ hκ
  rw [← hδ] at h3
  refine ⟨L, h1, neumann_rounding_inverse N hN L _ δ ?_ h3 h q hq0 hq hθ x z hz⟩
  rw [hδ]
  exact mul_nonneg (by linarith) hκ0

end exported

/-! ## Example: three data in two mini-batches, `float32` parameters and `float64` arrays -/

theorem scale_within : OpWithin ((1 + (2 : ℝ)⁻¹ ^ 24) ^ 5)
    (curvatureOp [[2]] .mean (inferNData List.length [[1, 2], [3]] none) List.length scaleBatch [[1, 2], [3]])
    ((2 : ℝ) • (1 : Matrix (Fin 2) (Fin 2) ℝ)) ((2 : ℝ) • 1) := by
  have hm : riskMat .mean (fun d : ℕ => (d : ℝ) • (1 : Matrix (Fin 2) (Fin 2) ℝ)) [[1, 2], [3]].flatten = (2 : ℝ) • 1 := by
    rw [riskMat_scale]; congr 1; norm_num [riskValue]
  have h := curvature_within (ρ := binaryFloat 23) [[2]] (by simp) (by simp [total]) .mean (.inl rfl)
    (fun d : ℕ => (d : ℝ) • (1 : Matrix (Fin 2) (Fin 2) ℝ)) (fun d : ℕ => (d : ℝ) • 1)
    (fun d r c => by
      rw [abs_of_nonneg]
      rw [Matrix.smul_apply, smul_eq_mul, Matrix.one_apply]
      split_ifs <;> simp)
    ((1 + (2 : ℝ)⁻¹ ^ 24) ^ 2 - 1) (by norm_num) scaleBatch [[1, 2], [3]] (by simp)
    (fun k hk => binary_natCast 23 k (by simp at hk; omega)) (scaleBatch_accurate _)
  rw [hm] at h
  have e : 1 + batchError (binaryFloat 23) .mean ((1 + (2 : ℝ)⁻¹ ^ 24) ^ 2 - 1) [[1, 2], [3]].length = (1 + (2 : ℝ)⁻¹ ^ 24) ^ 5 := by
    simp only [batchError, weightRoundings, if_true, binaryFloat, List.length_cons, List.length_nil]
    ring
  rwa [e] at h

/-- The trace of the mean `2 I` is estimated up to an error below `2e-6`. -/
example (τ : FlSum (binaryFloat 52)) :
    ∃ F : (Fin 2 → Bool) → Fl (binaryFloat 52),
      (∀ b, (hutchTraceFl τ (triExt.withOp (exportCast (flCast (binaryFloat 23)) (flCast (binaryFloat 52))
        (curvatureOp [[2]] .mean (inferNData List.length [[1, 2], [3]] none) List.length scaleBatch [[1, 2], [3]]) .float32 none).toSci) 2
        (.str "rademacher") (List.ofFn b)).1 = .ok (F b)) ∧
      |signMean (fun b => (F b).val) - 4| ≤ 2e-6 := by
  have hw : DrawsBits triExt (List.ofFn : (Fin 2 → Bool) → List Bool) := fun b => rfl
  obtain ⟨F, h1, h2⟩ := exported_trace (signsExact_binary 52) τ (c₁ := (2 : ℝ)⁻¹ ^ 24) (c₂ := 0) (one_le_pow₀ (by norm_num)) (by norm_num) le_rfl scale_within
    (fun i j => by
      rw [abs_of_nonneg]
      rw [Matrix.smul_apply, smul_eq_mul, Matrix.one_apply]
      split_ifs <;> simp)
    (fun x => (binaryFloat 23).close x.val) (cast_widen (by norm_num)) .float32 none triExt _ hw
  refine ⟨F, h1, ?_⟩
  have ht : ((2 : ℝ) • (1 : Matrix (Fin 2) (Fin 2) ℝ)).trace = 4 := by simp [Matrix.trace_smul]; norm_num
  rw [ht] at h2
  refine h2.trans ?_
  norm_num [binaryFloat, Matrix.one_apply, Fin.sum_univ_two]

end Curvlinops
