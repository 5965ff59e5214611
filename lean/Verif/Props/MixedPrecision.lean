import Verif.Model.MixedPrecision
import Verif.Props.Rounding
import Verif.Props.NeumannRounding

/-!
# C105: rounding errors from the mini-batches to the inverse
-/

namespace Curvlinops

open Matrix

/-! ## The export -/

section export_

variable {α β : Type _}

theorem tensor_cast_id (t : Tensor α) : t.cast id = t := by simp [Tensor.cast]

/-- With exact casts, the export is the one of `to_scipy`. -/
theorem exportCast_id [NonUnitalNonAssocSemiring α] (A : LinOp α) (dt : DType) (dtype : Option DType) :
    (OpObj.plain true A).toScipy dt dtype = .ok (exportCast id id A dt dtype) := by
  have h : scipyCompatibleCast id id A dt = scipyCompatible A dt := by
    funext X
    simp only [scipyCompatibleCast, scipyCompatible, tensor_cast_id]
    rfl
  simp only [OpObj.toScipy, OpObj.adjoint, OpObj.selfAdjoint, if_true, exportCast, h, OpObj.op]
  rfl

theorem callFn_cast_vec (toTorch : β → α) (toNp : α → β) (A : LinOp α) (dt : DType) (ho : A.outShape ≠ []) (x : List β)
    (hx : x.length = A.ncols) (P : List α → Prop)
    (hA : ∀ Xs, HasShapes Xs A.inShape 1 → flatData Xs = x.map toTorch →
      ∃ Ys, (A.matmat Xs).1 = .ok Ys ∧ HasShapes Ys A.outShape 1 ∧ P (flatData Ys)) :
    ∃ y, callFn (scipyCompatibleCast toTorch toNp A dt) (.vec x) = .ok (.vec (y.map toNp)) ∧ y.length = A.nrows ∧ P y := by
  obtain ⟨Y, y1, y2, y3, y4, y5⟩ := matmul_of_matmat A (.tensor ⟨[x.length], x.map toTorch⟩) .vec P hA
    (by simp [PyVal.WF, Tensor.WF]) (by simp [InSpace, Fmt.dims, hx, LinOp.ncols, LinOp.inFlat]) (.inr (.inl rfl)) (.inl ho)
  rcases Y with t | ts | _
  · have hs : t.shape = [A.nrows] := by simpa [InSpace, Fmt.dims, LinOp.nrows, LinOp.outFlat] using y3
    refine ⟨t.data, ?_, ?_, y5⟩
    · unfold callFn scipyCompatibleCast
      simp only [NpVal.toArray, Tensor.cast, y1, toNumpy]
      have : (if dt = DType.bfloat16 then DType.float32 else dt) ≠ .bfloat16 := by cases dt <;> simp
      simp only [if_neg this, NpArray.toVal, hs]
    · have : t.WF := y4
      simpa [Tensor.WF, hs] using this
  · exact absurd y2 (by simp [SameKind])
  · exact absurd y2 (by simp [SameKind])

end export_

/-! ## Sums of matrices -/

section risk

variable {D : Type _} {n : Nat}

/-- Specification: the mean (sum) of matrices. -/
noncomputable def riskMat (red : Reduction) (H : D → Matrix (Fin n) (Fin n) ℝ) (data : List D) : Matrix (Fin n) (Fin n) ℝ :=
  fun r c => riskValue red (fun d => H d r c) data

theorem riskMat_mulVec (red : Reduction) (H : D → Matrix (Fin n) (Fin n) ℝ) (data : List D) (v : Fin n → ℝ) (r : Fin n) :
    (riskMat red H data *ᵥ v) r = riskValue red (fun d => (H d *ᵥ v) r) data := by
  have h : ∀ l : List D, (l.map fun d => (H d *ᵥ v) r).sum = ∑ c, (l.map fun d => H d r c).sum * v c := by
    intro l
    induction l with
    | nil => simp
    | cons d l ih => rw [List.map_cons, List.sum_cons, ih]; simp [Matrix.mulVec, dotProduct, add_mul, Finset.sum_add_distrib]
  unfold riskValue
  rw [h data, Finset.mul_sum]
  simp only [riskMat, riskValue, Matrix.mulVec, dotProduct, mul_assoc]

/-- Absolute values of the entries. -/
def absVec (v : Fin n → ℝ) : Fin n → ℝ := fun i => |v i|

theorem abs_mulVec_le (H A : Matrix (Fin n) (Fin n) ℝ) (hHA : ∀ r c, |H r c| ≤ A r c) (v : Fin n → ℝ) (r : Fin n) :
    |(H *ᵥ v) r| ≤ (A *ᵥ absVec v) r := by
  simp only [Matrix.mulVec, dotProduct]
  refine (Finset.abs_sum_le_sum_abs _ _).trans (Finset.sum_le_sum fun c _ => ?_)
  rw [abs_mul]
  exact mul_le_mul_of_nonneg_right (hHA r c) (abs_nonneg _)

theorem abs_riskMat_le (red : Reduction) (H A : D → Matrix (Fin n) (Fin n) ℝ) (hHA : ∀ d r c, |H d r c| ≤ A d r c)
    (data : List D) (r c : Fin n) : |riskMat red H data r c| ≤ riskMat red A data r c :=
  abs_riskValue_le_of red _ _ (fun d => hHA d r c) data

end risk

/-! ## Products with the exported operator -/

section products

variable {D : Type _} {n : Nat} {ρ σ : Rounding}

theorem norm_close_le (N : Seminorm ℝ (Fin n → ℝ)) (hN : MonotoneNorm N) (a b : Fin n → ℝ) (c : ℝ) (hc : 0 ≤ c)
    (h : ∀ i, |a i - b i| ≤ c * |b i|) : N (a - b) ≤ c * N b := by
  have e : N (c • b) = c * N b := by rw [map_smul_eq_mul, Real.norm_eq_abs, abs_of_nonneg hc]
  rw [← e]
  refine hN _ _ fun i => ?_
  rw [Pi.smul_apply, smul_eq_mul, abs_mul, abs_of_nonneg hc]
  exact h i

theorem batchError_nonneg (red : Reduction) (η : ℝ) (hη : 0 ≤ η) (k : Nat) : 0 ≤ batchError ρ red η k := by
  have h1 : (1 : ℝ) ≤ (1 + ρ.u) ^ (weightRoundings red + (k - 1)) := one_le_pow₀ (by linarith [ρ.nonneg])
  unfold batchError
  nlinarith

/-- Specification: the mini-batch products are computed with an error of at most `η` relative to products with absolute
values everywhere, where `A d` bounds the matrix `H d` of datum `d`. -/
def AccurateBatches (shapes : List (List Nat)) (red : Reduction) (H A : D → Matrix (Fin n) (Fin n) ℝ) (η : ℝ)
    (f : List D → List (Tensor (Fl ρ)) → Py (List (Tensor (Fl ρ)))) (batches : List (List D)) : Prop :=
  ∀ b ∈ batches, ∀ (M : List (Tensor (Fl ρ))) (v : Fin n → Fl ρ), HasShapes M shapes 1 → flatData M = List.ofFn v →
    ∃ Y, f b M = .ok Y ∧ HasShapes Y shapes 1 ∧ ∀ r : Fin n,
      |((flatData Y).getD r 0).val - (riskMat red H b *ᵥ flVec v) r| ≤ η * (riskMat red A b *ᵥ absVec (flVec v)) r

/-- The relative error of products with the exported operator: two casts and the products over the mini-batches. -/
noncomputable def exportError (c₁ c₂ ε : ℝ) : ℝ := (1 + c₂) * (1 + ε) * (1 + c₁) - 1

/-- C105: products with the SciPy export of a curvature operator. The casts of arrays to tensors and back have relative
errors of at most `c₁` and `c₂`; products of the mini-batches have relative errors of at most `η`; then products with the
export have errors of at most `(1 + c₂) (1 + ε) (1 + c₁) - 1`, with the error `ε` of the accumulation (C100), relative to `κ`
times the vector, where `κ` bounds the mean (sum) of the matrices with absolute entries. -/
theorem exported_accurate (N : Seminorm ℝ (Fin n → ℝ)) (hN : MonotoneNorm N) (shapes : List (List Nat)) (hs : shapes ≠ [])
    (hn : total shapes = n) (red : Reduction) (hred : red = .mean ∨ red = .sum) (H A : D → Matrix (Fin n) (Fin n) ℝ)
    (hHA : ∀ d r c, |H d r c| ≤ A d r c) (η : ℝ) (hη : 0 ≤ η)
    (f : List D → List (Tensor (Fl ρ)) → Py (List (Tensor (Fl ρ)))) (batches : List (List D)) (hne : ∀ b ∈ batches, b ≠ [])
    (hrep : ∀ k ≤ batches.flatten.length, ρ.rnd k = k) (hf : AccurateBatches shapes red H A η f batches)
    (κ : ℝ) (hκ : ∀ v, N (riskMat red A batches.flatten *ᵥ absVec v) ≤ κ * N v)
    (c₁ c₂ : ℝ) (hc₁ : 0 ≤ c₁) (hc₂ : 0 ≤ c₂) (h₁ : ∀ x : Fl σ, |(flCast ρ x).val - x.val| ≤ c₁ * |x.val|)
    (h₂ : ∀ x : Fl ρ, |(flCast σ x).val - x.val| ≤ c₂ * |x.val|) (dt : DType) (dtype : Option DType) :
    AccurateRep (ρ := σ) N (exportCast (flCast ρ) (flCast σ)
        (curvatureOp shapes red (inferNData List.length batches none) List.length f batches) dt dtype).toSci
      (riskMat red H batches.flatten) (exportError c₁ c₂ (batchError ρ red η batches.length) * κ) := by
  set op := curvatureOp shapes red (inferNData List.length batches none) List.length f batches with hop
  have hrows : op.nrows = n := by simpa [LinOp.nrows, LinOp.outFlat, hop, curvatureOp, total] using hn
  have hcols : op.ncols = n := by simpa [LinOp.ncols, LinOp.inFlat, hop, curvatureOp, total] using hn
  refine ⟨hrows, hcols, fun x => ?_⟩
  set x' : Fin n → Fl ρ := fun i => flCast ρ (x i) with hx'
  set m := riskMat red H batches.flatten
  set a := riskMat red A batches.flatten
  set ε := batchError ρ red η batches.length with hε
  have hε0 : 0 ≤ ε := batchError_nonneg red η hη _
  obtain ⟨y, y1, y2, y3⟩ := callFn_cast_vec (flCast ρ) (flCast σ) op dt hs (List.ofFn x) (by simp [hcols])
    (fun y => ∀ r : Fin n, |(y.getD r 0).val - (m *ᵥ flVec x') r| ≤ ε * (a *ᵥ absVec (flVec x')) r) (by
      intro Xs hXs hX
      have hX' : flatData Xs = List.ofFn x' := by rw [hX, List.map_ofFn]; rfl
      obtain ⟨Y, z1, z2, z3⟩ := matmat_rounding shapes 1 red hred
        (fun d r => if h : r < n then (H d *ᵥ flVec x') ⟨r, h⟩ else 0)
        (fun d r => if h : r < n then (A d *ᵥ absVec (flVec x')) ⟨r, h⟩ else 0)
        (fun d r => by
          by_cases h : r < n
          · simp only [dif_pos h]; exact abs_mulVec_le _ _ (hHA d) _ _
          · simp [dif_neg h]) η hη f batches hne hrep Xs hXs (by
          intro b hb
          obtain ⟨Y, w1, w2, w3⟩ := hf b hb Xs x' hXs hX'
          refine ⟨Y, w1, w2, fun r hr => ?_⟩
          have hr' : r < n := by simpa [hn] using hr
          have := w3 ⟨r, hr'⟩
          rw [riskMat_mulVec, riskMat_mulVec] at this
          simpa only [dif_pos hr'] using this)
      refine ⟨Y, z1, z2, fun r => ?_⟩
      have := z3 r (by simp [hn])
      simp only [dif_pos r.2] at this
      rw [riskMat_mulVec, riskMat_mulVec]
      exact this)
  have hyl : y.length = n := y2.trans hrows
  set y' : Fin n → Fl ρ := fun i => y.getD i 0 with hy'
  have hyy : y = List.ofFn y' := by
    refine List.ext_getElem (by simp [hyl]) fun i h1 h2 => ?_
    simp [hy', List.getD_eq_getElem?_getD, List.getElem?_eq_getElem h1]
  refine ⟨fun i => flCast σ (y' i), ?_, ?_⟩
  · refine dot_vec_of_impl (by simp [ScipyOp.toSci, exportCast, hcols]) (by simp [ScipyOp.toSci, exportCast, hrows]) ?_
    show callFn (scipyCompatibleCast (flCast ρ) (flCast σ) op dt) _ = _
    rw [y1, hyy, List.map_ofFn]
    rfl
  · have e1 : N (flVec x' - flVec x) ≤ c₁ * N (flVec x) := norm_close_le N hN _ _ _ hc₁ fun i => h₁ (x i)
    have e2 : N (flVec x') ≤ (1 + c₁) * N (flVec x) := by
      have : flVec x' = (flVec x' - flVec x) + flVec x := by abel
      calc N (flVec x') = N ((flVec x' - flVec x) + flVec x) := by rw [← this]
        _ ≤ N (flVec x' - flVec x) + N (flVec x) := map_add_le_add N _ _
        _ ≤ _ := by linarith
    have hm : ∀ v, N (m *ᵥ v) ≤ κ * N v := fun v => (hN _ _ fun i =>
      (abs_mulVec_le m a (abs_riskMat_le red H A hHA _) v i).trans (le_abs_self _)).trans (hκ v)
    have e3 : N (flVec y' - m *ᵥ flVec x') ≤ ε * (κ * N (flVec x')) := by
      have : N (flVec y' - m *ᵥ flVec x') ≤ N (ε • (a *ᵥ absVec (flVec x'))) := hN _ _ fun i => by
        rw [Pi.smul_apply, smul_eq_mul]
        exact (y3 i).trans (le_abs_self _)
      rw [map_smul_eq_mul, Real.norm_eq_abs, abs_of_nonneg hε0] at this
      exact this.trans (mul_le_mul_of_nonneg_left (hκ _) hε0)
    have e4 : N (flVec (fun i => flCast σ (y' i)) - flVec y') ≤ c₂ * N (flVec y') := norm_close_le N hN _ _ _ hc₂ fun i => h₂ (y' i)
    have e5 : N (m *ᵥ flVec x' - m *ᵥ flVec x) ≤ κ * (c₁ * N (flVec x)) := by
      rw [← Matrix.mulVec_sub]
      refine (hm _).trans ?_
      rcases le_or_gt 0 κ with hk | hk
      · exact mul_le_mul_of_nonneg_left e1 hk
      · have h0 : ∀ v, N v = 0 := fun v => le_antisymm (by
          by_contra hpos
          have h3 := hm v
          have h4 : 0 ≤ N (m *ᵥ v) := apply_nonneg _ _
          nlinarith [apply_nonneg N v]) (apply_nonneg _ _)
        simp [h0]
    have e6 : N (flVec y' - m *ᵥ flVec x) ≤ ((1 + ε) * (1 + c₁) - 1) * (κ * N (flVec x)) := by
      have : flVec y' - m *ᵥ flVec x = (flVec y' - m *ᵥ flVec x') + (m *ᵥ flVec x' - m *ᵥ flVec x) := by abel
      rw [this]
      refine (map_add_le_add N _ _).trans ((add_le_add e3 e5).trans ?_)
      have : κ * N (flVec x') ≤ κ * ((1 + c₁) * N (flVec x)) := by
        rcases le_or_gt 0 κ with hk | hk
        · exact mul_le_mul_of_nonneg_left e2 hk
        · have h0 : ∀ v, N v = 0 := fun v => le_antisymm (by
            by_contra hpos
            have h3 := hm v
            have h4 : 0 ≤ N (m *ᵥ v) := apply_nonneg _ _
            nlinarith [apply_nonneg N v]) (apply_nonneg _ _)
          simp [h0]
      have := mul_le_mul_of_nonneg_left this hε0
      linarith
    have e7 : N (flVec y') ≤ ((1 + ε) * (1 + c₁) - 1) * (κ * N (flVec x)) + κ * N (flVec x) := by
      have : flVec y' = (flVec y' - m *ᵥ flVec x) + m *ᵥ flVec x := by abel
      calc N (flVec y') = N ((flVec y' - m *ᵥ flVec x) + m *ᵥ flVec x) := by rw [← this]
        _ ≤ N (flVec y' - m *ᵥ flVec x) + N (m *ᵥ flVec x) := map_add_le_add N _ _
        _ ≤ _ := add_le_add e6 (hm _)
    have : flVec (fun i => flCast σ (y' i)) - m *ᵥ flVec x =
        (flVec (fun i => flCast σ (y' i)) - flVec y') + (flVec y' - m *ᵥ flVec x) := by abel
    rw [this]
    refine (map_add_le_add N _ _).trans ((add_le_add (e4.trans (mul_le_mul_of_nonneg_left e7 hc₂)) e6).trans (le_of_eq ?_))
    simp only [exportError]
    ring

/-- C105: the Neumann inverse of the SciPy export of a curvature operator in floating point arithmetic, where the parameters
have another precision than the arrays. The matrices of the data are symmetric and the eigenvalues of their mean (sum) are
close to `1 / scale`; the error for `A⁻¹ x` consists of truncation and rounding. -/
theorem neumann_exported (shapes : List (List Nat)) (hs : shapes ≠ [])
    (hn : total shapes = n) (red : Reduction) (hred : red = .mean ∨ red = .sum) (H A : D → Matrix (Fin n) (Fin n) ℝ)
    (hH : ∀ d, (H d)ᵀ = H d) (hHA : ∀ d r c, |H d r c| ≤ A d r c) (η : ℝ) (hη : 0 ≤ η)
    (f : List D → List (Tensor (Fl ρ)) → Py (List (Tensor (Fl ρ)))) (batches : List (List D)) (hne : ∀ b ∈ batches, b ≠ [])
    (hrep : ∀ k ≤ batches.flatten.length, ρ.rnd k = k) (hf : AccurateBatches shapes red H A η f batches)
    (κ : ℝ) (hκ0 : 0 ≤ κ) (hκ : ∀ v, euclNorm (riskMat red A batches.flatten *ᵥ absVec v) ≤ κ * euclNorm v)
    (c₁ c₂ : ℝ) (hc₁ : 0 ≤ c₁) (hc₂ : 0 ≤ c₂) (h₁ : ∀ x : Fl σ, |(flCast ρ x).val - x.val| ≤ c₁ * |x.val|)
    (h₂ : ∀ x : Fl ρ, |(flCast σ x).val - x.val| ≤ c₂ * |x.val|) (dt : DType) (dtype : Option DType)
    (h : NeumannHyper (Fl σ)) (q : ℝ) (hq0 : 0 ≤ q)
    (hq : ∀ l, IsEigenvalue (riskMat red H batches.flatten) l → |1 - h.scale.val * l| ≤ q) (δ : ℝ)
    (hδ : δ = exportError c₁ c₂ (batchError ρ red η batches.length) * κ)
    (hθ : flContraction σ.u q (|h.scale.val| * δ) < 1) (x : Fin n → Fl σ) (z : Fin n → ℝ)
    (hz : riskMat red H batches.flatten *ᵥ z = flVec x) :
    ∃ y : Fin n → Fl σ,
      (neumannOp (fun _ => false) (exportCast (flCast ρ) (flCast σ)
        (curvatureOp shapes red (inferNData List.length batches none) List.length f batches) dt dtype).toSci h).dot
          (.vec (List.ofFn x)) = .ok (.vec (List.ofFn y)) ∧
      euclNorm (flVec y - z) ≤ q ^ (h.numTerms + 1) * euclNorm z +
        |h.scale.val| * ((1 + σ.u) ^ (h.numTerms + 1) / (1 - flContraction σ.u q (|h.scale.val| * δ)) -
          (1 - q ^ (h.numTerms + 1)) / (1 - q)) * euclNorm (flVec x) := by
  have hL := exported_accurate (σ := σ) euclNorm euclNorm_monotone shapes hs hn red hred H A hHA η hη f batches hne hrep hf κ hκ
    c₁ c₂ hc₁ hc₂ h₁ h₂ dt dtype
  rw [← hδ] at hL
  refine neumann_rounding_symmetric _ _ ?_ δ ?_ hL h q hq0 hq hθ x z hz
  · funext r c
    show riskValue red (fun d => H d c r) _ = riskValue red (fun d => H d r c) _
    congr 1
    funext d
    exact congrFun (congrFun (hH d) r) c
  · rw [hδ]
    have hb : 0 ≤ batchError ρ red η batches.length := batchError_nonneg red η hη _
    refine mul_nonneg ?_ hκ0
    have h3 : 1 ≤ (1 + c₂) * (1 + batchError ρ red η batches.length) := by nlinarith
    unfold exportError
    nlinarith

end products

/-! ## `float32` parameters and `float64` arrays -/

/-- Casting `float32` to `float64` is exact. -/
theorem cast_widen {p q : Nat} (h : p ≤ q) (x : Fl (binaryFloat p)) :
    |(flCast (binaryFloat q) x).val - x.val| ≤ 0 * |x.val| := by
  have : (flCast (binaryFloat q) x).val = x.val := by
    show binaryRnd q x.val = x.val
    rw [← x.rnd_val]
    exact binary_widen h _
  rw [this]; simp

/-- Products of a mini-batch whose data have multiples `d` of the identity. -/
noncomputable def scaleBatch (b : List ℕ) (M : List (Tensor (Fl (binaryFloat 23)))) : Py (List (Tensor (Fl (binaryFloat 23)))) :=
  .ok (M.map fun t => t.cast (Fl.of (binaryFloat 23) (riskValue .mean (fun d : ℕ => (d : ℝ)) b) * ·))

theorem riskMat_scale (b : List ℕ) :
    riskMat .mean (fun d : ℕ => (d : ℝ) • (1 : Matrix (Fin 2) (Fin 2) ℝ)) b = riskValue .mean (fun d : ℕ => (d : ℝ)) b • 1 := by
  funext r c
  have : ∀ l : List ℕ, ∀ a : ℝ, (l.map fun d : ℕ => (d : ℝ) * a).sum = (l.map fun d : ℕ => (d : ℝ)).sum * a := by
    intro l a; induction l with
    | nil => simp
    | cons d l ih => simp only [List.map_cons, List.sum_cons, ih, add_mul]
  simp only [riskMat, riskValue, Matrix.smul_apply, smul_eq_mul, this, mul_assoc]

theorem scaleBatch_accurate (batches : List (List ℕ)) :
    AccurateBatches [[2]] .mean (fun d : ℕ => (d : ℝ) • (1 : Matrix (Fin 2) (Fin 2) ℝ)) (fun d : ℕ => (d : ℝ) • 1)
      ((1 + (2 : ℝ)⁻¹ ^ 24) ^ 2 - 1) scaleBatch batches := by
  intro b _ M v hM hv
  have hr0 : 0 ≤ riskValue .mean (fun d : ℕ => (d : ℝ)) b := by
    refine mul_nonneg (by split_ifs <;> positivity) (List.sum_nonneg fun x hx => ?_)
    obtain ⟨d, -, rfl⟩ := List.mem_map.mp hx
    positivity
  have e : flatData (M.map fun t => t.cast (Fl.of (binaryFloat 23) (riskValue .mean (fun d : ℕ => (d : ℝ)) b) * ·)) =
      (flatData M).map (Fl.of (binaryFloat 23) (riskValue .mean (fun d : ℕ => (d : ℝ)) b) * ·) := by
    clear hM hv
    induction M with
    | nil => rfl
    | cons t M ih => simp only [flatData, List.map_cons, List.flatten_cons, List.map_append, Tensor.cast] at ih ⊢; rw [ih]
  refine ⟨_, rfl, ⟨?_, ?_⟩, fun r => ?_⟩
  · rw [List.map_map]; exact hM.1
  · intro t ht
    obtain ⟨t', h1, rfl⟩ := List.mem_map.mp ht
    simpa [Tensor.WF, Tensor.cast] using hM.2 t' h1
  · rw [e, hv, riskMat_scale, Matrix.smul_mulVec, Matrix.one_mulVec, Matrix.smul_mulVec, Matrix.one_mulVec]
    have h1 := mul_within (Fl.of (binaryFloat 23) (riskValue .mean (fun d : ℕ => (d : ℝ)) b)) (v r)
      (riskValue .mean (fun d : ℕ => (d : ℝ)) b) (v r).val (riskValue .mean (fun d : ℕ => (d : ℝ)) b) |(v r).val|
      (1 + (2 : ℝ)⁻¹ ^ 24) 1 (by norm_num) (by rw [abs_of_nonneg hr0]) le_rfl
    have hc := (binaryFloat 23).close (riskValue .mean (fun d : ℕ => (d : ℝ)) b)
    rw [abs_of_nonneg hr0] at hc
    have h2 := h1 (by rw [add_sub_cancel_left]; exact hc) (by simp)
    have h3 : ((List.ofFn v).map (Fl.of (binaryFloat 23) (riskValue .mean (fun d : ℕ => (d : ℝ)) b) * ·)).getD r 0 =
        Fl.of (binaryFloat 23) (riskValue .mean (fun d : ℕ => (d : ℝ)) b) * v r := by
      fin_cases r <;> simp
    rw [h3]
    simp only [Pi.smul_apply, smul_eq_mul, absVec, flVec]
    refine h2.trans (le_of_eq ?_)
    simp only [binaryFloat]
    ring

/-- Three data in two mini-batches, `float32` parameters and `float64` arrays, `scale = 1 / 4` and `num_terms = 30`: the
product with the inverse of the mean `2 I` is correct up to an error below `1e-6`. -/
example (x : Fin 2 → Fl (binaryFloat 52)) :
    ∃ y : Fin 2 → Fl (binaryFloat 52),
      (neumannOp (fun _ => false) (exportCast (flCast (binaryFloat 23)) (flCast (binaryFloat 52))
        (curvatureOp [[2]] .mean (inferNData List.length [[1, 2], [3]] none) List.length scaleBatch [[1, 2], [3]])
          .float32 none).toSci ⟨30, Fl.of (binaryFloat 52) (1 / 4), true⟩).dot (.vec (List.ofFn x)) = .ok (.vec (List.ofFn y)) ∧
      euclNorm (flVec y - (1 / 2 : ℝ) • flVec x) ≤ 1e-6 * euclNorm (flVec x) := by
  have hv : (Fl.of (binaryFloat 52) (1 / 4)).val = 1 / 4 := by
    show binaryRnd 52 _ = _
    have e : (1 / 4 : ℝ) = ((1 : ℤ) : ℝ) * 2 ^ (-2 : ℤ) := by norm_num
    rw [e]
    exact binary_exact 52 1 (by norm_num) (-2)
  have hm : riskMat .mean (fun d : ℕ => (d : ℝ) • (1 : Matrix (Fin 2) (Fin 2) ℝ)) [[1, 2], [3]].flatten = (2 : ℝ) • 1 := by
    rw [riskMat_scale]; congr 1; norm_num [riskValue]
  have hu : (binaryFloat 52).u = (2 : ℝ)⁻¹ ^ 53 := rfl
  have hδ : exportError ((2 : ℝ)⁻¹ ^ 24) 0 (batchError (binaryFloat 23) .mean ((1 + (2 : ℝ)⁻¹ ^ 24) ^ 2 - 1) 2) * 2 =
      ((1 + (2 : ℝ)⁻¹ ^ 24) ^ 6 - 1) * 2 := by
    simp only [exportError, batchError, weightRoundings, if_true, binaryFloat]
    ring
  obtain ⟨y, y1, y2⟩ := neumann_exported (ρ := binaryFloat 23) (σ := binaryFloat 52) [[2]] (by simp) (by simp [total]) .mean (.inl rfl)
    (fun d : ℕ => (d : ℝ) • (1 : Matrix (Fin 2) (Fin 2) ℝ)) (fun d : ℕ => (d : ℝ) • 1) (fun d => by simp)
    (fun d r c => by
      rw [abs_of_nonneg]
      rw [Matrix.smul_apply, smul_eq_mul, Matrix.one_apply]
      split_ifs <;> simp)
    ((1 + (2 : ℝ)⁻¹ ^ 24) ^ 2 - 1) (by norm_num) scaleBatch [[1, 2], [3]] (by simp)
    (fun k hk => binary_natCast 23 k (by simp at hk; omega)) (scaleBatch_accurate _) 2 (by norm_num)
    (fun v => by
      rw [hm, Matrix.smul_mulVec, Matrix.one_mulVec, map_smul_eq_mul]
      have : euclNorm (absVec v) ≤ euclNorm v := euclNorm_monotone _ _ fun i => by simp [absVec]
      simpa using this)
    ((2 : ℝ)⁻¹ ^ 24) 0 (by norm_num) le_rfl (fun x => (binaryFloat 23).close x.val) (cast_widen (by norm_num)) .float32 none
    ⟨30, Fl.of (binaryFloat 52) (1 / 4), true⟩ (1 / 2) (by norm_num)
    (fun l hl => by
      rw [hm] at hl
      obtain ⟨w, hw, hl⟩ := hl
      rw [Matrix.smul_mulVec, Matrix.one_mulVec] at hl
      have h0 : ((2 : ℝ) - l) • w = 0 := by rw [sub_smul, hl, sub_self]
      rcases smul_eq_zero.mp h0 with h | h
      · have : l = 2 := by linarith
        subst this
        show |1 - (Fl.of (binaryFloat 52) (1 / 4)).val * 2| ≤ _
        rw [hv]; norm_num
      · exact absurd h hw)
    (((1 + (2 : ℝ)⁻¹ ^ 24) ^ 6 - 1) * 2) hδ.symm
    (by
      show flContraction (binaryFloat 52).u (1 / 2) (|(Fl.of (binaryFloat 52) (1 / 4)).val| * _) < 1
      rw [hv, hu]; norm_num [flContraction]) x ((1 / 2 : ℝ) • flVec x)
    (by rw [hm, Matrix.smul_mulVec, Matrix.one_mulVec, smul_smul]; norm_num)
  refine ⟨y, y1, y2.trans ?_⟩
  show _ + |(Fl.of (binaryFloat 52) (1 / 4)).val| * (_ / (1 - flContraction _ _ (|(Fl.of (binaryFloat 52) (1 / 4)).val| * _)) - _) * _ ≤ _
  rw [map_smul_eq_mul, hu, hv, ← mul_assoc, ← add_mul]
  refine mul_le_mul_of_nonneg_right ?_ (apply_nonneg _ _)
  norm_num [flContraction]

end Curvlinops
