import Verif.Model.LossOptions
import Verif.Props.LossCurvature
import Verif.Props.LossSqrt
import Verif.Props.FisherMCUnbiased
import Mathlib.Tactic.FinCases

/-!
# C75: options of the losses
-/

namespace Curvlinops

open MeasureTheory

variable {C : Nat} {o : LossOpts C}

/-! ## Specification -/

/-- `Jᵀ H J` for one row. -/
noncomputable def rowSandwich (t : ORow o) (H : Fin C → Fin C → ℝ) : Mat ℝ := fun r c =>
  ∑ i : Fin C, ∑ j : Fin C, t.J i r * H i j * t.J j c

/-- Hessian of the unreduced loss of a row in the prediction. -/
noncomputable def rowHessian (t : ORow o) : Fin C → Fin C → ℝ := hess (o.termLoss t.y) t.f

/-- Outer product of the gradient of the unreduced loss of a row. -/
noncomputable def rowGradOuter (t : ORow o) : Fin C → Fin C → ℝ := fun i j =>
  pderiv (o.termLoss t.y) i t.f * pderiv (o.termLoss t.y) j t.f

/-- The matrix that belongs to the loss on all rows: the sum of `Jᵀ H J`, divided by what the loss's reduction divides by. -/
noncomputable def rowsMatrix (mean : Bool) (H : ORow o → Fin C → Fin C → ℝ) (ts : List (ORow o)) : Mat ℝ := fun r c =>
  (ts.map fun t => rowSandwich t (H t) r c).sum / if mean then (ts.map fun t => o.divisor t.y).sum else 1

theorem rowsMatrix_eq (mean : Bool) (H : ORow o → Fin C → Fin C → ℝ) (ts : List (ORow o)) (r c : Nat) :
    rowsMatrix mean H ts r c = (ts.map fun t => rowSandwich t (H t) r c).sum / rowsDivisor mean ts := rfl

/-! ## Derivatives -/

theorem ce_hasDerivAt (y : Fin C) (f : Fin C → ℝ) (c : Fin C) :
    HasDerivAt (fun t => -Real.log (softmax (Function.update f c t) y)) (softmax f c - if c = y then 1 else 0) (f c) := by
  have he : (fun t => -Real.log (softmax (Function.update f c t) y)) = fun t =>
      Real.log (∑ c', Real.exp (Function.update f c t c')) - Function.update f c t y := by
    funext t
    unfold softmax
    rw [Real.log_div (Real.exp_pos _).ne' (sum_exp_pos _ c).ne', Real.log_exp]
    ring
  rw [he]
  have hupd : Function.update f c (f c) = f := Function.update_eq_self c f
  have h1 := (sum_exp_update_hasDerivAt f c).log (by rw [hupd]; exact (sum_exp_pos f c).ne')
  rw [hupd] at h1
  exact h1.sub (update_coord_hasDerivAt f c y)

/-- The factor of a term's Hessian compared to the loss without options. -/
noncomputable def ceFactor (w : Fin C → ℝ) (ε : ℝ) : Option (Fin C) → ℝ
  | none => 0
  | some y => (1 - ε) * w y + ε / C * ∑ c, w c

theorem pderiv_ceOpt (w : Fin C → ℝ) (ε : ℝ) (y : Fin C) (f : Fin C → ℝ) (i : Fin C) :
    pderiv ((LossOpts.ce w ε).termLoss (some y)) i f =
      ceFactor w ε (some y) * softmax f i - ((1 - ε) * (if i = y then w y else 0) + ε / C * w i) := by
  refine pderiv_eq ?_
  have h1 := ((ce_hasDerivAt y f i).const_mul (w y)).const_mul (1 - ε)
  have h2 := (HasDerivAt.fun_sum (u := Finset.univ) fun c (_ : c ∈ Finset.univ) =>
    (ce_hasDerivAt c f i).const_mul (w c)).const_mul (ε / C)
  refine (h1.add h2).congr_deriv ?_
  have h3 : ∑ c, w c * (softmax f i - if i = c then 1 else 0) = (∑ c, w c) * softmax f i - w i := by
    simp only [mul_sub, Finset.sum_sub_distrib, ← Finset.sum_mul, mul_ite, mul_one, mul_zero, Finset.sum_ite_eq,
      Finset.mem_univ, if_true]
  rw [h3]
  unfold ceFactor
  split <;> ring

/-- C75: with class weights, label smoothing and ignored labels, the Hessian of a term is a multiple of the Hessian without
options. -/
theorem hess_ceOpt (w : Fin C → ℝ) (ε : ℝ) (y : Option (Fin C)) (f : Fin C → ℝ) (i j : Fin C) :
    hess ((LossOpts.ce w ε).termLoss y) f i j =
      ceFactor w ε y * ((if i = j then softmax f i else 0) - softmax f i * softmax f j) := by
  cases y with
  | none =>
    have h1 : ∀ j g, pderiv ((LossOpts.ce w ε).termLoss none) j g = 0 := fun j g => pderiv_eq (hasDerivAt_const _ _)
    unfold hess
    simp only [h1, ceFactor, zero_mul]
    exact pderiv_eq (hasDerivAt_const _ _)
  | some y =>
    unfold hess
    simp only [pderiv_ceOpt]
    refine pderiv_eq ?_
    exact ((softmax_hasDerivAt f i j).const_mul _).sub_const _

theorem pderiv_bceOpt (w p : Fin C → ℝ) (y f : Fin C → ℝ) (i : Fin C) :
    pderiv ((LossOpts.bce w p).termLoss y) i f =
      w i * ((1 - y i + p i * y i) * Real.sigmoid (f i) - p i * y i) := by
  have h := pderiv_sum_coord (fun c x => w c *
      -(p c * y c * Real.log (Real.sigmoid x) + (1 - y c) * Real.log (1 - Real.sigmoid x))) i f
  refine h.trans (HasDerivAt.deriv ?_)
  have h2 := (((log_sigmoid_hasDerivAt (f i)).const_mul (p i * y i)).add
    ((log_one_sub_sigmoid_hasDerivAt (f i)).const_mul (1 - y i))).neg.const_mul (w i)
  refine h2.congr_deriv ?_
  ring

/-- C75: the same for `BCEWithLogitsLoss` with weights. -/
theorem hess_bceOpt (w p : Fin C → ℝ) (y f : Fin C → ℝ) (i j : Fin C) :
    hess ((LossOpts.bce w p).termLoss y) f i j =
      if i = j then w i * (1 - y i + p i * y i) * (Real.sigmoid (f i) * (1 - Real.sigmoid (f i))) else 0 := by
  unfold hess
  simp only [pderiv_bceOpt]
  rw [pderiv_coord (fun x => w j * ((1 - y j + p j * y j) * Real.sigmoid x - p j * y j)) j i f]
  by_cases h : i = j
  · subst h
    rw [if_pos rfl, if_pos rfl]
    have := (((Real.hasDerivAt_sigmoid (f i)).const_mul (1 - y i + p i * y i)).sub_const (p i * y i)).const_mul (w i)
    rw [this.deriv]
    ring
  · rw [if_neg h, if_neg h]

/-! ## Mini-batches -/

theorem contraction_generic {n : Nat} (J : Fin n → Nat → Nat → ℝ) (H : Fin n × Fin C → Fin n × Fin C → ℝ)
    (Ht : Fin n → Fin C → Fin C → ℝ) (w : ℝ) (hH : ∀ m m' i j, H (m, i) (m', j) = if m = m' then Ht m i j / w else 0)
    (r c : Nat) :
    ∑ s ∈ Finset.range ([n, C].prod), ∑ s' ∈ Finset.range ([n, C].prod),
      rowsJ (C := C) J s r * flat2 H s s' * rowsJ (C := C) J s' c =
      (∑ m, ∑ i : Fin C, ∑ j : Fin C, J m i r * Ht m i j * J m j c) / w := by
  have hp : [n, C].prod = n * C := by simp
  have h2 : ∀ g : Fin n × Fin C → ℝ, ∑ s : Fin (n * C), g (finProdFinEquiv.symm s) = ∑ m : Fin n, ∑ i, g (m, i) := by
    intro g
    rw [Equiv.sum_comp finProdFinEquiv.symm g, Fintype.sum_prod_type]
  rw [hp, Finset.sum_range]
  have h3 : ∀ s : Fin (n * C), ∑ s' ∈ Finset.range (n * C), rowsJ (C := C) J s r * flat2 H s s' * rowsJ (C := C) J s' c =
      (fun x : Fin n × Fin C => ∑ j : Fin C, J x.1 x.2 r * (Ht x.1 x.2 j / w) * J x.1 j c) (finProdFinEquiv.symm s) := by
    intro s
    rw [Finset.sum_range]
    have h4 : ∀ s' : Fin (n * C), rowsJ (C := C) J s r * flat2 H s s' * rowsJ (C := C) J s' c =
        (fun x' : Fin n × Fin C => J (finProdFinEquiv.symm s).1 (finProdFinEquiv.symm s).2 r * H (finProdFinEquiv.symm s) x' *
          J x'.1 x'.2 c) (finProdFinEquiv.symm s') := by
      intro s'
      simp only [rowsJ, flat2, s.2, s'.2, and_self, dif_pos, Fin.eta]
    simp only [h4]
    rw [h2 fun x' : Fin n × Fin C => J (finProdFinEquiv.symm s).1 (finProdFinEquiv.symm s).2 r *
      H (finProdFinEquiv.symm s) x' * J x'.1 x'.2 c]
    rw [Finset.sum_eq_single (finProdFinEquiv.symm s).1]
    · refine Finset.sum_congr rfl fun j _ => ?_
      rw [show finProdFinEquiv.symm s = ((finProdFinEquiv.symm s).1, (finProdFinEquiv.symm s).2) from rfl, hH, if_pos rfl]
    · intro m' _ hne
      refine Finset.sum_eq_zero fun j _ => ?_
      rw [show finProdFinEquiv.symm s = ((finProdFinEquiv.symm s).1, (finProdFinEquiv.symm s).2) from rfl, hH,
        if_neg (Ne.symm hne)]
      ring
    · intro h; exact absurd (Finset.mem_univ _) h
  simp only [h3]
  rw [h2 fun x : Fin n × Fin C => ∑ j : Fin C, J x.1 x.2 r * (Ht x.1 x.2 j / w) * J x.1 j c, Finset.sum_div]
  refine Finset.sum_congr rfl fun m _ => ?_
  rw [Finset.sum_div]
  refine Finset.sum_congr rfl fun i _ => ?_
  rw [Finset.sum_div]
  exact Finset.sum_congr rfl fun j _ => by ring

theorem rowsBatch_represents (shapes : List (List Nat)) (hshapes : shapes ≠ []) (ts : List (ORow o))
    (H : Fin ts.length × Fin C → Fin ts.length × Fin C → ℝ) (Ht : ORow o → Fin C → Fin C → ℝ) (w : ℝ)
    (hH : ∀ m m' i j, H (m, i) (m', j) = if m = m' then Ht ts[m] i j / w else 0) :
    BatchRepresents shapes
      (ggnMatmatBatch shapes (rowsJ (C := C) fun m : Fin ts.length => (ts[m]).J) (flat2 H) [ts.length, C])
      fun r c => (ts.map fun t => rowSandwich t (Ht t) r c).sum / w := by
  intro K M hM
  obtain ⟨Y, y1, y2, y3⟩ := ggnMatmatBatch_represents shapes hshapes (rowsJ (C := C) fun m : Fin ts.length => (ts[m]).J)
    (flat2 H) [ts.length, C] K M hM
  refine ⟨Y, y1, y2, y3.1, fun r hr l hl => ?_⟩
  rw [y3.2 r hr l hl]
  refine Finset.sum_congr rfl fun c _ => ?_
  congr 1
  refine (contraction_generic (fun m : Fin ts.length => (ts[m]).J) H (fun m => Ht ts[m]) w hH r c).trans ?_
  congr 1
  exact Fin.sum_univ_fun_getElem ts fun t => rowSandwich t (Ht t) r c

theorem hess_rowsLoss (mean : Bool) (ts : List (ORow o)) (m m' : Fin ts.length) (i j : Fin C) :
    hess (rowsLoss mean ts) (rowOuts ts) (m, i) (m', j) =
      if m = m' then rowHessian ts[m] i j / rowsDivisor mean ts else 0 :=
  hess_rows (fun m : Fin ts.length => o.termLoss (ts[m]).y) (rowsDivisor mean ts) m m' i j (rowOuts ts)

theorem pderiv_rowsLoss (mean : Bool) (ts : List (ORow o)) (m : Fin ts.length) (i : Fin C) :
    pderiv (rowsLoss mean ts) (m, i) (rowOuts ts) = pderiv (o.termLoss (ts[m]).y) i (ts[m]).f / rowsDivisor mean ts :=
  pderiv_rows (fun m : Fin ts.length => o.termLoss (ts[m]).y) (rowsDivisor mean ts) m i (rowOuts ts)

theorem hess_efOpt (mean : Bool) (ts : List (ORow o)) (m m' : Fin ts.length) (i j : Fin C) :
    hess (efPseudoLoss (efReductionFactor o.kind mean ts.length C) (efOptGrad mean ts)) (rowOuts ts) (m, i) (m', j) =
      if m = m' then rowGradOuter ts[m] i j /
        (rowsDivisor mean ts ^ 2 / efReductionFactor o.kind mean ts.length C) else 0 := by
  have hk : efReductionFactor o.kind mean ts.length C ≠ 0 := by
    rw [efReductionFactor_eq]
    exact reductionFactor_ne_zero o.kind mean (by have := m.2; omega) (by have := i.2; omega)
  have hF : efPseudoLoss (efReductionFactor o.kind mean ts.length C) (efOptGrad mean ts) =
      fun f : Fin ts.length × Fin C → ℝ => (∑ m, (fun (m : Fin ts.length) (r : Fin C → ℝ) =>
        ∑ _s : Fin 1, (1 / 2 : ℝ) * (∑ c, r c * efOptGrad mean ts (m, c)) ^ 2) m fun c => f (m, c)) /
          efReductionFactor o.kind mean ts.length C := by
    funext f
    unfold efPseudoLoss
    rw [Finset.mul_sum, Finset.sum_div]
    refine Finset.sum_congr rfl fun m _ => ?_
    simp
    norm_num
    ring
  rw [hF]
  refine (hess_rows (fun (m : Fin ts.length) (r : Fin C → ℝ) =>
        ∑ _s : Fin 1, (1 / 2 : ℝ) * (∑ c, r c * efOptGrad mean ts (m, c)) ^ 2) _ m m' i j (rowOuts ts)).trans ?_
  congr 1
  rw [hess_sum_sq (1 / 2) (fun (_ : Fin 1) c => efOptGrad mean ts (m, c))]
  simp only [Finset.univ_unique, Finset.sum_singleton, efOptGrad, pderiv_rowsLoss, rowGradOuter]
  rcases eq_or_ne (rowsDivisor mean ts) 0 with h0 | h0
  · simp [h0]
  · field_simp

/-! ## The operators -/

/-- The share of a mini-batch in the operator's sum. -/
noncomputable def batchShare (mean : Bool) {D : Type _} (batches : List (List D)) (b : List D) : ℝ :=
  if mean then (b.length : ℝ) / (batches.flatten.length : ℝ) else 1

theorem optOp_represents (shapes : List (List Nat)) (mean : Bool) (f : List (List (ORow o)) → List (Tensor ℝ) → Py (List (Tensor ℝ)))
    (A : List (List (ORow o)) → Mat ℝ) (batches : List (List (List (ORow o)))) (hne : batches.flatten ≠ [])
    (hf : ∀ b ∈ batches, BatchRepresents shapes (f b) (A b)) :
    Represents (curvatureOp shapes (redOf mean) (inferNData List.length batches none) List.length f batches)
      fun r c => (batches.map fun b => batchShare mean batches b * A b r c).sum := by
  have hN : inferNData List.length batches none = batches.flatten.length := by simp [inferNData, List.length_flatten]
  rw [hN]
  refine curvatureOp_represents (redOf mean) batches.flatten.length List.length f A shapes (batchShare mean batches) batches hf
    fun b _ => ?_
  unfold normalizationFactor
  rw [if_neg fun h => hne (List.length_eq_zero_iff.mp h)]
  cases mean <;> simp [redOf, batchShare]

/-- C75: what the GGN operator multiplies with, for all options. -/
theorem ggnOpt_represents (shapes : List (List Nat)) (hshapes : shapes ≠ []) (mean : Bool)
    (batches : List (List (List (ORow o)))) (hne : batches.flatten ≠ []) :
    Represents (curvatureOp shapes (redOf mean) (inferNData List.length batches none) List.length
        (fun b => ggnOptBatch shapes mean b.flatten) batches)
      fun r c => (batches.map fun b => batchShare mean batches b * rowsMatrix mean rowHessian b.flatten r c).sum :=
  optOp_represents shapes mean _ _ batches hne fun b _ =>
    rowsBatch_represents shapes hshapes b.flatten _ rowHessian _ (hess_rowsLoss mean b.flatten)

/-- C75: what the empirical Fisher operator multiplies with, for all options. -/
theorem efOpt_represents (shapes : List (List Nat)) (hshapes : shapes ≠ []) (mean : Bool)
    (batches : List (List (List (ORow o)))) (hne : batches.flatten ≠ []) :
    Represents (curvatureOp shapes (redOf mean) (inferNData List.length batches none) List.length
        (fun b => efOptBatch shapes mean b.flatten) batches)
      fun r c => (batches.map fun b => batchShare mean batches b *
        (efReductionFactor o.kind mean b.flatten.length C / rowsDivisor mean b.flatten *
          rowsMatrix mean rowGradOuter b.flatten r c)).sum := by
  have h := optOp_represents shapes mean _ _ batches hne fun b _ =>
    rowsBatch_represents shapes hshapes b.flatten _ rowGradOuter _ (hess_efOpt mean b.flatten)
  have he : (fun r c => (batches.map fun b => batchShare mean batches b *
        (efReductionFactor o.kind mean b.flatten.length C / rowsDivisor mean b.flatten *
          rowsMatrix mean rowGradOuter b.flatten r c)).sum) =
      fun r c => (batches.map fun b => batchShare mean batches b *
        ((b.flatten.map fun t => rowSandwich t (rowGradOuter t) r c).sum /
          (rowsDivisor mean b.flatten ^ 2 / efReductionFactor o.kind mean b.flatten.length C))).sum := by
    funext r c
    refine congrArg List.sum (List.map_congr_left fun b _ => ?_)
    congr 1
    simp only [rowsMatrix_eq]
    rw [div_div_eq_mul_div]
    rcases eq_or_ne (rowsDivisor mean b.flatten) 0 with h0 | h0
    · simp [h0]
    · field_simp
  rw [he]
  exact h

/-- Sums over mini-batches whose divisors are proportional to their sizes. -/
theorem rows_batching (mean : Bool) (H : ORow o → Fin C → Fin C → ℝ) (batches : List (List (List (ORow o))))
    (hne : ∀ b ∈ batches, b ≠ []) (q : ℝ) (hq : mean = true → q ≠ 0 ∧ ∀ b ∈ batches, rowsDivisor mean b.flatten = q * b.length)
    (r c : Nat) :
    (batches.map fun b => batchShare mean batches b * rowsMatrix mean H b.flatten r c).sum =
      rowsMatrix mean H batches.flatten.flatten r c := by
  have hS : (batches.flatten.flatten.map fun t => rowSandwich t (H t) r c).sum =
      (batches.map fun b => (b.flatten.map fun t => rowSandwich t (H t) r c).sum).sum := by
    rw [List.flatten_flatten, sum_map_flatten, List.map_map]
    rfl
  cases mean with
  | false =>
    simp only [rowsMatrix_eq]
    rw [hS]
    simp [batchShare, rowsDivisor]
  | true =>
    obtain ⟨hq0, hq⟩ := hq rfl
    have hD : rowsDivisor true batches.flatten.flatten = q * batches.flatten.length := by
      have h1 : rowsDivisor true batches.flatten.flatten = (batches.map fun b => rowsDivisor true b.flatten).sum := by
        unfold rowsDivisor
        simp only [if_true]
        rw [List.flatten_flatten, sum_map_flatten, List.map_map]
        rfl
      rw [h1, List.map_congr_left hq, List.sum_map_mul_left, List.length_flatten]
      congr 1
      rw [Nat.cast_list_sum, List.map_map]
      rfl
    simp only [rowsMatrix_eq]
    rw [hS, hD, div_eq_mul_inv, ← List.sum_map_mul_right]
    refine congrArg List.sum (List.map_congr_left fun b hb => ?_)
    rw [hq b hb]
    have h1 : (b.length : ℝ) ≠ 0 := by simpa using hne b hb
    have h2 : (batches.flatten.length : ℝ) ≠ 0 := by
      have : b.length ≤ batches.flatten.length := by
        rw [List.length_flatten]
        exact List.le_sum_of_mem (List.mem_map_of_mem hb)
      have : 0 < b.length := List.length_pos_of_ne_nil (hne b hb)
      exact_mod_cast (by omega : batches.flatten.length ≠ 0)
    unfold batchShare
    simp only [if_true]
    field_simp

/-- C75 (partial): the GGN operator multiplies with the GGN of the loss with options on the whole data, if the reduction is 'sum'
(`hq` is void then), or there is one mini-batch, or the divisors of the mini-batches are proportional to the numbers of their data. Missing:
mini-batches with different shares of ignored labels or weights, see `ggnOpt_mean_wrong`. -/
theorem ggnOpt_partial (shapes : List (List Nat)) (hshapes : shapes ≠ []) (mean : Bool)
    (batches : List (List (List (ORow o)))) (hne : ∀ b ∈ batches, b ≠ []) (hne' : batches ≠ []) (q : ℝ)
    (hq : mean = true → q ≠ 0 ∧ ∀ b ∈ batches, rowsDivisor mean b.flatten = q * b.length) :
    Represents (curvatureOp shapes (redOf mean) (inferNData List.length batches none) List.length
        (fun b => ggnOptBatch shapes mean b.flatten) batches)
      (rowsMatrix mean rowHessian batches.flatten.flatten) := by
  have h := ggnOpt_represents (o := o) shapes hshapes mean batches (by
    obtain ⟨b, bs, rfl⟩ := List.exists_cons_of_ne_nil hne'
    intro h0
    exact hne b (by simp) (List.flatten_eq_nil_iff.mp h0 b (by simp)))
  have he : (fun r c => (batches.map fun b => batchShare mean batches b * rowsMatrix mean rowHessian b.flatten r c).sum) =
      rowsMatrix mean rowHessian batches.flatten.flatten := by
    funext r c
    exact rows_batching mean rowHessian batches hne q hq r c
  rwa [he] at h

theorem ceOnes_divisor (ε : ℝ) (ts : List (ORow (LossOpts.ce (fun _ : Fin C => 1) ε))) (hy : ∀ t ∈ ts, t.y ≠ none) :
    rowsDivisor true ts = ts.length := by
  unfold rowsDivisor
  simp only [if_true]
  induction ts with
  | nil => simp
  | cons t ts ih =>
    rw [List.map_cons, List.sum_cons, ih fun t ht => hy t (by simp [ht]), List.length_cons]
    obtain ⟨c, hc⟩ := Option.ne_none_iff_exists'.mp (hy t (by simp))
    rw [hc]
    simp only [LossOpts.divisor]
    push_cast
    ring

theorem bce_divisor (w p : Fin C → ℝ) (ts : List (ORow (LossOpts.bce w p))) : rowsDivisor true ts = ts.length * C := by
  unfold rowsDivisor
  simp [LossOpts.divisor]

/-- C75 (partial): the empirical Fisher operator multiplies with the empirical Fisher of the loss with options on the whole data if
the reduction is 'sum', or the loss divides by the number of rows (times `C` for `BCEWithLogitsLoss`), with the same number of rows for all
data. Missing: weighted means and ignored labels, see `efOpt_mean_factor` and `efOpt_mean_wrong`. -/
theorem efOpt_partial (shapes : List (List Nat)) (hshapes : shapes ≠ []) (mean : Bool) (T : Nat)
    (batches : List (List (List (ORow o)))) (hne : ∀ b ∈ batches, b ≠ []) (hne' : batches ≠ [])
    (hC : C ≠ 0) (hT0 : T ≠ 0) (hT : ∀ b ∈ batches, ∀ d ∈ b, d.length = T)
    (hD : ∀ b ∈ batches, rowsDivisor mean b.flatten = efReductionFactor o.kind mean b.flatten.length C) :
    Represents (curvatureOp shapes (redOf mean) (inferNData List.length batches none) List.length
        (fun b => efOptBatch shapes mean b.flatten) batches)
      (rowsMatrix mean rowGradOuter batches.flatten.flatten) := by
  have h := efOpt_represents (o := o) shapes hshapes mean batches (by
    obtain ⟨b, bs, rfl⟩ := List.exists_cons_of_ne_nil hne'
    intro h0
    exact hne b (by simp) (List.flatten_eq_nil_iff.mp h0 b (by simp)))
  have hlen : ∀ b ∈ batches, b.flatten.length = b.length * T := by
    intro b hb
    have := hT b hb
    rw [List.length_flatten, List.map_congr_left this]
    simp
  have hk : ∀ b ∈ batches, efReductionFactor o.kind mean b.flatten.length C ≠ 0 := by
    intro b hb
    rw [efReductionFactor_eq]
    refine reductionFactor_ne_zero _ _ ?_ hC
    rw [hlen b hb]
    exact Nat.mul_ne_zero (by simpa using hne b hb) hT0
  have he : (fun r c => (batches.map fun b => batchShare mean batches b *
        (efReductionFactor o.kind mean b.flatten.length C / rowsDivisor mean b.flatten *
          rowsMatrix mean rowGradOuter b.flatten r c)).sum) = rowsMatrix mean rowGradOuter batches.flatten.flatten := by
    funext r c
    rw [← rows_batching mean rowGradOuter batches hne (efReductionFactor o.kind true T C) (fun hm => ⟨?_, fun b hb => ?_⟩) r c]
    · refine congrArg List.sum (List.map_congr_left fun b hb => ?_)
      rw [hD b hb, div_self (hk b hb), one_mul]
    · rw [efReductionFactor_eq]
      exact reductionFactor_ne_zero _ _ hT0 hC
    · rw [hD b hb, hm, hlen b hb]
      unfold efReductionFactor
      cases o <;> simp [LossOpts.kind] <;> ring
  rwa [he] at h

/-- C75: with reduction 'mean' on one mini-batch, the empirical Fisher is off by the factor `n/D`, where `n` is the number of rows and
`D` the number (or total weight) of the labels that are not ignored. -/
theorem efOpt_mean_factor (w : Fin C → ℝ) (ε : ℝ) (shapes : List (List Nat)) (hshapes : shapes ≠ [])
    (b : List (List (ORow (.ce w ε)))) (hne : b ≠ []) :
    Represents (curvatureOp shapes .mean (inferNData List.length [b] none) List.length
        (fun b => efOptBatch shapes true b.flatten) [b])
      fun r c => (b.flatten.length : ℝ) / rowsDivisor true b.flatten * rowsMatrix true rowGradOuter b.flatten r c := by
  have h := efOpt_represents (o := .ce w ε) shapes hshapes true [b] (by simpa using hne)
  have h1 : (b.length : ℝ) ≠ 0 := by simpa using hne
  simpa [batchShare, efReductionFactor, LossOpts.kind, div_self h1, redOf] using h

/-! ## Monte-Carlo Fisher and type-2 KFAC -/

theorem softmax_lt_one (hC : 2 ≤ C) (f : Fin C → ℝ) (i : Fin C) : softmax f i < 1 := by
  have h1 := sum_softmax f i
  rw [← Finset.add_sum_erase _ _ (Finset.mem_univ i)] at h1
  have h2 : 0 < ∑ c ∈ Finset.univ.erase i, softmax f c := by
    refine Finset.sum_pos (fun c _ => softmax_pos f c) ?_
    rw [← Finset.card_pos, Finset.card_erase_of_mem (Finset.mem_univ i), Finset.card_univ, Fintype.card_fin]
    omega
  linarith

/-- The Hessian of the loss with options equals the one without exactly if the factor is 1. -/
theorem ceFactor_iff (hC : 2 ≤ C) (w : Fin C → ℝ) (ε : ℝ) (y : Option (Fin C)) (y' : Fin C) (f : Fin C → ℝ) :
    (∀ i j, hess (termLoss (C := C) .ce y') f i j = hess ((LossOpts.ce w ε).termLoss y) f i j) ↔ ceFactor w ε y = 1 := by
  constructor
  · intro h
    have h0 := h ⟨0, by omega⟩ ⟨0, by omega⟩
    rw [hess_ce, hess_ceOpt, if_pos rfl] at h0
    have h1 := softmax_pos f ⟨0, by omega⟩
    have h2 := softmax_lt_one hC f ⟨0, by omega⟩
    have h3 : softmax f ⟨0, by omega⟩ - softmax f ⟨0, by omega⟩ * softmax f ⟨0, by omega⟩ ≠ 0 := by
      have : 0 < softmax f ⟨0, by omega⟩ * (1 - softmax f ⟨0, by omega⟩) := mul_pos h1 (by linarith)
      intro h4
      nlinarith
    have h4 : (ceFactor w ε y - 1) * (softmax f ⟨0, by omega⟩ - softmax f ⟨0, by omega⟩ * softmax f ⟨0, by omega⟩) = 0 := by
      linarith
    rcases mul_eq_zero.mp h4 with h5 | h5
    · linarith
    · exact absurd h5 h3
  · intro h i j
    rw [hess_ce, hess_ceOpt, h, one_mul]

/-- C75: the expected outer product of the Monte-Carlo Fisher's would-be gradients is the Hessian of the loss with options exactly
if the factor is 1; in particular never for ignored labels (factor 0), and for class weights only if the label's weight is 1. -/
theorem mcOpt_ce (hC : 2 ≤ C) (w : Fin C → ℝ) (ε : ℝ) (y : Option (Fin C)) (f : Fin C → ℝ) :
    (∀ i j, ∫ d, wouldBeGrad .ce f d i * wouldBeGrad .ce f d j ∂(drawLaw .ce f) =
      hess ((LossOpts.ce w ε).termLoss y) f i j) ↔ ceFactor w ε y = 1 := by
  rw [← ceFactor_iff hC w ε y ⟨0, by omega⟩ f]
  refine forall_congr' fun i => forall_congr' fun j => ?_
  rw [(wouldBeGrad_unbiased (k := .ce) f (⟨0, by omega⟩ : Fin C) i j).2]

theorem bceFactor_iff (w p : Fin C → ℝ) (y y' f : Fin C → ℝ) :
    (∀ i j, hess (termLoss (C := C) .bce y') f i j = hess ((LossOpts.bce w p).termLoss y) f i j) ↔
      ∀ c, w c * (1 - y c + p c * y c) = 1 := by
  simp only [hess_bce, hess_bceOpt]
  constructor
  · intro h c
    have h0 := h c c
    rw [if_pos rfl, if_pos rfl] at h0
    have h1 := Real.sigmoid_pos (f c)
    have h2 := Real.sigmoid_lt_one (f c)
    have h3 : Real.sigmoid (f c) * (1 - Real.sigmoid (f c)) ≠ 0 := (mul_pos h1 (by linarith)).ne'
    exact (mul_right_cancel₀ h3 (by rw [one_mul]; exact h0)).symm
  · intro h i j
    rw [h i, one_mul]

/-- C75: the same for `BCEWithLogitsLoss`. -/
theorem mcOpt_bce (w p : Fin C → ℝ) (y f : Fin C → ℝ) :
    (∀ i j, ∫ d, wouldBeGrad .bce f d i * wouldBeGrad .bce f d j ∂(drawLaw .bce f) =
      hess ((LossOpts.bce w p).termLoss y) f i j) ↔ ∀ c, w c * (1 - y c + p c * y c) = 1 := by
  rw [← bceFactor_iff w p y 0 f]
  refine forall_congr' fun i => forall_congr' fun j => ?_
  rw [(wouldBeGrad_unbiased (k := .bce) f (0 : Fin C → ℝ) i j).2]

/-- C75: the matrix square root of type-2 KFAC belongs to the Hessian of the loss with options exactly if the factor is 1. -/
theorem sqrtOpt_ce (hC : 2 ≤ C) (w : Fin C → ℝ) (ε : ℝ) (y : Option (Fin C)) (f : Fin C → ℝ) (mean : Bool) (target : List ℝ) :
    ∃ S, lossHessianSqrt (.known .ce (redOf mean)) [1, C] f [1] target = .ok S ∧
      ((∀ i j, ∑ l, S i l * S j l = hess ((LossOpts.ce w ε).termLoss y) f i j) ↔ ceFactor w ε y = 1) := by
  obtain ⟨S, h1, h2⟩ := lossHessianSqrt_partial .ce mean (by omega) (by omega) f [1] rfl target (by simp [ValidTarget])
    (⟨0, by omega⟩ : Fin C)
  refine ⟨S, h1, ?_⟩
  rw [← ceFactor_iff hC w ε y ⟨0, by omega⟩ f]
  refine forall_congr' fun i => forall_congr' fun j => ?_
  rw [h2 i j]
  have hr : reductionFactor .ce mean 1 C = 1 := by unfold reductionFactor; cases mean <;> simp
  rw [hess_div_const, hr, div_one]

/-- C75: the same for `BCEWithLogitsLoss` with reduction 'sum' and binary labels. -/
theorem sqrtOpt_bce (hC : C ≠ 0) (w p : Fin C → ℝ) (y f : Fin C → ℝ) (target : List ℝ)
    (hbin : ∀ y ∈ target, y = 0 ∨ y = 1) :
    ∃ S, lossHessianSqrt (.known .bce .sum) [1, C] f [1, C] target = .ok S ∧
      ((∀ i j, ∑ l, S i l * S j l = hess ((LossOpts.bce w p).termLoss y) f i j) ↔ ∀ c, w c * (1 - y c + p c * y c) = 1) := by
  obtain ⟨S, h1, h2⟩ := lossHessianSqrt_partial .bce false hC (by simp) f [1, C] rfl target (fun _ => hbin) (0 : Fin C → ℝ)
  refine ⟨S, h1, ?_⟩
  rw [← bceFactor_iff w p y 0 f]
  refine forall_congr' fun i => forall_congr' fun j => ?_
  rw [h2 i j]
  rw [hess_div_const]
  simp [reductionFactor]

/-! ## Counterexamples -/

theorem exists_flat {α : Type _} (K : Nat) : ∀ (shapes : List (List Nat)) (x : List α), x.length = total shapes * K →
    ∃ Xs, HasShapes Xs shapes K ∧ flatData Xs = x
  | [], x, hx => ⟨[], ⟨rfl, by simp⟩, by
      have : x = [] := by simpa [total] using hx
      rw [this]; rfl⟩
  | s :: ss, x, hx => by
    have ht : total (s :: ss) = s.prod + total ss := by simp [total]
    rw [ht, Nat.add_mul] at hx
    obtain ⟨Xs, h1, h2⟩ := exists_flat K ss (x.drop (s.prod * K)) (by rw [List.length_drop, hx]; omega)
    refine ⟨⟨s ++ [K], x.take (s.prod * K)⟩ :: Xs, ⟨?_, ?_⟩, ?_⟩
    · rw [List.map_cons, List.map_cons, h1.1]
    · intro t ht
      rcases List.mem_cons.mp ht with rfl | ht
      · show (x.take (s.prod * K)).length = _
        rw [List.length_take, hx]
        simp
      · exact h1.2 t ht
    · unfold flatData at h2 ⊢
      rw [List.map_cons, List.flatten_cons, h2, List.take_append_drop]

/-- An operator multiplies with at most one matrix. -/
theorem represents_unique (op : LinOp ℝ) (A B : Mat ℝ) (hA : Represents op A) (hB : Represents op B) (r c : Nat)
    (hr : r < op.nrows) (hc : c < op.ncols) : A r c = B r c := by
  obtain ⟨Xs, h1, h2⟩ := exists_flat 1 op.inShape ((List.range (total op.inShape)).map fun j => if j = c then (1 : ℝ) else 0)
    (by simp)
  obtain ⟨Y, y1, -, y3⟩ := hA 1 Xs h1
  obtain ⟨Z, z1, -, z3⟩ := hB 1 Xs h1
  rw [y1, Except.ok.injEq] at z1
  subst z1
  have key : ∀ D : Mat ℝ, IsProduct D op.nrows op.ncols 1 (flatData Xs) (flatData Y) → (flatData Y).getD r 0 = D r c := by
    intro D hD
    have := hD.2 r hr 0 (by omega)
    simp only [mul_one, add_zero] at this
    rw [this, Finset.sum_eq_single c]
    · rw [h2, List.getD_eq_getElem?_getD, List.getElem?_map, List.getElem?_range (show c < total op.inShape from hc)]
      simp
    · intro j hj hne
      have hj : j < total op.inShape := Finset.mem_range.mp hj
      rw [h2, List.getD_eq_getElem?_getD, List.getElem?_map, List.getElem?_range hj]
      simp [hne]
    · intro h
      exact absurd (Finset.mem_range.mpr hc) h
  rw [← key A y3, key B z3]

/-- Two classes, no weights, no smoothing. -/
noncomputable def plainCE : LossOpts 2 := .ce (fun _ => 1) 0

/-- A row with one parameter that the first prediction is `a` times. -/
noncomputable def padRow (a : ℝ) (y : Option (Fin 2)) : ORow plainCE := ⟨fun i _ => if i = 0 then a else 0, 0, y⟩

theorem padRow_hessian (a : ℝ) (y : Option (Fin 2)) :
    rowSandwich (padRow a y) (rowHessian (padRow a y)) 0 0 = if y = none then 0 else a ^ 2 / 4 := by
  have hs : softmax (0 : Fin 2 → ℝ) 0 = 1 / 2 := by simp [softmax]
  have h : rowHessian (padRow a y) 0 0 = if y = none then 0 else 1 / 4 := by
    show hess ((LossOpts.ce (fun _ : Fin 2 => (1 : ℝ)) 0).termLoss y) (0 : Fin 2 → ℝ) 0 0 = _
    rw [hess_ceOpt, hs]
    cases y with
    | none => simp [ceFactor]
    | some y => simp [ceFactor]; norm_num
  unfold rowSandwich
  rw [Fin.sum_univ_two, Fin.sum_univ_two, Fin.sum_univ_two, h]
  simp only [padRow]
  cases y <;> (simp; try ring)

theorem padRow_grad (a : ℝ) (y : Option (Fin 2)) :
    rowSandwich (padRow a y) (rowGradOuter (padRow a y)) 0 0 = if y = none then 0 else a ^ 2 / 4 := by
  have hs : softmax (0 : Fin 2 → ℝ) 0 = 1 / 2 := by simp [softmax]
  have h : rowGradOuter (padRow a y) 0 0 = if y = none then 0 else 1 / 4 := by
    unfold rowGradOuter
    show pderiv ((LossOpts.ce (fun _ : Fin 2 => (1 : ℝ)) 0).termLoss y) 0 (0 : Fin 2 → ℝ) *
      pderiv ((LossOpts.ce (fun _ : Fin 2 => (1 : ℝ)) 0).termLoss y) 0 (0 : Fin 2 → ℝ) = _
    cases y with
    | none => simp [pderiv, LossOpts.termLoss]
    | some y =>
      rw [pderiv_ceOpt, hs]
      fin_cases y <;> simp [ceFactor] <;> norm_num
  unfold rowSandwich
  rw [Fin.sum_univ_two, Fin.sum_univ_two, Fin.sum_univ_two, h]
  simp only [padRow]
  cases y <;> (simp; try ring)

theorem padRow_divisor (a : ℝ) (y : Option (Fin 2)) : plainCE.divisor (padRow a y).y = if y = none then 0 else 1 := by
  cases y <;> simp [plainCE, padRow, LossOpts.divisor]

/-- C75, negation: with an ignored label in one of two mini-batches and reduction 'mean', the GGN operator does not multiply with the GGN
of the mean loss. -/
theorem ggnOpt_mean_wrong : ∃ batches : List (List (List (ORow plainCE))),
    (∀ b ∈ batches, b ≠ [] ∧ rowsDivisor true b.flatten ≠ 0 ∧ ∀ d ∈ b, d.length = 1) ∧
    ¬ Represents (curvatureOp [[1]] .mean (inferNData List.length batches none) List.length
        (fun b => ggnOptBatch [[1]] true b.flatten) batches)
      (rowsMatrix true rowHessian batches.flatten.flatten) := by
  refine ⟨[[[padRow 1 (some 0)]], [[padRow 1 none], [padRow 2 (some 0)]]], ?_, fun h => ?_⟩
  · simp [rowsDivisor, padRow_divisor]
  · have h2 := ggnOpt_represents (o := plainCE) [[1]] (by simp) true
      [[[padRow 1 (some 0)]], [[padRow 1 none], [padRow 2 (some 0)]]] (by simp)
    have := represents_unique _ _ _ h h2 0 0 (by decide) (by decide)
    simp [rowsMatrix, batchShare, padRow_hessian, padRow_divisor] at this
    norm_num at this

/-- Two classes, the second with weight three. -/
noncomputable def weightCE : LossOpts 2 := .ce (fun c => if c = 0 then 1 else 3) 0

/-- A row like `padRow`, for the weighted loss. -/
noncomputable def weightRow (a : ℝ) (y : Fin 2) : ORow weightCE := ⟨fun i _ => if i = 0 then a else 0, 0, some y⟩

theorem weightRow_hessian (a : ℝ) (y : Fin 2) :
    rowSandwich (weightRow a y) (rowHessian (weightRow a y)) 0 0 = (if y = 0 then 1 else 3) * a ^ 2 / 4 := by
  have hs : softmax (0 : Fin 2 → ℝ) 0 = 1 / 2 := by simp [softmax]
  have h : rowHessian (weightRow a y) 0 0 = (if y = 0 then 1 else 3) / 4 := by
    show hess ((LossOpts.ce (fun c : Fin 2 => if c = 0 then (1 : ℝ) else 3) 0).termLoss (some y)) (0 : Fin 2 → ℝ) 0 0 = _
    rw [hess_ceOpt, hs]
    fin_cases y <;> simp [ceFactor] <;> norm_num
  unfold rowSandwich
  rw [Fin.sum_univ_two, Fin.sum_univ_two, Fin.sum_univ_two, h]
  simp only [weightRow]
  fin_cases y <;> (simp; ring)

theorem weightRow_divisor (a : ℝ) (y : Fin 2) : weightCE.divisor (weightRow a y).y = if y = 0 then 1 else 3 := by
  simp [weightCE, weightRow, LossOpts.divisor]

/-- C75, negation: with class weights, reduction 'mean' and mini-batches with different labels, the GGN operator does not multiply with the
GGN of the mean loss. -/
theorem ggnOpt_weights_wrong : ∃ batches : List (List (List (ORow weightCE))),
    (∀ b ∈ batches, b ≠ [] ∧ rowsDivisor true b.flatten ≠ 0 ∧ ∀ d ∈ b, d.length = 1) ∧
    ¬ Represents (curvatureOp [[1]] .mean (inferNData List.length batches none) List.length
        (fun b => ggnOptBatch [[1]] true b.flatten) batches)
      (rowsMatrix true rowHessian batches.flatten.flatten) := by
  refine ⟨[[[weightRow 1 0]], [[weightRow 2 1]]], ?_, fun h => ?_⟩
  · simp [rowsDivisor, weightRow_divisor]
  · have h2 := ggnOpt_represents (o := weightCE) [[1]] (by simp) true [[[weightRow 1 0]], [[weightRow 2 1]]] (by simp)
    have := represents_unique _ _ _ h h2 0 0 (by decide) (by decide)
    simp [rowsMatrix, batchShare, weightRow_hessian, weightRow_divisor] at this
    norm_num at this

/-- C75, negation: with an ignored label, reduction 'mean' and a single mini-batch, the empirical Fisher operator does not multiply with
the empirical Fisher. -/
theorem efOpt_mean_wrong : ∃ b : List (List (ORow plainCE)),
    (b ≠ [] ∧ rowsDivisor true b.flatten ≠ 0 ∧ ∀ d ∈ b, d.length = 1) ∧
    ¬ Represents (curvatureOp [[1]] .mean (inferNData List.length [b] none) List.length
        (fun b => efOptBatch [[1]] true b.flatten) [b])
      (rowsMatrix true rowGradOuter b.flatten) := by
  refine ⟨[[padRow 1 (some 0)], [padRow 1 none]], ?_, fun h => ?_⟩
  · simp [rowsDivisor, padRow_divisor]
  · have h2 := efOpt_represents (o := plainCE) [[1]] (by simp) true [[[padRow 1 (some 0)], [padRow 1 none]]] (by simp)
    have := represents_unique _ _ _ h h2 0 0 (by decide) (by decide)
    have hk : plainCE.kind = .ce := rfl
    simp [rowsMatrix, batchShare, rowsDivisor, padRow_grad, padRow_divisor, efReductionFactor, hk] at this

/-- C75, negation: Monte-Carlo Fisher and type-2 KFAC count ignored labels. -/
theorem mcOpt_ignored : ¬ ∀ i j, ∫ d, wouldBeGrad .ce (0 : Fin 2 → ℝ) d i * wouldBeGrad .ce (0 : Fin 2 → ℝ) d j
    ∂(drawLaw .ce (0 : Fin 2 → ℝ)) = hess (plainCE.termLoss none) (0 : Fin 2 → ℝ) i j := by
  intro h
  have := (mcOpt_ce (le_refl 2) (fun _ => 1) 0 none 0).mp h
  simp [ceFactor] at this

/-! ## Examples -/

/-- No ignored label, no weights: all hypotheses of the positive theorems hold. -/
example : ceFactor (fun _ : Fin 3 => 1) 0 (some 2) = 1 := by simp [ceFactor]

/-- Label smoothing without weights does not change the Hessian. -/
example : ceFactor (fun _ : Fin 3 => 1) (1 / 10) (some 2) = 1 := by
  simp [ceFactor]

/-- Class weights do. -/
example : ceFactor (![1, 2] : Fin 2 → ℝ) 0 (some 1) = 2 := by simp [ceFactor]

/-- Each mini-batch has one ignored and one other label: the GGN is right. -/
example : ∀ b ∈ [[[padRow 1 (some 0)], [padRow 3 none]], [[padRow 1 none], [padRow 2 (some 0)]]],
    rowsDivisor true b.flatten = (1 / 2 : ℝ) * b.length := by
  intro b hb
  simp only [List.mem_cons, List.not_mem_nil, or_false] at hb
  rcases hb with rfl | rfl <;> simp [rowsDivisor, padRow_divisor]

end Curvlinops
