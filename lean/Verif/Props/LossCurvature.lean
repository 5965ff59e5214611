import Verif.Model.LossCurvature
import Verif.Lemmas.Losses
import Verif.Props.Curvature
import Mathlib.Algebra.BigOperators.Group.Finset.Sigma
import Mathlib.Algebra.Order.BigOperators.Ring.Finset
import Mathlib.Algebra.Order.Chebyshev

/-!
# C13, C15, C16, C17, C19: GGN, empirical Fisher and Monte-Carlo Fisher with the supported losses
-/

namespace Curvlinops

variable {k : LossKind} {C : Nat}

/-! ## Specification -/

/-- The weight of one loss term in the loss of a datum with `T` terms: `1` for reduction 'sum'; for 'mean' the
reciprocal of the number of terms, and for `MSELoss`/`BCEWithLogitsLoss` of the number of terms times the output
dimension. -/
noncomputable def termWeight (k : LossKind) (mean : Bool) (T C : Nat) : ℝ :=
  if mean then
    if k = .ce then 1 / (T : ℝ) else 1 / ((T : ℝ) * (C : ℝ))
  else 1

/-- `Jᵀ H J` for one loss term. -/
noncomputable def termSandwich (t : Term k C) (H : Fin C → Fin C → ℝ) : Mat ℝ := fun r c =>
  ∑ i : Fin C, ∑ j : Fin C, t.J i r * H i j * t.J j c

/-- Weighted sum of `Jᵀ H J` over the terms of a datum. -/
noncomputable def datumMatrix (mean : Bool) (T : Nat) (H : Term k C → Fin C → Fin C → ℝ) (d : List (Term k C)) :
    Mat ℝ := fun r c => termWeight k mean T C * (d.map fun t => termSandwich t (H t) r c).sum

/-- Hessian of the unreduced loss of a term in the prediction. -/
noncomputable def lossHessian (t : Term k C) : Fin C → Fin C → ℝ := hess (termLoss k t.y) t.f

/-- Outer product of the gradient of the unreduced loss of a term in the prediction. -/
noncomputable def lossGradOuter (t : Term k C) : Fin C → Fin C → ℝ := fun i j =>
  pderiv (termLoss k t.y) i t.f * pderiv (termLoss k t.y) j t.f

/-- Gradient of the unreduced loss of a term in parameter `p` (chain rule). -/
noncomputable def termGrad (t : Term k C) (p : Nat) : ℝ := ∑ i : Fin C, t.J i p * pderiv (termLoss k t.y) i t.f

/-- The reduction as used by `CurvatureLinearOperator`. -/
def redOf (mean : Bool) : Reduction := if mean then .mean else .sum

/-! ## Contraction over the flattened output -/

theorem contraction {n : Nat} (ts : List (Term k C)) (hn : ts.length = n)
    (H : Fin ts.length × Fin C → Fin ts.length × Fin C → ℝ) (r c : Nat) :
    ∑ s ∈ Finset.range (n * C), ∑ s' ∈ Finset.range (n * C), termsJ ts s r * flat2 H s s' * termsJ ts s' c =
      ∑ m : Fin ts.length, ∑ i : Fin C, ∑ m' : Fin ts.length, ∑ j : Fin C, (ts[m]).J i r * H (m, i) (m', j) * (ts[m']).J j c := by
  subst hn
  have h2 : ∀ g : Fin ts.length × Fin C → ℝ, ∑ m : Fin ts.length, ∑ i, g (m, i) =
      ∑ s : Fin (ts.length * C), g (finProdFinEquiv.symm s) := by
    intro g
    rw [Equiv.sum_comp finProdFinEquiv.symm g, Fintype.sum_prod_type]
  have h3 : ∀ (m : Fin ts.length) (i : Fin C),
      ∑ m' : Fin ts.length, ∑ j : Fin C, (ts[m]).J i r * H (m, i) (m', j) * (ts[m']).J j c =
      ∑ s' : Fin (ts.length * C), (ts[m]).J i r * H (m, i) (finProdFinEquiv.symm s') *
        (ts[(finProdFinEquiv.symm s').1]).J (finProdFinEquiv.symm s').2 c := fun m i =>
    h2 fun x => (ts[m]).J i r * H (m, i) x * (ts[x.1]).J x.2 c
  simp only [h3]
  rw [h2 fun x => ∑ s' : Fin (ts.length * C), (ts[x.1]).J x.2 r * H x (finProdFinEquiv.symm s') *
        (ts[(finProdFinEquiv.symm s').1]).J (finProdFinEquiv.symm s').2 c]
  rw [Finset.sum_range]
  refine Finset.sum_congr rfl fun s _ => ?_
  rw [Finset.sum_range]
  refine Finset.sum_congr rfl fun s' _ => ?_
  simp only [termsJ, flat2, s.2, s'.2, and_self, dif_pos, Fin.eta]

/-- Block-diagonal matrices on the output. -/
theorem contraction_rows (ts : List (Term k C)) (H : Fin ts.length × Fin C → Fin ts.length × Fin C → ℝ)
    (Ht : Fin ts.length → Fin C → Fin C → ℝ) (w : ℝ)
    (hH : ∀ m m' i j, H (m, i) (m', j) = if m = m' then Ht m i j / w else 0) (r c : Nat) :
    ∑ s ∈ Finset.range ([ts.length, C].prod), ∑ s' ∈ Finset.range ([ts.length, C].prod),
      termsJ ts s r * flat2 H s s' * termsJ ts s' c = (∑ m, termSandwich ts[m] (Ht m) r c) / w := by
  have hp : [ts.length, C].prod = ts.length * C := by simp
  rw [hp, contraction ts rfl H r c, Finset.sum_div]
  refine Finset.sum_congr rfl fun m _ => ?_
  unfold termSandwich
  rw [Finset.sum_div]
  refine Finset.sum_congr rfl fun i _ => ?_
  rw [Finset.sum_eq_single m]
  · rw [Finset.sum_div]
    refine Finset.sum_congr rfl fun j _ => ?_
    rw [hH, if_pos rfl]
    ring
  · intro m' _ hne
    refine Finset.sum_eq_zero fun j _ => ?_
    rw [hH, if_neg (Ne.symm hne)]
    ring
  · intro h; exact absurd (Finset.mem_univ m) h

/-! ## From mini-batch matrices to the operator -/

theorem reductionFactor_batch (k : LossKind) (mean : Bool) (b T C : Nat) :
    (reductionFactor k mean (b * T) C)⁻¹ =
      (if redOf mean = .mean then (b : ℝ)⁻¹ else 1) * termWeight k mean T C := by
  unfold reductionFactor redOf termWeight
  cases mean
  · simp
  · cases k <;> simp <;> ring

theorem redOf_cases (mean : Bool) : redOf mean = .mean ∨ redOf mean = .sum := by
  cases mean <;> simp [redOf]

theorem length_flatten_const {T : Nat} {b : List (List (Term k C))} (hT : ∀ d ∈ b, d.length = T) :
    b.flatten.length = b.length * T := by
  induction b with
  | nil => simp
  | cons d b ih =>
    rw [List.flatten_cons, List.length_append, hT d (by simp), ih fun d hd => hT d (by simp [hd]), List.length_cons]
    ring

/-- A mini-batch product whose matrix on the output is block-diagonal with one block per term. -/
theorem batchRepresents_rows (shapes : List (List Nat)) (hshapes : shapes ≠ []) (mean : Bool) (T : Nat)
    (b : List (List (Term k C))) (hT : ∀ d ∈ b, d.length = T)
    (H : Fin b.flatten.length × Fin C → Fin b.flatten.length × Fin C → ℝ) (Ht : Term k C → Fin C → Fin C → ℝ)
    (hH : ∀ m m' i j, H (m, i) (m', j) =
      if m = m' then Ht b.flatten[m] i j / reductionFactor k mean b.flatten.length C else 0) :
    BatchRepresents shapes (ggnMatmatBatch shapes (termsJ b.flatten) (flat2 H) [b.flatten.length, C])
      (batchMatrix (redOf mean) (datumMatrix mean T Ht) b) := by
  intro K M hM
  obtain ⟨Y, y1, y2, y3⟩ := ggnMatmatBatch_represents shapes hshapes (termsJ b.flatten) (flat2 H)
    [b.flatten.length, C] K M hM
  refine ⟨Y, y1, y2, y3.1, fun r hr l hl => ?_⟩
  rw [y3.2 r hr l hl]
  refine Finset.sum_congr rfl fun c _ => ?_
  congr 1
  refine (contraction_rows b.flatten H (fun m => Ht b.flatten[m]) _ hH r c).trans ?_
  have h1 : ∑ m : Fin b.flatten.length, termSandwich b.flatten[m] (Ht b.flatten[m]) r c =
      (b.flatten.map fun t => termSandwich t (Ht t) r c).sum :=
    Fin.sum_univ_fun_getElem b.flatten fun t => termSandwich t (Ht t) r c
  rw [h1, div_eq_mul_inv]
  unfold batchMatrix datumMatrix
  rw [length_flatten_const hT, reductionFactor_batch k mean b.length T C, List.sum_map_mul_left,
    sum_map_flatten (fun t => termSandwich t (Ht t) r c) b]
  ring

/-! ## C13 -/

theorem hess_batchLoss (mean : Bool) (ts : List (Term k C)) (m m' : Fin ts.length) (i j : Fin C) :
    hess (batchLoss k mean (targets ts)) (outs ts) (m, i) (m', j) =
      if m = m' then lossHessian ts[m] i j / reductionFactor k mean ts.length C else 0 :=
  hess_rows (fun m => termLoss k (targets ts m)) (reductionFactor k mean ts.length C) m m' i j (outs ts)

theorem pderiv_batchLoss (mean : Bool) (ts : List (Term k C)) (m : Fin ts.length) (i : Fin C) :
    pderiv (batchLoss k mean (targets ts)) (m, i) (outs ts) =
      pderiv (termLoss k ts[m].y) i ts[m].f / reductionFactor k mean ts.length C :=
  pderiv_rows (fun m => termLoss k (targets ts m)) (reductionFactor k mean ts.length C) m i (outs ts)

/-- C13: for the three losses and both reductions, whatever the partition of the data (each with `T` loss terms) into
non-empty mini-batches, the GGN operator multiplies with the (mean of the) sum over the data of
`weight Σ_t J_tᵀ (∇²_f ℓ_t) J_t`. -/
theorem ggnLossOp_represents (shapes : List (List Nat)) (hshapes : shapes ≠ []) (mean : Bool) (T : Nat)
    (batches : List (List (List (Term k C)))) (hne : ∀ b ∈ batches, b ≠ [])
    (hT : ∀ b ∈ batches, ∀ d ∈ b, d.length = T) :
    Represents (curvatureOp shapes (redOf mean) (inferNData List.length batches none) List.length
        (fun b => ggnLossBatch shapes mean b.flatten) batches)
      (riskMatrix (redOf mean) (datumMatrix mean T lossHessian) batches.flatten) :=
  curvatureOp_batching shapes (redOf mean) (redOf_cases mean) _ _ batches
    (fun b hb => batchRepresents_rows shapes hshapes mean T b (hT b hb) _ _ (hess_batchLoss mean b.flatten)) hne none
    (Or.inl rfl)

theorem lossHessian_symm (t : Term k C) (i j : Fin C) : lossHessian t i j = lossHessian t j i := by
  obtain ⟨J, f, y⟩ := t
  unfold lossHessian
  cases k
  · simp only [hess_mse]; simp [eq_comm]
  · simp only [hess_ce]
    by_cases h : i = j
    · subst h; rfl
    · simp [h, Ne.symm h]; ring
  · simp only [hess_bce]
    by_cases h : i = j
    · subst h; rfl
    · simp [h, Ne.symm h]

theorem sum_softmax (f : Fin C → ℝ) (c : Fin C) : ∑ i, softmax f i = 1 := by
  unfold softmax
  rw [← Finset.sum_div]
  exact div_self (sum_exp_pos f c).ne'

theorem softmax_pos (f : Fin C → ℝ) (c : Fin C) : 0 < softmax f c := div_pos (Real.exp_pos _) (sum_exp_pos f c)

theorem diag_quad (d u : Fin C → ℝ) :
    ∑ i, ∑ j, u i * (if i = j then d i else 0) * u j = ∑ i, d i * u i ^ 2 := by
  refine Finset.sum_congr rfl fun i _ => ?_
  rw [Finset.sum_eq_single i]
  · simp; ring
  · intro j _ hj; simp [Ne.symm hj]
  · intro h; exact absurd (Finset.mem_univ i) h

theorem outer_quad (g u : Fin C → ℝ) :
    ∑ i, ∑ j, u i * (g i * g j) * u j = (∑ i, g i * u i) ^ 2 := by
  rw [pow_two, Finset.sum_mul_sum]
  exact Finset.sum_congr rfl fun i _ => Finset.sum_congr rfl fun j _ => by ring

/-- The loss Hessians are positive semi-definite. -/
theorem lossHessian_psd (t : Term k C) (u : Fin C → ℝ) : 0 ≤ ∑ i, ∑ j, u i * lossHessian t i j * u j := by
  obtain ⟨J, f, y⟩ := t
  unfold lossHessian
  cases k
  · simp only [hess_mse]
    rw [diag_quad (fun _ => 2) u]
    positivity
  · simp only [hess_ce, mul_sub, sub_mul, Finset.sum_sub_distrib]
    rw [diag_quad (softmax f) u, outer_quad (softmax f) u]
    rcases Nat.eq_zero_or_pos C with rfl | hC
    · simp
    have h1 := sum_softmax f ⟨0, hC⟩
    have h2 : 0 ≤ ∑ i, softmax f i * (u i - ∑ j, softmax f j * u j) ^ 2 :=
      Finset.sum_nonneg fun i _ => mul_nonneg (softmax_pos f i).le (sq_nonneg _)
    have h3 : ∀ μ : ℝ, ∑ i, softmax f i * (u i - μ) ^ 2 =
        ∑ i, softmax f i * u i ^ 2 - 2 * μ * (∑ i, softmax f i * u i) + μ ^ 2 * ∑ i, softmax f i := by
      intro μ
      rw [Finset.mul_sum, Finset.mul_sum, ← Finset.sum_sub_distrib, ← Finset.sum_add_distrib]
      exact Finset.sum_congr rfl fun i _ => by ring
    rw [h3, h1] at h2
    linarith
  · simp only [hess_bce]
    rw [diag_quad (fun c => Real.sigmoid (f c) * (1 - Real.sigmoid (f c))) u]
    refine Finset.sum_nonneg fun i _ => mul_nonneg (mul_nonneg (Real.sigmoid_pos _).le ?_) (sq_nonneg _)
    have := Real.sigmoid_lt_one (f i)
    linarith

theorem termSandwich_symm (t : Term k C) (H : Fin C → Fin C → ℝ) (hH : ∀ i j, H i j = H j i) (r c : Nat) :
    termSandwich t H r c = termSandwich t H c r := by
  unfold termSandwich
  rw [Finset.sum_comm]
  exact Finset.sum_congr rfl fun i _ => Finset.sum_congr rfl fun j _ => by rw [hH j i]; ring

theorem termSandwich_psd (t : Term k C) (H : Fin C → Fin C → ℝ)
    (hH : ∀ u : Fin C → ℝ, 0 ≤ ∑ i, ∑ j, u i * H i j * u j) (N : Nat) : QuadNonneg N (termSandwich t H) := by
  intro v
  have e : ∑ r ∈ Finset.range N, ∑ c ∈ Finset.range N, v r * termSandwich t H r c * v c =
      ∑ i : Fin C, ∑ j : Fin C,
        (∑ r ∈ Finset.range N, t.J i r * v r) * H i j * ∑ c ∈ Finset.range N, t.J j c * v c := by
    unfold termSandwich
    simp only [Finset.mul_sum, Finset.sum_mul]
    have hc : ∀ g : Nat → Nat → Fin C → Fin C → ℝ,
        ∑ r ∈ Finset.range N, ∑ c ∈ Finset.range N, ∑ i, ∑ j, g r c i j =
        ∑ i, ∑ j, ∑ c ∈ Finset.range N, ∑ r ∈ Finset.range N, g r c i j := by
      intro g
      have h1 : ∀ r, ∑ c ∈ Finset.range N, ∑ i, ∑ j, g r c i j = ∑ i, ∑ j, ∑ c ∈ Finset.range N, g r c i j := by
        intro r
        rw [Finset.sum_comm]
        exact Finset.sum_congr rfl fun i _ => Finset.sum_comm
      simp only [h1]
      rw [Finset.sum_comm]
      refine Finset.sum_congr rfl fun i _ => ?_
      rw [Finset.sum_comm]
      exact Finset.sum_congr rfl fun j _ => Finset.sum_comm
    rw [hc]
    refine Finset.sum_congr rfl fun i _ => Finset.sum_congr rfl fun j _ => ?_
    exact Finset.sum_congr rfl fun r _ => Finset.sum_congr rfl fun c _ => by ring
  rw [e]
  exact hH _

theorem termWeight_nonneg (k : LossKind) (mean : Bool) (T C : Nat) : 0 ≤ termWeight k mean T C := by
  unfold termWeight
  split
  · split <;> positivity
  · exact zero_le_one

theorem datumMatrix_symm (mean : Bool) (T : Nat) (H : Term k C → Fin C → Fin C → ℝ)
    (hH : ∀ t i j, H t i j = H t j i) (d : List (Term k C)) (r c : Nat) :
    datumMatrix mean T H d r c = datumMatrix mean T H d c r := by
  unfold datumMatrix
  congr 2
  exact List.map_congr_left fun t _ => termSandwich_symm t _ (hH t) r c

theorem quad_list_sum {ι : Type _} (N : Nat) (a : ι → Mat ℝ) (l : List ι) (w : ℝ) (hw : 0 ≤ w)
    (h : ∀ x ∈ l, QuadNonneg N (a x)) : QuadNonneg N fun r c => w * (l.map fun x => a x r c).sum := by
  intro v
  have e : ∑ r ∈ Finset.range N, ∑ c ∈ Finset.range N, v r * (w * (l.map fun x => a x r c).sum) * v c =
      w * (l.map fun x => ∑ r ∈ Finset.range N, ∑ c ∈ Finset.range N, v r * a x r c * v c).sum := by
    clear h
    induction l with
    | nil => simp
    | cons x l ih =>
      simp only [List.map_cons, List.sum_cons, mul_add, add_mul, Finset.sum_add_distrib, ih]
      congr 1
      simp only [Finset.mul_sum]
      exact Finset.sum_congr rfl fun r _ => Finset.sum_congr rfl fun c _ => by ring
  rw [e]
  refine mul_nonneg hw (List.sum_nonneg ?_)
  intro x hx
  obtain ⟨d, hd, rfl⟩ := List.mem_map.mp hx
  exact h d hd v

theorem datumMatrix_psd (mean : Bool) (T N : Nat) (H : Term k C → Fin C → Fin C → ℝ)
    (hH : ∀ t, ∀ u : Fin C → ℝ, 0 ≤ ∑ i, ∑ j, u i * H t i j * u j) (d : List (Term k C)) :
    QuadNonneg N (datumMatrix mean T H d) :=
  quad_list_sum N _ d _ (termWeight_nonneg k mean T C) fun t _ => termSandwich_psd t _ (hH t) N

theorem riskMatrix_symm {D : Type _} (red : Reduction) (a : D → Mat ℝ) (h : ∀ d r c, a d r c = a d c r) (ds : List D)
    (r c : Nat) : riskMatrix red a ds r c = riskMatrix red a ds c r := by
  unfold riskMatrix
  congr 2
  exact List.map_congr_left fun d _ => h d r c

/-- C13: for the three losses, the GGN's matrix is symmetric positive semi-definite. -/
theorem ggnLoss_symm_psd (mean : Bool) (T N : Nat) (ds : List (List (Term k C))) :
    (∀ r c, riskMatrix (redOf mean) (datumMatrix mean T lossHessian) ds r c =
      riskMatrix (redOf mean) (datumMatrix mean T lossHessian) ds c r) ∧
    QuadNonneg N (riskMatrix (redOf mean) (datumMatrix mean T lossHessian) ds) :=
  ⟨riskMatrix_symm _ _ (datumMatrix_symm mean T _ lossHessian_symm) ds,
    riskMatrix_psd N _ _ ds fun d _ => datumMatrix_psd mean T N _ lossHessian_psd d⟩

/-! ## C15 -/

/-- Hessian of a sum of squares of linear functions. -/
theorem hess_sum_sq {S : Nat} (a : ℝ) (g : Fin S → Fin C → ℝ) (f : Fin C → ℝ) (i j : Fin C) :
    hess (fun f : Fin C → ℝ => ∑ s, a * (∑ c, f c * g s c) ^ 2) f i j = ∑ s, 2 * a * (g s i * g s j) := by
  have hlin : ∀ (s : Fin S) (i : Fin C) (x : Fin C → ℝ),
      HasDerivAt (fun t => ∑ c, Function.update x i t c * g s c) (g s i) (x i) := by
    intro s i x
    have h := HasDerivAt.fun_sum (u := Finset.univ) fun c (_ : c ∈ Finset.univ) =>
      (update_coord_hasDerivAt x i c).mul_const (g s c)
    refine h.congr_deriv ?_
    simp
  have h1 : ∀ (i : Fin C) (x : Fin C → ℝ),
      pderiv (fun f : Fin C → ℝ => ∑ s, a * (∑ c, f c * g s c) ^ 2) i x =
        ∑ s, a * (2 * (∑ c, x c * g s c) * g s i) := by
    intro i x
    refine pderiv_eq ?_
    have h := HasDerivAt.fun_sum (u := Finset.univ) fun s (_ : s ∈ Finset.univ) =>
      ((hlin s i x).fun_pow 2).const_mul a
    refine h.congr_deriv ?_
    simp
  unfold hess
  simp only [h1]
  refine pderiv_eq ?_
  have h := HasDerivAt.fun_sum (u := Finset.univ) fun s (_ : s ∈ Finset.univ) =>
    (((hlin s i f).const_mul 2).mul_const (g s j)).const_mul a
  refine h.congr_deriv ?_
  exact Finset.sum_congr rfl fun s _ => by ring

theorem efReductionFactor_eq (k : LossKind) (mean : Bool) (n C : Nat) :
    efReductionFactor k mean n C = reductionFactor k mean n C := by
  unfold efReductionFactor reductionFactor
  cases mean <;> cases k <;> simp

theorem reductionFactor_ne_zero (k : LossKind) (mean : Bool) {n C : Nat} (hn : n ≠ 0) (hC : C ≠ 0) :
    reductionFactor k mean n C ≠ 0 := by
  unfold reductionFactor
  cases mean <;> cases k <;> simp [hn, hC]

theorem hess_efPseudoLoss (mean : Bool) (ts : List (Term k C)) (m m' : Fin ts.length) (i j : Fin C) :
    hess (efPseudoLoss (efReductionFactor k mean ts.length C) (efGradOutput mean ts)) (outs ts) (m, i) (m', j) =
      if m = m' then lossGradOuter ts[m] i j / reductionFactor k mean ts.length C else 0 := by
  have hk : reductionFactor k mean ts.length C ≠ 0 :=
    reductionFactor_ne_zero k mean (by have := m.2; omega) (by have := i.2; omega)
  have hg : ∀ m i, efGradOutput mean ts (m, i) = pderiv (termLoss k ts[m].y) i ts[m].f := by
    intro m i
    unfold efGradOutput
    rw [pderiv_batchLoss, efReductionFactor_eq]
    field_simp
  have hF : efPseudoLoss (efReductionFactor k mean ts.length C) (efGradOutput mean ts) =
      fun f : Fin ts.length × Fin C → ℝ => (∑ m, (fun (m : Fin ts.length) (r : Fin C → ℝ) =>
        ∑ _s : Fin 1, (1 / 2 : ℝ) * (∑ c, r c * efGradOutput mean ts (m, c)) ^ 2) m fun c => f (m, c)) /
          reductionFactor k mean ts.length C := by
    funext f
    unfold efPseudoLoss
    rw [efReductionFactor_eq, Finset.mul_sum, Finset.sum_div]
    refine Finset.sum_congr rfl fun m _ => ?_
    simp
    norm_num
    ring
  rw [hF]
  refine (hess_rows (fun (m : Fin ts.length) (r : Fin C → ℝ) =>
        ∑ _s : Fin 1, (1 / 2 : ℝ) * (∑ c, r c * efGradOutput mean ts (m, c)) ^ 2) _ m m' i j (outs ts)).trans ?_
  congr 2
  rw [hess_sum_sq (1 / 2) (fun (_ : Fin 1) c => efGradOutput mean ts (m, c))]
  simp [hg, lossGradOuter]

/-- C15: the empirical Fisher operator multiplies with the (mean of the) sum over the data of
`weight Σ_t J_tᵀ g_t g_tᵀ J_t`, for every partition into non-empty mini-batches. -/
theorem efOp_represents (shapes : List (List Nat)) (hshapes : shapes ≠ []) (mean : Bool) (T : Nat)
    (batches : List (List (List (Term k C)))) (hne : ∀ b ∈ batches, b ≠ [])
    (hT : ∀ b ∈ batches, ∀ d ∈ b, d.length = T) :
    Represents (curvatureOp shapes (redOf mean) (inferNData List.length batches none) List.length
        (fun b => efBatch shapes mean b.flatten) batches)
      (riskMatrix (redOf mean) (datumMatrix mean T lossGradOuter) batches.flatten) :=
  curvatureOp_batching shapes (redOf mean) (redOf_cases mean) _ _ batches
    (fun b hb => batchRepresents_rows shapes hshapes mean T b (hT b hb) _ _ (hess_efPseudoLoss mean b.flatten)) hne
    none (Or.inl rfl)

/-- `Jᵀ g gᵀ J` is the outer product of the gradient in the parameters. -/
theorem termSandwich_lossGradOuter (t : Term k C) (r c : Nat) :
    termSandwich t (lossGradOuter t) r c = termGrad t r * termGrad t c := by
  unfold termSandwich lossGradOuter termGrad
  rw [Finset.sum_mul_sum]
  exact Finset.sum_congr rfl fun i _ => Finset.sum_congr rfl fun j _ => by ring

/-- C15: the matrix of the empirical Fisher in terms of the parameter gradients of all `n = N T` unreduced loss terms:
`1` (reduction 'sum'), `1/n` ('mean', `CrossEntropyLoss`) or `1/(n C)` ('mean', other losses) times the sum of their
outer products. -/
theorem ef_matrix (mean : Bool) (T : Nat) (ds : List (List (Term k C))) (hT : ∀ d ∈ ds, d.length = T) (r c : Nat) :
    riskMatrix (redOf mean) (datumMatrix mean T lossGradOuter) ds r c =
      termWeight k mean ds.flatten.length C * (ds.flatten.map fun t => termGrad t r * termGrad t c).sum := by
  unfold riskMatrix datumMatrix
  rw [List.sum_map_mul_left, sum_map_flatten (fun t => termGrad t r * termGrad t c) ds, ← mul_assoc]
  congr 1
  · rw [← reductionFactor_batch, ← length_flatten_const hT]
    unfold reductionFactor termWeight
    cases mean <;> cases k <;> simp
  · refine congrArg List.sum (List.map_congr_left fun d _ => congrArg List.sum (List.map_congr_left fun t _ => ?_))
    exact termSandwich_lossGradOuter t r c

theorem lossGradOuter_psd (t : Term k C) (u : Fin C → ℝ) : 0 ≤ ∑ i, ∑ j, u i * lossGradOuter t i j * u j := by
  unfold lossGradOuter
  rw [outer_quad]
  positivity

/-- C15: the empirical Fisher's matrix is symmetric positive semi-definite. -/
theorem ef_symm_psd (mean : Bool) (T N : Nat) (ds : List (List (Term k C))) :
    (∀ r c, riskMatrix (redOf mean) (datumMatrix mean T lossGradOuter) ds r c =
      riskMatrix (redOf mean) (datumMatrix mean T lossGradOuter) ds c r) ∧
    QuadNonneg N (riskMatrix (redOf mean) (datumMatrix mean T lossGradOuter) ds) :=
  ⟨riskMatrix_symm _ _ (datumMatrix_symm mean T _ fun _ _ _ => mul_comm _ _) ds,
    riskMatrix_psd N _ _ ds fun d _ => datumMatrix_psd mean T N _ lossGradOuter_psd d⟩

/-! ## C16 -/

theorem refGroupGrad_eq (t : Term k C) (p : Nat) : refGroupGrad k t p = termGrad t p := by
  obtain ⟨J, f, y⟩ := t
  unfold termGrad
  cases k
  · simp only [refGroupGrad, pderiv_mse]
    refine Finset.sum_congr rfl fun i _ => ?_
    have h := pderiv_mse (C := 1) (fun _ => y i) (fun _ => f i) 0
    unfold pderiv at h
    have e : (fun t => termLoss (C := 1) .mse (fun _ => y i) (Function.update (fun _ => f i) 0 t)) =
        fun o => termLoss (C := 1) .mse (fun _ => y i) fun _ => o := by
      funext t; simp [termLoss]
    rw [e] at h
    rw [h]; ring
  · simp only [refGroupGrad]
    exact Finset.sum_congr rfl fun i _ => by ring
  · simp only [refGroupGrad, pderiv_bce]
    refine Finset.sum_congr rfl fun i _ => ?_
    have h := pderiv_bce (C := 1) (fun _ => y i) (fun _ => f i) 0
    unfold pderiv at h
    have e : (fun t => termLoss (C := 1) .bce (fun _ => y i) (Function.update (fun _ => f i) 0 t)) =
        fun o => termLoss (C := 1) .bce (fun _ => y i) fun _ => o := by
      funext t; simp [termLoss]
    rw [e] at h
    rw [h]; ring

/-- C16: whatever the mini-batches, the operator multiplies with the matrix that `functorch_empirical_fisher` computes
on the concatenated data. -/
theorem efOp_eq_functorch (shapes : List (List Nat)) (hshapes : shapes ≠ []) (mean : Bool) (T : Nat)
    (batches : List (List (List (Term k C)))) (hne : ∀ b ∈ batches, b ≠ [])
    (hT : ∀ b ∈ batches, ∀ d ∈ b, d.length = T) :
    Represents (curvatureOp shapes (redOf mean) (inferNData List.length batches none) List.length
        (fun b => efBatch shapes mean b.flatten) batches)
      (functorchEF mean batches.flatten.flatten) := by
  have e : functorchEF mean batches.flatten.flatten =
      riskMatrix (redOf mean) (datumMatrix mean T lossGradOuter) batches.flatten := by
    funext r c
    rw [ef_matrix mean T batches.flatten (by
      intro d hd
      obtain ⟨b, hb, hdb⟩ := List.mem_flatten.mp hd
      exact hT b hb d hdb)]
    unfold functorchEF termWeight
    simp only [List.map_map, Function.comp_def, refGroupGrad_eq]
    generalize batches.flatten.flatten = ts
    cases mean
    · simp
    · by_cases hk : k = .ce
      · simp [hk]; ring
      · have hs : ∀ x y : ℝ, x / Real.sqrt C * (y / Real.sqrt C) = (C : ℝ)⁻¹ * (x * y) := by
          intro x y
          rw [div_mul_div_comm, Real.mul_self_sqrt (Nat.cast_nonneg C)]
          ring
        simp only [hk, ne_eq, not_false_eq_true, and_self, if_true, hs, List.sum_map_mul_left]
        simp
        ring
  rw [e]
  exact efOp_represents shapes hshapes mean T batches hne hT

/-- Three data with one `CrossEntropyLoss` term each, in mini-batches of sizes 2 and 1. -/
noncomputable def ceData : List (List (List (Term .ce 2))) :=
  [[[⟨fun c p => c + p, fun c => c, 0⟩], [⟨fun c p => c * p, fun _ => 1, 1⟩]], [[⟨fun _ p => p, fun c => -c, 1⟩]]]

example : Represents (curvatureOp [[2], [1, 1]] .mean (inferNData List.length ceData none) List.length
      (fun b => ggnLossBatch [[2], [1, 1]] true b.flatten) ceData)
    (riskMatrix .mean (datumMatrix true 1 lossHessian) ceData.flatten) :=
  ggnLossOp_represents [[2], [1, 1]] (by decide) true 1 ceData (by simp [ceData]) (by simp [ceData])

example : Represents (curvatureOp [[2], [1, 1]] .mean (inferNData List.length ceData none) List.length
      (fun b => efBatch [[2], [1, 1]] true b.flatten) ceData)
    (functorchEF true ceData.flatten.flatten) :=
  efOp_eq_functorch [[2], [1, 1]] (by decide) true 1 ceData (by simp [ceData]) (by simp [ceData])

end Curvlinops
