import Verif.Props.KfacMC
import Verif.Props.JacobianForm
import Verif.Props.GaussNewton
import Verif.Props.Reparam
import Verif.Props.LossSqrt
import Mathlib.Probability.Distributions.Gaussian.Multivariate

/-!
# C111: symmetries of the losses

Changes of predictions and labels that do not change the loss change nothing that the operators compute.
-/

namespace Curvlinops

open Matrix MeasureTheory ProbabilityTheory

variable {k : LossKind} {C : Nat}

/-- Specification: a change of the prediction (and label) of a loss term that leaves the loss as it is. `shift`: the same number is added
to all logits. `perm`: the outputs are in another order. `rotate`: prediction and label are multiplied with an orthogonal matrix.
`flip`: some binary classes are exchanged, with negated logits. -/
inductive OutChange : LossKind → Nat → Type
  | shift {C : Nat} (c : ℝ) : OutChange .ce C
  | perm {k : LossKind} {C : Nat} (σ : Equiv.Perm (Fin C)) : OutChange k C
  | rotate {C : Nat} (Q : Matrix (Fin C) (Fin C) ℝ) (hQ : Qᵀ * Q = 1) : OutChange .mse C
  | flip {C : Nat} (s : Fin C → Bool) : OutChange .bce C

namespace OutChange

/-- The changed prediction. -/
noncomputable def pred : OutChange k C → (Fin C → ℝ) → Fin C → ℝ
  | shift c, f => fun i => f i + c
  | perm σ, f => fun i => f (σ i)
  | rotate Q _, f => Q *ᵥ f
  | flip s, f => fun i => if s i then -f i else f i

/-- The changed target. -/
noncomputable def target : {k : LossKind} → OutChange k C → TermTarget k C → TermTarget k C
  | .ce, shift _, y => y
  | .ce, perm σ, y => σ.symm y
  | .mse, perm σ, y => fun i => y (σ i)
  | .bce, perm σ, y => fun i => y (σ i)
  | .mse, rotate Q _, y => Q *ᵥ y
  | .bce, flip s, y => fun i => if s i then 1 - y i else y i

/-- The corresponding draw of the random number generator. -/
noncomputable def draw : {k : LossKind} → OutChange k C → TermDraw k C → TermDraw k C
  | .ce, shift _, d => d
  | .ce, perm σ, d => σ.symm d
  | .mse, perm σ, d => fun i => d (σ i)
  | .bce, perm σ, d => fun i => d (σ i)
  | .mse, rotate Q _, d => Q *ᵥ d
  | .bce, flip s, d => fun i => if s i then !d i else d i

/-- The Jacobian of the change in the prediction. -/
noncomputable def mat : OutChange k C → Matrix (Fin C) (Fin C) ℝ
  | shift _ => 1
  | perm σ => fun i j => if σ i = j then 1 else 0
  | rotate Q _ => Q
  | flip s => Matrix.diagonal fun i => if s i then -1 else 1

/-- Does the change add a number to all outputs? That number may depend on the parameters. -/
def off : OutChange k C → ℝ
  | shift _ => 1
  | _ => 0

/-- The changed loss term; `g` is the gradient of the shift in the parameters. -/
noncomputable def term (ch : OutChange k C) (g : Nat → ℝ) (t : Term k C) : Term k C where
  J := fun i p => if h : i < C then ∑ j : Fin C, ch.mat ⟨i, h⟩ j * t.J j p + ch.off * g p else 0
  f := ch.pred t.f
  y := ch.target t.y

theorem perm_sum (σ : Equiv.Perm (Fin C)) (x : Fin C → ℝ) (i : Fin C) :
    ∑ j, (if σ j = i then (1 : ℝ) else 0) * x j = x (σ.symm i) := by
  rw [Finset.sum_eq_single (σ.symm i)]
  · simp
  · intro j _ hj
    rw [if_neg, zero_mul]
    rintro rfl
    simp at hj
  · simp

theorem orth (ch : OutChange k C) : ch.matᵀ * ch.mat = 1 := by
  cases ch with
  | shift c => simp [mat]
  | perm σ =>
    ext i j
    rw [Matrix.mul_apply]
    refine (perm_sum σ (fun x => if σ x = j then (1 : ℝ) else 0) i).trans ?_
    simp [Matrix.one_apply]
  | rotate Q hQ => exact hQ
  | flip s =>
    simp only [mat, Matrix.diagonal_transpose, Matrix.diagonal_mul_diagonal]
    rw [← Matrix.diagonal_one]
    congr 1
    funext i
    split <;> simp

theorem softmax_shift (f : Fin C → ℝ) (c : ℝ) (i : Fin C) : softmax (fun i => f i + c) i = softmax f i := by
  unfold softmax
  simp only [Real.exp_add]
  rw [← Finset.sum_mul, mul_div_mul_right _ _ (Real.exp_pos c).ne']

theorem softmax_perm (f : Fin C → ℝ) (σ : Equiv.Perm (Fin C)) (i : Fin C) : softmax (fun i => f (σ i)) i = softmax f (σ i) := by
  unfold softmax
  rw [Equiv.sum_comp σ fun i => Real.exp (f i)]

theorem sigmoid_flip (x : ℝ) : Real.sigmoid (-x) = 1 - Real.sigmoid x := by
  rw [Real.sigmoid_neg]

/-- The loss is the same. -/
theorem loss (ch : OutChange k C) (y : TermTarget k C) (f : Fin C → ℝ) : termLoss k (ch.target y) (ch.pred f) = termLoss k y f := by
  cases ch with
  | shift c =>
    simp only [termLoss, target, pred, Real.exp_add]
    rw [← Finset.sum_mul, mul_div_mul_right _ _ (Real.exp_pos c).ne']
  | perm σ =>
    cases k with
    | mse => exact Equiv.sum_comp σ fun i => (f i - y i) ^ 2
    | ce =>
      simp only [termLoss, target, pred, Equiv.apply_symm_apply]
      rw [Equiv.sum_comp σ fun i => Real.exp (f i)]
    | bce => exact Equiv.sum_comp σ fun i => -(y i * Real.log (Real.sigmoid (f i)) + (1 - y i) * Real.log (1 - Real.sigmoid (f i)))
  | rotate Q hQ =>
    have e : ∀ z : Fin C → ℝ, ∑ i, z i ^ 2 = z ⬝ᵥ z := fun z => Finset.sum_congr rfl fun i _ => by ring
    simp only [termLoss, target, pred]
    have h := e (Q *ᵥ f - Q *ᵥ y)
    have h' := e (f - y)
    simp only [Pi.sub_apply] at h h'
    rw [h, h', ← Matrix.mulVec_sub, Matrix.dotProduct_mulVec, Matrix.vecMul_mulVec, hQ, Matrix.vecMul_one]
  | flip s =>
    simp only [termLoss, target, pred]
    refine Finset.sum_congr rfl fun i _ => ?_
    split
    · rw [sigmoid_flip]
      ring_nf
    · rfl

/-- Gradients in the prediction transform with the transposed Jacobian. -/
theorem grad (ch : OutChange k C) (y : TermTarget k C) (f : Fin C → ℝ) (i : Fin C) :
    ∑ j, ch.mat j i * pderiv (termLoss k (ch.target y)) j (ch.pred f) = pderiv (termLoss k y) i f := by
  cases ch with
  | shift c =>
    simp only [mat, target, pred, pderiv_ce, softmax_shift, Matrix.one_apply]
    simp
  | perm σ =>
    simp only [mat]
    rw [perm_sum σ fun j => pderiv (termLoss k ((perm σ).target y)) j ((perm σ).pred f)]
    cases k with
    | mse => simp only [target, pred, pderiv_mse, Equiv.apply_symm_apply]
    | ce => simp only [target, pred, pderiv_ce, softmax_perm, Equiv.apply_symm_apply, EmbeddingLike.apply_eq_iff_eq]
    | bce => simp only [target, pred, pderiv_bce, Equiv.apply_symm_apply]
  | rotate Q hQ =>
    simp only [mat, target, pred, pderiv_mse]
    have h := congrFun (congrArg (fun M => M *ᵥ (f - y)) hQ) i
    simp only [Matrix.one_mulVec, ← Matrix.mulVec_mulVec, Matrix.mulVec_sub] at h
    simp only [Matrix.mulVec, dotProduct, Matrix.transpose_apply, Pi.sub_apply] at h ⊢
    rw [← h, ← Finset.sum_sub_distrib, Finset.mul_sum]
    exact Finset.sum_congr rfl fun j _ => by ring
  | flip s =>
    simp only [mat, target, pred, pderiv_bce, Matrix.diagonal_apply, ite_mul, zero_mul]
    rw [Finset.sum_ite_eq' Finset.univ i]
    simp only [Finset.mem_univ, if_true]
    split
    · rw [sigmoid_flip]; ring
    · ring

/-- The would-be gradients of corresponding draws transform in the same way. -/
theorem drawGrad (ch : OutChange k C) (f : Fin C → ℝ) (d : TermDraw k C) (i : Fin C) :
    ∑ j, ch.mat j i * wouldBeGrad k (ch.pred f) (ch.draw d) j = wouldBeGrad k f d i := by
  cases ch with
  | shift c =>
    revert d
    intro (d : Fin C)
    show ∑ j, (1 : Matrix (Fin C) (Fin C) ℝ) j i * (softmax (fun i => f i + c) j - if j = d then 1 else 0) = softmax f i - if i = d then 1 else 0
    simp only [softmax_shift, Matrix.one_apply]
    simp
  | perm σ =>
    simp only [mat]
    rw [perm_sum σ fun j => wouldBeGrad k ((perm σ).pred f) ((perm σ).draw d) j]
    cases k with
    | mse => simp only [draw, wouldBeGrad, Equiv.apply_symm_apply]
    | ce =>
      revert d
      intro (d : Fin C)
      show softmax (fun i => f (σ i)) (σ.symm i) - (if σ.symm i = σ.symm d then 1 else 0) = softmax f i - if i = d then 1 else 0
      simp only [softmax_perm, Equiv.apply_symm_apply, EmbeddingLike.apply_eq_iff_eq]
    | bce => simp only [draw, pred, wouldBeGrad, Equiv.apply_symm_apply]
  | rotate Q hQ =>
    revert d
    intro (d : Fin C → ℝ)
    show ∑ j, Q j i * (2 * (0 + √0.5 * (Q *ᵥ d) j)) = 2 * (0 + √0.5 * d i)
    have h : ∑ j, Q j i * (Q *ᵥ d) j = d i := by
      have h := congrFun (congrArg (fun M => M *ᵥ d) hQ) i
      simp only [Matrix.one_mulVec, ← Matrix.mulVec_mulVec] at h
      exact h
    rw [← h, zero_add, Finset.mul_sum, Finset.mul_sum]
    exact Finset.sum_congr rfl fun j _ => by ring
  | flip s =>
    simp only [mat, draw, pred, wouldBeGrad, Matrix.diagonal_apply, ite_mul, zero_mul]
    rw [Finset.sum_ite_eq' Finset.univ i]
    simp only [Finset.mem_univ, if_true]
    split
    · rw [sigmoid_flip]; cases d i <;> simp
    · ring

/-- Hessians in the prediction transform with the Jacobian and its transpose. -/
theorem hessian (ch : OutChange k C) (y : TermTarget k C) (f : Fin C → ℝ) (i j : Fin C) :
    ∑ a, ∑ b, ch.mat a i * hess (termLoss k (ch.target y)) (ch.pred f) a b * ch.mat b j = hess (termLoss k y) f i j := by
  cases ch with
  | shift c =>
    simp only [mat, target, pred, hess_ce, softmax_shift, Matrix.one_apply]
    simp
  | perm σ =>
    have e : ∀ H : Fin C → Fin C → ℝ, ∑ a, ∑ b, (perm (k := k) σ).mat a i * H a b * (perm (k := k) σ).mat b j = H (σ.symm i) (σ.symm j) := by
      intro H
      simp only [mat]
      rw [← perm_sum σ (fun a => H a (σ.symm j)) i]
      refine Finset.sum_congr rfl fun a _ => ?_
      rw [← perm_sum σ (fun b => H a b) j, Finset.mul_sum]
      exact Finset.sum_congr rfl fun b _ => by ring
    rw [e]
    cases k with
    | mse => simp only [target, hess_mse, EmbeddingLike.apply_eq_iff_eq]
    | ce => simp only [target, pred, hess_ce, softmax_perm, Equiv.apply_symm_apply, EmbeddingLike.apply_eq_iff_eq]
    | bce => simp only [target, pred, hess_bce, Equiv.apply_symm_apply, EmbeddingLike.apply_eq_iff_eq]
  | rotate Q hQ =>
    simp only [mat, target, pred, hess_mse]
    have h := congrFun (congrFun hQ i) j
    simp only [Matrix.mul_apply, Matrix.transpose_apply, Matrix.one_apply] at h
    simp only [mul_ite, mul_zero, ite_mul, zero_mul, Finset.sum_ite_eq, Finset.mem_univ, if_true]
    rw [show (if i = j then (2 : ℝ) else 0) = 2 * if i = j then 1 else 0 by split <;> simp, ← h, Finset.mul_sum]
    exact Finset.sum_congr rfl fun j _ => by ring
  | flip s =>
    simp only [mat, target, pred, hess_bce]
    have e : ∀ u h : Fin C → ℝ, ∑ a, ∑ b, Matrix.diagonal u a i * (if a = b then h a else 0) * Matrix.diagonal u b j =
        if i = j then u i * h i * u i else 0 := by
      intro u h
      rw [Finset.sum_eq_single i (fun a _ ha => by simp [Matrix.diagonal_apply_ne u ha]) (by simp)]
      rw [Finset.sum_eq_single i (fun b _ hb => by simp [Ne.symm hb]) (by simp)]
      by_cases h : i = j
      · subst h; simp
      · simp [h]
    rw [e (fun i => if s i then -1 else 1) fun a => (if s a then -f a else f a).sigmoid * (1 - (if s a then -f a else f a).sigmoid)]
    by_cases h : i = j
    · rw [if_pos h, if_pos h]
      split
      · rw [sigmoid_flip]; ring
      · ring
    · rw [if_neg h, if_neg h]

/-- If a number is added to all outputs, then gradients and Hessians do not see it. -/
theorem off_grad (ch : OutChange k C) (y : TermTarget k C) (f : Fin C → ℝ) :
    ch.off * ∑ j, pderiv (termLoss k (ch.target y)) j (ch.pred f) = 0 := by
  cases ch with
  | shift c =>
    simp only [off, one_mul, target, pred, pderiv_ce, softmax_shift]
    rw [Finset.sum_sub_distrib, sum_softmax f y]
    simp
  | _ => simp [off]

theorem off_drawGrad (ch : OutChange k C) (f : Fin C → ℝ) (d : TermDraw k C) :
    ch.off * ∑ j, wouldBeGrad k (ch.pred f) (ch.draw d) j = 0 := by
  cases ch with
  | shift c =>
    revert d
    intro (d : Fin C)
    show 1 * ∑ j, (softmax (fun i => f i + c) j - if j = d then 1 else 0) = 0
    simp only [softmax_shift]
    rw [Finset.sum_sub_distrib, sum_softmax f d]
    simp
  | _ => simp [off]

theorem off_hessian (ch : OutChange k C) (y : TermTarget k C) (f : Fin C → ℝ) (i : Fin C) :
    ch.off * ∑ j, hess (termLoss k (ch.target y)) (ch.pred f) i j = 0 ∧
    ch.off * ∑ j, hess (termLoss k (ch.target y)) (ch.pred f) j i = 0 := by
  cases ch with
  | shift c =>
    simp only [off, one_mul, target, pred, hess_ce, softmax_shift]
    rw [Finset.sum_sub_distrib, ← Finset.mul_sum, Finset.sum_sub_distrib, ← Finset.sum_mul, sum_softmax f y]
    simp
  | _ => simp [off]

/-! ## Loss terms -/

theorem dot_J (ch : OutChange k C) (g : Nat → ℝ) (t : Term k C) (w w' : Fin C → ℝ) (hw : ∀ i, ∑ j, ch.mat j i * w' j = w i)
    (h0 : ch.off * ∑ j, w' j = 0) (p : Nat) : ∑ i : Fin C, (ch.term g t).J i p * w' i = ∑ i : Fin C, t.J i p * w i := by
  have e : ∀ i : Fin C, (ch.term g t).J i p = ∑ j : Fin C, ch.mat i j * t.J j p + ch.off * g p := fun i => by
    simp [term]
  simp only [e, add_mul, Finset.sum_add_distrib, Finset.sum_mul]
  rw [← Finset.mul_sum, mul_comm ch.off, mul_assoc, h0, mul_zero, add_zero, Finset.sum_comm]
  refine Finset.sum_congr rfl fun i _ => ?_
  rw [← hw i, Finset.mul_sum]
  exact Finset.sum_congr rfl fun j _ => by ring

theorem term_grad (ch : OutChange k C) (g : Nat → ℝ) (t : Term k C) (p : Nat) : termGrad (ch.term g t) p = termGrad t p :=
  dot_J ch g t _ _ (ch.grad t.y t.f) (ch.off_grad t.y t.f) p

theorem term_loss (ch : OutChange k C) (g : Nat → ℝ) (t : Term k C) :
    termLoss k (ch.term g t).y (ch.term g t).f = termLoss k t.y t.f := ch.loss t.y t.f

theorem term_outer (ch : OutChange k C) (g : Nat → ℝ) (t : Term k C) (r c : Nat) :
    termSandwich (ch.term g t) (lossGradOuter (ch.term g t)) r c = termSandwich t (lossGradOuter t) r c := by
  rw [termSandwich_lossGradOuter, termSandwich_lossGradOuter, term_grad, term_grad]

theorem term_hessian (ch : OutChange k C) (g : Nat → ℝ) (t : Term k C) (r c : Nat) :
    termSandwich (ch.term g t) (lossHessian (ch.term g t)) r c = termSandwich t (lossHessian t) r c := by
  have e : ∀ (t : Term k C) (H : Fin C → Fin C → ℝ), termSandwich t H r c = ∑ i : Fin C, t.J i r * ∑ j : Fin C, t.J j c * H i j := by
    intro t H
    unfold termSandwich
    refine Finset.sum_congr rfl fun i _ => ?_
    rw [Finset.mul_sum]
    exact Finset.sum_congr rfl fun j _ => by ring
  rw [e, e]
  have inner : ∀ i : Fin C, ∑ j : Fin C, (ch.term g t).J j c * lossHessian (ch.term g t) i j =
      ∑ j : Fin C, t.J j c * ∑ b, ch.mat b j * lossHessian (ch.term g t) i b := fun i =>
    dot_J ch g t _ _ (fun _ => rfl) (ch.off_hessian t.y t.f i).1 c
  simp only [inner]
  refine dot_J ch g t (fun i => ∑ j : Fin C, t.J j c * lossHessian t i j) _ (fun i => ?_) ?_ r
  · have h := fun j => ch.hessian t.y t.f i j
    have h' : ∀ j, lossHessian t i j = ∑ a, ∑ b, ch.mat a i * lossHessian (ch.term g t) a b * ch.mat b j := fun j => (h j).symm
    simp only [h', Finset.mul_sum]
    rw [Finset.sum_comm]
    refine Finset.sum_congr rfl fun j _ => Finset.sum_congr rfl fun a _ => Finset.sum_congr rfl fun b _ => ?_
    ring
  · have h : ∀ b, ch.off * ∑ i, lossHessian (ch.term g t) i b = 0 := fun b => (ch.off_hessian t.y t.f b).2
    rw [Finset.sum_comm, Finset.mul_sum]
    refine Finset.sum_eq_zero fun j _ => ?_
    rw [← Finset.mul_sum, Finset.sum_comm, mul_left_comm, Finset.mul_sum]
    rw [Finset.sum_eq_zero, mul_zero]
    intro b _
    rw [← Finset.mul_sum, mul_left_comm, h, mul_zero]

theorem term_sample (ch : OutChange k C) (g : Nat → ℝ) (t : Term k C) {S : Nat} (draws : Fin S → TermDraw k C) (r c : Nat) :
    termSandwich (ch.term g t) (sampleOuter (ch.term g t).f fun s => ch.draw (draws s)) r c =
      termSandwich t (sampleOuter t.f draws) r c := by
  have e : ∀ (t : Term k C) (draws : Fin S → TermDraw k C), termSandwich t (sampleOuter t.f draws) r c =
      (∑ s, (∑ i : Fin C, t.J i r * wouldBeGrad k t.f (draws s) i) * ∑ j : Fin C, t.J j c * wouldBeGrad k t.f (draws s) j) / S := by
    intro t draws
    unfold termSandwich sampleOuter
    simp only [div_eq_mul_inv, Finset.sum_mul, Finset.mul_sum]
    rw [Finset.sum_comm]
    symm
    rw [Finset.sum_comm]
    refine Finset.sum_congr rfl fun i _ => ?_
    rw [Finset.sum_comm]
    exact Finset.sum_congr rfl fun j _ => Finset.sum_congr rfl fun s _ => by ring
  rw [e, e]
  congr 1
  refine Finset.sum_congr rfl fun s _ => ?_
  show (∑ i : Fin C, (ch.term g t).J i r * wouldBeGrad k (ch.pred t.f) (ch.draw (draws s)) i) *
    (∑ j : Fin C, (ch.term g t).J j c * wouldBeGrad k (ch.pred t.f) (ch.draw (draws s)) j) = _
  rw [dot_J ch g t _ _ (ch.drawGrad t.f (draws s)) (ch.off_drawGrad t.f (draws s)),
    dot_J ch g t _ _ (ch.drawGrad t.f (draws s)) (ch.off_drawGrad t.f (draws s))]

/-! ## The distribution of the draws -/

theorem draw_measurable (ch : OutChange k C) : Measurable ch.draw := by
  cases ch with
  | shift c => exact measurable_id
  | perm σ =>
    cases k with
    | mse =>
      show Measurable fun (d : Fin C → ℝ) i => d (σ i)
      fun_prop
    | ce =>
      show Measurable fun d : Fin C => σ.symm d
      exact Measurable.of_discrete
    | bce =>
      show Measurable fun (d : Fin C → Bool) i => d (σ i)
      exact Measurable.of_discrete
  | rotate Q hQ =>
    show Measurable fun d : Fin C → ℝ => Q *ᵥ d
    exact (Matrix.mulVecLin Q).continuous_of_finiteDimensional.measurable
  | flip s =>
    show Measurable fun (d : Fin C → Bool) i => if s i then !d i else d i
    exact Measurable.of_discrete

theorem map_finite {ι : Type _} [Fintype ι] [MeasurableSpace ι] [MeasurableSingletonClass ι] (p : ι → ℝ) (e : Equiv.Perm ι)
    (he : Measurable e) : (∑ s : ι, ENNReal.ofReal (p s) • Measure.dirac s).map e =
      ∑ s : ι, ENNReal.ofReal (p (e.symm s)) • Measure.dirac s := by
  rw [← Equiv.sum_comp e fun s => ENNReal.ofReal (p (e.symm s)) • Measure.dirac s]
  simp only [Equiv.symm_apply_apply]
  rw [← Measure.mapₗ_apply_of_measurable he, map_sum]
  refine Finset.sum_congr rfl fun s _ => ?_
  rw [map_smul, Measure.mapₗ_apply_of_measurable he, Measure.map_dirac' he]

theorem normal_rotate (Q : Matrix (Fin C) (Fin C) ℝ) (hQ : Qᵀ * Q = 1) : (stdNormal C).map (fun d => Q *ᵥ d) = stdNormal C := by
  let L : EuclideanSpace ℝ (Fin C) →ₗᵢ[ℝ] EuclideanSpace ℝ (Fin C) := ⟨Matrix.toEuclideanLin Q, fun x => by
    have e : ∀ z : Fin C → ℝ, ∑ i, ‖z i‖ ^ 2 = z ⬝ᵥ z := fun z =>
      Finset.sum_congr rfl fun i _ => by rw [Real.norm_eq_abs, sq_abs]; ring
    rw [EuclideanSpace.norm_eq, EuclideanSpace.norm_eq]
    congr 1
    refine (e (Q *ᵥ x.ofLp)).trans (Eq.trans ?_ (e x.ofLp).symm)
    rw [Matrix.dotProduct_mulVec, Matrix.vecMul_mulVec, hQ, Matrix.vecMul_one]⟩
  let L' := L.toLinearIsometryEquiv rfl
  have h1 : (fun d => Q *ᵥ d) = WithLp.ofLp ∘ L' ∘ WithLp.toLp 2 := by
    funext d
    rfl
  have m1 : Measurable (WithLp.toLp 2 : (Fin C → ℝ) → EuclideanSpace ℝ (Fin C)) := by fun_prop
  have m2 : Measurable (WithLp.ofLp : EuclideanSpace ℝ (Fin C) → Fin C → ℝ) := by fun_prop
  have m3 : Measurable L' := L'.continuous.measurable
  rw [h1, ← Measure.map_map m2 (m3.comp m1), ← Measure.map_map m3 m1]
  unfold stdNormal
  rw [map_pi_eq_stdGaussian, stdGaussian_map, ← map_pi_eq_stdGaussian, Measure.map_map m2 m1]
  exact Measure.map_id

/-- Corresponding draws have the distribution for the changed prediction. -/
theorem draw_law (ch : OutChange k C) (f : Fin C → ℝ) : (drawLaw k f).map ch.draw = drawLaw k (ch.pred f) := by
  cases ch with
  | shift c =>
    show (drawLaw .ce f).map id = drawLaw .ce fun i => f i + c
    rw [Measure.map_id]
    simp only [drawLaw, softmax_shift]
  | perm σ =>
    cases k with
    | mse =>
      have h := normal_rotate ((perm (k := .mse) σ).mat) (perm (k := .mse) σ).orth
      have e : (fun d : Fin C → ℝ => (perm (k := .mse) σ).mat *ᵥ d) = fun d i => d (σ i) := by
        funext d i
        simp [mat, Matrix.mulVec, dotProduct]
      rw [e] at h
      exact h
    | ce =>
      show Measure.map σ.symm (∑ s : Fin C, ENNReal.ofReal (softmax f s) • Measure.dirac s) = drawLaw .ce fun i => f (σ i)
      rw [map_finite _ σ.symm Measurable.of_discrete]
      simp only [drawLaw, softmax_perm, Equiv.symm_symm]
      rfl
    | bce =>
      have h := map_finite (bitsProb fun c => (f c).sigmoid) (Equiv.arrowCongr σ.symm (Equiv.refl Bool)) Measurable.of_discrete
      refine h.trans ?_
      simp only [drawLaw]
      refine Finset.sum_congr rfl fun b _ => ?_
      congr 2
      unfold bitsProb
      rw [← Equiv.prod_comp σ]
      simp [pred]
  | rotate Q hQ => exact normal_rotate Q hQ
  | flip s =>
    have hi : Function.Involutive fun (d : Fin C → Bool) i => if s i then !d i else d i := by
      intro d
      funext i
      dsimp only
      split <;> simp
    have h := map_finite (bitsProb fun c => (f c).sigmoid) hi.toPerm Measurable.of_discrete
    refine h.trans ?_
    simp only [drawLaw]
    refine Finset.sum_congr rfl fun b _ => ?_
    congr 2
    unfold bitsProb
    refine Finset.prod_congr rfl fun c _ => ?_
    simp only [pred, Function.Involutive.toPerm_symm, Function.Involutive.coe_toPerm]
    split <;> cases b c <;> simp [sigmoid_flip]

/-- Binary targets stay binary. -/
theorem binary (ch : Term k C → OutChange k C) (g : Term k C → Nat → ℝ) {ts : List (Term k C)} (h : BinaryTargets k ts) :
    BinaryTargets k (ts.map fun t => (ch t).term (g t) t) := by
  cases k with
  | mse => trivial
  | ce => trivial
  | bce =>
    intro t ht c
    obtain ⟨t, ht', rfl⟩ := List.mem_map.mp ht
    have h' := h t ht'
    simp only [term]
    cases ch t with
    | perm σ => exact h' (σ c)
    | flip s =>
      simp only [target]
      split
      · rcases h' c with h | h <;> rw [h] <;> simp
      · exact h' c

end OutChange

/-! ## Operators -/

section operators

variable (ch : Term k C → OutChange k C) (g : Term k C → Nat → ℝ)

/-- Specification: every loss term is changed, each in its own way. -/
noncomputable def changeData (batches : List (List (List (Term k C)))) : List (List (List (Term k C))) :=
  batches.map (·.map (·.map fun t => (ch t).term (g t) t))

theorem changeData_flatten (batches : List (List (List (Term k C)))) :
    (changeData ch g batches).flatten = batches.flatten.map (·.map fun t => (ch t).term (g t) t) := by
  unfold changeData
  rw [List.map_flatten]

theorem changeData_ne {batches : List (List (List (Term k C)))} (hne : ∀ b ∈ batches, b ≠ []) : ∀ b ∈ changeData ch g batches, b ≠ [] := by
  intro b hb
  obtain ⟨b', hb', rfl⟩ := List.mem_map.mp hb
  simpa using hne b' hb'

theorem changeData_terms {T : Nat} {batches : List (List (List (Term k C)))} (hT : ∀ b ∈ batches, ∀ d ∈ b, d.length = T) :
    ∀ b ∈ changeData ch g batches, ∀ d ∈ b, d.length = T := by
  intro b hb d hd
  obtain ⟨b', hb', rfl⟩ := List.mem_map.mp hb
  obtain ⟨d', hd', rfl⟩ := List.mem_map.mp hd
  simpa using hT b' hb' d' hd'

theorem changeData_lengths (batches : List (List (List (Term k C)))) :
    (changeData ch g batches).map List.length = batches.map List.length := by
  unfold changeData
  rw [List.map_map]
  exact List.map_congr_left fun b _ => by simp

theorem changeData_risk (red : Reduction) (mean : Bool) (T : Nat) (H : Term k C → Fin C → Fin C → ℝ)
    (hH : ∀ t r c, termSandwich ((ch t).term (g t) t) (H ((ch t).term (g t) t)) r c = termSandwich t (H t) r c)
    (batches : List (List (List (Term k C)))) (r c : Nat) :
    riskMatrix red (datumMatrix mean T H) (changeData ch g batches).flatten r c = riskMatrix red (datumMatrix mean T H) batches.flatten r c := by
  rw [changeData_flatten]
  unfold riskMatrix
  rw [List.length_map, List.map_map]
  congr 2
  refine List.map_congr_left fun d _ => ?_
  simp only [Function.comp_apply, datumMatrix, List.map_map]
  congr 2
  exact List.map_congr_left fun t _ => hH t r c

/-- **C111** (GGN): changing predictions and labels without changing the loss does not change the products with the GGN. -/
theorem ggn_symmetry (shapes : List (List Nat)) (hshapes : shapes ≠ []) (mean : Bool) (T : Nat) (batches : List (List (List (Term k C))))
    (hne : ∀ b ∈ batches, b ≠ []) (hT : ∀ b ∈ batches, ∀ d ∈ b, d.length = T) {K : Nat} {X : List (Tensor ℝ)} (hX : HasShapes X shapes K) :
    ((curvatureOp shapes (redOf mean) (inferNData List.length (changeData ch g batches) none) List.length
        (fun b => ggnLossBatch shapes mean b.flatten) (changeData ch g batches)).matmat X).1 =
      ((curvatureOp shapes (redOf mean) (inferNData List.length batches none) List.length
        (fun b => ggnLossBatch shapes mean b.flatten) batches).matmat X).1 := by
  refine represents_same_output ?_ ?_ (ggnLossOp_represents shapes hshapes mean T _ (changeData_ne ch g hne) (changeData_terms ch g hT))
    (ggnLossOp_represents shapes hshapes mean T batches hne hT)
    (fun r _ c _ => changeData_risk ch g _ mean T lossHessian (fun t r c => (ch t).term_hessian (g t) t r c) batches r c) hX <;> rfl

/-- **C111** (empirical Fisher): the same for the empirical Fisher. -/
theorem ef_symmetry (shapes : List (List Nat)) (hshapes : shapes ≠ []) (mean : Bool) (T : Nat) (batches : List (List (List (Term k C))))
    (hne : ∀ b ∈ batches, b ≠ []) (hT : ∀ b ∈ batches, ∀ d ∈ b, d.length = T) {K : Nat} {X : List (Tensor ℝ)} (hX : HasShapes X shapes K) :
    ((curvatureOp shapes (redOf mean) (inferNData List.length (changeData ch g batches) none) List.length
        (fun b => efBatch shapes mean b.flatten) (changeData ch g batches)).matmat X).1 =
      ((curvatureOp shapes (redOf mean) (inferNData List.length batches none) List.length
        (fun b => efBatch shapes mean b.flatten) batches).matmat X).1 := by
  refine represents_same_output ?_ ?_ (efOp_represents shapes hshapes mean T _ (changeData_ne ch g hne) (changeData_terms ch g hT))
    (efOp_represents shapes hshapes mean T batches hne hT)
    (fun r _ c _ => changeData_risk ch g _ mean T lossGradOuter (fun t r c => (ch t).term_outer (g t) t r c) batches r c) hX <;> rfl

/-- **C111** (gradient and loss): `gradient_and_loss` returns the same. -/
theorem gradient_symmetry (shapes : List (List Nat)) (mean : Bool) (T : Nat) (batches : List (List (List (Term k C))))
    (hne : ∀ b ∈ batches, b ≠ []) (hT : ∀ b ∈ batches, ∀ d ∈ b, d.length = T) :
    gradientAndLoss shapes (redOf mean) (inferNData List.length (changeData ch g batches) none) List.length
        (some fun b => lossGradBatch shapes mean b.flatten) (changeData ch g batches) =
      gradientAndLoss shapes (redOf mean) (inferNData List.length batches none) List.length
        (some fun b => lossGradBatch shapes mean b.flatten) batches := by
  have spec := fun (bs : List (List (List (Term k C)))) (h1 : ∀ b ∈ bs, b ≠ []) (h2 : ∀ b ∈ bs, ∀ d ∈ b, d.length = T) =>
    gradientAndLoss_spec shapes (redOf mean) (redOf_cases mean)
      (fun d => termWeight k mean T C * (d.map fun t => termLoss k t.y t.f).sum)
      (fun d r => termWeight k mean T C * (d.map fun t => termGrad t r).sum)
      (fun b => lossGradBatch shapes mean b.flatten) bs h1
      (fun b hb => (lossGradBatch_spec shapes mean T b (h2 b hb)).1)
      (fun b hb => (lossGradBatch_spec shapes mean T b (h2 b hb)).2.1)
      (fun b hb => (lossGradBatch_spec shapes mean T b (h2 b hb)).2.2)
  obtain ⟨G, g1, g2, g3⟩ := spec batches hne hT
  obtain ⟨G', g1', g2', g3'⟩ := spec _ (changeData_ne ch g hne) (changeData_terms ch g hT)
  have hr : ∀ F : Term k C → ℝ, (∀ t, F ((ch t).term (g t) t) = F t) →
      riskValue (redOf mean) (fun d : List (Term k C) => termWeight k mean T C * (d.map F).sum) (changeData ch g batches).flatten =
        riskValue (redOf mean) (fun d : List (Term k C) => termWeight k mean T C * (d.map F).sum) batches.flatten := by
    intro F hF
    rw [changeData_flatten]
    unfold riskValue
    rw [List.length_map, List.map_map]
    congr 2
    refine List.map_congr_left fun d _ => ?_
    simp only [Function.comp_apply, List.map_map]
    congr 2
    exact List.map_congr_left fun t _ => hF t
  rw [g1, g1', hr (fun t => termLoss k t.y t.f) fun t => (ch t).term_loss (g t) t]
  congr 2
  refine hasVec_ext_flat g2' g2 (List.ext_getElem ?_ fun i h1 h2 => ?_)
  · rw [g2.flatData_length, g2'.flatData_length]
  · have hi : i < total shapes := by rw [g2.flatData_length] at h2; exact h2
    have hg : ∀ (l : List ℝ) (h : i < l.length), l.getD i 0 = l[i] := fun l h => by simp [h]
    rw [← hg _ h1, ← hg _ h2, g3 i hi, g3' i hi]
    exact hr (fun t => termGrad t i) fun t => (ch t).term_grad (g t) t i

/-- Specification: `lb'` is the changed mini-batch with the corresponding draws. -/
structure ChangedBatch {S : Nat} (lb lb' : LabeledBatch k C S) : Prop where
  data : lb'.data = lb.data.map (·.map fun t => (ch t).term (g t) t)
  draws : ∀ (s : Fin S) (m : Nat) (h : m < lb.data.flatten.length) (h' : m < lb'.data.flatten.length),
    lb'.draws s ⟨m, h'⟩ = (ch lb.data.flatten[m]).draw (lb.draws s ⟨m, h⟩)

theorem sum_mapped {α β : Type _} (F : α → α) (e : α → β → β) (G : α → β → ℝ) (hG : ∀ t d, G (F t) (e t d) = G t d) {ts ts' : List α}
    (hts : ts' = ts.map F) (D : Fin ts.length → β) (D' : Fin ts'.length → β)
    (hD : ∀ (m : Nat) (h : m < ts.length) (h' : m < ts'.length), D' ⟨m, h'⟩ = e ts[m] (D ⟨m, h⟩)) :
    ∑ m, G ts'[m] (D' m) = ∑ m, G ts[m] (D m) := by
  subst hts
  refine (Fintype.sum_equiv (finCongr (by simp)) _ _ fun m => ?_).symm
  have h1 : (m : Nat) < (ts.map F).length := by simp
  have e1 : D' (finCongr (by simp) m) = e ts[m] (D m) := hD m m.2 h1
  have e2 : (ts.map F)[finCongr (by simp : ts.length = (ts.map F).length) m] = F ts[m] := by
    simp
  rw [e1]
  refine (hG _ _).symm.trans ?_
  congr 1
  exact e2.symm

theorem mcMatrix_symmetry {S : Nat} (mean : Bool) (N T : Nat) {lbs lbs' : List (LabeledBatch k C S)}
    (h : List.Forall₂ (ChangedBatch ch g) lbs lbs') (r c : Nat) : mcMatrix mean N T lbs' r c = mcMatrix mean N T lbs r c := by
  unfold mcMatrix
  congr 1
  induction h with
  | nil => rfl
  | @cons lb lb' lbs lbs' h _ ih =>
    rw [List.map_cons, List.map_cons, List.sum_cons, List.sum_cons, ih]
    congr 1
    obtain ⟨hd, hdr⟩ := h
    obtain ⟨data', draws'⟩ := lb'
    dsimp only at hd hdr
    subst hd
    have hf : (lb.data.map (·.map fun t => (ch t).term (g t) t)).flatten = lb.data.flatten.map fun t => (ch t).term (g t) t := by
      rw [List.map_flatten]
    exact sum_mapped (fun t => (ch t).term (g t) t) (fun t (d : Fin S → TermDraw k C) s => (ch t).draw (d s))
      (fun t d => termSandwich t (sampleOuter t.f d) r c) (fun t d => (ch t).term_sample (g t) t d r c) hf
      (fun m s => lb.draws s m) (fun m s => draws' s m) (fun m h h' => funext fun s => hdr s m h h')

/-- **C111** (Monte-Carlo Fisher): with corresponding draws (which have the right distribution, see `OutChange.draw_law`) the products with
the Monte-Carlo Fisher are the same. -/
theorem mc_symmetry (rng rng' : Rng k C) (cfg : McConfig k C) (hS : cfg.mcSamples ≠ 0) (hshapes : cfg.shapes ≠ []) (T : Nat)
    (hne : ∀ b ∈ cfg.data, b ≠ []) (hT : ∀ b ∈ cfg.data, ∀ d ∈ b, d.length = T) (hbin : ∀ b ∈ cfg.data, BinaryTargets k b.flatten)
    (hN : cfg.nData ≠ 0 ∨ cfg.data = []) (st : McState rng) (st' : McState rng')
    (hdraw : List.Forall₂ (ChangedBatch ch g) (drawAll rng cfg.mcSamples cfg.data (rng.seed st.genDevice cfg.seed))
      (drawAll rng' cfg.mcSamples (changeData ch g cfg.data) (rng'.seed st'.genDevice cfg.seed)))
    {K : Nat} {X : List (Tensor ℝ)} (hX : HasShapes X cfg.shapes K) :
    (mcMatmat rng' { cfg with data := changeData ch g cfg.data } st' X).1 = (mcMatmat rng cfg st X).1 := by
  have hbin' : ∀ b ∈ changeData ch g cfg.data, BinaryTargets k b.flatten := by
    intro b hb
    obtain ⟨b', hb', rfl⟩ := List.mem_map.mp hb
    rw [← List.map_flatten]
    exact OutChange.binary ch g (hbin b' hb')
  have h1 := mcOp_draws rng' { cfg with data := changeData ch g cfg.data } hS hshapes T (changeData_ne ch g hne)
    (changeData_terms ch g hT) hbin' (hN.imp id fun h => by rw [h]; rfl) st'
  have h2 := mcOp_draws rng cfg hS hshapes T hne hT hbin hN st
  refine represents_same_output (op := mcOp rng' { cfg with data := changeData ch g cfg.data } st') (op' := mcOp rng cfg st) rfl rfl h1 h2
    (fun r _ c _ => mcMatrix_symmetry ch g _ _ _ hdraw r c) hX

/-- Specification: the generator is asked for labels only through the class probabilities (`fisher.py:308-312`): equal probabilities
and an equal state give equal draws and an equal next state. -/
def ProbRng (rng : Rng .ce C) : Prop := ∀ (G : rng.G) (S : Nat) (ts ts' : List (Term .ce C)),
  List.Forall₂ (fun t t' => softmax t'.f = softmax t.f) ts ts' → (rng.draw G S ts').2 = (rng.draw G S ts).2 ∧
    ∀ (s : Fin S) (m : Nat) (h : m < ts.length) (h' : m < ts'.length), (rng.draw G S ts').1 s ⟨m, h'⟩ = (rng.draw G S ts).1 s ⟨m, h⟩

theorem shift_draws {rng : Rng .ce C} (hr : ProbRng rng) (c : Term .ce C → ℝ) (g : Term .ce C → Nat → ℝ) (S : Nat) :
    ∀ (batches : List (List (List (Term .ce C)))) (G : rng.G),
      List.Forall₂ (ChangedBatch (fun t => .shift (c t)) g) (drawAll rng S batches G)
        (drawAll rng S (changeData (fun t => .shift (c t)) g batches) G)
  | [], _ => .nil
  | b :: bs, G => by
    have hf : (b.map (·.map fun t => (OutChange.shift (c t)).term (g t) t)).flatten =
        b.flatten.map fun t => (OutChange.shift (c t)).term (g t) t := by rw [List.map_flatten]
    have h1 := hr G S b.flatten (b.map (·.map fun t => (OutChange.shift (c t)).term (g t) t)).flatten (by
      rw [hf, List.forall₂_map_right_iff, List.forall₂_same]
      exact fun t _ => funext fun i => OutChange.softmax_shift _ _ _)
    refine .cons ⟨rfl, fun s m h h' => ?_⟩ ?_
    · exact h1.2 s m h h'
    · have h2 := shift_draws hr c g S bs (rng.draw G S b.flatten).2
      rw [← h1.1] at h2 ⊢
      exact h2

/-- **C111** (Monte-Carlo Fisher, shifted logits): the same generator with the same seed gives the same products. -/
theorem mc_shift_symmetry {rng : Rng .ce C} (hr : ProbRng rng) (c : Term .ce C → ℝ) (g : Term .ce C → Nat → ℝ) (cfg : McConfig .ce C)
    (hS : cfg.mcSamples ≠ 0) (hshapes : cfg.shapes ≠ []) (T : Nat) (hne : ∀ b ∈ cfg.data, b ≠ [])
    (hT : ∀ b ∈ cfg.data, ∀ d ∈ b, d.length = T) (hN : cfg.nData ≠ 0 ∨ cfg.data = []) (st : McState rng)
    {K : Nat} {X : List (Tensor ℝ)} (hX : HasShapes X cfg.shapes K) :
    (mcMatmat rng { cfg with data := changeData (fun t => .shift (c t)) g cfg.data } st X).1 = (mcMatmat rng cfg st X).1 :=
  mc_symmetry _ g rng rng cfg hS hshapes T hne hT (fun _ _ => trivial) hN st st (shift_draws hr c g _ _ _) hX

end operators

/-! ## The Hessian operator -/

/-- Specification: the network and loss of a datum are changed. For shifted logits, the shift may be any function of the parameters. -/
def NetChanged {P : Nat} (k : LossKind) (d d' : NetDatum P C) : Prop :=
  ∃ (ch : OutChange k C) (y : TermTarget k C) (h : (Fin P → ℝ) → ℝ), d.loss = termLoss k y ∧ d'.loss = termLoss k (ch.target y) ∧
    ∀ θ i, d'.f θ i = ch.pred (d.f θ) i + ch.off * h θ

theorem NetChanged.loss {P : Nat} {d d' : NetDatum P C} (h : NetChanged k d d') (θ : Fin P → ℝ) : d'.loss (d'.f θ) = d.loss (d.f θ) := by
  obtain ⟨ch, y, h, e1, e2, e3⟩ := h
  rw [e1, e2, show d'.f θ = fun i => ch.pred (d.f θ) i + ch.off * h θ from funext (e3 θ)]
  cases ch with
  | shift c =>
    rw [← (OutChange.shift (c + h θ)).loss y (d.f θ)]
    congr 1
    funext i
    show d.f θ i + c + 1 * h θ = d.f θ i + (c + h θ)
    ring
  | perm σ =>
    rw [← (OutChange.perm σ).loss y (d.f θ)]
    simp [OutChange.off]
  | rotate Q hQ =>
    rw [← (OutChange.rotate Q hQ).loss y (d.f θ)]
    simp [OutChange.off]
  | flip s =>
    rw [← (OutChange.flip s).loss y (d.f θ)]
    simp [OutChange.off]

/-- **C111** (Hessian): the products with the Hessian are the same. -/
theorem hessian_symmetry {P : Nat} (shapes : List (List Nat)) (hP : total shapes = P) (hshapes : shapes ≠ []) (red : Reduction)
    (hred : red = .mean ∨ red = .sum) (θ : Fin P → ℝ) (batches : List (List (NetDatum P C × NetDatum P C))) (hne : ∀ b ∈ batches, b ≠ [])
    (h : ∀ b ∈ batches, ∀ p ∈ b, NetChanged k p.1 p.2)
    (hdiff : ∀ b ∈ batches, ∀ p ∈ b, ContDiffAt ℝ 2 (fun θ => p.1.loss (p.1.f θ)) θ) {K : Nat} {X : List (Tensor ℝ)}
    (hX : HasShapes X shapes K) :
    ((curvatureOp shapes red (inferNData List.length (batches.map (·.map Prod.snd)) none) List.length
        (netHessianBatch shapes [(shapes.length : Int)] red θ) (batches.map (·.map Prod.snd))).matmat X).1 =
      ((curvatureOp shapes red (inferNData List.length (batches.map (·.map Prod.fst)) none) List.length
        (netHessianBatch shapes [(shapes.length : Int)] red θ) (batches.map (·.map Prod.fst))).matmat X).1 := by
  have h' : ∀ p ∈ batches.flatten, ∀ θ, p.2.loss (p.2.f θ) = p.1.loss (p.1.f θ) := fun p hp θ => by
    obtain ⟨b, h1, h2⟩ := List.mem_flatten.mp hp
    exact (h b h1 p h2).loss θ
  have hd : ∀ p ∈ batches.flatten, ContDiffAt ℝ 2 (fun θ => p.1.loss (p.1.f θ)) θ := fun p hp => by
    obtain ⟨b, h1, h2⟩ := List.mem_flatten.mp hp
    exact hdiff b h1 p h2
  refine represents_same_output ?_ ?_ (netHessianOp_represents shapes hP hshapes red hred θ _ (reparam_ne _ hne) ?_).1
    (netHessianOp_represents shapes hP hshapes red hred θ _ (reparam_ne _ hne) ?_).1 (fun r _ c _ => ?_) hX
  · rfl
  · rfl
  · rw [← List.map_flatten]
    intro d hd'
    obtain ⟨p, hp, rfl⟩ := List.mem_map.mp hd'
    rw [show (fun θ => p.2.loss (p.2.f θ)) = fun θ => p.1.loss (p.1.f θ) from funext (h' p hp)]
    exact hd p hp
  · rw [← List.map_flatten]
    intro d hd'
    obtain ⟨p, hp, rfl⟩ := List.mem_map.mp hd'
    exact hd p hp
  · have e : empiricalRisk red (batches.map (·.map Prod.snd)).flatten = empiricalRisk red (batches.map (·.map Prod.fst)).flatten := by
      funext θ
      rw [empiricalRisk_eq, empiricalRisk_eq, ← List.map_flatten, ← List.map_flatten]
      unfold netLoss
      rw [List.length_map, List.length_map, List.map_map, List.map_map]
      exact congrArg (fun l => redScale red batches.flatten.length * List.sum l) (List.map_congr_left fun p hp => h' p hp θ)
    rw [e]


/-! ## KFAC -/

namespace OutChange

theorem orth' (ch : OutChange k C) : ch.mat * ch.matᵀ = 1 := mul_eq_one_comm.mp ch.orth

theorem orth_sum (ch : OutChange k C) (u w : Fin C → ℝ) :
    ∑ b, (∑ j, ch.mat b j * u j) * (∑ j, ch.mat b j * w j) = ∑ j, u j * w j := by
  have h : (ch.mat *ᵥ u) ⬝ᵥ (ch.mat *ᵥ w) = u ⬝ᵥ w := by
    rw [Matrix.dotProduct_mulVec, Matrix.vecMul_mulVec, ch.orth, Matrix.vecMul_one]
  exact h

theorem sqrt_form {red : Reduction} {f : Fin C → ℝ} {sh : List Nat} {tg : List ℝ} {S : Fin C → Fin C → ℝ}
    (h : lossHessianSqrt (.known k red) [1, C] f sh tg = .ok S) :
    (k = .mse → ∃ c, sqrtScale red C = .ok c ∧ S = fun i j => (if i = j then 1 else 0) * √(2 * c)) ∧
    (k = .ce → S = fun i j => ((if i = j then √(softmax f i) else 0) - softmax f i * √(softmax f j)) * √1) ∧
    (k = .bce → ∃ c, sqrtScale red C = .ok c ∧
      S = fun i j => if i = j then √c * √((f i).sigmoid * (1 - (f i).sigmoid)) else 0) := by
  unfold lossHessianSqrt at h
  rw [if_neg (by simp)] at h
  cases sh with
  | nil => simp at h
  | cons n sh =>
    simp only at h
    split at h
    · simp at h
    · cases k with
      | mse =>
        refine ⟨fun _ => ?_, by simp, by simp⟩
        simp only at h
        cases hs : sqrtScale red C with
        | error e => rw [hs] at h; simp at h
        | ok c => rw [hs] at h; simp only [Except.ok.injEq] at h; exact ⟨c, rfl, h.symm⟩
      | ce =>
        refine ⟨by simp, fun _ => ?_, by simp⟩
        simp only at h
        split at h
        · simp at h
        · simp only [Except.ok.injEq] at h
          exact h.symm
      | bce =>
        refine ⟨by simp, by simp, fun _ => ?_⟩
        simp only at h
        split at h
        · cases hs : sqrtScale red C with
          | error e => rw [hs] at h; simp at h
          | ok c => rw [hs] at h; simp only [Except.ok.injEq] at h; exact ⟨c, rfl, h.symm⟩
        · simp at h

theorem sandwich_mat (ch : OutChange k C) {S S' : Fin C → Fin C → ℝ} (h : ch.matᵀ * Matrix.of S' * ch.mat = Matrix.of S) (i j : Fin C) :
    ∑ a, ∑ b, ch.mat a i * S' a b * ch.mat b j = S i j := by
  have h3 := congrFun (congrFun h i) j
  rw [Matrix.mul_apply] at h3
  refine Eq.trans ?_ h3
  rw [Finset.sum_comm]
  refine Finset.sum_congr rfl fun b _ => ?_
  rw [Matrix.mul_apply, Finset.sum_mul]
  rfl

theorem perm_sandwich (σ : Equiv.Perm (Fin C)) (H : Fin C → Fin C → ℝ) (i j : Fin C) :
    ∑ a, ∑ b, (perm (k := k) σ).mat a i * H a b * (perm (k := k) σ).mat b j = H (σ.symm i) (σ.symm j) := by
  simp only [mat]
  rw [← perm_sum σ (fun a => H a (σ.symm j)) i]
  refine Finset.sum_congr rfl fun a _ => ?_
  rw [← perm_sum σ (fun b => H a b) j, Finset.mul_sum]
  exact Finset.sum_congr rfl fun b _ => by ring

/-- The square roots of the loss Hessians are related by the Jacobian of the change. -/
theorem sqrt (ch : OutChange k C) (red : Reduction) (f : Fin C → ℝ) {sh sh' : List Nat} {tg tg' : List ℝ} {S S' : Fin C → Fin C → ℝ}
    (h : lossHessianSqrt (.known k red) [1, C] f sh tg = .ok S) (h' : lossHessianSqrt (.known k red) [1, C] (ch.pred f) sh' tg' = .ok S') :
    (∀ i j, ∑ a, ∑ b, ch.mat a i * S' a b * ch.mat b j = S i j) ∧ ∀ b, ch.off * ∑ a, S' a b = 0 := by
  have hS := sqrt_form h
  have hS' := sqrt_form h'
  clear h h'
  cases ch with
  | shift c =>
    have e : S' = S := by
      rw [hS.2.1 rfl, hS'.2.1 rfl]
      simp only [pred, softmax_shift]
    subst e
    refine ⟨fun i j => sandwich_mat _ (by simp [mat]) i j, fun b => ?_⟩
    rw [hS.2.1 rfl]
    simp only [off, one_mul, Real.sqrt_one, mul_one]
    rw [Finset.sum_sub_distrib, ← Finset.sum_mul, sum_softmax f b]
    simp
  | perm σ =>
    refine ⟨fun i j => ?_, fun b => by simp [off]⟩
    rw [perm_sandwich]
    cases k with
    | mse =>
      obtain ⟨c, h1, h2⟩ := hS.1 rfl
      obtain ⟨c', h1', h2'⟩ := hS'.1 rfl
      rw [h1, Except.ok.injEq] at h1'
      subst h1'
      rw [h2, h2']
      simp only [EmbeddingLike.apply_eq_iff_eq]
    | ce =>
      rw [hS.2.1 rfl, hS'.2.1 rfl]
      simp only [pred, softmax_perm, Equiv.apply_symm_apply, EmbeddingLike.apply_eq_iff_eq]
    | bce =>
      obtain ⟨c, h1, h2⟩ := hS.2.2 rfl
      obtain ⟨c', h1', h2'⟩ := hS'.2.2 rfl
      rw [h1, Except.ok.injEq] at h1'
      subst h1'
      rw [h2, h2']
      simp only [pred, Equiv.apply_symm_apply, EmbeddingLike.apply_eq_iff_eq]
  | rotate Q hQ =>
    refine ⟨fun i j => ?_, fun b => by simp [off]⟩
    obtain ⟨c, h1, h2⟩ := hS.1 rfl
    obtain ⟨c', h1', h2'⟩ := hS'.1 rfl
    rw [h1, Except.ok.injEq] at h1'
    subst h1'
    have e : ∀ q : ℝ, Matrix.of (fun i j : Fin C => (if i = j then 1 else 0) * q) = q • (1 : Matrix (Fin C) (Fin C) ℝ) := by
      intro q
      ext i j
      simp [Matrix.one_apply]
    refine sandwich_mat (rotate Q hQ) ?_ i j
    rw [h2, h2', e]
    simp [mat, hQ]
  | flip s =>
    refine ⟨fun i j => ?_, fun b => by simp [off]⟩
    obtain ⟨c, h1, h2⟩ := hS.2.2 rfl
    obtain ⟨c', h1', h2'⟩ := hS'.2.2 rfl
    rw [h1, Except.ok.injEq] at h1'
    subst h1'
    have e : S' = S := by
      rw [h2, h2']
      funext i j
      simp only [pred]
      split
      · congr 2
        split
        · rw [sigmoid_flip]; ring
        · rfl
      · rfl
    subst e
    refine sandwich_mat (flip s) ?_ i j
    have e : Matrix.of S' = Matrix.diagonal fun i => √c * √((f i).sigmoid * (1 - (f i).sigmoid)) := by
      ext i j
      rw [h2]
      simp [Matrix.diagonal_apply]
    rw [e]
    simp only [mat, Matrix.diagonal_transpose, Matrix.diagonal_mul_diagonal]
    congr 1
    funext i
    split <;> ring

theorem sqrt_column (ch : OutChange k C) {S S' : Fin C → Fin C → ℝ} (h : ∀ i j, ∑ a, ∑ b, ch.mat a i * S' a b * ch.mat b j = S i j)
    (i b : Fin C) : ∑ a, ch.mat a i * S' a b = ∑ j, ch.mat b j * S i j := by
  have hm : ch.matᵀ * Matrix.of S' * ch.mat = Matrix.of S := by
    ext i j
    rw [Matrix.of_apply, ← h i j, Matrix.mul_apply, Finset.sum_comm]
    refine Finset.sum_congr rfl fun b _ => ?_
    rw [Matrix.mul_apply, Finset.sum_mul]
    rfl
  have h2 : ch.matᵀ * Matrix.of S' = Matrix.of S * ch.matᵀ := by
    rw [← hm, Matrix.mul_assoc, ch.orth', Matrix.mul_one]
  have h3 := congrFun (congrFun h2 i) b
  rw [Matrix.mul_apply, Matrix.mul_apply] at h3
  refine h3.trans (Finset.sum_congr rfl fun j _ => ?_)
  rw [Matrix.of_apply, Matrix.transpose_apply, mul_comm]

end OutChange

/-- Specification: what KFAC's hooks see after the outputs of a datum are changed; the shift may depend on the layers' outputs. -/
structure JacChanged (T : Nat) (ch : Nat → OutChange k C) (d d' : KDatum) : Prop where
  x : d'.x = d.x
  jac : ∃ g : String → Nat → Nat → Nat → ℝ, ∀ (l : String) (s o t : Nat), t < T → ∀ c : Fin C,
    d'.jac l s o t c = ∑ j : Fin C, (ch t).mat c j * d.jac l s o t j + (ch t).off * g l s o t

theorem JacChanged.dot {T : Nat} {ch : Nat → OutChange k C} {d d' : KDatum} (h : JacChanged T ch d d') (l : String) (s o t : Nat) (ht : t < T)
    (w w' : Fin C → ℝ) (hw : ∀ i, ∑ j, (ch t).mat j i * w' j = w i) (h0 : (ch t).off * ∑ j, w' j = 0) :
    ∑ c : Fin C, d'.jac l s o t c * w' c = ∑ c : Fin C, d.jac l s o t c * w c := by
  obtain ⟨g, hg⟩ := h.jac
  simp only [hg l s o t ht, add_mul, Finset.sum_add_distrib, Finset.sum_mul]
  rw [← Finset.mul_sum, mul_comm (ch t).off, mul_assoc, h0, mul_zero, add_zero, Finset.sum_comm]
  refine Finset.sum_congr rfl fun i _ => ?_
  rw [← hw i, Finset.mul_sum]
  exact Finset.sum_congr rfl fun j _ => by ring

theorem JacChanged.gradVec {cfg : KfacCfg} (hC : cfg.C = C) {ch : Nat → OutChange k C} {d d' : KDatum} (h : JacChanged cfg.T ch d d')
    (l : KLayer) (v v' : Nat → Nat → ℝ)
    (hv : ∀ t < cfg.T, (∀ i : Fin C, ∑ j : Fin C, (ch t).mat j i * v' t j = v t i) ∧ (ch t).off * ∑ j : Fin C, v' t j = 0) (s o : Nat) :
    specGradVec cfg l d' v' s o = specGradVec cfg l d v s o := by
  unfold specGradVec
  refine Finset.sum_congr rfl fun t ht => ?_
  have ht' := Finset.mem_range.mp ht
  rw [hC, Finset.sum_range, Finset.sum_range]
  exact h.dot l.name s o t ht' (fun i => v t i) (fun j => v' t j) (hv t ht').1 (hv t ht').2

/-- Specification: entries of the square root of the loss Hessian for the predictions `f`. -/
def SqrtOf (k : LossKind) (mean : Bool) (T : Nat) (f : Nat → Fin C → ℝ) (d : KDatum) : Prop :=
  ∀ t < T, ∃ sh tg S, lossHessianSqrt (.known k (redOf mean)) [1, C] (f t) sh tg = .ok S ∧ ∀ c l : Fin C, d.sqrt t c l = S c l

/-- Specification: corresponding data of KFAC. The loss terms of a datum are changed in the same way for type-2; for the other types each
can be changed in its own way, the gradients are those for the (drawn) labels. -/
inductive KfacChanged (k : LossKind) (C : Nat) (cfg : KfacCfg) (d d' : KDatum) : Prop
  | type2 (hf : cfg.fisher = .type2) (ch : OutChange k C) (hj : JacChanged cfg.T (fun _ => ch) d d') (f : Nat → Fin C → ℝ)
      (hs : SqrtOf k cfg.mean cfg.T f d) (hs' : SqrtOf k cfg.mean cfg.T (fun t => ch.pred (f t)) d')
  | mc (hf : cfg.fisher = .mc) (ch : Nat → OutChange k C) (hj : JacChanged cfg.T ch d d') (f : Nat → Fin C → ℝ)
      (draw : Nat → Nat → TermDraw k C) (hg : ∀ m t, ∀ c : Fin C, d.lossGrad m t c = labelGrad k (f t) (draw m t) c)
      (hg' : ∀ m t, ∀ c : Fin C, d'.lossGrad m t c = labelGrad k ((ch t).pred (f t)) ((ch t).draw (draw m t)) c)
  | empirical (hf : cfg.fisher = .empirical) (ch : Nat → OutChange k C) (hj : JacChanged cfg.T ch d d') (f : Nat → Fin C → ℝ)
      (y : Nat → TermTarget k C) (hg : ∀ t, ∀ c : Fin C, d.lossGrad 0 t c = pderiv (termLoss k (y t)) c (f t))
      (hg' : ∀ t, ∀ c : Fin C, d'.lossGrad 0 t c = pderiv (termLoss k ((ch t).target (y t))) c ((ch t).pred (f t)))
  | forwardOnly (hf : cfg.fisher = .forwardOnly) (hx : d'.x = d.x)

theorem KfacChanged.x {cfg : KfacCfg} {d d' : KDatum} (h : KfacChanged k C cfg d d') : d'.x = d.x := by
  cases h with
  | type2 _ _ hj => exact hj.x
  | mc _ _ hj => exact hj.x
  | empirical _ _ hj => exact hj.x
  | forwardOnly _ hx => exact hx

/-- Sums over the propagated vectors of products of gradients. -/
theorem KfacChanged.products {cfg : KfacCfg} (hC : cfg.C = C) {d d' : KDatum} (h : KfacChanged k C cfg d d') (l : KLayer) (s o s' o' : Nat) :
    ((specCotangents cfg d').map fun v => specGradVec cfg l d' v s o * specGradVec cfg l d' v s' o').sum =
      ((specCotangents cfg d).map fun v => specGradVec cfg l d v s o * specGradVec cfg l d v s' o').sum := by
  cases h with
  | type2 hf ch hj f hs hs' =>
    unfold specCotangents
    rw [hf]
    simp only [List.map_map, Function.comp_def]
    rw [sum_range_list, sum_range_list, hC, Finset.sum_range, Finset.sum_range]
    have key : ∀ (b : Fin C) (s o : Nat), specGradVec cfg l d' (fun t c => d'.sqrt t c b) s o =
        ∑ j : Fin C, ch.mat b j * specGradVec cfg l d (fun t c => d.sqrt t c j) s o := by
      intro b s o
      rw [hj.gradVec hC l (fun t c => ∑ j : Fin C, ch.mat b j * d.sqrt t c j) (fun t c => d'.sqrt t c b)]
      · unfold specGradVec
        simp only [Finset.mul_sum]
        symm
        rw [Finset.sum_comm]
        refine Finset.sum_congr rfl fun t _ => ?_
        rw [Finset.sum_comm]
        exact Finset.sum_congr rfl fun c _ => Finset.sum_congr rfl fun j _ => by ring
      · intro t ht
        obtain ⟨sh, tg, S, h1, h2⟩ := hs t ht
        obtain ⟨sh', tg', S', h1', h2'⟩ := hs' t ht
        have hq := ch.sqrt (redOf cfg.mean) (f t) h1 h1'
        simp only [h2, h2']
        exact ⟨fun i => ch.sqrt_column hq.1 i b, hq.2 b⟩
    simp only [key]
    exact ch.orth_sum (fun j => specGradVec cfg l d (fun t c => d.sqrt t c j) s o) fun j => specGradVec cfg l d (fun t c => d.sqrt t c j) s' o'
  | mc hf ch hj f draw hg hg' =>
    unfold specCotangents
    rw [hf]
    simp only [List.map_map, Function.comp_def]
    congr 1
    refine List.map_congr_left fun m _ => ?_
    have key : ∀ s o, specGradVec cfg l d' (d'.lossGrad m) s o = specGradVec cfg l d (d.lossGrad m) s o := by
      refine hj.gradVec hC l _ _ fun t _ => ?_
      simp only [hg, hg', labelGrad_eq]
      constructor
      · intro i
        rw [← (ch t).drawGrad (f t) (draw m t) i, Finset.mul_sum]
        exact Finset.sum_congr rfl fun j _ => by ring
      · rw [← Finset.mul_sum, mul_left_comm, (ch t).off_drawGrad, mul_zero]
    rw [key, key]
  | empirical hf ch hj f y hg hg' =>
    unfold specCotangents
    rw [hf]
    have key : ∀ s o, specGradVec cfg l d' (d'.lossGrad 0) s o = specGradVec cfg l d (d.lossGrad 0) s o := by
      refine hj.gradVec hC l _ _ fun t _ => ?_
      simp only [hg, hg']
      exact ⟨(ch t).grad (y t) (f t), (ch t).off_grad (y t) (f t)⟩
    simp only [List.map_cons, List.map_nil, key]
  | forwardOnly hf hx =>
    unfold specCotangents
    rw [hf]
    rfl

/-- **C111** (KFAC): the Kronecker factors of all layers are the same, for all types, both approximations and any mini-batches. `batches`
contains pairs of a datum and its changed version. -/
theorem kfac_symmetry {cfg : KfacCfg} (hC : cfg.C = C) (layers : List KLayer) (hnd : (layers.map KLayer.name).Nodup)
    (batches : List (List (KDatum × KDatum))) (hne : batches ≠ []) (hT : cfg.T ≠ 0) (hC0 : C ≠ 0) (hmc : cfg.mcSamples ≠ 0)
    (h : ∀ b ∈ batches, ∀ p ∈ b, KfacChanged k C cfg p.1 p.2) (l : KLayer) (hl : l ∈ layers) :
    (kfacFactors cfg layers (batches.map (·.map Prod.snd))).2.get l.name = (kfacFactors cfg layers (batches.map (·.map Prod.fst))).2.get l.name ∧
    (l.pos.has "weight" = true → (kfacFactors cfg layers (batches.map (·.map Prod.snd))).1.get l.name =
      (kfacFactors cfg layers (batches.map (·.map Prod.fst))).1.get l.name) := by
  have h' : ∀ p ∈ batches.flatten, KfacChanged k C cfg p.1 p.2 := fun p hp => by
    obtain ⟨b, h1, h2⟩ := List.mem_flatten.mp hp
    exact h b h1 p h2
  constructor
  · rw [kfac_grad_factor cfg layers hnd _ (by simpa using hne) hT (hC ▸ hC0) hmc l hl,
      kfac_grad_factor cfg layers hnd _ (by simpa using hne) hT (hC ▸ hC0) hmc l hl]
    congr 2
    rw [← List.map_flatten, ← List.map_flatten]
    funext i j
    unfold specGradFactor
    have e1 : ∀ p ∈ batches.flatten, ((specCotangents cfg p.2).map fun v =>
        ∑ s ∈ Finset.range l.S, specGradVec cfg l p.2 v s i * specGradVec cfg l p.2 v s j).sum = ((specCotangents cfg p.1).map fun v =>
        ∑ s ∈ Finset.range l.S, specGradVec cfg l p.1 v s i * specGradVec cfg l p.1 v s j).sum := by
      intro p hp
      rw [list_sum_finset_comm, list_sum_finset_comm]
      exact Finset.sum_congr rfl fun s _ => (h' p hp).products hC l s i s j
    have e2 : ∀ p ∈ batches.flatten, ((specCotangents cfg p.2).map fun v =>
        (∑ s ∈ Finset.range l.S, specGradVec cfg l p.2 v s i) * ∑ s ∈ Finset.range l.S, specGradVec cfg l p.2 v s j).sum =
        ((specCotangents cfg p.1).map fun v =>
        (∑ s ∈ Finset.range l.S, specGradVec cfg l p.1 v s i) * ∑ s ∈ Finset.range l.S, specGradVec cfg l p.1 v s j).sum := by
      intro p hp
      simp only [Finset.sum_mul_sum]
      rw [list_sum_finset_comm, list_sum_finset_comm]
      refine Finset.sum_congr rfl fun s _ => ?_
      rw [list_sum_finset_comm, list_sum_finset_comm]
      exact Finset.sum_congr rfl fun s' _ => (h' p hp).products hC l s i s' j
    simp only [List.map_map, Function.comp_def]
    rw [List.map_congr_left e1, List.map_congr_left e2]
  · intro hw
    rw [kfac_input_factor cfg layers hnd _ (by simpa using hne) l hl hw, kfac_input_factor cfg layers hnd _ (by simpa using hne) l hl hw]
    congr 2
    rw [← List.map_flatten, ← List.map_flatten]
    funext i j
    unfold specInputFactor
    simp only [List.map_map, Function.comp_def]
    have e1 : ∀ p ∈ batches.flatten, (∑ s ∈ Finset.range l.S, specInputVec cfg l p.2 s i * specInputVec cfg l p.2 s j) =
        ∑ s ∈ Finset.range l.S, specInputVec cfg l p.1 s i * specInputVec cfg l p.1 s j := fun p hp => by
      simp only [specInputVec, (h' p hp).x]
    have e2 : ∀ p ∈ batches.flatten, specMeanInput cfg l p.2 i * specMeanInput cfg l p.2 j =
        specMeanInput cfg l p.1 i * specMeanInput cfg l p.1 j := fun p hp => by
      simp only [specMeanInput, (h' p hp).x]
    rw [List.map_congr_left e1, List.map_congr_left e2]


/-! ## Examples -/

/-- A loss term with two outputs and one parameter. -/
def symTerm (k : LossKind) (y : TermTarget k 2) : Term k 2 := ⟨fun i _ => if i = 0 then 3 else 0, ![1, 2], y⟩

/-- Logits shifted by a number that depends on the parameter: predictions `(1, 2)` become `(8, 9)`. -/
example (X : List (Tensor ℝ)) (hX : HasShapes X [[1]] 1) :
    ((curvatureOp [[1]] (redOf true) (inferNData List.length
        [[[(OutChange.shift (C := 2) 7).term (fun _ => 5) (symTerm .ce 0)]]] none) List.length
        (fun b => ggnLossBatch [[1]] true b.flatten) [[[(OutChange.shift (C := 2) 7).term (fun _ => 5) (symTerm .ce 0)]]]).matmat X).1 =
      ((curvatureOp [[1]] (redOf true) (inferNData List.length [[[symTerm .ce 0]]] none) List.length
        (fun b => ggnLossBatch [[1]] true b.flatten) [[[symTerm .ce 0]]]).matmat X).1 ∧
    ((OutChange.shift (C := 2) 7).term (fun _ => 5) (symTerm .ce 0)).f = ![8, 9] ∧
    ((OutChange.shift (C := 2) 7).term (fun _ => 5) (symTerm .ce 0)).J 1 0 = 5 := by
  refine ⟨ggn_symmetry (fun _ => .shift 7) (fun _ _ => 5) [[1]] (by simp) true 1 [[[symTerm .ce 0]]] (by simp) (by simp) hX, ?_, ?_⟩
  · funext i
    fin_cases i <;> simp [OutChange.term, OutChange.pred, symTerm] <;> norm_num
  · simp [OutChange.term, OutChange.mat, OutChange.off, symTerm, Matrix.one_apply]

/-- The second binary class is exchanged: label `(1, 0)` becomes `(1, 1)`, the second logit is negated. -/
example (X : List (Tensor ℝ)) (hX : HasShapes X [[1]] 1) :
    ((curvatureOp [[1]] (redOf false) (inferNData List.length
        [[[(OutChange.flip ![false, true]).term 0 (symTerm .bce ![1, 0])]]] none) List.length
        (fun b => efBatch [[1]] false b.flatten) [[[(OutChange.flip ![false, true]).term 0 (symTerm .bce ![1, 0])]]]).matmat X).1 =
      ((curvatureOp [[1]] (redOf false) (inferNData List.length [[[symTerm .bce ![1, 0]]]] none) List.length
        (fun b => efBatch [[1]] false b.flatten) [[[symTerm .bce ![1, 0]]]]).matmat X).1 ∧
    ((OutChange.flip ![false, true]).term 0 (symTerm .bce ![1, 0])).f = ![1, -2] ∧
    ((OutChange.flip ![false, true]).term 0 (symTerm .bce ![1, 0])).y = (![1, 1] : Fin 2 → ℝ) := by
  refine ⟨ef_symmetry (fun _ => .flip ![false, true]) (fun _ => 0) [[1]] (by simp) false 1 [[[symTerm .bce ![1, 0]]]] (by simp) (by simp) hX,
    ?_, ?_⟩
  · funext i
    fin_cases i <;> simp [OutChange.term, OutChange.pred, symTerm]
  · funext i
    fin_cases i <;> simp [OutChange.term, OutChange.target, symTerm]

/-- A shift is no symmetry of the square loss: the gradient changes. -/
example : pderiv (termLoss (C := 1) .mse ![0]) 0 ![1] ≠ pderiv (termLoss (C := 1) .mse ![0]) 0 ![2] := by
  rw [pderiv_mse, pderiv_mse]
  norm_num

/-- Logits `(θ, 0)` and `(θ + θ², θ²)` have the same loss. -/
example : NetChanged (P := 1) (C := 2) .ce ⟨fun θ => ![θ 0, 0], termLoss .ce 1⟩ ⟨fun θ => ![θ 0 + θ 0 ^ 2, θ 0 ^ 2], termLoss .ce 1⟩ :=
  ⟨.shift 0, 1, fun θ => θ 0 ^ 2, rfl, rfl, fun θ i => by fin_cases i <;> simp [OutChange.pred, OutChange.off]⟩

open Classical in
/-- A generator that yields the more probable class. -/
noncomputable def likelyRng : Rng .ce 2 where
  G := Nat
  seed := fun _ s => s.toNat
  draw := fun G _ ts => (fun _ m => if softmax (ts[m]).f 0 > 1 / 2 then (0 : Fin 2) else (1 : Fin 2), G + 1)

theorem likelyRng_prob : ProbRng likelyRng := fun G S ts ts' h => by
  refine ⟨rfl, fun s m h1 h2 => ?_⟩
  have e := h.get h1 h2
  simp only [List.get_eq_getElem] at e
  show (if softmax (ts'[m]).f 0 > 1 / 2 then (0 : Fin 2) else 1) = if softmax (ts[m]).f 0 > 1 / 2 then (0 : Fin 2) else 1
  rw [e]

/-- Monte-Carlo Fisher of a network with shifted logits. -/
example (X : List (Tensor ℝ)) (hX : HasShapes X [[1]] 1) :
    (mcMatmat likelyRng ⟨[[1]], true, 42, 3, 1, [[[(OutChange.shift (C := 2) 7).term (fun _ => 5) (symTerm .ce 0)]]]⟩ ⟨"cpu", none⟩ X).1 =
      (mcMatmat likelyRng ⟨[[1]], true, 42, 3, 1, [[[symTerm .ce 0]]]⟩ ⟨"cpu", none⟩ X).1 :=
  mc_shift_symmetry likelyRng_prob (fun _ => 7) (fun _ _ => 5) ⟨[[1]], true, 42, 3, 1, [[[symTerm .ce 0]]]⟩ (by simp) (by simp) 1
    (by simp) (by simp) (by simp) _ hX

/-- A datum of KFAC with two classes, whose square root of the loss Hessian is computed for the logits `f`. -/
noncomputable def symDatum (f : Fin 2 → ℝ) (J : Nat → ℝ) : KDatum where
  x := fun _ _ _ => 2
  jac := fun _ _ _ _ c => J c
  sqrt := fun _ c l => if h : c < 2 ∧ l < 2 then ((if (⟨c, h.1⟩ : Fin 2) = ⟨l, h.2⟩ then Real.sqrt (softmax f ⟨c, h.1⟩) else 0) -
    softmax f ⟨c, h.1⟩ * Real.sqrt (softmax f ⟨l, h.2⟩)) * Real.sqrt 1 else 0
  lossGrad := fun _ _ _ => 0

/-- Type-2 KFAC: the classes are exchanged, logits `(1, 4)` become `(4, 1)`. -/
example : (kfacFactors ⟨.type2, .expand, .ce, true, 1, 1, 1, 2, false⟩ [⟨"l", [("weight", 0)], 1, 1, 1⟩]
      [[symDatum ![4, 1] fun c => if c = 0 then 5 else 3]]).2.get "l" =
    (kfacFactors ⟨.type2, .expand, .ce, true, 1, 1, 1, 2, false⟩ [⟨"l", [("weight", 0)], 1, 1, 1⟩]
      [[symDatum ![1, 4] fun c => if c = 0 then 3 else 5]]).2.get "l" := by
  refine (kfac_symmetry (k := .ce) (C := 2) rfl [⟨"l", [("weight", 0)], 1, 1, 1⟩] (by simp)
    [[(symDatum ![1, 4] fun c => if c = 0 then 3 else 5, symDatum ![4, 1] fun c => if c = 0 then 5 else 3)]] (by simp) (by simp) (by simp)
    (by simp) ?_ _ (List.mem_singleton.mpr rfl)).1
  simp only [List.mem_singleton, forall_eq]
  have hq : ∀ (f : Fin 2 → ℝ) (J : Nat → ℝ), SqrtOf .ce true 1 (fun _ => f) (symDatum f J) := fun f J t _ =>
    ⟨[1], [], _, by simp only [lossHessianSqrt]; rfl, fun c l => by
      show (if h : (c : Nat) < 2 ∧ (l : Nat) < 2 then _ else _) = _
      rw [dif_pos ⟨c.2, l.2⟩]⟩
  refine .type2 rfl (.perm (Equiv.swap 0 1)) ⟨rfl, fun _ _ _ _ => 0, fun l s o t _ c => ?_⟩ (fun _ => ![1, 4]) (hq _ _) ?_
  · fin_cases c <;> simp [symDatum, OutChange.mat, OutChange.off, Fin.sum_univ_two]
  · have : (OutChange.perm (k := .ce) (Equiv.swap (0 : Fin 2) 1)).pred ![1, 4] = ![4, 1] := by
      funext i
      fin_cases i <;> simp [OutChange.pred]
    simp only [this]
    exact hq _ _

end Curvlinops
