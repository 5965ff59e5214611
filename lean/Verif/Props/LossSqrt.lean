import Verif.Model.LossSqrt
import Verif.Props.LossCurvature

/-!
# C36: the square root of the loss Hessian
-/

namespace Curvlinops

variable {C : Nat}

theorem hess_div_const {ι : Type _} [DecidableEq ι] (F : (ι → ℝ) → ℝ) (w : ℝ) (x : ι → ℝ) (i j : ι) :
    hess (fun f => F f / w) x i j = hess F x i j / w := by
  have h : ∀ (F : (ι → ℝ) → ℝ) (i : ι) (x : ι → ℝ), pderiv (fun f => F f / w) i x = pderiv F i x / w := by
    intro F i x
    unfold pderiv
    rw [deriv_div_const]
  unfold hess
  simp only [h]

theorem sum_diag_mul (d e : Fin C → ℝ) (i j : Fin C) :
    ∑ l, (if i = l then d i else 0) * (if j = l then e j else 0) = if i = j then d i * e i else 0 := by
  by_cases h : i = j
  · subst h
    rw [Finset.sum_eq_single i]
    · simp
    · intro l _ hl; simp [Ne.symm hl]
    · intro h; exact absurd (Finset.mem_univ i) h
  · rw [if_neg h]
    refine Finset.sum_eq_zero fun l _ => ?_
    by_cases h1 : i = l
    · subst h1; simp [Ne.symm h]
    · simp [h1]

theorem ce_sqrt (f : Fin C → ℝ) (i j : Fin C) :
    ∑ l, ((if i = l then Real.sqrt (softmax f i) else 0) - softmax f i * Real.sqrt (softmax f l)) *
        ((if j = l then Real.sqrt (softmax f j) else 0) - softmax f j * Real.sqrt (softmax f l)) =
      (if i = j then softmax f i else 0) - softmax f i * softmax f j := by
  have hs : ∀ c, Real.sqrt (softmax f c) * Real.sqrt (softmax f c) = softmax f c := fun c =>
    Real.mul_self_sqrt (softmax_pos f c).le
  have e : ∀ l, ((if i = l then Real.sqrt (softmax f i) else 0) - softmax f i * Real.sqrt (softmax f l)) *
        ((if j = l then Real.sqrt (softmax f j) else 0) - softmax f j * Real.sqrt (softmax f l)) =
      (if i = l then Real.sqrt (softmax f i) else 0) * (if j = l then Real.sqrt (softmax f j) else 0) -
        (if i = l then softmax f j * (Real.sqrt (softmax f l) * Real.sqrt (softmax f l)) else 0) -
        (if j = l then softmax f i * (Real.sqrt (softmax f l) * Real.sqrt (softmax f l)) else 0) +
        softmax f i * softmax f j * (Real.sqrt (softmax f l) * Real.sqrt (softmax f l)) := by
    intro l
    by_cases h1 : i = l
    · subst h1
      by_cases h2 : j = i
      · subst h2; simp; ring
      · simp [h2]; ring
    · by_cases h2 : j = l
      · subst h2; simp [h1]; ring
      · simp [h1, h2]; ring
  simp only [e, hs, Finset.sum_add_distrib, Finset.sum_sub_distrib]
  rw [sum_diag_mul (fun c => Real.sqrt (softmax f c)) (fun c => Real.sqrt (softmax f c)), ← Finset.mul_sum,
    sum_softmax f i]
  simp [hs]
  ring

/-- Valid targets: binary for `BCEWithLogitsLoss`. -/
def ValidTarget (k : LossKind) (target : List ℝ) : Prop := k = .bce → ∀ y ∈ target, y = 0 ∨ y = 1

/-- C36, part: for a prediction of shape `[1, C]` with `C ≥ 1`, reduction 'mean' or 'sum', and for `CrossEntropyLoss`
`C ≠ 1`, the result `S` satisfies `S Sᵀ = ∇²_f ℓ` for the loss of one term with that reduction. (The documentation does
not exclude `C = 1`, see `lossHessianSqrt_ce_one`.) -/
theorem lossHessianSqrt_partial (k : LossKind) (mean : Bool) (hC : C ≠ 0) (hce : k = .ce → C ≠ 1) (f : Fin C → ℝ)
    (targetShape : List Nat) (ht : targetShape.head? = some 1) (target : List ℝ) (hbin : ValidTarget k target)
    (y : TermTarget k C) :
    ∃ S, lossHessianSqrt (.known k (redOf mean)) [1, C] f targetShape target = .ok S ∧
      ∀ i j, ∑ l, S i l * S j l = hess (fun f => termLoss k y f / reductionFactor k mean 1 C) f i j := by
  obtain ⟨ts, rfl⟩ : ∃ ts, targetShape = 1 :: ts := by
    cases targetShape with
    | nil => simp at ht
    | cons n ts => simp at ht; exact ⟨ts, by rw [ht]⟩
  have hscale : ∃ c : ℝ, sqrtScale (redOf mean) C = .ok c ∧ 0 ≤ c ∧
      (k ≠ .ce → (reductionFactor k mean 1 C)⁻¹ = c) := by
    unfold sqrtScale redOf reductionFactor
    rw [if_neg hC]
    cases mean
    · exact ⟨1, rfl, zero_le_one, fun _ => by simp⟩
    · refine ⟨1 / C, rfl, by positivity, fun h => ?_⟩
      cases k <;> simp_all
  obtain ⟨c, hc, hc0, hcr⟩ := hscale
  have hd : ∀ i j, hess (fun f => termLoss k y f / reductionFactor k mean 1 C) f i j =
      hess (termLoss k y) f i j * (reductionFactor k mean 1 C)⁻¹ := fun i j => by
    rw [hess_div_const (termLoss k y), div_eq_mul_inv]
  simp only [hd]
  clear hd
  unfold lossHessianSqrt
  cases k
  · simp only [hc]
    refine ⟨fun i j => (if i = j then 1 else 0) * Real.sqrt (2 * c), by simp, fun i j => ?_⟩
    rw [hess_mse, hcr (by simp)]
    have : Real.sqrt (2 * c) * Real.sqrt (2 * c) = 2 * c := Real.mul_self_sqrt (by positivity)
    have e : ∀ i l : Fin C, (if i = l then (1 : ℝ) else 0) * Real.sqrt (2 * c) =
        if i = l then Real.sqrt (2 * c) else 0 := fun i l => by split <;> simp
    simp only [e]
    rw [sum_diag_mul (fun _ => Real.sqrt (2 * c)) (fun _ => Real.sqrt (2 * c)), this, ite_mul, zero_mul]
  · simp only [if_neg (hce rfl)]
    refine ⟨fun i j => ((if i = j then Real.sqrt (softmax f i) else 0) - softmax f i * Real.sqrt (softmax f j)) *
      Real.sqrt 1, by simp, fun i j => ?_⟩
    rw [hess_ce]
    have hr : reductionFactor .ce mean 1 C = 1 := by unfold reductionFactor; cases mean <;> simp
    rw [hr]
    simp only [Real.sqrt_one, mul_one, inv_one]
    exact ce_sqrt f i j
  · have hb : ∀ y ∈ target, y = 0 ∨ y = 1 := hbin rfl
    simp only [hc, if_pos hb]
    refine ⟨fun i j => if i = j then Real.sqrt c * Real.sqrt (Real.sigmoid (f i) * (1 - Real.sigmoid (f i))) else 0,
      by simp, fun i j => ?_⟩
    rw [hess_bce, hcr (by simp)]
    have hp : 0 ≤ Real.sigmoid (f i) * (1 - Real.sigmoid (f i)) := by
      have h1 := Real.sigmoid_pos (f i)
      have h2 := Real.sigmoid_lt_one (f i)
      exact mul_nonneg h1.le (by linarith)
    have : Real.sqrt c * Real.sqrt (Real.sigmoid (f i) * (1 - Real.sigmoid (f i))) *
        (Real.sqrt c * Real.sqrt (Real.sigmoid (f i) * (1 - Real.sigmoid (f i)))) =
        Real.sigmoid (f i) * (1 - Real.sigmoid (f i)) * c := by
      have h1 := Real.mul_self_sqrt hc0
      have h2 := Real.mul_self_sqrt hp
      calc _ = Real.sqrt c * Real.sqrt c * (Real.sqrt (Real.sigmoid (f i) * (1 - Real.sigmoid (f i))) *
        Real.sqrt (Real.sigmoid (f i) * (1 - Real.sigmoid (f i)))) := by ring
        _ = _ := by rw [h1, h2]; ring
    rw [sum_diag_mul (fun i => Real.sqrt c * Real.sqrt (Real.sigmoid (f i) * (1 - Real.sigmoid (f i))))
      (fun i => Real.sqrt c * Real.sqrt (Real.sigmoid (f i) * (1 - Real.sigmoid (f i)))), ite_mul, zero_mul, this]

/-- C36: `CrossEntropyLoss` with a single class raises `RuntimeError`, although its Hessian is the (zero) 1×1 matrix. -/
theorem lossHessianSqrt_ce_one (red : Reduction) (f : Fin 1 → ℝ) (target : List ℝ) :
    lossHessianSqrt (.known .ce red) [1, 1] f [1] target = .error .runtimeError ∧
      ∀ y : Fin 1, hess (termLoss (C := 1) .ce y) f 0 0 = 0 := by
  refine ⟨by simp [lossHessianSqrt], fun y => ?_⟩
  rw [hess_ce]
  simp [softmax]

/-- C36: the documented errors. -/
theorem lossHessianSqrt_errors (loss : LossArg) (outShape : List Nat) (f : Fin C → ℝ) (targetShape : List Nat)
    (hts : targetShape ≠ []) (target : List ℝ) :
    ((∀ n, outShape ≠ [1, n]) ∨ targetShape.head? ≠ some 1 →
      lossHessianSqrt loss outShape f targetShape target = .error .valueError) ∧
    (∀ n, outShape = [1, n] → targetShape.head? = some 1 →
      (loss = .other ∨ (∃ red, loss = .known .bce red) ∧ ∃ y ∈ target, y ≠ 0 ∧ y ≠ 1) →
      lossHessianSqrt loss outShape f targetShape target = .error .notImplementedError) := by
  obtain ⟨t, ts, rfl⟩ := List.exists_cons_of_ne_nil hts
  constructor
  · intro h
    unfold lossHessianSqrt
    by_cases h1 : outShape.length ≠ 2 ∨ outShape.head? ≠ some 1
    · rw [if_pos h1]
    · rw [if_neg h1]
      push Not at h1
      have hno : ¬ ∀ n, outShape ≠ [1, n] := by
        intro hall
        match outShape, h1, hall with
        | [a, b], h1, hall =>
          have : a = 1 := by simpa using h1.2
          exact hall b (by rw [this])
      have ht : t ≠ 1 := by simpa using h.resolve_left hno
      simp only [if_pos ht]
  · rintro n rfl ht hl
    have ht : t = 1 := by simpa using ht
    subst ht
    rcases hl with rfl | ⟨⟨red, rfl⟩, y, hy, h0, h1⟩
    · simp [lossHessianSqrt]
    · have hno : ¬ ∀ y ∈ target, y = 0 ∨ y = 1 := fun h => by rcases h y hy with h | h <;> contradiction
      unfold lossHessianSqrt
      simp only [if_neg hno]
      simp

example (f : Fin 3 → ℝ) : ∃ S, lossHessianSqrt (.known .ce (redOf true)) [1, 3] f [1] [2] = .ok S ∧
    ∀ i j, ∑ l, S i l * S j l = hess (fun f => termLoss (C := 3) .ce 2 f / reductionFactor .ce true 1 3) f i j :=
  lossHessianSqrt_partial .ce true (by decide) (by decide) f [1] rfl [2] (by simp [ValidTarget]) 2

end Curvlinops
