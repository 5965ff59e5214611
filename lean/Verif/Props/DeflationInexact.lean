import Verif.Props.Deflation

/-!
# C138: removing inexact eigenpairs
-/

namespace Curvlinops

open MeasureTheory
open scoped _root_.Matrix RealInnerProductSpace

variable {d k : Nat}

/-- Residuals `M vⱼ - cⱼ vⱼ` of approximate eigenpairs, in columns. -/
def residuals (M : Matrix (Fin d) (Fin d) ℝ) (c : Fin k → ℝ) (V : Matrix (Fin d) (Fin k) ℝ) : Matrix (Fin d) (Fin k) ℝ :=
  Matrix.of fun i j => (M *ᵥ fun i => V i j) i - c j * V i j

theorem residuals_eq (M : Matrix (Fin d) (Fin d) ℝ) (c : Fin k → ℝ) (V : Matrix (Fin d) (Fin k) ℝ) :
    residuals M c V = M * V - V * Matrix.diagonal c := by
  ext i j
  rw [Matrix.sub_apply, Matrix.mul_diagonal, mul_comm (V i j)]
  rfl

theorem outerMatrix_eq (c : Fin k → ℝ) (V : Matrix (Fin d) (Fin k) ℝ) : outerMatrix c V = V * Matrix.diagonal c * Vᵀ := by
  ext a b
  rw [Matrix.mul_apply]
  simp only [Matrix.mul_diagonal, outerMatrix, Matrix.sum_apply, Matrix.smul_apply, Matrix.vecMulVec_apply, smul_eq_mul, Matrix.transpose_apply]
  exact Finset.sum_congr rfl fun _ _ => by ring

/-! ## The trace -/

theorem deflated_trace_eq (M : Matrix (Fin d) (Fin d) ℝ) (c : Fin k → ℝ) (V : Matrix (Fin d) (Fin k) ℝ)
    (hV : ∀ j, (fun i => V i j) ⬝ᵥ (fun i => V i j) = 1) : (M - outerMatrix c V).trace + ∑ j, c j = M.trace := by
  have : (outerMatrix c V).trace = ∑ j, c j := by
    simp only [outerMatrix, Matrix.trace_sum, Matrix.trace_smul, Matrix.trace_vecMulVec, hV, smul_eq_mul, mul_one]
  rw [Matrix.trace_sub, this]
  ring

theorem deflated_squares (M : Matrix (Fin d) (Fin d) ℝ) (c : Fin k → ℝ) (V : Matrix (Fin d) (Fin k) ℝ) (hV : Vᵀ * V = 1) :
    ∑ i, ∑ j, (M - outerMatrix c V) i j ^ 2 =
      ∑ i, ∑ j, M i j ^ 2 - ∑ l, c l * (2 * ((fun i => V i l) ⬝ᵥ (M *ᵥ fun i => V i l)) - c l) := by
  have h1 : ∑ i, ∑ j, M i j * outerMatrix c V i j = ∑ l, c l * ((fun i => V i l) ⬝ᵥ (M *ᵥ fun i => V i l)) := by
    simp only [outerMatrix, Matrix.sum_apply, Matrix.smul_apply, Matrix.vecMulVec_apply, smul_eq_mul, dotProduct, Matrix.mulVec, Finset.mul_sum]
    have e : ∀ i : Fin d, ∑ j : Fin d, ∑ l : Fin k, M i j * (c l * (V i l * V j l)) = ∑ l : Fin k, ∑ j : Fin d, M i j * (c l * (V i l * V j l)) :=
      fun i => Finset.sum_comm
    rw [Finset.sum_congr rfl fun i _ => e i, Finset.sum_comm]
    exact Finset.sum_congr rfl fun l _ => Finset.sum_congr rfl fun i _ => Finset.sum_congr rfl fun j _ => by ring
  have h2 : ∑ i, ∑ j, outerMatrix c V i j ^ 2 = ∑ l, c l ^ 2 := by
    have e : ∑ i, ∑ j, outerMatrix c V i j ^ 2 = (outerMatrix c V * (outerMatrix c V)ᵀ).trace := by
      simp only [Matrix.trace, Matrix.diag_apply, Matrix.mul_apply, Matrix.transpose_apply, pow_two]
    have e2 : outerMatrix c V * (outerMatrix c V)ᵀ = V * (Matrix.diagonal c * (Vᵀ * V) * Matrix.diagonal c * Vᵀ) := by
      rw [(outer_vec_partial c V).2.2, outerMatrix_eq]
      simp only [Matrix.mul_assoc]
    rw [e, e2, hV, Matrix.mul_one, Matrix.trace_mul_comm, Matrix.mul_assoc, hV, Matrix.mul_one, Matrix.diagonal_mul_diagonal,
      Matrix.trace_diagonal]
    exact Finset.sum_congr rfl fun _ _ => by ring
  have h3 : ∑ l, c l * (2 * ((fun i => V i l) ⬝ᵥ (M *ᵥ fun i => V i l)) - c l) =
      2 * ∑ l, c l * ((fun i => V i l) ⬝ᵥ (M *ᵥ fun i => V i l)) - ∑ l, c l ^ 2 := by
    rw [Finset.mul_sum, ← Finset.sum_sub_distrib]
    exact Finset.sum_congr rfl fun _ _ => by ring
  rw [h3, ← h1, ← h2, Finset.mul_sum]
  simp only [Finset.mul_sum, ← Finset.sum_sub_distrib, Matrix.sub_apply]
  exact Finset.sum_congr rfl fun _ _ => Finset.sum_congr rfl fun _ _ => by ring

/-- **C138** (trace, Rademacher): subtracting any numbers with any unit vectors and adding the numbers again leaves the estimate unbiased. -/
theorem deflated_unbiased_rademacher {A : SciOp ℝ} {M : Matrix (Fin d) (Fin d) ℝ} (hA : VecRep A M) (c : Fin k → ℝ)
    (V : Matrix (Fin d) (Fin k) ℝ) (hV : ∀ j, (fun i => V i j) ⬝ᵥ (fun i => V i j) = 1) {W : Type _} (E : Ext ℝ W)
    (w : (Fin d → Bool) → W) (hw : DrawsBits E w) :
    ∃ D, deflate A d (List.ofFn c) (List.ofFn fun j => List.ofFn fun i => V i j) = .ok D ∧ ∃ F : (Fin d → Bool) → ℝ,
      (∀ b, (hutchTrace (E.withOp D) d (.str "rademacher") (w b)).1 = .ok (F b)) ∧ signMean F + ∑ j, c j = M.trace := by
  obtain ⟨D, hD, hDr⟩ := deflate_rep hA c V
  obtain ⟨F, hF, hm⟩ := hutchTrace_rademacher (E.withOp D) _ (withOp_multiplies E D _ hDr) w hw
  exact ⟨D, hD, F, hF, by rw [hm, deflated_trace_eq M c V hV]⟩

/-- **C138** (trace, normal): the same for normal vectors. -/
theorem deflated_unbiased_normal {A : SciOp ℝ} {M : Matrix (Fin d) (Fin d) ℝ} (hA : VecRep A M) (c : Fin k → ℝ)
    (V : Matrix (Fin d) (Fin k) ℝ) (hV : ∀ j, (fun i => V i j) ⬝ᵥ (fun i => V i j) = 1) {W : Type _} (E : Ext ℝ W)
    (w : (Fin d → ℝ) → W) (hw : DrawsNormal E w) :
    ∃ D, deflate A d (List.ofFn c) (List.ofFn fun j => List.ofFn fun i => V i j) = .ok D ∧ ∃ F : (Fin d → ℝ) → ℝ,
      (∀ v, (hutchTrace (E.withOp D) d (.str "normal") (w v)).1 = .ok (F v)) ∧ Integrable F (stdNormal d) ∧
      ∫ v, F v ∂stdNormal d + ∑ j, c j = M.trace := by
  obtain ⟨D, hD, hDr⟩ := deflate_rep hA c V
  obtain ⟨F, hF, hi, hm⟩ := hutchTrace_normal (E.withOp D) _ (withOp_multiplies E D _ hDr) w hw
  exact ⟨D, hD, F, hF, hi, by rw [hm, deflated_trace_eq M c V hV]⟩

/-- **C138** (trace, normal): the variance changes by `-2 ∑ cⱼ (2 vⱼ·Mvⱼ - cⱼ)`. -/
theorem deflated_trace_inexact {A : SciOp ℝ} {M : Matrix (Fin d) (Fin d) ℝ} (hA : VecRep A M) (hM : Mᵀ = M) (c : Fin k → ℝ)
    (V : Matrix (Fin d) (Fin k) ℝ) (hV : Vᵀ * V = 1) {W : Type _} (E : Ext ℝ W) (w : (Fin d → ℝ) → W) (hw : DrawsNormal E w) :
    ∃ D, deflate A d (List.ofFn c) (List.ofFn fun j => List.ofFn fun i => V i j) = .ok D ∧ ∃ F G : (Fin d → ℝ) → ℝ,
      (∀ v, (hutchTrace (E.withOp D) d (.str "normal") (w v)).1 = .ok (F v)) ∧
      (∀ v, (hutchTrace (E.withOp A) d (.str "normal") (w v)).1 = .ok (G v)) ∧
      ∫ v, F v + ∑ j, c j ∂stdNormal d = M.trace ∧
      ∫ v, (F v + ∑ j, c j - M.trace) ^ 2 ∂stdNormal d = ∫ v, (G v - M.trace) ^ 2 ∂stdNormal d -
        2 * ∑ l, c l * (2 * ((fun i => V i l) ⬝ᵥ (M *ᵥ fun i => V i l)) - c l) := by
  have hV1 : ∀ j, (fun i => V i j) ⬝ᵥ (fun i => V i j) = 1 := fun j => by
    have := congrFun (congrFun hV j) j
    rwa [Matrix.mul_apply, Matrix.one_apply_eq] at this
  obtain ⟨D, hD, hDr⟩ := deflate_rep hA c V
  refine ⟨D, hD, ?_⟩
  have hs : (M - outerMatrix c V)ᵀ = M - outerMatrix c V := by rw [Matrix.transpose_sub, hM, (outer_vec_partial c V).2.2]
  obtain ⟨F, hF, hFi, hFv⟩ := hutchTrace_normal_var (E.withOp D) _ (withOp_multiplies E D _ hDr) w hw
  obtain ⟨G, hG, -, hGv⟩ := hutchTrace_normal_var (E.withOp A) _ (withOp_multiplies E A _ hA) w hw
  obtain ⟨F', hF', hFi', hFm⟩ := hutchTrace_normal (E.withOp D) _ (withOp_multiplies E D _ hDr) w hw
  obtain rfl : F = F' := funext fun v => by
    have := (hF v).symm.trans (hF' v)
    exact Except.ok.inj this
  have htr := deflated_trace_eq M c V hV1
  have hsq : ∀ (N : Matrix (Fin d) (Fin d) ℝ), Nᵀ = N → ∑ i, ∑ j, N i j * (N i j + N j i) = 2 * ∑ i, ∑ j, N i j ^ 2 := by
    intro N hN
    simp only [Finset.mul_sum]
    refine Finset.sum_congr rfl fun i _ => Finset.sum_congr rfl fun j _ => ?_
    have : N j i = N i j := congrFun (congrFun hN i) j
    rw [this]
    ring
  refine ⟨F, G, hF, hG, ?_, ?_⟩
  · rw [integral_add hFi' (integrable_const _), hFm]
    simpa using htr
  · rw [hGv, hsq M hM]
    have h3 : ∀ v, (F v + ∑ j, c j - M.trace) = F v - (M - outerMatrix c V).trace := by
      intro v
      rw [← htr]
      ring
    simp only [h3]
    rw [hFv, hsq _ hs, deflated_squares M c V hV]
    ring

/-- **C138** (Rayleigh quotients): with `cⱼ = vⱼ·Mvⱼ` the variance is smaller by twice the sum of their squares, as for exact eigenpairs, and other numbers
reduce it by no more. -/
theorem deflated_rayleigh (M : Matrix (Fin d) (Fin d) ℝ) (c : Fin k → ℝ) (V : Matrix (Fin d) (Fin k) ℝ)
    (hc : ∀ l, c l = (fun i => V i l) ⬝ᵥ (M *ᵥ fun i => V i l)) :
    ∑ l, c l * (2 * ((fun i => V i l) ⬝ᵥ (M *ᵥ fun i => V i l)) - c l) = ∑ l, c l ^ 2 ∧
      ∀ b : Fin k → ℝ, ∑ l, b l * (2 * ((fun i => V i l) ⬝ᵥ (M *ᵥ fun i => V i l)) - b l) ≤ ∑ l, c l ^ 2 := by
  simp only [← hc]
  exact ⟨Finset.sum_congr rfl fun l _ => by ring, fun b => Finset.sum_le_sum fun l _ => by nlinarith [sq_nonneg (b l - c l)]⟩

/-! ## The spectrum -/

/-- Sum of the squared residuals. -/
def residualSquares (M : Matrix (Fin d) (Fin d) ℝ) (c : Fin k → ℝ) (V : Matrix (Fin d) (Fin k) ℝ) : ℝ := ∑ i, ∑ l, residuals M c V i l ^ 2

theorem dot_sq_le {n : Nat} (x y : Fin n → ℝ) : (x ⬝ᵥ y) ^ 2 ≤ (x ⬝ᵥ x) * (y ⬝ᵥ y) := by
  have := Finset.sum_mul_sq_le_sq_mul_sq Finset.univ x y
  simpa only [dotProduct, pow_two] using this

theorem dot_self_nonneg' {n : Nat} (x : Fin n → ℝ) : 0 ≤ x ⬝ᵥ x := Finset.sum_nonneg fun _ _ => mul_self_nonneg _

/-- **C138** (quadratic forms): the deflated matrix acts like `M` on the complement of the removed vectors, up to the residuals. -/
theorem deflated_form_close {M : Matrix (Fin d) (Fin d) ℝ} (hM : Mᵀ = M) (c : Fin k → ℝ) (V : Matrix (Fin d) (Fin k) ℝ) (hV : Vᵀ * V = 1)
    (x : Fin d → ℝ) :
    |x ⬝ᵥ ((M - outerMatrix c V) *ᵥ x) - (x - V *ᵥ (Vᵀ *ᵥ x)) ⬝ᵥ (M *ᵥ (x - V *ᵥ (Vᵀ *ᵥ x)))| ≤
      2 * √(residualSquares M c V) * (x ⬝ᵥ x) := by
  set al := Vᵀ *ᵥ x with hal
  set z := x - V *ᵥ al with hz
  set R := residuals M c V with hR
  have hx : x = V *ᵥ al + z := by rw [hz]; abel
  have hVz : Vᵀ *ᵥ z = 0 := by
    rw [hz, Matrix.mulVec_sub, Matrix.mulVec_mulVec, hV, Matrix.one_mulVec, ← hal, sub_self]
  have hpz : (V *ᵥ al) ⬝ᵥ z = 0 := by
    rw [dotProduct_comm, Matrix.dotProduct_mulVec, ← Matrix.mulVec_transpose, hVz, zero_dotProduct]
  have hpp : (V *ᵥ al) ⬝ᵥ (V *ᵥ al) = al ⬝ᵥ al := by
    rw [Matrix.dotProduct_mulVec, ← Matrix.mulVec_transpose, Matrix.mulVec_mulVec, hV, Matrix.one_mulVec]
  have hDx : (M - outerMatrix c V) *ᵥ x = M *ᵥ z + R *ᵥ al := by
    have e : outerMatrix c V *ᵥ x = (V * Matrix.diagonal c) *ᵥ al := by rw [outerMatrix_eq, ← Matrix.mulVec_mulVec]
    have e2 : R *ᵥ al = M *ᵥ (V *ᵥ al) - (V * Matrix.diagonal c) *ᵥ al := by
      rw [hR, residuals_eq, Matrix.sub_mulVec, ← Matrix.mulVec_mulVec al M V]
    rw [Matrix.sub_mulVec, e, hz, Matrix.mulVec_sub, e2]
    abel
  have hpMz : (V *ᵥ al) ⬝ᵥ (M *ᵥ z) = z ⬝ᵥ (R *ᵥ al) := by
    have e : R *ᵥ al = M *ᵥ (V *ᵥ al) - V *ᵥ (Matrix.diagonal c *ᵥ al) := by
      rw [hR, residuals_eq, Matrix.sub_mulVec, ← Matrix.mulVec_mulVec al M V, ← Matrix.mulVec_mulVec al V]
    have e2 : z ⬝ᵥ (V *ᵥ (Matrix.diagonal c *ᵥ al)) = 0 := by
      rw [Matrix.dotProduct_mulVec, ← Matrix.mulVec_transpose, hVz, zero_dotProduct]
    rw [e, dotProduct_sub, e2, sub_zero, Matrix.dotProduct_mulVec z, ← Matrix.mulVec_transpose, hM, dotProduct_comm]
  have hkey : x ⬝ᵥ ((M - outerMatrix c V) *ᵥ x) - z ⬝ᵥ (M *ᵥ z) = (V *ᵥ al + (2 : ℝ) • z) ⬝ᵥ (R *ᵥ al) := by
    rw [hDx]
    conv_lhs => rw [hx]
    simp only [add_dotProduct, dotProduct_add, smul_dotProduct, hpMz, smul_eq_mul]
    ring
  have hxx : x ⬝ᵥ x = al ⬝ᵥ al + z ⬝ᵥ z := by
    conv_lhs => rw [hx]
    simp only [add_dotProduct, dotProduct_add, hpp, hpz, dotProduct_comm z]
    ring
  have h1 : (V *ᵥ al + (2 : ℝ) • z) ⬝ᵥ (V *ᵥ al + (2 : ℝ) • z) = al ⬝ᵥ al + 4 * (z ⬝ᵥ z) := by
    simp only [add_dotProduct, dotProduct_add, smul_dotProduct, dotProduct_smul, hpp, hpz, dotProduct_comm z (V *ᵥ al), smul_eq_mul]
    ring
  have h2 : (R *ᵥ al) ⬝ᵥ (R *ᵥ al) ≤ residualSquares M c V * (al ⬝ᵥ al) := by
    rw [residualSquares, Finset.sum_mul]
    refine Finset.sum_le_sum fun i _ => ?_
    have := dot_sq_le (R i) al
    rw [pow_two] at this
    refine this.trans (le_of_eq ?_)
    simp [dotProduct, pow_two, hR]
  have ha := dot_self_nonneg' al
  have hz0 := dot_self_nonneg' z
  have hS : 0 ≤ residualSquares M c V := Finset.sum_nonneg fun _ _ => Finset.sum_nonneg fun _ _ => sq_nonneg _
  rw [hkey]
  refine abs_le_of_sq_le_sq ?_ (by rw [hxx]; positivity)
  refine (dot_sq_le _ _).trans ?_
  rw [h1, mul_pow, mul_pow, Real.sq_sqrt hS, hxx]
  have h3 : (al ⬝ᵥ al + 4 * (z ⬝ᵥ z)) * ((R *ᵥ al) ⬝ᵥ (R *ᵥ al)) ≤ (al ⬝ᵥ al + 4 * (z ⬝ᵥ z)) * (residualSquares M c V * (al ⬝ᵥ al)) :=
    mul_le_mul_of_nonneg_left h2 (by linarith)
  refine h3.trans ?_
  have h4 : (al ⬝ᵥ al + 4 * (z ⬝ᵥ z)) * (al ⬝ᵥ al) ≤ 4 * (al ⬝ᵥ al + z ⬝ᵥ z) ^ 2 := by nlinarith
  nlinarith [mul_le_mul_of_nonneg_left h4 hS]

/-- **C138** (boundaries): if the quadratic form of `M` lies between `lo` and `hi` orthogonally to the removed vectors, that of the deflated matrix
lies between `min 0 lo` and `max 0 hi`, up to the residuals. -/
theorem deflated_bounds_inexact {M : Matrix (Fin d) (Fin d) ℝ} (hM : Mᵀ = M) (c : Fin k → ℝ) (V : Matrix (Fin d) (Fin k) ℝ) (hV : Vᵀ * V = 1)
    {lo hi : ℝ} (hb : ∀ z, Vᵀ *ᵥ z = 0 → lo * (z ⬝ᵥ z) ≤ z ⬝ᵥ (M *ᵥ z) ∧ z ⬝ᵥ (M *ᵥ z) ≤ hi * (z ⬝ᵥ z)) (x : Fin d → ℝ) :
    (min 0 lo - 2 * √(residualSquares M c V)) * (x ⬝ᵥ x) ≤ x ⬝ᵥ ((M - outerMatrix c V) *ᵥ x) ∧
      x ⬝ᵥ ((M - outerMatrix c V) *ᵥ x) ≤ (max 0 hi + 2 * √(residualSquares M c V)) * (x ⬝ᵥ x) := by
  have h := abs_le.mp (deflated_form_close hM c V hV x)
  set z := x - V *ᵥ (Vᵀ *ᵥ x) with hz
  have hVz : Vᵀ *ᵥ z = 0 := by
    rw [hz, Matrix.mulVec_sub, Matrix.mulVec_mulVec _ Vᵀ V, hV, Matrix.one_mulVec, sub_self]
  have hpz : z ⬝ᵥ (V *ᵥ (Vᵀ *ᵥ x)) = 0 := by rw [Matrix.dotProduct_mulVec, ← Matrix.mulVec_transpose, hVz, zero_dotProduct]
  have hzx : z ⬝ᵥ z ≤ x ⬝ᵥ x := by
    have hx : x = V *ᵥ (Vᵀ *ᵥ x) + z := by rw [hz]; abel
    have : x ⬝ᵥ x = (V *ᵥ (Vᵀ *ᵥ x)) ⬝ᵥ (V *ᵥ (Vᵀ *ᵥ x)) + z ⬝ᵥ z := by
      conv_lhs => rw [hx]
      rw [add_dotProduct, dotProduct_add, dotProduct_add, hpz, dotProduct_comm _ z, hpz]
      ring
    rw [this]
    linarith [dot_self_nonneg' (V *ᵥ (Vᵀ *ᵥ x))]
  have hz0 := dot_self_nonneg' z
  obtain ⟨b1, b2⟩ := hb z hVz
  have h1 : min 0 lo * (x ⬝ᵥ x) ≤ lo * (z ⬝ᵥ z) := by
    have e1 : min 0 lo * (z ⬝ᵥ z) ≤ lo * (z ⬝ᵥ z) := mul_le_mul_of_nonneg_right (min_le_right _ _) hz0
    have e2 : min 0 lo * (x ⬝ᵥ x) ≤ min 0 lo * (z ⬝ᵥ z) := mul_le_mul_of_nonpos_left hzx (min_le_left _ _)
    linarith
  have h2 : hi * (z ⬝ᵥ z) ≤ max 0 hi * (x ⬝ᵥ x) := by
    have e1 : hi * (z ⬝ᵥ z) ≤ max 0 hi * (z ⬝ᵥ z) := mul_le_mul_of_nonneg_right (le_max_right _ _) hz0
    have e2 : max 0 hi * (z ⬝ᵥ z) ≤ max 0 hi * (x ⬝ᵥ x) := mul_le_mul_of_nonneg_left hzx (le_max_left _ _)
    linarith
  constructor <;> nlinarith [h.1, h.2]

/-- **C138** (eigenvalues): near every approximate eigenvalue there is one of `M`. -/
theorem eigenvalue_near {M : Matrix (Fin d) (Fin d) ℝ} (hM : Mᵀ = M) {vals : List ℝ} (hv : Matrix.HasEigs M vals) (c : ℝ) (v : Fin d → ℝ)
    (h1 : v ⬝ᵥ v = 1) : ∃ y ∈ vals, (y - c) ^ 2 ≤ (M *ᵥ v - c • v) ⬝ᵥ (M *ᵥ v - c • v) := by
  obtain ⟨b, lam, hb, hp⟩ := hv.basis
  set T := Matrix.toEuclideanLin M with hTdef
  have hT : T.IsSymmetric := by
    rw [Matrix.isSymmetric_toEuclideanLin_iff, Matrix.IsHermitian, Matrix.conjTranspose_eq_transpose_of_trivial]
    exact hM
  set x : EuclideanSpace ℝ (Fin d) := WithLp.toLp 2 v with hx
  have hnorm : ∀ u : Fin d → ℝ, ‖(WithLp.toLp 2 u : EuclideanSpace ℝ (Fin d))‖ ^ 2 = u ⬝ᵥ u := by
    intro u
    rw [EuclideanSpace.norm_sq_eq]
    simp [dotProduct, pow_two]
  have hr : (M *ᵥ v - c • v) ⬝ᵥ (M *ᵥ v - c • v) = ∑ i, (lam i - c) ^ 2 * ⟪b i, x⟫ ^ 2 := by
    rw [← hnorm, ← b.sum_sq_norm_inner_right]
    refine Finset.sum_congr rfl fun i _ => ?_
    have e : (WithLp.toLp 2 (M *ᵥ v - c • v) : EuclideanSpace ℝ (Fin d)) = T x - c • x := rfl
    rw [e, inner_sub_right, inner_smul_right, ← hT, hb i, inner_smul_left, Real.norm_eq_abs, sq_abs]
    simp only [conj_trivial]
    ring
  have hone : ∑ i, ⟪b i, x⟫ ^ 2 = 1 := by
    rw [← h1, ← hnorm, ← b.sum_sq_norm_inner_right]
    exact Finset.sum_congr rfl fun i _ => by rw [Real.norm_eq_abs, sq_abs]
  by_contra hcon
  push Not at hcon
  have hall : ∀ i, (M *ᵥ v - c • v) ⬝ᵥ (M *ᵥ v - c • v) < (lam i - c) ^ 2 := fun i =>
    hcon (lam i) (hp.mem_iff.mpr (List.mem_ofFn.mpr ⟨i, rfl⟩))
  set s := (M *ᵥ v - c • v) ⬝ᵥ (M *ᵥ v - c • v) with hs
  have hsum : ∑ i, ((lam i - c) ^ 2 - s) * ⟪b i, x⟫ ^ 2 = 0 := by
    simp only [sub_mul, Finset.sum_sub_distrib, ← Finset.mul_sum, hone]
    rw [← hr]
    ring
  have hz := (Finset.sum_eq_zero_iff_of_nonneg fun i _ => mul_nonneg (sub_nonneg.mpr (hall i).le) (sq_nonneg _)).mp hsum
  have : ∑ i, ⟪b i, x⟫ ^ 2 = 0 := Finset.sum_eq_zero fun i hi => by
    rcases mul_eq_zero.mp (hz i hi) with h | h
    · exact absurd h (sub_pos.mpr (hall i)).ne'
    · exact h
  rw [this] at hone
  norm_num at hone

/-- **C138**: the deflated matrix has, for every removed pair, an eigenvalue that is at most its residual. -/
theorem deflated_zero_near {M : Matrix (Fin d) (Fin d) ℝ} (hM : Mᵀ = M) (c : Fin k → ℝ) (V : Matrix (Fin d) (Fin k) ℝ) (hV : Vᵀ * V = 1)
    {vals : List ℝ} (hv : Matrix.HasEigs (M - outerMatrix c V) vals) (j : Fin k) : ∃ y ∈ vals, y ^ 2 ≤ ∑ i, residuals M c V i j ^ 2 := by
  have hs : (M - outerMatrix c V)ᵀ = M - outerMatrix c V := by rw [Matrix.transpose_sub, hM, (outer_vec_partial c V).2.2]
  have h1 : (fun i => V i j) ⬝ᵥ (fun i => V i j) = 1 := by
    have := congrFun (congrFun hV j) j
    rwa [Matrix.mul_apply, Matrix.one_apply_eq] at this
  obtain ⟨y, hy, h⟩ := eigenvalue_near hs hv 0 _ h1
  rw [deflated_residual M c V hV j, zero_smul, sub_zero, sub_zero] at h
  refine ⟨y, hy, h.trans (le_of_eq ?_)⟩
  exact Finset.sum_congr rfl fun i _ => (pow_two (residuals M c V i j)).symm

/-- **C138** (eigenvalues of the deflated matrix): all lie between `min 0 lo` and `max 0 hi`, up to the residuals. -/
theorem deflated_eigs_inexact {M : Matrix (Fin d) (Fin d) ℝ} (hM : Mᵀ = M) (c : Fin k → ℝ) (V : Matrix (Fin d) (Fin k) ℝ) (hV : Vᵀ * V = 1)
    {lo hi : ℝ} (hb : ∀ z, Vᵀ *ᵥ z = 0 → lo * (z ⬝ᵥ z) ≤ z ⬝ᵥ (M *ᵥ z) ∧ z ⬝ᵥ (M *ᵥ z) ≤ hi * (z ⬝ᵥ z))
    {vals : List ℝ} (hv : Matrix.HasEigs (M - outerMatrix c V) vals) :
    ∀ y ∈ vals, min 0 lo - 2 * √(residualSquares M c V) ≤ y ∧ y ≤ max 0 hi + 2 * √(residualSquares M c V) := by
  obtain ⟨b, lam, hbs, hp⟩ := hv.basis
  intro y hy
  obtain ⟨i, rfl⟩ := List.mem_ofFn.mp (hp.mem_iff.mp hy)
  have h := deflated_bounds_inexact hM c V hV hb (b i).ofLp
  have h1 : (b i).ofLp ⬝ᵥ (b i).ofLp = 1 := by
    have := b.orthonormal.1 i
    have h2 : ‖b i‖ ^ 2 = (b i).ofLp ⬝ᵥ (b i).ofLp := by
      rw [EuclideanSpace.norm_sq_eq]
      simp [dotProduct, pow_two]
    rw [← h2, this, one_pow]
  have he : (M - outerMatrix c V) *ᵥ (b i).ofLp = lam i • (b i).ofLp := congrArg WithLp.ofLp (hbs i)
  rw [he, dotProduct_smul, h1, smul_eq_mul, mul_one, mul_one, mul_one] at h
  exact h

theorem reflection_symm : reflectionᵀ = reflection := by
  ext i j
  fin_cases i <;> fin_cases j <;> rfl

theorem reflection_eigs : Matrix.HasEigs reflection [25, -25] := by
  obtain ⟨-, rest, h1, -⟩ := deflated_spectrum reflection_symm reflection_pairs
  have htr := h1.trace
  have hlen : rest.length = 1 := by
    obtain ⟨_, _, _, _, hp⟩ := h1
    have := hp.length_eq
    simp at this
    omega
  obtain ⟨y, rfl⟩ := List.length_eq_one_iff.mp hlen
  simp [reflection, Matrix.trace, Fin.sum_univ_two] at htr
  obtain rfl : y = -25 := by linarith
  simpa using h1

/-- The first coordinate vector with its Rayleigh quotient `-7`: the residual is `24`, and `-25` is nearer than that. -/
example : residualSquares reflection ![-7] !![1; 0] = 24 ^ 2 ∧ ∃ y ∈ [(25 : ℝ), -25], (y - -7) ^ 2 ≤ 24 ^ 2 := by
  constructor
  · norm_num [residualSquares, residuals, reflection, Matrix.mulVec, dotProduct, Fin.sum_univ_two]
  · have h := eigenvalue_near reflection_symm reflection_eigs (-7) ![1, 0] (by norm_num [dotProduct, Fin.sum_univ_two])
    have e : (reflection *ᵥ ![1, 0] - (-7 : ℝ) • ![1, 0]) ⬝ᵥ (reflection *ᵥ ![1, 0] - (-7 : ℝ) • ![1, 0]) = 24 ^ 2 := by
      norm_num [reflection, Matrix.mulVec, dotProduct, Fin.sum_univ_two]
    rwa [e] at h

/-- Its quadratic form on the complement is `7`; without the pair all eigenvalues are between `-48` and `55`. -/
example {vals : List ℝ} (hv : Matrix.HasEigs (reflection - outerMatrix ![-7] !![1; 0]) vals) : ∀ y ∈ vals, -48 ≤ y ∧ y ≤ 55 := by
  have hV : (!![1; 0] : Matrix (Fin 2) (Fin 1) ℝ)ᵀ * (!![1; 0] : Matrix (Fin 2) (Fin 1) ℝ) = 1 := by
    ext i j
    fin_cases i; fin_cases j
    norm_num [Matrix.mul_apply, Fin.sum_univ_two]
  have hr : √(residualSquares reflection ![-7] !![1; 0]) = 24 := by
    rw [show residualSquares reflection ![-7] !![1; 0] = 24 ^ 2 by
      norm_num [residualSquares, residuals, reflection, Matrix.mulVec, dotProduct, Fin.sum_univ_two]]
    exact Real.sqrt_sq (by norm_num)
  have h := deflated_eigs_inexact reflection_symm ![-7] !![1; 0] hV (lo := 7) (hi := 7) (by
    intro z hz
    have h0 : z 0 = 0 := by simpa [Matrix.mulVec, dotProduct, Fin.sum_univ_two] using congrFun hz 0
    have : z ⬝ᵥ (reflection *ᵥ z) = 7 * (z ⬝ᵥ z) := by
      simp [reflection, Matrix.mulVec, dotProduct, Fin.sum_univ_two, h0]
      ring
    exact ⟨this.ge, this.le⟩) hv
  intro y hy
  have := h y hy
  rw [hr] at this
  norm_num at this
  exact ⟨by linarith [this.1], by linarith [this.2]⟩

/-- The variance of the estimate is smaller by twice `49`. -/
example {W : Type _} (E : Ext ℝ W) (w : (Fin 2 → ℝ) → W) (hw : DrawsNormal E w) :
    ∃ D, deflate (denseSci reflection) 2 [-7] [[1, 0]] = .ok D ∧ ∃ F G : (Fin 2 → ℝ) → ℝ,
      (∀ v, (hutchTrace (E.withOp D) 2 (.str "normal") (w v)).1 = .ok (F v)) ∧
      (∀ v, (hutchTrace (E.withOp (denseSci reflection)) 2 (.str "normal") (w v)).1 = .ok (G v)) ∧
      ∫ v, F v + -7 ∂stdNormal 2 = 0 ∧ ∫ v, (F v + -7 - 0) ^ 2 ∂stdNormal 2 = ∫ v, (G v - 0) ^ 2 ∂stdNormal 2 - 98 := by
  have hV : (!![1; 0] : Matrix (Fin 2) (Fin 1) ℝ)ᵀ * (!![1; 0] : Matrix (Fin 2) (Fin 1) ℝ) = 1 := by
    ext i j
    fin_cases i; fin_cases j
    norm_num [Matrix.mul_apply, Fin.sum_univ_two]
  have ht : reflection.trace = 0 := by norm_num [reflection, Matrix.trace, Fin.sum_univ_two]
  have := deflated_trace_inexact (denseSci_vecRep reflection) reflection_symm ![-7] !![1; 0] hV E w hw
  rw [(deflated_rayleigh reflection ![-7] !![1; 0] (by
    intro l
    fin_cases l
    norm_num [reflection, Matrix.mulVec, dotProduct, Fin.sum_univ_two])).1, ht] at this
  norm_num [List.ofFn_succ] at this
  norm_num
  exact this

end Curvlinops
