import Verif.Model.NetGradient
import Verif.Props.Net
import Verif.Props.Determinism
import Verif.Props.KfacInverseBound
import Verif.Props.NeumannRate
import Verif.Props.FisherMC
import Verif.Props.Range
import Verif.Props.Submatrix
import Mathlib.Analysis.Calculus.Deriv.Slope

/-!
# C102: preconditioned gradients decrease the empirical risk
-/

namespace Curvlinops

open Matrix

variable {P O : Nat}

/-! ## Specification -/

/-- Parameters after a step of length `t` against the direction `d`. -/
def stepTo (θ : Fin P → ℝ) (t : ℝ) (d : Fin P → ℝ) : Fin P → ℝ := fun i => θ i - t * d i

/-- Every sufficiently small step against the direction decreases the function. -/
def Decreases (F : (Fin P → ℝ) → ℝ) (θ d : Fin P → ℝ) : Prop :=
  ∃ t₀ > 0, ∀ t, 0 < t → t < t₀ → F (stepTo θ t d) < F θ

/-- Every sufficiently small step against the direction increases the function. -/
def Increases (F : (Fin P → ℝ) → ℝ) (θ d : Fin P → ℝ) : Prop :=
  ∃ t₀ > 0, ∀ t, 0 < t → t < t₀ → F θ < F (stepTo θ t d)

/-- Entries of a vector in tensor list format. -/
def entriesOf (D : List (Tensor ℝ)) : Fin P → ℝ := fun i => (flatData D).getD i 0

/-! ## The gradient -/

theorem pderiv_netLoss (red : Reduction) (ds : List (NetDatum P O)) (θ : Fin P → ℝ)
    (h : ∀ d ∈ ds, DifferentiableAt ℝ (fun θ => d.loss (d.f θ)) θ) (i : Fin P) :
    DifferentiableAt ℝ (netLoss red ds) θ ∧ pderiv (netLoss red ds) i θ =
      redScale red ds.length * (ds.map fun d => pderiv (fun θ => d.loss (d.f θ)) i θ).sum := by
  have key : DifferentiableAt ℝ (fun θ => (ds.map fun d => d.loss (d.f θ)).sum) θ ∧
      fderiv ℝ (fun θ => (ds.map fun d => d.loss (d.f θ)).sum) θ (Pi.single i 1) =
        (ds.map fun d => pderiv (fun θ => d.loss (d.f θ)) i θ).sum := by
    induction ds with
    | nil => simp
    | cons d ds ih =>
      obtain ⟨h1, h2⟩ := ih fun e he => h e (by simp [he])
      have h0 := h d (by simp)
      simp only [List.map_cons, List.sum_cons]
      refine ⟨h0.add h1, ?_⟩
      rw [fderiv_fun_add h0 h1, _root_.add_apply, h2, pderiv_eq_fderiv h0]
  have hd : DifferentiableAt ℝ (netLoss red ds) θ := key.1.const_mul _
  refine ⟨hd, ?_⟩
  rw [pderiv_eq_fderiv hd, ← key.2]
  unfold netLoss
  rw [fderiv_const_mul key.1]
  rfl

/-- C102: on every data set and batching, `gradient_and_loss` returns the empirical risk of the whole data set and its
partial derivatives. -/
theorem netGradient_spec (shapes : List (List Nat)) (hP : total shapes = P) (red : Reduction)
    (hred : red = .mean ∨ red = .sum) (θ : Fin P → ℝ) (batches : List (List (NetDatum P O))) (hne : ∀ b ∈ batches, b ≠ [])
    (h : ∀ b ∈ batches, ∀ d ∈ b, DifferentiableAt ℝ (fun θ => d.loss (d.f θ)) θ) :
    ∃ G, gradientAndLoss shapes red (inferNData List.length batches none) List.length
        (some (netLossGradBatch shapes red θ)) batches = .ok (G, empiricalRisk red batches.flatten θ) ∧ HasVec G shapes ∧
      DifferentiableAt ℝ (empiricalRisk red batches.flatten) θ ∧
      entriesOf G = fun i => pderiv (empiricalRisk red batches.flatten) i θ := by
  have hr : ∀ (l : NetDatum P O → ℝ) (ds : List (NetDatum P O)), riskValue red l ds = redScale red ds.length * (ds.map l).sum :=
    fun _ _ => rfl
  have hfl : ∀ d ∈ batches.flatten, DifferentiableAt ℝ (fun θ => d.loss (d.f θ)) θ := fun d hd => by
    obtain ⟨b, h1, h2⟩ := List.mem_flatten.mp hd; exact h b h1 d h2
  obtain ⟨G, g1, g2, g3⟩ := gradientAndLoss_spec shapes red hred (fun d : NetDatum P O => d.loss (d.f θ))
    (fun d r => if h : r < P then pderiv (fun θ => d.loss (d.f θ)) ⟨r, h⟩ θ else 0) (netLossGradBatch shapes red θ) batches hne
    (fun b _ => rfl) (fun b _ => by
      have := vjp_spec (fun _ p => if h : p < P then pderiv (netLoss red b) ⟨p, h⟩ θ else 0) shapes ⟨[], [1]⟩
      exact this.1) (fun b hb r hrt => by
      have hrP : r < P := hP ▸ hrt
      rw [netLossGradBatch, (vjp_spec _ shapes _).2 r hrt, hr]
      simp only [List.prod_nil, Finset.sum_range_one, dif_pos hrP, List.getD_cons_zero, mul_one]
      exact (pderiv_netLoss red b θ (h b hb) ⟨r, hrP⟩).2)
  refine ⟨G, ?_, g2, ?_, funext fun i => ?_⟩
  · rw [g1, empiricalRisk_eq]; rfl
  · rw [empiricalRisk_eq]
    by_cases hz : 0 < P
    · exact (pderiv_netLoss red _ θ hfl ⟨0, hz⟩).1
    · have : Subsingleton (Fin P → ℝ) := ⟨fun a b => funext fun i => absurd i.pos hz⟩
      have hc : netLoss red batches.flatten = fun _ => netLoss red batches.flatten θ :=
        funext fun x => by rw [Subsingleton.elim x θ]
      rw [hc]; exact differentiableAt_const _
  · rw [empiricalRisk_eq, (pderiv_netLoss red _ θ hfl i).2, entriesOf, g3 i (hP ▸ i.2), hr]
    simp only [dif_pos i.2, Fin.eta]

/-! ## Directional derivatives -/

theorem fderiv_apply_eq_sum {F : (Fin P → ℝ) → ℝ} {θ : Fin P → ℝ} (h : DifferentiableAt ℝ F θ) (d : Fin P → ℝ) :
    fderiv ℝ F θ d = ∑ i, pderiv F i θ * d i := by
  refine ((fderiv ℝ F θ).toLinearMap.pi_apply_eq_sum_univ d).trans ?_
  refine Finset.sum_congr rfl fun i _ => ?_
  have e : (fun j => if i = j then (1 : ℝ) else 0) = Pi.single i 1 := by
    funext j
    by_cases hj : i = j <;> simp [hj, eq_comm]
  rw [pderiv_eq_fderiv h, smul_eq_mul, mul_comm, e]
  rfl

theorem hasDerivAt_step {F : (Fin P → ℝ) → ℝ} {θ : Fin P → ℝ} (h : DifferentiableAt ℝ F θ) (d : Fin P → ℝ) :
    HasDerivAt (fun t => F (stepTo θ t d)) (-∑ i, pderiv F i θ * d i) 0 := by
  have h0 : stepTo θ 0 d = θ := by funext i; simp [stepTo]
  have hs : HasDerivAt (fun t : ℝ => stepTo θ t d) (-d) 0 := by
    rw [hasDerivAt_pi]
    intro i
    have := ((hasDerivAt_id (0 : ℝ)).mul_const (d i)).const_sub (θ i)
    simpa [stepTo] using this
  have hF : HasFDerivAt F (fderiv ℝ F θ) (stepTo θ 0 d) := by rw [h0]; exact h.hasFDerivAt
  have := hF.comp_hasDerivAt 0 hs
  rw [map_neg, fderiv_apply_eq_sum h] at this
  exact this

theorem decreases_of_pos {F : (Fin P → ℝ) → ℝ} {θ d : Fin P → ℝ} (h : DifferentiableAt ℝ F θ)
    (hd : 0 < ∑ i, pderiv F i θ * d i) : Decreases F θ d := by
  have h1 := (hasDerivAt_step h d).tendsto_slope_zero_right
  have h2 := h1.eventually_lt_const (u := 0) (by linarith)
  obtain ⟨u, hu, hsub⟩ := mem_nhdsGT_iff_exists_Ioo_subset.mp h2
  refine ⟨u, hu, fun t ht htu => ?_⟩
  have h3 : t⁻¹ • (F (stepTo θ (0 + t) d) - F (stepTo θ 0 d)) < 0 := hsub ⟨ht, htu⟩
  have h0 : stepTo θ 0 d = θ := by funext i; simp [stepTo]
  rw [zero_add, h0, smul_eq_mul] at h3
  by_contra hc
  have : 0 ≤ t⁻¹ * (F (stepTo θ t d) - F θ) := mul_nonneg (inv_nonneg.mpr ht.le) (by linarith)
  linarith

/-! ## Positive definite preconditioners -/

/-- The product on the operator with a vector in tensor list format. -/
theorem matmul_entries (op : LinOp ℝ) (shapes : List (List Nat)) (hP : total shapes = P) (hin : op.inShape = shapes)
    (hout : op.outShape = shapes) (E : Mat ℝ) (hE : Represents op E) (G : List (Tensor ℝ)) (hG : HasVec G shapes) :
    ∃ D, (op.matmul (.list G)).1 = .ok (.list D) ∧ HasVec D shapes ∧
      ∀ i : Fin P, entriesOf D i = ∑ k : Fin P, E i k * entriesOf G k := by
  obtain ⟨Y, y1, y2, y3, y4, y5⟩ := matmul_correct op E (.list G) .vec (hE 1) hG.2
    (by rw [hin]; exact hG.1.trans (by simp [Fmt.dims])) (.inr (.inl rfl)) (.inr ⟨G, rfl⟩)
  cases Y with
  | tensor t => exact y2.elim
  | other => exact y2.elim
  | list D =>
    have hr : op.nrows = P := by unfold LinOp.nrows LinOp.outFlat; rw [hout]; exact hP
    have hc : op.ncols = P := by unfold LinOp.ncols LinOp.inFlat; rw [hin]; exact hP
    rw [hr, hc] at y5
    refine ⟨D, y1, ⟨?_, y4⟩, fun i => ?_⟩
    · have : D.map (·.shape) = op.outShape.map (· ++ []) := y3
      rw [this, hout]; simp
    · have := y5.2 i i.2 0 (by simp [Fmt.cols])
      simp only [Fmt.cols, Nat.mul_one, Nat.add_zero, PyVal.entries, Finset.sum_range] at this
      exact this

/-- The leading `P × P` part is positive definite. -/
def PosDefPart (P : Nat) (E : Mat ℝ) : Prop := ∀ v : Fin P → ℝ, v ≠ 0 → 0 < ∑ i, v i * ∑ k : Fin P, E i k * v k

/-- C102: multiplying the gradient with any operator whose matrix is positive definite gives a direction against which
every sufficiently small step decreases the function, unless the gradient is zero; then the direction is zero. -/
theorem descent (F : (Fin P → ℝ) → ℝ) (θ : Fin P → ℝ) (hF : DifferentiableAt ℝ F θ) (op : LinOp ℝ) (shapes : List (List Nat))
    (hP : total shapes = P) (hin : op.inShape = shapes) (hout : op.outShape = shapes) (E : Mat ℝ) (hE : Represents op E)
    (hpos : PosDefPart P E) (G : List (Tensor ℝ)) (hG : HasVec G shapes) (hg : entriesOf G = fun i => pderiv F i θ) :
    ∃ D, (op.matmul (.list G)).1 = .ok (.list D) ∧ HasVec D shapes ∧
      ((∀ i, pderiv F i θ = 0) → entriesOf D = (0 : Fin P → ℝ)) ∧
      ((∃ i, pderiv F i θ ≠ 0) → Decreases F θ (entriesOf D)) := by
  obtain ⟨D, d1, d2, d3⟩ := matmul_entries op shapes hP hin hout E hE G hG
  refine ⟨D, d1, d2, fun h0 => ?_, fun ⟨i, hi⟩ => decreases_of_pos hF ?_⟩
  · funext i
    rw [d3 i, hg]
    simp [h0]
  · have := hpos (fun i => pderiv F i θ) fun h => hi (congrFun h i)
    refine lt_of_lt_of_eq this (Finset.sum_congr rfl fun i _ => ?_)
    rw [d3 i, hg]

/-- A vector on the first `P` indices. -/
noncomputable def extend (v : Fin P → ℝ) : Nat → ℝ := fun r => if h : r < P then v ⟨r, h⟩ else 0

theorem extend_fin (v : Fin P → ℝ) (i : Fin P) : extend v i = v i := by simp [extend]

theorem BoundedInverse.fin {c : ℝ} {E : Mat ℝ} (h : BoundedInverse P c E) : PosDefPart P E ∧
    (∀ i k : Fin P, E i k = E k i) ∧
    ∀ v : Fin P → ℝ, c * ∑ i, v i * ∑ k : Fin P, E i k * v k ≤ ∑ i, v i ^ 2 := by
  refine ⟨fun v hv => ?_, fun i k => h.symm i i.2 k k.2, fun v => ?_⟩
  · obtain ⟨i, hi⟩ := Function.ne_iff.mp hv
    have := h.pos (extend v) ⟨i, i.2, by rw [extend_fin]; exact hi⟩
    simpa only [Finset.sum_range, extend_fin] using this
  · have := h.quad_le (extend v)
    simpa only [Finset.sum_range, extend_fin] using this

/-- For a symmetric positive semi-definite matrix bounded by `1 / c`, the squared norm of a product is at most the inner
product, divided by `c`. -/
theorem sq_product_le {c : ℝ} (hc : 0 < c) (E : Matrix (Fin P) (Fin P) ℝ) (hs : Eᵀ = E) (h0 : ∀ v, 0 ≤ v ⬝ᵥ E *ᵥ v)
    (hb : ∀ v, c * (v ⬝ᵥ E *ᵥ v) ≤ v ⬝ᵥ v) (g : Fin P → ℝ) : c * ((E *ᵥ g) ⬝ᵥ (E *ᵥ g)) ≤ g ⬝ᵥ E *ᵥ g := by
  have h1 := h0 (g - c • (E *ᵥ g))
  have h2 := hb (E *ᵥ g)
  have e1 : g ⬝ᵥ E *ᵥ (E *ᵥ g) = (E *ᵥ g) ⬝ᵥ (E *ᵥ g) := by
    rw [Matrix.dotProduct_mulVec, ← Matrix.mulVec_transpose, hs]
  have e2 : (g - c • (E *ᵥ g)) ⬝ᵥ E *ᵥ (g - c • (E *ᵥ g)) =
      g ⬝ᵥ E *ᵥ g - 2 * c * ((E *ᵥ g) ⬝ᵥ (E *ᵥ g)) + c * (c * ((E *ᵥ g) ⬝ᵥ E *ᵥ (E *ᵥ g))) := by
    rw [Matrix.mulVec_sub, Matrix.mulVec_smul, sub_dotProduct, dotProduct_sub, dotProduct_sub, smul_dotProduct,
      smul_dotProduct, dotProduct_smul, dotProduct_smul, e1]
    simp only [smul_eq_mul]
    ring
  rw [e2] at h1
  nlinarith

/-- C102: if the matrix of the preconditioner is symmetric, positive definite and bounded by `1 / c`, and the function is
bounded by its tangent plus `L / 2` times the squared distance, then a step of length `t` decreases the function at
least by `t (1 - L t / (2 c))` times the inner product of gradient and direction; all steps `0 < t < 2 c / L` decrease. -/
theorem descent_step (F : (Fin P → ℝ) → ℝ) (θ : Fin P → ℝ) (L : ℝ) (hL0 : 0 ≤ L)
    (hL : ∀ v : Fin P → ℝ, F (fun i => θ i + v i) ≤ F θ + ∑ i, pderiv F i θ * v i + L / 2 * ∑ i, v i ^ 2) (op : LinOp ℝ)
    (shapes : List (List Nat)) (hP : total shapes = P) (hin : op.inShape = shapes) (hout : op.outShape = shapes) (E : Mat ℝ)
    (hE : Represents op E) (c : ℝ) (hc : 0 < c) (hb : BoundedInverse P c E) (G : List (Tensor ℝ)) (hG : HasVec G shapes)
    (hg : entriesOf G = fun i => pderiv F i θ) :
    ∃ D, (op.matmul (.list G)).1 = .ok (.list D) ∧ HasVec D shapes ∧
      (∀ t, 0 ≤ t → F (stepTo θ t (entriesOf D)) ≤
        F θ - t * (1 - L * t / (2 * c)) * ∑ i, pderiv F i θ * entriesOf D i) ∧
      ((∃ i, pderiv F i θ ≠ 0) → ∀ t, 0 < t → L * t < 2 * c → F (stepTo θ t (entriesOf D)) < F θ) := by
  obtain ⟨D, d1, d2, d3⟩ := matmul_entries op shapes hP hin hout E hE G hG
  obtain ⟨hpos, hsym, hq⟩ := hb.fin
  let E' : Matrix (Fin P) (Fin P) ℝ := Matrix.of fun i k => E i k
  let g : Fin P → ℝ := fun i => pderiv F i θ
  have hD : (entriesOf D : Fin P → ℝ) = E' *ᵥ g := by
    funext i; rw [d3 i, hg]; rfl
  have hsq : ∀ v : Fin P → ℝ, v ⬝ᵥ v = ∑ i, v i ^ 2 := fun v => Finset.sum_congr rfl fun _ _ => (pow_two _).symm
  have hn : ∀ v : Fin P → ℝ, 0 ≤ v ⬝ᵥ E' *ᵥ v := by
    intro v
    by_cases hv : v = 0
    · simp [hv]
    · exact (hpos v hv).le
  have key := sq_product_le hc E' (by ext i k; exact hsym k i) hn (fun v => by rw [hsq]; exact hq v) g
  have hgD : ∑ i, pderiv F i θ * entriesOf D i = g ⬝ᵥ E' *ᵥ g := by rw [hD]; rfl
  have hstep : ∀ t, 0 ≤ t → F (stepTo θ t (entriesOf D)) ≤
      F θ - t * (1 - L * t / (2 * c)) * ∑ i, pderiv F i θ * entriesOf D i := by
    intro t ht
    have h1 := hL fun i => -(t * entriesOf D i)
    have e1 : (fun i => θ i + -(t * entriesOf D i)) = stepTo θ t (entriesOf D) := by funext i; simp [stepTo, sub_eq_add_neg]
    have e2 : ∑ i, pderiv F i θ * -(t * entriesOf D i) = -(t * ∑ i, pderiv F i θ * entriesOf D i) := by
      rw [Finset.mul_sum, ← Finset.sum_neg_distrib]
      exact Finset.sum_congr rfl fun i _ => by ring
    have e3 : ∑ i, (-(t * (entriesOf D : Fin P → ℝ) i)) ^ 2 = t ^ 2 * ((E' *ᵥ g) ⬝ᵥ (E' *ᵥ g)) := by
      rw [hsq, Finset.mul_sum, hD]
      exact Finset.sum_congr rfl fun i _ => by ring
    rw [e1, e2, e3] at h1
    rw [hgD] at h1 ⊢
    have h2 : L / 2 * (t ^ 2 * ((E' *ᵥ g) ⬝ᵥ (E' *ᵥ g))) ≤ L * t ^ 2 / (2 * c) * (g ⬝ᵥ E' *ᵥ g) := by
      have : (E' *ᵥ g) ⬝ᵥ (E' *ᵥ g) ≤ (g ⬝ᵥ E' *ᵥ g) / c := by rw [le_div_iff₀ hc]; linarith
      have h3 := mul_le_mul_of_nonneg_left this (a := L / 2 * t ^ 2) (by positivity)
      calc L / 2 * (t ^ 2 * ((E' *ᵥ g) ⬝ᵥ (E' *ᵥ g))) = L / 2 * t ^ 2 * ((E' *ᵥ g) ⬝ᵥ (E' *ᵥ g)) := by ring
        _ ≤ L / 2 * t ^ 2 * ((g ⬝ᵥ E' *ᵥ g) / c) := h3
        _ = L * t ^ 2 / (2 * c) * (g ⬝ᵥ E' *ᵥ g) := by field_simp
    have h4 : t * (1 - L * t / (2 * c)) * (g ⬝ᵥ E' *ᵥ g) = t * (g ⬝ᵥ E' *ᵥ g) - L * t ^ 2 / (2 * c) * (g ⬝ᵥ E' *ᵥ g) := by
      field_simp
    rw [h4]
    linarith
  refine ⟨D, d1, d2, hstep, fun ⟨i, hi⟩ t ht htc => ?_⟩
  have h1 := hstep t ht.le
  have h2 : 0 < ∑ i, pderiv F i θ * entriesOf D i := by
    rw [hgD]; exact hpos g fun h => hi (congrFun h i)
  have h3 : 0 < 1 - L * t / (2 * c) := by
    rw [sub_pos, div_lt_one (by positivity)]; exact htc
  have := mul_pos (mul_pos ht h3) h2
  linarith

/-! ## Solutions of linear systems -/

/-- For a symmetric positive semi-definite matrix, `vᵀ M v = 0` only if `M v = 0`. -/
theorem psd_kernel (M : Matrix (Fin P) (Fin P) ℝ) (hs : Mᵀ = M) (h0 : ∀ v, 0 ≤ v ⬝ᵥ M *ᵥ v) (v : Fin P → ℝ)
    (hv : v ⬝ᵥ M *ᵥ v = 0) : M *ᵥ v = 0 := by
  have e : ∀ x : ℝ, 0 ≤ -(2 * x) * ((M *ᵥ v) ⬝ᵥ (M *ᵥ v)) + x ^ 2 * ((M *ᵥ v) ⬝ᵥ M *ᵥ (M *ᵥ v)) := by
    intro x
    have h1 := h0 (v - x • (M *ᵥ v))
    have e1 : v ⬝ᵥ M *ᵥ (M *ᵥ v) = (M *ᵥ v) ⬝ᵥ (M *ᵥ v) := by
      rw [Matrix.dotProduct_mulVec, ← Matrix.mulVec_transpose, hs]
    rw [Matrix.mulVec_sub, Matrix.mulVec_smul, sub_dotProduct, dotProduct_sub, dotProduct_sub, smul_dotProduct,
      smul_dotProduct, dotProduct_smul, dotProduct_smul, e1, hv] at h1
    simp only [smul_eq_mul] at h1
    linarith
  by_contra hne
  have hp : 0 < (M *ᵥ v) ⬝ᵥ (M *ᵥ v) := by
    rw [← sqNorm_eq]
    obtain ⟨i, hi⟩ := Function.ne_iff.mp hne
    exact Finset.sum_pos' (fun _ _ => sq_nonneg _) ⟨i, Finset.mem_univ _, sq_pos_of_ne_zero hi⟩
  set a := (M *ᵥ v) ⬝ᵥ (M *ᵥ v)
  set b := (M *ᵥ v) ⬝ᵥ M *ᵥ (M *ᵥ v)
  have hb : 0 ≤ b := h0 _
  have := e (a / (b + 1))
  have h5 : -(2 * (a / (b + 1))) * a + (a / (b + 1)) ^ 2 * b = -(a ^ 2 / (b + 1)) * ((b + 2) / (b + 1)) := by
    field_simp; ring
  rw [h5] at this
  have h6 : 0 < a ^ 2 / (b + 1) * ((b + 2) / (b + 1)) := by positivity
  linarith

/-- C102: every solution of a system with a symmetric positive semi-definite operator, damped or undamped, and the gradient
as right-hand side is a direction against which every sufficiently small step decreases the function. -/
theorem solution_descent (F : (Fin P → ℝ) → ℝ) (θ : Fin P → ℝ) (hF : DifferentiableAt ℝ F θ) (op : LinOp ℝ)
    (shapes : List (List Nat)) (hP : total shapes = P) (hin : op.inShape = shapes) (hout : op.outShape = shapes) (M : Mat ℝ)
    (hM : Represents op M) (hsym : ∀ r c, M r c = M c r) (hpsd : QuadNonneg P M) (δ : ℝ) (hδ : 0 ≤ δ)
    (X Y : List (Tensor ℝ)) (hX : HasVec X shapes) (hY : (op.matmul (.list X)).1 = .ok (.list Y))
    (hsol : ∀ i : Fin P, entriesOf Y i + δ * entriesOf X i = pderiv F i θ) (hne : ∃ i, pderiv F i θ ≠ 0) :
    Decreases F θ (entriesOf X) := by
  obtain ⟨D, d1, d2, d3⟩ := matmul_entries op shapes hP hin hout M hM X hX
  obtain rfl : Y = D := by simpa using hY.symm.trans d1
  let M' : Matrix (Fin P) (Fin P) ℝ := Matrix.of fun i k => M i k
  let x : Fin P → ℝ := entriesOf X
  have hg : (fun i => pderiv F i θ) = M' *ᵥ x + δ • x := by
    funext i; rw [← hsol i, d3 i]; rfl
  have h0 : ∀ v, 0 ≤ v ⬝ᵥ M' *ᵥ v := by
    intro v
    have := hpsd (extend v)
    simp only [Finset.sum_range, extend_fin] at this
    refine this.trans_eq (Finset.sum_congr rfl fun i _ => ?_)
    show _ = v i * ∑ k : Fin P, M i k * v k
    rw [Finset.mul_sum]
    exact Finset.sum_congr rfl fun k _ => by ring
  have hx0 : 0 ≤ x ⬝ᵥ x := by rw [← sqNorm_eq]; exact Finset.sum_nonneg fun _ _ => sq_nonneg _
  have hdot : ∑ i, pderiv F i θ * entriesOf X i = x ⬝ᵥ M' *ᵥ x + δ * (x ⬝ᵥ x) := by
    have : ∑ i, pderiv F i θ * entriesOf X i = (fun i => pderiv F i θ) ⬝ᵥ x := rfl
    rw [this, hg, add_dotProduct, smul_dotProduct, dotProduct_comm (M' *ᵥ x), smul_eq_mul]
  refine decreases_of_pos hF ?_
  rw [hdot]
  have hx := h0 x
  refine lt_of_le_of_ne (by positivity) fun heq => ?_
  have hd := mul_nonneg hδ hx0
  have h1 : x ⬝ᵥ M' *ᵥ x = 0 := by linarith
  have h2 : δ * (x ⬝ᵥ x) = 0 := by linarith
  have h3 : M' *ᵥ x = 0 := psd_kernel M' (by ext i k; exact hsym k i) h0 x h1
  have h4 : δ • x = 0 := by
    rcases mul_eq_zero.mp h2 with h | h
    · rw [h, zero_smul]
    · rw [dotProduct_self_eq_zero.mp h, smul_zero]
  obtain ⟨i, hi⟩ := hne
  exact hi (by have := congrFun hg i; rw [h3, h4] at this; simpa using this)

/-- C102: for the GGN and the empirical Fisher of the three losses, on any data, damped or not. -/
theorem curvature_solutions_descend {k : LossKind} {C : Nat} (F : (Fin P → ℝ) → ℝ) (θ : Fin P → ℝ)
    (hF : DifferentiableAt ℝ F θ) (hne : ∃ i, pderiv F i θ ≠ 0) (shapes : List (List Nat)) (hP : total shapes = P)
    (hshapes : shapes ≠ []) (mean : Bool) (T : Nat) (batches : List (List (List (Term k C)))) (hb : ∀ b ∈ batches, b ≠ [])
    (hT : ∀ b ∈ batches, ∀ d ∈ b, d.length = T) (op : LinOp ℝ)
    (hop : op = curvatureOp shapes (redOf mean) (inferNData List.length batches none) List.length
        (fun b => ggnLossBatch shapes mean b.flatten) batches ∨
      op = curvatureOp shapes (redOf mean) (inferNData List.length batches none) List.length
        (fun b => efBatch shapes mean b.flatten) batches)
    (δ : ℝ) (hδ : 0 ≤ δ) (X Y : List (Tensor ℝ)) (hX : HasVec X shapes) (hY : (op.matmul (.list X)).1 = .ok (.list Y))
    (hsol : ∀ i : Fin P, entriesOf Y i + δ * entriesOf X i = pderiv F i θ) : Decreases F θ (entriesOf X) := by
  rcases hop with rfl | rfl
  · exact solution_descent F θ hF _ shapes hP (curvatureOp_inShape _ _ _ _ _ _) (curvatureOp_outShape _ _ _ _ _ _) _
      (ggnLossOp_represents shapes hshapes mean T batches hb hT) (ggnLoss_symm_psd mean T P _).1
      (ggnLoss_symm_psd mean T P _).2 δ hδ X Y hX hY hsol hne
  · exact solution_descent F θ hF _ shapes hP (curvatureOp_inShape _ _ _ _ _ _) (curvatureOp_outShape _ _ _ _ _ _) _
      (efOp_represents shapes hshapes mean T batches hb hT) (ef_symm_psd mean T P _).1
      (ef_symm_psd mean T P _).2 δ hδ X Y hX hY hsol hne

/-- C102: for the Monte-Carlo Fisher, whatever the generator draws. -/
theorem mc_solutions_descend {k : LossKind} {C : Nat} (F : (Fin P → ℝ) → ℝ) (θ : Fin P → ℝ)
    (hF : DifferentiableAt ℝ F θ) (hne : ∃ i, pderiv F i θ ≠ 0) (rng : Rng k C) (cfg : McConfig k C)
    (hP : total cfg.shapes = P) (hS : cfg.mcSamples ≠ 0) (hshapes : cfg.shapes ≠ []) (T : Nat)
    (hb : ∀ b ∈ cfg.data, b ≠ []) (hT : ∀ b ∈ cfg.data, ∀ d ∈ b, d.length = T)
    (hbin : ∀ b ∈ cfg.data, BinaryTargets k b.flatten) (hN : cfg.nData = cfg.data.flatten.length) (st : McState rng)
    (δ : ℝ) (hδ : 0 ≤ δ) (X Y : List (Tensor ℝ)) (hX : HasVec X cfg.shapes)
    (hY : ((mcOp rng cfg st).matmul (.list X)).1 = .ok (.list Y))
    (hsol : ∀ i : Fin P, entriesOf Y i + δ * entriesOf X i = pderiv F i θ) : Decreases F θ (entriesOf X) := by
  obtain ⟨lbs, -, hr⟩ := mcOp_represents rng cfg hS hshapes T hb hT hbin hN st
  exact solution_descent F θ hF _ cfg.shapes hP rfl rfl _ hr (mcMatrix_symm_psd _ _ _ P _).1 (mcMatrix_symm_psd _ _ _ P _).2
    δ hδ X Y hX hY hsol hne

/-! ## The inverse of KFAC -/

/-- Specification: on this data set, loss and parameters, `gradient_and_loss` succeeds, the product of the operator with the
gradient succeeds, and stepping against the result decreases the empirical risk of the whole data set: all sufficiently
small steps, and if the risk is bounded by its tangent plus `L / 2` times the squared distance, all `0 < t < 2 c / L`. -/
def StepDecreasesRisk (op : LinOp ℝ) (shapes : List (List Nat)) (red : Reduction) (batches : List (List (NetDatum P O)))
    (θ : Fin P → ℝ) (c : ℝ) : Prop :=
  ∃ G D, gradientAndLoss shapes red (inferNData List.length batches none) List.length
      (some (netLossGradBatch shapes red θ)) batches = .ok (G, empiricalRisk red batches.flatten θ) ∧
    (op.matmul (.list G)).1 = .ok (.list D) ∧ HasVec D shapes ∧
    ((∃ i, pderiv (empiricalRisk red batches.flatten) i θ ≠ 0) →
      Decreases (empiricalRisk red batches.flatten) θ (entriesOf D) ∧
      ∀ L, 0 ≤ L → (∀ v : Fin P → ℝ, empiricalRisk red batches.flatten (fun i => θ i + v i) ≤
          empiricalRisk red batches.flatten θ + ∑ i, pderiv (empiricalRisk red batches.flatten) i θ * v i +
            L / 2 * ∑ i, v i ^ 2) →
        ∀ t, 0 < t → L * t < 2 * c →
          empiricalRisk red batches.flatten (stepTo θ t (entriesOf D)) < empiricalRisk red batches.flatten θ)

theorem stepDecreasesRisk_of_bounded (op : LinOp ℝ) (shapes : List (List Nat)) (hP : total shapes = P)
    (hin : op.inShape = shapes) (hout : op.outShape = shapes) (c : ℝ) (hc : 0 < c)
    (hE : ∃ E, Represents op E ∧ BoundedInverse (shapes.map List.prod).sum c E) (red : Reduction)
    (hred : red = .mean ∨ red = .sum) (batches : List (List (NetDatum P O))) (hne : ∀ b ∈ batches, b ≠ []) (θ : Fin P → ℝ)
    (h : ∀ b ∈ batches, ∀ d ∈ b, DifferentiableAt ℝ (fun θ => d.loss (d.f θ)) θ) :
    StepDecreasesRisk op shapes red batches θ c := by
  obtain ⟨E, hE, hb⟩ := hE
  have hb : BoundedInverse P c E := hP ▸ hb
  obtain ⟨G, g1, g2, g3, g4⟩ := netGradient_spec shapes hP red hred θ batches hne h
  obtain ⟨D, d1, d2, -, d4⟩ := descent _ θ g3 op shapes hP hin hout E hE hb.fin.1 G g2 g4
  refine ⟨G, D, g1, d1, d2, fun hn => ⟨d4 hn, fun L hL0 hL t ht htc => ?_⟩⟩
  obtain ⟨D', e1, -, -, e4⟩ := descent_step _ θ L hL0 hL op shapes hP hin hout E hE c hc hb G g2 g4
  obtain rfl : D = D' := by simpa using d1.symm.trans e1
  exact e4 hn t ht htc

section
variable {Θ B W : Type} (w : KWorld Θ B W) (s₀ : KState Θ) (hf : s₀.IsFresh) (hg : w.Good s₀.cfg) (la : LinAlg)
  (hla : la.Correct) (dt : FloatType) (shapes : List (List Nat)) (layers : List (Layer ℝ))
  (hK : KfacLayers s₀.cfg.sep shapes w.mapping (w.factors s₀).1 (w.factors s₀).2 layers) (cfg : InvCfg)
  (hP : total shapes = P) (red : Reduction) (hred : red = .mean ∨ red = .sum) (batches : List (List (NetDatum P O)))
  (hne : ∀ b ∈ batches, b ≠ []) (θ : Fin P → ℝ)
  (h : ∀ b ∈ batches, ∀ d ∈ b, DifferentiableAt ℝ (fun θ => d.loss (d.f θ)) θ) (δ : ℝ) (hδ : cfg.damping = .value δ)
  (hpos : 0 < δ)
include hf hg hla hK hP hred hne h hδ hpos

/-- C102: gradients preconditioned with the exactly damped inverse of KFAC decrease the empirical risk; with `δ > L / 2`,
the full step `t = 1` does. The KFAC may be of any data, labels and parameters. -/
theorem kfac_exact_descent (hex : cfg.exact = true) :
    StepDecreasesRisk (KInvState.op w la dt shapes ⟨s₀, cfg, []⟩) shapes red batches θ δ :=
  stepDecreasesRisk_of_bounded _ shapes hP rfl rfl δ hpos
    (kfacInverse_exact_bounded w s₀ hf hg la hla dt shapes layers hK cfg hex δ hδ hpos) red hred batches hne θ h

/-- C102: with both factors damped by the same value. -/
theorem kfac_value_descent (hex : cfg.exact = false) (hh : cfg.heuristic = false) :
    StepDecreasesRisk (KInvState.op w la dt shapes ⟨s₀, cfg, []⟩) shapes red batches θ (min δ (δ ^ 2)) :=
  stepDecreasesRisk_of_bounded _ shapes hP rfl rfl _ (lt_min hpos (by positivity))
    (kfacInverse_value_bounded w s₀ hf hg la hla dt shapes layers hK cfg hex hh δ hδ hpos _ (lt_min hpos (by positivity))
      (min_le_right _ _) fun _ _ _ => min_le_left _ _) red hred batches hne θ h

/-- C102: with the heuristic, if no factor has mean eigenvalue zero and biases are joint with weights. -/
theorem kfac_heuristic_descent (hex : cfg.exact = false) (hh : cfg.heuristic = true)
    (hl : ∀ l ∈ layers, l.pos.hasWeight = true ∧ l.pos.ownBias s₀.cfg.sep = false)
    (hm : ∀ l ∈ layers, 0 < l.A.eigMean ∧ 0 < l.B.eigMean) :
    StepDecreasesRisk (KInvState.op w la dt shapes ⟨s₀, cfg, []⟩) shapes red batches θ δ :=
  stepDecreasesRisk_of_bounded _ shapes hP rfl rfl δ hpos
    (kfacInverse_heuristic_bounded w s₀ hf hg la hla dt shapes layers hK cfg hex hh δ hδ hpos hl hm) red hred batches hne θ h

end

/-- The hypotheses are satisfiable: the squared loss of a linear model of one parameter, preconditioned with the inverse of
KFAC in the unit example. -/
example (la : LinAlg) (hla : la.Correct) : StepDecreasesRisk
    (KInvState.op unitWorld la .lower [[1, 1]] ⟨unitState, ⟨.value 1, false, 0, true, true, true⟩, []⟩) [[1, 1]] .mean
    [[⟨fun θ _ => 3 * θ 0, fun f => (f 0 - 1) ^ 2⟩], [⟨fun θ _ => θ 0, fun f => (f 0) ^ 2⟩]]
    (fun _ => (2 : ℝ) : Fin 1 → ℝ) 1 (O := 1) := by
  refine kfac_exact_descent unitWorld unitState unitState_fresh unitWorld_good la hla .lower [[1, 1]] [unitLayer] unit_layers
    _ rfl .mean (.inl rfl) _ (fun b hb => ?_) _ (fun b hb d hd => ?_) 1 rfl one_pos rfl
  · rcases List.mem_pair.mp hb with rfl | rfl <;> exact List.cons_ne_nil _ _
  · rcases List.mem_pair.mp hb with rfl | rfl <;> rw [List.mem_singleton.mp hd] <;> fun_prop

/-! ## Truncated Neumann series -/

theorem geom_pos (x : ℝ) (h1 : -1 < x) (h2 : x ≤ 1) (T : Nat) : 0 < ∑ k ∈ Finset.range (T + 1), x ^ k := by
  rcases eq_or_lt_of_le h2 with rfl | hlt
  · simp; positivity
  · rw [geom_sum_eq hlt.ne, ← neg_div_neg_eq]
    refine div_pos ?_ (by linarith)
    have : |x| ^ (T + 1) < 1 := pow_lt_one₀ (abs_nonneg _) (abs_lt.mpr ⟨h1, hlt⟩) (by omega)
    have h3 := le_abs_self (x ^ (T + 1))
    rw [abs_pow] at h3
    linarith

theorem neumannSum_pos {n : Nat} (M : Matrix (Fin n) (Fin n) ℝ) (hM : Mᵀ = M) (s : ℝ) (hs : 0 < s) (T : Nat)
    (hl : ∀ l, IsEigenvalue M l → 0 ≤ l ∧ s * l < 2) (g : Fin n → ℝ) (hg : g ≠ 0) : 0 < g ⬝ᵥ neumannSum M s T g := by
  obtain ⟨U, d, hU, hU', hMd⟩ := exists_eigendecomposition M hM
  have hd : ∀ j, 0 ≤ d j ∧ s * d j < 2 := fun j =>
    hl _ ⟨_, (eigendecomposition_col hU hMd j).2, (eigendecomposition_col hU hMd j).1⟩
  have hB : (1 - s • M) = U * diagonal (fun j => 1 - s * d j) * Uᵀ := by
    have : diagonal (fun j => 1 - s * d j) = (1 : Matrix (Fin n) (Fin n) ℝ) - s • diagonal d := by
      rw [← diagonal_one, ← diagonal_smul, diagonal_sub]; rfl
    rw [this, Matrix.mul_sub, Matrix.sub_mul, Matrix.mul_one, hU', Matrix.mul_smul, Matrix.smul_mul, ← hMd]
  have e : g ⬝ᵥ neumannSum M s T g = s * ∑ j, (∑ k ∈ Finset.range (T + 1), (1 - s * d j) ^ k) * ((Uᵀ *ᵥ g) j) ^ 2 := by
    have hk : ∀ k, g ⬝ᵥ ((1 - s • M) ^ k) *ᵥ g = ∑ j, (1 - s * d j) ^ k * ((Uᵀ *ᵥ g) j) ^ 2 := by
      intro k
      rw [hB, eigendecomposition_pow _ hU hU', Matrix.mul_assoc, ← Matrix.mulVec_mulVec, ← Matrix.mulVec_mulVec,
        Matrix.dotProduct_mulVec, ← Matrix.mulVec_transpose]
      refine Finset.sum_congr rfl fun j _ => ?_
      rw [Matrix.mulVec_diagonal]
      ring
    unfold neumannSum
    rw [dotProduct_smul, smul_eq_mul, Matrix.sum_mulVec, dotProduct_sum, Finset.sum_congr rfl fun k _ => hk k,
      Finset.sum_comm]
    simp only [Finset.sum_mul]
  rw [e]
  refine mul_pos hs ?_
  have hne : Uᵀ *ᵥ g ≠ 0 := by
    intro h0
    refine hg ?_
    rw [← Matrix.one_mulVec g, ← hU', ← Matrix.mulVec_mulVec, h0, Matrix.mulVec_zero]
  obtain ⟨j, hj⟩ := Function.ne_iff.mp hne
  have hp : ∀ j, 0 < ∑ k ∈ Finset.range (T + 1), (1 - s * d j) ^ k := fun j =>
    geom_pos _ (by linarith [(hd j).2]) (by linarith [mul_nonneg hs.le (hd j).1]) T
  exact Finset.sum_pos' (fun j _ => mul_nonneg (hp j).le (sq_nonneg _))
    ⟨j, Finset.mem_univ _, mul_pos (hp j) (sq_pos_of_ne_zero hj)⟩

/-- C102: the truncated Neumann series of a symmetric positive semi-definite operator, with any number of terms and a
positive scale below `2 / l` for every eigenvalue, also of singular ones, maps the gradient to a direction against which
every sufficiently small step decreases the function. -/
theorem neumann_descent (F : (Fin P → ℝ) → ℝ) (θ : Fin P → ℝ) (hF : DifferentiableAt ℝ F θ) (hne : ∃ i, pderiv F i θ ≠ 0)
    (L : SciOp ℝ) (M : Matrix (Fin P) (Fin P) ℝ) (hL : VecRep L M) (hM : Mᵀ = M) (h : NeumannHyper ℝ) (hs : 0 < h.scale)
    (hl : ∀ l, IsEigenvalue M l → 0 ≤ l ∧ h.scale * l < 2) :
    ∃ y, (neumannOp (fun _ => false) L h).dot (.vec (List.ofFn fun i => pderiv F i θ)) = .ok (.vec (List.ofFn y)) ∧
      Decreases F θ y := by
  refine ⟨_, neumann_vec L M hL h _, decreases_of_pos hF ?_⟩
  obtain ⟨i, hi⟩ := hne
  exact neumannSum_pos M hM h.scale hs h.numTerms hl _ fun h0 => hi (congrFun h0 i)

/-! ## Directions that are not descent directions -/

/-- A quadratic function. -/
noncomputable def quadratic (M : Matrix (Fin P) (Fin P) ℝ) (θ : Fin P → ℝ) : ℝ := (θ ⬝ᵥ M *ᵥ θ) / 2

theorem pderiv_quadratic (M : Matrix (Fin P) (Fin P) ℝ) (hM : Mᵀ = M) (θ : Fin P → ℝ) (j : Fin P) :
    pderiv (quadratic M) j θ = (M *ᵥ θ) j := by
  have hu : ∀ i, HasDerivAt (fun t => Function.update θ j t i) (Pi.single (M := fun _ => ℝ) j 1 i) (θ j) := fun i =>
    hasDerivAt_pi.mp (hasDerivAt_update θ j (θ j)) i
  have hup : ∀ i, Function.update θ j (θ j) i = θ i := fun i => by rw [Function.update_eq_self]
  have h1 := HasDerivAt.fun_sum (u := Finset.univ) fun i (_ : i ∈ Finset.univ) =>
    (hu i).mul (HasDerivAt.fun_sum (u := Finset.univ) fun k (_ : k ∈ Finset.univ) => (hu k).const_mul (M i k))
  have h2 := (h1.div_const 2).deriv
  refine Eq.trans h2 ?_
  simp only [hup]
  have e : ∑ i, (Pi.single (M := fun _ => ℝ) j 1 i * ∑ k, M i k * θ k + θ i * ∑ k, M i k * Pi.single (M := fun _ => ℝ) j 1 k) =
      2 * (M *ᵥ θ) j := by
    rw [Finset.sum_add_distrib]
    have a1 : ∑ i, Pi.single (M := fun _ => ℝ) j 1 i * ∑ k, M i k * θ k = (M *ᵥ θ) j := by
      simp [Pi.single_apply, Matrix.mulVec, dotProduct]
    have a2 : ∑ i, θ i * ∑ k, M i k * Pi.single (M := fun _ => ℝ) j 1 k = (M *ᵥ θ) j := by
      simp only [Pi.single_apply, mul_ite, mul_one, mul_zero, Finset.sum_ite_eq', Finset.mem_univ, if_true]
      refine Finset.sum_congr rfl fun i _ => ?_
      rw [mul_comm, ← congrFun (congrFun hM i) j]
      rfl
    rw [a1, a2]; ring
  rw [e]; ring

theorem differentiableAt_quadratic (M : Matrix (Fin P) (Fin P) ℝ) (θ : Fin P → ℝ) : DifferentiableAt ℝ (quadratic M) θ := by
  unfold quadratic dotProduct Matrix.mulVec dotProduct
  fun_prop

theorem quadratic_smul (M : Matrix (Fin P) (Fin P) ℝ) (a : ℝ) (θ : Fin P → ℝ) : quadratic M (a • θ) = a ^ 2 * quadratic M θ := by
  unfold quadratic
  rw [Matrix.mulVec_smul, smul_dotProduct, dotProduct_smul]
  simp only [smul_eq_mul]
  ring

theorem quadratic_eigen (M : Matrix (Fin P) (Fin P) ℝ) (l : ℝ) (θ : Fin P → ℝ) (h : M *ᵥ θ = l • θ) :
    quadratic M θ = l * (θ ⬝ᵥ θ) / 2 := by
  unfold quadratic; rw [h, dotProduct_smul, smul_eq_mul]

/-- C102, necessity of the bound on the scale: if the scale exceeds `2 / l` for an eigenvalue `l > 0` of a symmetric matrix
and the number of terms is odd, then there are parameters of the quadratic risk with this Hessian at which the truncated
Neumann series maps the gradient to a direction against which *every* step increases the risk. -/
theorem neumann_ascends (L : SciOp ℝ) (M : Matrix (Fin P) (Fin P) ℝ) (hL : VecRep L M) (hM : Mᵀ = M) (h : NeumannHyper ℝ)
    (l : ℝ) (hl : IsEigenvalue M l) (hpos : 0 < l) (hs : 2 < h.scale * l) (hodd : Odd h.numTerms) :
    ∃ θ y, (neumannOp (fun _ => false) L h).dot (.vec (List.ofFn fun i => pderiv (quadratic M) i θ)) = .ok (.vec (List.ofFn y)) ∧
      ∀ t, 0 < t → quadratic M θ < quadratic M (stepTo θ t y) := by
  obtain ⟨x, hx, hlx⟩ := hl
  refine ⟨x, _, neumann_vec L M hL h _, fun t ht => ?_⟩
  have hg : (fun i => pderiv (quadratic M) i x) = l • x := by funext i; rw [pderiv_quadratic M hM, hlx]
  rw [hg]
  have hy : neumannSum M h.scale h.numTerms (l • x) = (1 - (1 - h.scale * l) ^ (h.numTerms + 1)) • x := by
    unfold neumannSum
    rw [Matrix.sum_mulVec]
    simp only [Matrix.mulVec_smul, mulVec_pow_eigen M h.scale l x hlx]
    rw [← Finset.smul_sum, ← Finset.sum_smul, smul_smul, smul_smul]
    congr 1
    have := geom_sum_mul_neg (1 - h.scale * l) (h.numTerms + 1)
    rw [← this]; ring
  rw [hy]
  set q := (1 - h.scale * l) ^ (h.numTerms + 1) with hq
  have hq1 : 1 < q := by
    have he : Even (h.numTerms + 1) := hodd.add_one
    rw [hq, ← he.pow_abs]
    refine one_lt_pow₀ ?_ (by omega)
    rw [abs_of_neg (by linarith)]; linarith
  have hst : stepTo x t ((1 - q) • x) = (1 + t * (q - 1)) • x := by
    funext i; simp only [stepTo, Pi.smul_apply, smul_eq_mul]; ring
  rw [hst, quadratic_smul]
  have hxx : 0 < x ⬝ᵥ x := by
    rw [← sqNorm_eq]
    obtain ⟨i, hi⟩ := Function.ne_iff.mp hx
    exact Finset.sum_pos' (fun _ _ => sq_nonneg _) ⟨i, Finset.mem_univ _, sq_pos_of_ne_zero hi⟩
  have hQ : 0 < quadratic M x := by rw [quadratic_eigen M l x hlx]; positivity
  have h1 : 0 < t * (q - 1) := mul_pos ht (by linarith)
  nlinarith [mul_pos hQ h1, mul_pos hQ (mul_pos h1 h1)]

/-- C102, necessity of positive semi-definiteness: if the Hessian of a quadratic risk has a negative eigenvalue, then there
are parameters at which the solution of the Newton system is a direction against which all steps `0 < t < 2` increase
the risk. -/
theorem newton_ascends (M : Matrix (Fin P) (Fin P) ℝ) (hM : Mᵀ = M) (l : ℝ) (hl : IsEigenvalue M l) (hneg : l < 0) :
    ∃ θ d, (M *ᵥ d = fun i => pderiv (quadratic M) i θ) ∧ (∃ i, pderiv (quadratic M) i θ ≠ 0) ∧
      ∀ t, 0 < t → t < 2 → quadratic M θ < quadratic M (stepTo θ t d) := by
  obtain ⟨x, hx, hlx⟩ := hl
  refine ⟨x, x, funext fun i => (pderiv_quadratic M hM x i).symm, ?_, fun t ht ht2 => ?_⟩
  · obtain ⟨i, hi⟩ := Function.ne_iff.mp hx
    exact ⟨i, by rw [pderiv_quadratic M hM, hlx]; exact mul_ne_zero hneg.ne hi⟩
  · have hst : stepTo x t x = (1 - t) • x := by
      funext i; simp only [stepTo, Pi.smul_apply, smul_eq_mul]; ring
    rw [hst, quadratic_smul]
    have hxx : 0 < x ⬝ᵥ x := by
      rw [← sqNorm_eq]
      obtain ⟨i, hi⟩ := Function.ne_iff.mp hx
      exact Finset.sum_pos' (fun _ _ => sq_nonneg _) ⟨i, Finset.mem_univ _, sq_pos_of_ne_zero hi⟩
    have hQ : quadratic M x < 0 := by rw [quadratic_eigen M l x hlx]; nlinarith [mul_neg_of_neg_of_pos hneg hxx]
    nlinarith [mul_pos ht (sub_pos.mpr ht2)]

/-- A singular Hessian and four terms of the Neumann series with scale 1. -/
example : ∃ y, (neumannOp (fun _ => false) (denseSci !![1, 0; 0, 0]) ⟨3, 1, true⟩).dot
      (.vec (List.ofFn fun i => pderiv (quadratic !![1, 0; 0, 0]) i fun _ => (1 : ℝ))) = .ok (.vec (List.ofFn y)) ∧
    Decreases (quadratic !![1, 0; 0, 0]) (fun _ => (1 : ℝ)) y := by
  have hs : (!![1, 0; 0, 0] : Matrix (Fin 2) (Fin 2) ℝ)ᵀ = !![1, 0; 0, 0] := by
    ext i j; fin_cases i <;> fin_cases j <;> rfl
  refine neumann_descent _ _ (differentiableAt_quadratic _ _) ⟨0, ?_⟩ _ _ (denseSci_vecRep _) hs _ one_pos ?_
  · rw [pderiv_quadratic _ hs]
    simp [Matrix.mulVec, dotProduct, Fin.sum_univ_two]
  · rintro l ⟨x, hx, h⟩
    have h0 := congrFun h 0
    have h1 := congrFun h 1
    simp [Matrix.mulVec, dotProduct, Fin.sum_univ_two] at h0 h1
    by_cases hx0 : x 0 = 0
    · have hx1 : x 1 ≠ 0 := fun hc => hx (funext fun i => by fin_cases i <;> simp [hx0, hc])
      have : l = 0 := by tauto
      rw [this]; norm_num
    · have : l = 1 := by
        have : (l - 1) * x 0 = 0 := by linarith
        rcases mul_eq_zero.mp this with h | h
        · linarith
        · exact absurd h hx0
      rw [this]; norm_num

/-- Scale 2 with Hessian 2: two terms of the series ascend. -/
example : ∃ θ y, (neumannOp (fun _ => false) (denseSci !![2]) ⟨1, 2, true⟩).dot
      (.vec (List.ofFn fun i => pderiv (quadratic !![2]) i θ)) = .ok (.vec (List.ofFn y)) ∧
    ∀ t, 0 < t → quadratic !![2] θ < quadratic !![2] (stepTo θ t y) := by
  refine neumann_ascends _ _ (denseSci_vecRep _) (by ext i j; fin_cases i; fin_cases j; rfl) _ 2
    ⟨fun _ => 1, fun h => one_ne_zero (congrFun h 0), ?_⟩ (by norm_num) (by norm_num) (by decide)
  funext i
  fin_cases i
  simp [Matrix.mulVec, dotProduct]

/-- The tangent bound holds with `L = 1` for half of the square: then steps shorter than `2 c` decrease. -/
example (θ v : Fin 1 → ℝ) : quadratic !![1] (fun i => θ i + v i) ≤
    quadratic !![1] θ + ∑ i, pderiv (quadratic !![1]) i θ * v i + 1 / 2 * ∑ i, v i ^ 2 := by
  simp only [pderiv_quadratic (!![1] : Matrix (Fin 1) (Fin 1) ℝ) (by ext i j; fin_cases i; fin_cases j; rfl)]
  simp [quadratic, Matrix.mulVec, dotProduct]
  nlinarith

end Curvlinops
