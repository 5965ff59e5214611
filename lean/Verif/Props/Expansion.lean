import Verif.Props.Reparam
import Mathlib.Analysis.Calculus.MeanValue

/-!
# C107: products are derivatives along the vector, and the quadratic model of the empirical risk
-/

namespace Curvlinops

open Filter Topology

variable {P O : Nat}

/-- The parameters moved by `t` times a vector. -/
def moveBy (θ : Fin P → ℝ) (t : ℝ) (v : Fin P → ℝ) : Fin P → ℝ := fun i => θ i + t * v i

/-! ## Calculus -/

theorem moveBy_eq (θ : Fin P → ℝ) (t : ℝ) (v : Fin P → ℝ) : moveBy θ t v = stepTo θ t (-v) := by
  funext i; simp [moveBy, stepTo]

theorem moveBy_zero (θ : Fin P → ℝ) (v : Fin P → ℝ) : moveBy θ 0 v = θ := by
  funext i; simp [moveBy]

theorem tendsto_moveBy (θ : Fin P → ℝ) (v : Fin P → ℝ) : Tendsto (fun t => moveBy θ t v) (𝓝 0) (𝓝 θ) := by
  have h : Continuous fun t => moveBy θ t v := continuous_pi fun i => by unfold moveBy; fun_prop
  have := h.tendsto 0
  rwa [moveBy_zero] at this

theorem hasDerivAt_moveBy {F : (Fin P → ℝ) → ℝ} {θ : Fin P → ℝ} (h : DifferentiableAt ℝ F θ) (v : Fin P → ℝ) :
    HasDerivAt (fun t => F (moveBy θ t v)) (∑ i, pderiv F i θ * v i) 0 := by
  have := hasDerivAt_step h (-v)
  simp only [moveBy_eq]
  convert this using 1
  simp

/-- The partial derivatives are differentiable where the function is twice continuously differentiable. -/
theorem differentiableAt_pderiv {F : (Fin P → ℝ) → ℝ} {θ : Fin P → ℝ} (h : ContDiffAt ℝ 2 F θ) (i : Fin P) :
    DifferentiableAt ℝ (fun y => pderiv F i y) θ := by
  have h1 : ∀ᶠ y in 𝓝 θ, DifferentiableAt ℝ F y :=
    (h.eventually (by simp)).mono fun y hy => hy.differentiableAt (by norm_num)
  have h2 : (fun y => pderiv F i y) =ᶠ[𝓝 θ] fun y => fderiv ℝ F y (Pi.single i 1) :=
    h1.mono fun y hy => pderiv_eq_fderiv hy i
  have h3 : DifferentiableAt ℝ (fderiv ℝ F) θ :=
    (h.fderiv_right (m := 1) (by norm_num)).differentiableAt (by norm_num)
  exact (h3.clm_apply (differentiableAt_const _)).congr_of_eventuallyEq h2

theorem fderiv_fderiv_apply {F : (Fin P → ℝ) → ℝ} {θ : Fin P → ℝ} (h : ContDiffAt ℝ 2 F θ) (v w : Fin P → ℝ) :
    fderiv ℝ (fderiv ℝ F) θ v w = ∑ i, v i * ∑ j, hess F θ i j * w j := by
  have e : ∀ v : Fin P → ℝ, v = ∑ i, v i • (Pi.single i 1 : Fin P → ℝ) := by
    intro v
    funext j
    simp [Finset.sum_apply, Pi.single_apply]
  conv_lhs => rw [e v, e w]
  simp only [map_sum, map_smul, _root_.sum_apply, _root_.smul_apply, smul_eq_mul, Finset.mul_sum]
  rw [Finset.sum_comm]
  refine Finset.sum_congr rfl fun i _ => ?_
  refine Finset.sum_congr rfl fun j _ => ?_
  rw [hess_eq_fderiv h]
  ring

/-- Taylor's theorem of second order with a remainder that is small compared with the square of the step. -/
theorem second_order_expansion {F : (Fin P → ℝ) → ℝ} {θ : Fin P → ℝ} (h : ContDiffAt ℝ 2 F θ) {ε : ℝ} (hε : 0 < ε) :
    ∃ δ > 0, ∀ v : Fin P → ℝ, ‖v‖ < δ →
      |F (θ + v) - F θ - ∑ i, pderiv F i θ * v i - (∑ i, v i * ∑ j, hess F θ i j * v j) / 2| ≤ ε * ‖v‖ ^ 2 := by
  have h1 : ∀ᶠ y in 𝓝 θ, DifferentiableAt ℝ F y :=
    (h.eventually (by simp)).mono fun y hy => hy.differentiableAt (by norm_num)
  have h3 : HasFDerivAt (fderiv ℝ F) (fderiv ℝ (fderiv ℝ F) θ) θ :=
    ((h.fderiv_right (m := 1) (by norm_num)).differentiableAt (by norm_num)).hasFDerivAt
  have hsym : ∀ v w, fderiv ℝ (fderiv ℝ F) θ v w = fderiv ℝ (fderiv ℝ F) θ w v := h.isSymmSndFDerivAt (by simp)
  have h4 := (hasFDerivAt_iff_isLittleO_nhds_zero.mp h3).def hε
  have h5 : ∀ᶠ v in 𝓝 (0 : Fin P → ℝ), DifferentiableAt ℝ F (θ + v) := by
    have ht : Tendsto (fun v : Fin P → ℝ => θ + v) (𝓝 0) (𝓝 θ) := by
      have : Continuous fun v : Fin P → ℝ => θ + v := by fun_prop
      simpa using this.tendsto 0
    exact ht.eventually h1
  obtain ⟨δ, hδ, hball⟩ := Metric.eventually_nhds_iff.mp (h4.and h5)
  refine ⟨δ, hδ, fun w hw => ?_⟩
  set B := fderiv ℝ (fderiv ℝ F) θ with hB
  let R : (Fin P → ℝ) → ℝ := fun v => F (θ + v) - F θ - fderiv ℝ F θ v - 1 / 2 * B v v
  have hR : ∀ v ∈ Metric.closedBall (0 : Fin P → ℝ) ‖w‖,
      HasFDerivWithinAt R (fderiv ℝ F (θ + v) - fderiv ℝ F θ - B v) (Metric.closedBall 0 ‖w‖) v := by
    intro v hv
    have hv' : dist v 0 < δ := lt_of_le_of_lt hv hw
    have d1 := (hball hv').2.hasFDerivAt
    have d2 : HasFDerivAt (fun v => F (θ + v)) (fderiv ℝ F (θ + v)) v := by
      have := d1.comp v ((hasFDerivAt_id v).const_add θ)
      rw [ContinuousLinearMap.comp_id] at this
      exact this
    have d3 : HasFDerivAt (fun v => B v v) (B v + B v) v := by
      have := B.hasFDerivAt (x := v) |>.clm_apply (hasFDerivAt_id v)
      refine this.congr_fderiv ?_
      ext u
      simp [hsym u v]
    have d4 := ((d2.sub_const (F θ)).sub (fderiv ℝ F θ).hasFDerivAt).sub (d3.const_mul (1 / 2))
    refine (d4.congr_fderiv ?_).hasFDerivWithinAt
    ext u
    simp
    ring
  have hbound : ∀ v ∈ Metric.closedBall (0 : Fin P → ℝ) ‖w‖, ‖fderiv ℝ F (θ + v) - fderiv ℝ F θ - B v‖ ≤ ε * ‖w‖ := by
    intro v hv
    have hv' : dist v 0 < δ := lt_of_le_of_lt hv hw
    have := (hball hv').1
    have hvn : ‖v‖ ≤ ‖w‖ := by simpa using hv
    exact this.trans (mul_le_mul_of_nonneg_left hvn hε.le)
  have key := (convex_closedBall (0 : Fin P → ℝ) ‖w‖).norm_image_sub_le_of_norm_hasFDerivWithin_le hR hbound
    (Metric.mem_closedBall_self (norm_nonneg w)) (by simp : w ∈ Metric.closedBall (0 : Fin P → ℝ) ‖w‖)
  have hR0 : R 0 = 0 := by simp [R]
  have hRw : R w = F (θ + w) - F θ - ∑ i, pderiv F i θ * w i - (∑ i, w i * ∑ j, hess F θ i j * w j) / 2 := by
    simp only [R, hB]
    rw [fderiv_apply_eq_sum (h.differentiableAt (by norm_num)), fderiv_fderiv_apply h]
    ring
  rw [hR0, sub_zero, sub_zero, hRw, Real.norm_eq_abs] at key
  calc _ ≤ ε * ‖w‖ * ‖w‖ := key
    _ = ε * ‖w‖ ^ 2 := by ring

theorem exists_flatData : ∀ (shapes : List (List Nat)) (l : List ℝ), l.length = total shapes →
    ∃ V, HasVec V shapes ∧ flatData V = l
  | [], l, h => ⟨[], ⟨rfl, by simp⟩, by
      have : l = [] := List.eq_nil_of_length_eq_zero h
      rw [this]; rfl⟩
  | s :: ss, l, h => by
      have ht : total (s :: ss) = s.prod + total ss := by simp [total]
      obtain ⟨V, h1, h2⟩ := exists_flatData ss (l.drop s.prod) (by rw [List.length_drop, h, ht]; omega)
      refine ⟨⟨s, l.take s.prod⟩ :: V, hasVec_cons.mpr ⟨⟨rfl, ?_⟩, h1⟩, ?_⟩
      · unfold Tensor.WF; simp; omega
      · unfold flatData at h2 ⊢
        rw [List.map_cons, List.flatten_cons, h2, List.take_append_drop]

theorem exists_hasVec (shapes : List (List Nat)) (hP : total shapes = P) (v : Fin P → ℝ) :
    ∃ V, HasVec V shapes ∧ entriesOf V = v := by
  obtain ⟨V, h1, h2⟩ := exists_flatData shapes (List.ofFn v) (by rw [List.length_ofFn, hP])
  refine ⟨V, h1, funext fun i => ?_⟩
  unfold entriesOf
  rw [h2, List.getD_eq_getElem?_getD, List.getElem?_ofFn]
  simp

theorem norm_sq_le_sum (v : Fin P → ℝ) : ‖v‖ ^ 2 ≤ ∑ i, v i ^ 2 := by
  have : ‖v‖ ≤ Real.sqrt (∑ i, v i ^ 2) := by
    refine (pi_norm_le_iff_of_nonneg (Real.sqrt_nonneg _)).mpr fun i => ?_
    rw [Real.norm_eq_abs]
    exact Real.abs_le_sqrt (Finset.single_le_sum (f := fun i => v i ^ 2) (fun j _ => sq_nonneg _) (Finset.mem_univ i))
  calc _ ≤ Real.sqrt (∑ i, v i ^ 2) ^ 2 := by gcongr
    _ = _ := Real.sq_sqrt (Finset.sum_nonneg fun i _ => sq_nonneg _)

theorem quad_fin_nonneg {E : Mat ℝ} (h : QuadNonneg P E) (v : Fin P → ℝ) : 0 ≤ ∑ i, v i * ∑ j : Fin P, E i j * v j := by
  have := h fun n => if hn : n < P then v ⟨n, hn⟩ else 0
  rw [Finset.sum_range] at this
  refine this.trans (le_of_eq (Finset.sum_congr rfl fun i _ => ?_))
  rw [Finset.sum_range, Finset.mul_sum]
  refine Finset.sum_congr rfl fun j _ => ?_
  simp [mul_assoc]

theorem contDiffAt_empiricalRisk (red : Reduction) (ds : List (NetDatum P O)) (θ : Fin P → ℝ)
    (h : ∀ d ∈ ds, ContDiffAt ℝ 2 (fun θ => d.loss (d.f θ)) θ) : ContDiffAt ℝ 2 (empiricalRisk red ds) θ := by
  rcases Nat.eq_zero_or_pos P with rfl | hpos
  · have e : empiricalRisk red ds = fun _ => empiricalRisk red ds θ := funext fun x => by rw [Subsingleton.elim x θ]
    rw [e]; exact contDiffAt_const
  · rw [empiricalRisk_eq]; exact (hess_netLoss red ds θ h ⟨0, hpos⟩ ⟨0, hpos⟩).1

/-! ## Hessian -/

section hessian

variable {shapes : List (List Nat)}

theorem hessian_entries (hP : total shapes = P) (hs : shapes ≠ []) (red : Reduction) (hred : red = .mean ∨ red = .sum)
    (θ : Fin P → ℝ) (batches : List (List (NetDatum P O))) (hb : ∀ b ∈ batches, b ≠ [])
    (h : ∀ d ∈ batches.flatten, ContDiffAt ℝ 2 (fun θ => d.loss (d.f θ)) θ) (V : List (Tensor ℝ)) (hV : HasVec V shapes) :
    ∃ HV, ((curvatureOp shapes red (inferNData List.length batches none) List.length
        (netHessianBatch shapes [(shapes.length : Int)] red θ) batches).matmul (.list V)).1 = .ok (.list HV) ∧
      HasVec HV shapes ∧ ∀ i : Fin P, entriesOf HV i = ∑ j, hess (empiricalRisk red batches.flatten) θ i j * entriesOf V j := by
  obtain ⟨D, d1, d2, d3⟩ := matmul_entries _ shapes hP rfl rfl _
    (netHessianOp_represents shapes hP hs red hred θ batches hb h).1 V hV
  refine ⟨D, d1, d2, fun i => ?_⟩
  rw [d3 i]
  refine Finset.sum_congr rfl fun j _ => ?_
  simp [natMat]

/-- **C107** (Hessian): the product with `v` is the derivative of the gradient that `gradient_and_loss` returns when the parameters are
moved along `v`; in particular, finite differences of gradients converge to it. -/
theorem hessian_directional (hP : total shapes = P) (hs : shapes ≠ []) (red : Reduction) (hred : red = .mean ∨ red = .sum)
    (θ : Fin P → ℝ) (batches : List (List (NetDatum P O))) (hb : ∀ b ∈ batches, b ≠ [])
    (h : ∀ d ∈ batches.flatten, ContDiffAt ℝ 2 (fun θ => d.loss (d.f θ)) θ) (V : List (Tensor ℝ)) (hV : HasVec V shapes) :
    ∃ (HV : List (Tensor ℝ)) (G : ℝ → List (Tensor ℝ)), ((curvatureOp shapes red (inferNData List.length batches none) List.length
        (netHessianBatch shapes [(shapes.length : Int)] red θ) batches).matmul (.list V)).1 = .ok (.list HV) ∧
      HasVec HV shapes ∧
      (∀ᶠ t in 𝓝 (0 : ℝ), HasVec (G t) shapes ∧ ∃ L, gradientAndLoss shapes red (inferNData List.length batches none) List.length
        (some (netLossGradBatch shapes red (moveBy θ t (entriesOf V)))) batches = .ok (G t, L)) ∧
      ∀ i : Fin P, HasDerivAt (fun t => entriesOf (G t) i) (entriesOf HV i) 0 := by
  obtain ⟨HV, v1, v2, v3⟩ := hessian_entries hP hs red hred θ batches hb h V hV
  have hspec : ∀ t : ℝ, ∃ G, (∀ d ∈ batches.flatten, DifferentiableAt ℝ (fun θ => d.loss (d.f θ)) (moveBy θ t (entriesOf V))) →
      gradientAndLoss shapes red (inferNData List.length batches none) List.length
        (some (netLossGradBatch shapes red (moveBy θ t (entriesOf V)))) batches =
          .ok (G, empiricalRisk red batches.flatten (moveBy θ t (entriesOf V))) ∧ HasVec G shapes ∧
      entriesOf G = fun i : Fin P => pderiv (empiricalRisk red batches.flatten) i (moveBy θ t (entriesOf V)) := by
    intro t
    by_cases hd : ∀ d ∈ batches.flatten, DifferentiableAt ℝ (fun θ => d.loss (d.f θ)) (moveBy θ t (entriesOf V))
    · obtain ⟨G, g1, g2, -, g4⟩ := netGradient_spec shapes hP red hred (moveBy θ t (entriesOf V)) batches hb
        fun b h1 d h2 => hd d (List.mem_flatten_of_mem h1 h2)
      exact ⟨G, fun _ => ⟨g1, g2, g4⟩⟩
    · exact ⟨[], fun h => absurd h hd⟩
  choose G hG using hspec
  have hnear : ∀ᶠ y in 𝓝 θ, ∀ d ∈ batches.flatten, DifferentiableAt ℝ (fun θ => d.loss (d.f θ)) y := by
    have := (Filter.eventually_all_finite (List.finite_toSet batches.flatten)).mpr fun d hd =>
      ((h d hd).eventually (by simp)).mono fun y hy => hy.differentiableAt (by norm_num)
    exact this
  have hev := (tendsto_moveBy θ (entriesOf V)).eventually hnear
  refine ⟨HV, G, v1, v2, hev.mono fun t ht => ⟨(hG t ht).2.1, _, (hG t ht).1⟩, fun i => ?_⟩
  have hF := contDiffAt_empiricalRisk red batches.flatten θ h
  have hd := hasDerivAt_moveBy (differentiableAt_pderiv hF i) (entriesOf V)
  have he : (fun t => entriesOf (G t) i) =ᶠ[𝓝 0]
      fun t => pderiv (empiricalRisk red batches.flatten) i (moveBy θ t (entriesOf V)) :=
    hev.mono fun t ht => congrFun (hG t ht).2.2 i
  refine (hd.congr_of_eventuallyEq he).congr_deriv ?_
  rw [v3 i]
  refine Finset.sum_congr rfl fun j _ => ?_
  rw [hess_symm hF i j]
  rfl

/-- **C107** (quadratic model): loss, gradient and Hessian products predict the loss at other parameters with an error that is small
compared with the square of the distance. -/
theorem risk_quadratic_model (hP : total shapes = P) (hs : shapes ≠ []) (red : Reduction) (hred : red = .mean ∨ red = .sum)
    (θ : Fin P → ℝ) (batches : List (List (NetDatum P O))) (hb : ∀ b ∈ batches, b ≠ [])
    (h : ∀ d ∈ batches.flatten, ContDiffAt ℝ 2 (fun θ => d.loss (d.f θ)) θ) (ε : ℝ) (hε : 0 < ε) :
    ∃ G L, gradientAndLoss shapes red (inferNData List.length batches none) List.length
        (some (netLossGradBatch shapes red θ)) batches = .ok (G, L) ∧ ∃ δ > 0, ∀ V, HasVec V shapes →
      (∀ i : Fin P, |entriesOf V i| < δ) →
      ∃ HV G' L', ((curvatureOp shapes red (inferNData List.length batches none) List.length
          (netHessianBatch shapes [(shapes.length : Int)] red θ) batches).matmul (.list V)).1 = .ok (.list HV) ∧
        gradientAndLoss shapes red (inferNData List.length batches none) List.length
          (some (netLossGradBatch shapes red fun i => θ i + entriesOf V i)) batches = .ok (G', L') ∧
        |L' - (L + ∑ i : Fin P, entriesOf G i * entriesOf V i + (∑ i : Fin P, entriesOf V i * entriesOf HV i) / 2)| ≤
          ε * ∑ i : Fin P, entriesOf V i ^ 2 := by
  obtain ⟨G, g1, g2, -, g4⟩ := netGradient_spec shapes hP red hred θ batches hb
    fun b h1 d h2 => (h d (List.mem_flatten_of_mem h1 h2)).differentiableAt (by norm_num)
  have hF := contDiffAt_empiricalRisk red batches.flatten θ h
  obtain ⟨δ₁, hδ₁, hexp⟩ := second_order_expansion hF hε
  have hnear : ∀ᶠ y in 𝓝 θ, ∀ d ∈ batches.flatten, DifferentiableAt ℝ (fun θ => d.loss (d.f θ)) y := by
    have := (Filter.eventually_all_finite (List.finite_toSet batches.flatten)).mpr fun d hd =>
      ((h d hd).eventually (by simp)).mono fun y hy => hy.differentiableAt (by norm_num)
    exact this
  obtain ⟨δ₂, hδ₂, hdiff⟩ := Metric.eventually_nhds_iff.mp hnear
  refine ⟨G, _, g1, min δ₁ δ₂, lt_min hδ₁ hδ₂, fun V hV hsmall => ?_⟩
  obtain ⟨HV, v1, v2, v3⟩ := hessian_entries hP hs red hred θ batches hb h V hV
  have hn : ‖(entriesOf V : Fin P → ℝ)‖ < min δ₁ δ₂ :=
    (pi_norm_lt_iff (lt_min hδ₁ hδ₂)).mpr fun i => by rw [Real.norm_eq_abs]; exact hsmall i
  obtain ⟨G', g1', -, -, -⟩ := netGradient_spec shapes hP red hred (fun i => θ i + entriesOf V i) batches hb
    fun b h1 d h2 => hdiff (y := fun i => θ i + entriesOf V i) (by
      have e : (fun i => θ i + entriesOf V i) = θ + (entriesOf V : Fin P → ℝ) := rfl
      rw [e, dist_eq_norm, add_sub_cancel_left]
      exact hn.trans_le (min_le_right _ _)) d (List.mem_flatten_of_mem h1 h2)
  refine ⟨HV, G', _, v1, g1', ?_⟩
  have key := hexp (entriesOf V) (hn.trans_le (min_le_left _ _))
  have hsq := norm_sq_le_sum (entriesOf V : Fin P → ℝ)
  refine le_trans (le_of_eq ?_) (key.trans (mul_le_mul_of_nonneg_left hsq hε.le))
  congr 1
  simp only [g4, v3]
  have e : (fun i => θ i + entriesOf V i) = θ + (entriesOf V : Fin P → ℝ) := rfl
  rw [e]
  ring

end hessian

/-! ## Jacobians -/

section jacobian

variable {shapes : List (List Nat)}

theorem matmul_vec_entries (op : LinOp ℝ) (A : Mat ℝ) (hA : RepresentsAt op A 1) (V : List (Tensor ℝ)) (hV : HasVec V op.inShape) :
    ∃ D, (op.matmul (.list V)).1 = .ok (.list D) ∧ HasVec D op.outShape ∧
      ∀ r < op.nrows, (flatData D).getD r 0 = ∑ c ∈ Finset.range op.ncols, A r c * (flatData V).getD c 0 := by
  obtain ⟨Y, y1, y2, y3, y4, y5⟩ := matmul_correct op A (.list V) .vec hA hV.2
    (hV.1.trans (by simp [Fmt.dims])) (.inr (.inl rfl)) (.inr ⟨V, rfl⟩)
  cases Y with
  | tensor t => exact y2.elim
  | other => exact y2.elim
  | list D =>
    refine ⟨D, y1, ⟨?_, y4⟩, fun r hr => ?_⟩
    · have : D.map (·.shape) = op.outShape.map (· ++ []) := y3
      rw [this]; simp
    · have := y5.2 r hr 0 (by simp [Fmt.cols])
      simp only [Fmt.cols, Nat.mul_one, Nat.add_zero, PyVal.entries] at this
      exact this

theorem rowsOf_jacRows {ds : List (NetDatum P O)} {n : Nat} {d : NetDatum P O} (hd : ds[n]? = some d) (θ : Fin P → ℝ) (o : Fin O)
    (i : Fin P) : rowsOf O (jacRows θ ds) (n * O + o) i = pderiv (fun θ => d.f θ o) i θ := by
  have hO : 0 < O := o.pos
  have h1 : (n * O + o.val) / O = n := by
    rw [Nat.mul_comm, Nat.mul_add_div hO, Nat.div_eq_of_lt o.2, Nat.add_zero]
  have h2 : (n * O + o.val) % O = o := by
    rw [Nat.mul_comm, Nat.mul_add_mod, Nat.mod_eq_of_lt o.2]
  unfold rowsOf jacRows
  rw [h1, List.getElem?_map, hd, h2]
  simp [toGGNDatum]

/-- **C107** (Jacobian): the product with `v` is the derivative of the predictions when the parameters are moved along `v`. -/
theorem jacobian_directional (hP : total shapes = P) (hs : shapes ≠ []) (S : List Nat) (hS : S.prod = O) (θ : Fin P → ℝ)
    (b : List (NetDatum P O)) (bs : List (List (NetDatum P O))) (hf : ∀ d ∈ (b :: bs).flatten, DifferentiableAt ℝ d.f θ)
    (V : List (Tensor ℝ)) (hV : HasVec V shapes) :
    ∃ JV, ((jacobianOp shapes (b :: bs).flatten.length (jacBatch S (jacRows θ b)) ((bs.map (jacRows θ)).map (jacBatch S))).matmul
        (.list V)).1 = .ok (.list JV) ∧ HasVec JV [(b :: bs).flatten.length :: S] ∧
      ∀ n d, (b :: bs).flatten[n]? = some d → ∀ o : Fin O,
        HasDerivAt (fun t => d.f (moveBy θ t (entriesOf V)) o) ((flatData JV).getD (n * O + o) 0) 0 := by
  have y := jacobianOp_rows shapes hs S (jacRows θ b) (bs.map (jacRows θ)) 1 le_rfl
  rw [jacRows_flatten, jacRows, List.length_map, ← jacRows, hS] at y
  obtain ⟨JV, j1, j2, j3⟩ := matmul_vec_entries _ _ y V hV
  refine ⟨JV, j1, j2, fun n d hd o => ?_⟩
  have hn : n < (b :: bs).flatten.length := (List.getElem?_eq_some_iff.mp hd).1
  have hrows : n * O + o < (b :: bs).flatten.length * O := by
    calc n * O + o < n * O + O := Nat.add_lt_add_left o.2 _
      _ = (n + 1) * O := by ring
      _ ≤ _ := Nat.mul_le_mul_right _ hn
  rw [j3 (n * O + o) (by
    change n * O + o < List.sum (List.map List.prod [(b :: bs).flatten.length :: S])
    simp only [List.map_cons, List.prod_cons, List.map_nil, List.sum_cons, List.sum_nil, Nat.add_zero, hS]
    exact hrows)]
  change HasDerivAt _ (∑ c ∈ Finset.range (total shapes), _) 0
  rw [hP, Finset.sum_range]
  have hdo : DifferentiableAt ℝ (fun θ => d.f θ o) θ := differentiableAt_pi.mp (hf d (List.mem_of_getElem? hd)) o
  refine (hasDerivAt_moveBy hdo (entriesOf V)).congr_deriv (Finset.sum_congr rfl fun i _ => ?_)
  rw [rowsOf_jacRows hd]
  rfl

/-- **C107** (transposed Jacobian): the product with `w` is the gradient of the predictions weighted with `w`. -/
theorem transposedJacobian_gradient (hP : total shapes = P) (S : List Nat) (hS : S.prod = O) (θ : Fin P → ℝ)
    (b : List (NetDatum P O)) (bs : List (List (NetDatum P O))) (hf : ∀ d ∈ (b :: bs).flatten, DifferentiableAt ℝ d.f θ)
    (W : List (Tensor ℝ)) (hW : HasVec W [(b :: bs).flatten.length :: S]) :
    ∃ D, ((transposedJacobianOp shapes (b :: bs).flatten.length (jacBatch S (jacRows θ b))
        ((bs.map (jacRows θ)).map (jacBatch S))).matmul (.list W)).1 = .ok (.list D) ∧ HasVec D shapes ∧
      ∀ i : Fin P, entriesOf D i = pderiv (fun θ => ∑ n : Fin (b :: bs).flatten.length, ∑ o : Fin O,
        (flatData W).getD (n * O + o) 0 * (b :: bs).flatten[n].f θ o) i θ := by
  have y := transposedJacobianOp_rows shapes S (jacRows θ b) (bs.map (jacRows θ)) 1
  rw [jacRows_flatten, jacRows, List.length_map, ← jacRows, hS] at y
  obtain ⟨D, j1, j2, j3⟩ := matmul_vec_entries _ _ y W hW
  refine ⟨D, j1, j2, fun i => ?_⟩
  refine (j3 i (hP.symm ▸ i.2 : i.val < total shapes)).trans ?_
  have hd : ∀ (n : Fin (b :: bs).flatten.length) (o : Fin O), DifferentiableAt ℝ (fun θ => (b :: bs).flatten[n].f θ o) θ :=
    fun n o => differentiableAt_pi.mp (hf _ (List.getElem_mem n.2)) o
  rw [pderiv_eq_fderiv (by fun_prop (disch := exact hd _ _)), fderiv_fun_sum fun n _ => by fun_prop (disch := exact hd _ _),
    _root_.sum_apply]
  have hc : (transposedJacobianOp shapes (b :: bs).flatten.length (jacBatch S (jacRows θ b))
      ((bs.map (jacRows θ)).map (jacBatch S))).ncols = (b :: bs).flatten.length * O := by
    change List.sum (List.map List.prod [(b :: bs).flatten.length :: S]) = _
    simp only [List.map_cons, List.prod_cons, List.map_nil, List.sum_cons, List.sum_nil, Nat.add_zero, hS]
  rw [hc, sum_range_mul, Finset.sum_range]
  refine Finset.sum_congr rfl fun n _ => ?_
  rw [Finset.sum_range, fderiv_fun_sum fun o _ => by fun_prop (disch := exact hd _ _), _root_.sum_apply]
  refine Finset.sum_congr rfl fun o _ => ?_
  rw [rowsOf_jacRows (List.getElem?_eq_getElem n.2), fderiv_const_mul (hd n o), _root_.smul_apply, smul_eq_mul, mul_comm]
  exact congrArg _ (pderiv_eq_fderiv (hd n o) i)

end jacobian

/-! ## GGN -/

section ggn

variable {shapes : List (List Nat)}

/-- The empirical risk of the model whose predictions are replaced by their first-order expansion around the parameters, at the
parameters moved by `v`. -/
noncomputable def linearizedRisk (red : Reduction) (ds : List (NetDatum P O)) (θ v : Fin P → ℝ) : ℝ :=
  empiricalRisk red (ds.map fun d => ⟨fun v o => d.f θ o + ∑ i, pderiv (fun θ => d.f θ o) i θ * v i, d.loss⟩) v

theorem linearizedRisk_eq (red : Reduction) (ds : List (NetDatum P O)) (θ v : Fin P → ℝ)
    (hf : ∀ d ∈ ds, DifferentiableAt ℝ d.f θ) :
    linearizedRisk red ds θ v = netLoss red (ds.map (linearizedModel θ)) (θ + v) := by
  unfold linearizedRisk
  rw [empiricalRisk_eq]
  unfold netLoss
  rw [List.length_map, List.map_map, List.length_map, List.map_map]
  congr 2
  refine List.map_congr_left fun d hd => ?_
  simp only [Function.comp_apply, linearizedModel, add_sub_cancel_left]
  congr 1
  funext o
  have hdo : DifferentiableAt ℝ (fun θ => d.f θ o) θ := differentiableAt_pi.mp (hf d hd) o
  rw [Pi.add_apply, ← fderiv_apply_eq_sum hdo]
  congr 1
  have : fderiv ℝ d.f θ = ContinuousLinearMap.pi fun o => fderiv ℝ (fun θ => d.f θ o) θ :=
    fderiv_pi fun o => differentiableAt_pi.mp (hf d hd) o
  rw [this]
  rfl

theorem pderiv_linearized (red : Reduction) (ds : List (NetDatum P O)) (θ : Fin P → ℝ)
    (hf : ∀ d ∈ ds, DifferentiableAt ℝ d.f θ) (hL : ∀ d ∈ ds, DifferentiableAt ℝ d.loss (d.f θ)) (i : Fin P) :
    pderiv (netLoss red (ds.map (linearizedModel θ))) i θ = pderiv (netLoss red ds) i θ := by
  have key : ∀ ds : List (NetDatum P O), (∀ d ∈ ds, DifferentiableAt ℝ d.f θ) → (∀ d ∈ ds, DifferentiableAt ℝ d.loss (d.f θ)) →
      ∃ D : (Fin P → ℝ) →L[ℝ] ℝ, HasFDerivAt (fun θ => (ds.map fun d => d.loss (d.f θ)).sum) D θ ∧
        HasFDerivAt (fun x => ((ds.map (linearizedModel θ)).map fun d => d.loss (d.f x)).sum) D θ := by
    intro ds hf hL
    induction ds with
    | nil => exact ⟨0, by simpa using hasFDerivAt_const (0 : ℝ) θ, by simpa using hasFDerivAt_const (0 : ℝ) θ⟩
    | cons d ds ih =>
      obtain ⟨D, h1, h2⟩ := ih (fun e he => hf e (List.mem_cons_of_mem _ he)) fun e he => hL e (List.mem_cons_of_mem _ he)
      have a := (hf d List.mem_cons_self).hasFDerivAt
      have b := (hL d List.mem_cons_self).hasFDerivAt
      have c : HasFDerivAt (linearizedModel θ d).f (fderiv ℝ d.f θ) θ := by
        have := ((fderiv ℝ d.f θ).hasFDerivAt.comp θ ((hasFDerivAt_id θ).sub_const θ)).const_add (d.f θ)
        rw [ContinuousLinearMap.comp_id] at this
        exact this
      have e : (linearizedModel θ d).f θ = d.f θ := by simp [linearizedModel]
      refine ⟨(fderiv ℝ d.loss (d.f θ)).comp (fderiv ℝ d.f θ) + D, ?_, ?_⟩
      · simp only [List.map_cons, List.sum_cons]
        exact (b.comp θ a).add h1
      · have := ((show HasFDerivAt d.loss (fderiv ℝ d.loss (d.f θ)) ((linearizedModel θ d).f θ) by rw [e]; exact b).comp θ c).add h2
        simp only [List.map_cons, List.sum_cons]
        exact this
  obtain ⟨D, h1, h2⟩ := key ds hf hL
  have h1' := h1.const_mul (redScale red ds.length)
  have h2' := h2.const_mul (redScale red ds.length)
  have e1 : pderiv (netLoss red ds) i θ = (redScale red ds.length • D) (Pi.single i 1) := by
    have h3 : HasFDerivAt (netLoss red ds) (redScale red ds.length • D) θ := h1'
    rw [pderiv_eq_fderiv h3.differentiableAt, h3.fderiv]
  have h3 : HasFDerivAt (netLoss red (ds.map (linearizedModel θ))) (redScale red ds.length • D) θ := by
    unfold netLoss; rw [List.length_map]; exact h2'
  rw [e1, pderiv_eq_fderiv h3.differentiableAt, h3.fderiv]

/-- **C107** (GGN): loss, gradient and GGN products predict the risk of the linearized model with an error that is small compared with
the square of the distance. -/
theorem linearizedRisk_quadratic_model (hP : total shapes = P) (hs : shapes ≠ []) (red : Reduction)
    (hred : red = .mean ∨ red = .sum) (θ : Fin P → ℝ) (batches : List (List (NetDatum P O))) (hb : ∀ b ∈ batches, b ≠ [])
    (hf : ∀ d ∈ batches.flatten, DifferentiableAt ℝ d.f θ) (hL : ∀ d ∈ batches.flatten, ContDiffAt ℝ 2 d.loss (d.f θ))
    (ε : ℝ) (hε : 0 < ε) :
    ∃ G L, gradientAndLoss shapes red (inferNData List.length batches none) List.length
        (some (netLossGradBatch shapes red θ)) batches = .ok (G, L) ∧ ∃ δ > 0, ∀ V, HasVec V shapes →
      (∀ i : Fin P, |entriesOf V i| < δ) →
      ∃ GV, ((curvatureOp shapes red (inferNData List.length batches none) List.length
          (netGGNBatch shapes red θ) batches).matmul (.list V)).1 = .ok (.list GV) ∧
        |linearizedRisk red batches.flatten θ (entriesOf V) -
            (L + ∑ i : Fin P, entriesOf G i * entriesOf V i + (∑ i : Fin P, entriesOf V i * entriesOf GV i) / 2)| ≤
          ε * ∑ i : Fin P, entriesOf V i ^ 2 := by
  have hLd : ∀ d ∈ batches.flatten, DifferentiableAt ℝ d.loss (d.f θ) := fun d hd => (hL d hd).differentiableAt (by norm_num)
  obtain ⟨G, g1, g2, -, g4⟩ := netGradient_spec shapes hP red hred θ batches hb
    fun b h1 d h2 => (hLd d (List.mem_flatten_of_mem h1 h2)).comp θ (hf d (List.mem_flatten_of_mem h1 h2))
  have hF : ContDiffAt ℝ 2 (netLoss red (batches.flatten.map (linearizedModel θ))) θ := by
    rw [← empiricalRisk_eq]
    refine contDiffAt_empiricalRisk red _ θ fun d hd => ?_
    obtain ⟨d', hd', rfl⟩ := List.mem_map.mp hd
    exact (hess_linearized θ d' (hf d' hd') (hL d' hd')).1
  obtain ⟨δ, hδ, hexp⟩ := second_order_expansion hF hε
  refine ⟨G, _, g1, δ, hδ, fun V hV hsmall => ?_⟩
  obtain ⟨GV, v1, v2, v3⟩ := matmul_entries _ shapes hP rfl rfl _
    (ggnOp_eq_functorch shapes hP hs red hred θ batches hb hf hL) V hV
  refine ⟨GV, v1, ?_⟩
  have hn : ‖(entriesOf V : Fin P → ℝ)‖ < δ :=
    (pi_norm_lt_iff hδ).mpr fun i => by rw [Real.norm_eq_abs]; exact hsmall i
  have key := hexp (entriesOf V) hn
  refine le_trans (le_of_eq ?_) (key.trans (mul_le_mul_of_nonneg_left (norm_sq_le_sum _) hε.le))
  have h0 : netLoss red (batches.flatten.map (linearizedModel θ)) θ = empiricalRisk red batches.flatten θ := by
    rw [empiricalRisk_eq]
    unfold netLoss
    rw [List.length_map, List.map_map]
    congr 2
    refine List.map_congr_left fun d _ => ?_
    simp [linearizedModel]
  have h1 : ∀ i : Fin P, pderiv (netLoss red (batches.flatten.map (linearizedModel θ))) i θ = entriesOf G i := fun i => by
    rw [g4, pderiv_linearized red _ θ hf hLd i, empiricalRisk_eq]
  have h2 : ∀ i : Fin P, entriesOf GV i =
      ∑ j, hess (netLoss red (batches.flatten.map (linearizedModel θ))) θ i j * entriesOf V j := fun i => by
    rw [v3 i]
    refine Finset.sum_congr rfl fun j _ => ?_
    simp [functorchGGN, natMat]
  congr 1
  rw [linearizedRisk_eq red _ θ _ hf]
  simp only [h0, h1, h2]
  ring

end ggn

/-! ## Minimizers of the quadratic model -/

section newton

variable {shapes : List (List Nat)}

/-- **C107** (Newton steps): for a symmetric positive semi-definite operator, a vector minimizes the quadratic model of the loss if and
only if its product with the operator is the negative gradient. -/
theorem quadratic_model_minimizer (op : LinOp ℝ) (hP : total shapes = P) (hin : op.inShape = shapes) (hout : op.outShape = shapes)
    (E : Mat ℝ) (hE : Represents op E) (hsymm : ∀ i j : Fin P, E i j = E j i) (hpsd : QuadNonneg P E)
    (G X : List (Tensor ℝ)) (hX : HasVec X shapes) :
    ∃ Y, (op.matmul (.list X)).1 = .ok (.list Y) ∧
      ((∀ i : Fin P, entriesOf Y i = -entriesOf G i) ↔
        ∀ V, HasVec V shapes → ∃ Z, (op.matmul (.list V)).1 = .ok (.list Z) ∧
          ∑ i : Fin P, entriesOf G i * entriesOf X i + (∑ i : Fin P, entriesOf X i * entriesOf Y i) / 2 ≤
            ∑ i : Fin P, entriesOf G i * entriesOf V i + (∑ i : Fin P, entriesOf V i * entriesOf Z i) / 2) := by
  obtain ⟨Y, y1, y2, y3⟩ := matmul_entries op shapes hP hin hout E hE X hX
  refine ⟨Y, y1, ?_⟩
  set q : (Fin P → ℝ) → ℝ := fun v => ∑ i, entriesOf G i * v i + (∑ i, v i * ∑ j : Fin P, E i j * v j) / 2 with hq
  have hswap : ∀ v w : Fin P → ℝ, ∑ i, v i * ∑ j : Fin P, E i j * w j = ∑ i, w i * ∑ j : Fin P, E i j * v j := by
    intro v w
    simp only [Finset.mul_sum]
    rw [Finset.sum_comm]
    refine Finset.sum_congr rfl fun i _ => Finset.sum_congr rfl fun j _ => ?_
    rw [hsymm j i]; ring
  have hexp : ∀ (x d : Fin P → ℝ) (t : ℝ), q (fun i => x i + t * d i) =
      q x + t * ∑ i, (entriesOf G i + ∑ j : Fin P, E i j * x j) * d i + t ^ 2 * (∑ i, d i * ∑ j : Fin P, E i j * d j) / 2 := by
    intro x d t
    have e1 : ∑ i, (x i + t * d i) * ∑ j : Fin P, E i j * (x j + t * d j) =
        ∑ i, x i * ∑ j : Fin P, E i j * x j + t * (∑ i, d i * ∑ j : Fin P, E i j * x j) +
          t * (∑ i, x i * ∑ j : Fin P, E i j * d j) + t ^ 2 * ∑ i, d i * ∑ j : Fin P, E i j * d j := by
      have : ∀ i : Fin P, ∑ j : Fin P, E i j * (x j + t * d j) = ∑ j : Fin P, E i j * x j + t * ∑ j : Fin P, E i j * d j := by
        intro i
        rw [Finset.mul_sum, ← Finset.sum_add_distrib]
        exact Finset.sum_congr rfl fun j _ => by ring
      simp only [this]
      rw [Finset.mul_sum, Finset.mul_sum, Finset.mul_sum, ← Finset.sum_add_distrib, ← Finset.sum_add_distrib,
        ← Finset.sum_add_distrib]
      exact Finset.sum_congr rfl fun i _ => by ring
    have e2 : ∑ i, entriesOf G i * (x i + t * d i) = ∑ i, entriesOf G i * x i + t * ∑ i, entriesOf G i * d i := by
      rw [Finset.mul_sum, ← Finset.sum_add_distrib]
      exact Finset.sum_congr rfl fun i _ => by ring
    have e3 : ∑ i, (entriesOf G i + ∑ j : Fin P, E i j * x j) * d i =
        ∑ i, entriesOf G i * d i + ∑ i, d i * ∑ j : Fin P, E i j * x j := by
      rw [← Finset.sum_add_distrib]
      exact Finset.sum_congr rfl fun i _ => by ring
    simp only [hq]
    rw [e1, e2, e3, hswap x d]
    ring
  have hqY : ∑ i : Fin P, entriesOf G i * entriesOf X i + (∑ i : Fin P, entriesOf X i * entriesOf Y i) / 2 = q (entriesOf X) := by
    simp only [hq, y3]
  rw [hqY]
  constructor
  · intro hY V hV
    obtain ⟨Z, z1, z2, z3⟩ := matmul_entries op shapes hP hin hout E hE V hV
    refine ⟨Z, z1, ?_⟩
    have hqZ : ∑ i : Fin P, entriesOf G i * entriesOf V i + (∑ i : Fin P, entriesOf V i * entriesOf Z i) / 2 = q (entriesOf V) := by
      simp only [hq, z3]
    rw [hqZ]
    have h1 := hexp (entriesOf X) (fun i => entriesOf V i - entriesOf X i) 1
    have h2 : ∑ i : Fin P, (entriesOf G i + ∑ j : Fin P, E i j * entriesOf X j) * (entriesOf V i - entriesOf X i) = 0 :=
      Finset.sum_eq_zero fun i _ => by rw [← y3, hY]; ring
    have h3 := quad_fin_nonneg hpsd fun i : Fin P => entriesOf V i - entriesOf X i
    have e : (fun i : Fin P => entriesOf X i + 1 * (entriesOf V i - entriesOf X i)) = entriesOf V := by funext i; ring
    rw [e, h2] at h1
    linarith
  · intro hmin
    have hall : ∀ v : Fin P → ℝ, q (entriesOf X) ≤ q v := by
      intro v
      obtain ⟨V, hV, rfl⟩ := exists_hasVec shapes hP v
      obtain ⟨Z, z1, hz⟩ := hmin V hV
      obtain ⟨Z', z1', z2, z3⟩ := matmul_entries op shapes hP hin hout E hE V hV
      rw [z1] at z1'
      cases z1'
      refine hz.trans (le_of_eq ?_)
      simp only [hq, z3]
    intro i
    set r : Fin P → ℝ := fun i => entriesOf G i + ∑ j : Fin P, E i j * entriesOf X j with hr
    have hz : ∑ i, r i * r i = 0 := by
      have h0 : 0 ≤ ∑ i, r i * r i := Finset.sum_nonneg fun i _ => mul_self_nonneg _
      by_contra hne
      have hpos : 0 < ∑ i, r i * r i := lt_of_le_of_ne h0 (Ne.symm hne)
      have hC := quad_fin_nonneg hpsd r
      set C := ∑ i, r i * ∑ j : Fin P, E i j * r j with hCdef
      set S := ∑ i, r i * r i with hS
      have hlow := hall fun i => entriesOf X i + (-(S / (C + S))) * r i
      rw [hexp] at hlow
      have hT : 0 < C + S := by linarith
      have hle : 0 ≤ -(S / (C + S)) * S + (-(S / (C + S))) ^ 2 * C / 2 := by
        have : ∑ i, (entriesOf G i + ∑ j : Fin P, E i j * entriesOf X j) * r i = S := rfl
        rw [this] at hlow
        linarith
      have : -(S / (C + S)) * S + (-(S / (C + S))) ^ 2 * C / 2 = -(S ^ 2 * (C + 2 * S)) / (2 * (C + S) ^ 2) := by
        field_simp; ring
      rw [this] at hle
      have : 0 < S ^ 2 * (C + 2 * S) / (2 * (C + S) ^ 2) := by positivity
      rw [neg_div] at hle
      linarith
    have hri : r i = 0 := by
      have := (Finset.sum_eq_zero_iff_of_nonneg fun i _ => mul_self_nonneg (r i)).mp hz i (Finset.mem_univ i)
      exact mul_self_eq_zero.mp this
    rw [y3 i]
    simp only [hr] at hri
    linarith

theorem functorchGGN_psd (red : Reduction) (θ : Fin P → ℝ) (ds : List (NetDatum P O)) (hf : ∀ d ∈ ds, DifferentiableAt ℝ d.f θ)
    (hL : ∀ d ∈ ds, ContDiffAt ℝ 2 d.loss (d.f θ))
    (hconv : ∀ d ∈ ds, ∀ w : Fin O → ℝ, 0 ≤ ∑ o, w o * ∑ o', hess d.loss (d.f θ) o o' * w o') :
    (∀ i j : Fin P, functorchGGN red θ ds i j = functorchGGN red θ ds j i) ∧ QuadNonneg P (functorchGGN red θ ds) := by
  have hc : ∀ d ∈ ds.map (linearizedModel θ), ContDiffAt ℝ 2 (fun θ => d.loss (d.f θ)) θ := by
    intro d hd
    obtain ⟨d', hd', rfl⟩ := List.mem_map.mp hd
    exact (hess_linearized θ d' (hf d' hd') (hL d' hd')).1
  constructor
  · intro i j
    have hF := contDiffAt_empiricalRisk red _ θ hc
    rw [empiricalRisk_eq] at hF
    simp only [functorchGGN, natMat, i.2, j.2, and_self, dite_true]
    exact hess_symm hF i j
  · unfold functorchGGN
    rw [natMat_hess_netLoss red _ θ hc]
    refine riskMatrix_psd P red _ _ fun d hd => ?_
    obtain ⟨d', hd', rfl⟩ := List.mem_map.mp hd
    rw [(hess_linearized θ d' (hf d' hd') (hL d' hd')).2]
    intro v
    have e : ∑ r ∈ Finset.range P, ∑ c ∈ Finset.range P,
        v r * (if r < P ∧ c < P then datumGGN O (toGGNDatum θ d') r c else 0) * v c =
        ∑ r ∈ Finset.range P, ∑ c ∈ Finset.range P, v r * datumGGN O (toGGNDatum θ d') r c * v c :=
      Finset.sum_congr rfl fun r hr => Finset.sum_congr rfl fun c hc => by
        rw [if_pos ⟨Finset.mem_range.mp hr, Finset.mem_range.mp hc⟩]
    rw [e, quad_datumGGN]
    have hQ : QuadNonneg O (toGGNDatum θ d').HL := by
      intro w
      refine (hconv d' hd' fun o => w o).trans (le_of_eq ?_)
      rw [Finset.sum_range]
      refine Finset.sum_congr rfl fun o _ => ?_
      rw [Finset.sum_range, Finset.mul_sum]
      refine Finset.sum_congr rfl fun o' _ => ?_
      simp [toGGNDatum, mul_assoc]
    exact hQ _

/-- **C107** (Gauss-Newton steps): with losses that are convex in the predictions, a vector minimizes the quadratic model built from the
gradient of `gradient_and_loss` and the GGN products if and only if the GGN maps it to the negative gradient. -/
theorem gaussNewton_step (hP : total shapes = P) (hs : shapes ≠ []) (red : Reduction) (hred : red = .mean ∨ red = .sum)
    (θ : Fin P → ℝ) (batches : List (List (NetDatum P O))) (hb : ∀ b ∈ batches, b ≠ [])
    (hf : ∀ d ∈ batches.flatten, DifferentiableAt ℝ d.f θ) (hL : ∀ d ∈ batches.flatten, ContDiffAt ℝ 2 d.loss (d.f θ))
    (hconv : ∀ d ∈ batches.flatten, ∀ w : Fin O → ℝ, 0 ≤ ∑ o, w o * ∑ o', hess d.loss (d.f θ) o o' * w o')
    (X : List (Tensor ℝ)) (hX : HasVec X shapes) :
    ∃ G L Y, gradientAndLoss shapes red (inferNData List.length batches none) List.length
        (some (netLossGradBatch shapes red θ)) batches = .ok (G, L) ∧
      ((curvatureOp shapes red (inferNData List.length batches none) List.length (netGGNBatch shapes red θ) batches).matmul
        (.list X)).1 = .ok (.list Y) ∧
      ((∀ i : Fin P, entriesOf Y i = -entriesOf G i) ↔ ∀ V, HasVec V shapes → ∃ Z,
        ((curvatureOp shapes red (inferNData List.length batches none) List.length (netGGNBatch shapes red θ) batches).matmul
          (.list V)).1 = .ok (.list Z) ∧
        ∑ i : Fin P, entriesOf G i * entriesOf X i + (∑ i : Fin P, entriesOf X i * entriesOf Y i) / 2 ≤
          ∑ i : Fin P, entriesOf G i * entriesOf V i + (∑ i : Fin P, entriesOf V i * entriesOf Z i) / 2) := by
  obtain ⟨G, g1, g2, -, g4⟩ := netGradient_spec shapes hP red hred θ batches hb fun b h1 d h2 =>
    ((hL d (List.mem_flatten_of_mem h1 h2)).differentiableAt (by norm_num)).comp θ (hf d (List.mem_flatten_of_mem h1 h2))
  obtain ⟨h1, h2⟩ := functorchGGN_psd red θ batches.flatten hf hL hconv
  obtain ⟨Y, y1, y2⟩ := quadratic_model_minimizer _ hP rfl rfl _ (ggnOp_eq_functorch shapes hP hs red hred θ batches hb hf hL) h1 h2
    G X hX
  exact ⟨G, _, Y, g1, y1, y2⟩

/-! ## Examples -/

/-- The Hessian product `(1, 0)` of a two-layer model on two batches is the derivative of the gradient along the first weight. -/
example (θ : Fin 2 → ℝ) : ∃ (HV : List (Tensor ℝ)) (G : ℝ → List (Tensor ℝ)),
    ((curvatureOp [[1, 1], [1, 1]] .mean (inferNData List.length [[deepDatum 1 2], [deepDatum 3 4]] none) List.length
      (netHessianBatch [[1, 1], [1, 1]] [2] .mean θ) [[deepDatum 1 2], [deepDatum 3 4]]).matmul
        (.list [⟨[1, 1], [1]⟩, ⟨[1, 1], [0]⟩])).1 = .ok (.list HV) ∧ HasVec HV [[1, 1], [1, 1]] ∧
    (∀ᶠ t in 𝓝 (0 : ℝ), HasVec (G t) [[1, 1], [1, 1]] ∧ ∃ L, gradientAndLoss [[1, 1], [1, 1]] .mean
      (inferNData List.length [[deepDatum 1 2], [deepDatum 3 4]] none) List.length
      (some (netLossGradBatch [[1, 1], [1, 1]] .mean (moveBy θ t (entriesOf [⟨[1, 1], [1]⟩, ⟨[1, 1], [0]⟩]))))
      [[deepDatum 1 2], [deepDatum 3 4]] = .ok (G t, L)) ∧
    ∀ i : Fin 2, HasDerivAt (fun t => entriesOf (G t) i) (entriesOf HV i) 0 := by
  have hf : ∀ x y, ContDiffAt ℝ 2 (fun θ => (deepDatum x y).loss ((deepDatum x y).f θ)) θ := by
    intro x y
    unfold deepDatum
    fun_prop
  exact hessian_directional (by decide) (by simp) .mean (Or.inl rfl) θ [[deepDatum 1 2], [deepDatum 3 4]] (by simp) (by simp [hf])
    [⟨[1, 1], [1]⟩, ⟨[1, 1], [0]⟩] ⟨rfl, by simp [Tensor.WF]⟩

/-- The Jacobian product of the same model is the derivative of both predictions. -/
example (θ : Fin 2 → ℝ) : ∃ JV,
    ((jacobianOp [[1, 1], [1, 1]] 2 (jacBatch [1] (jacRows θ [deepDatum 1 2])) [jacBatch [1] (jacRows θ [deepDatum 3 4])]).matmul
        (.list [⟨[1, 1], [5]⟩, ⟨[1, 1], [7]⟩])).1 = .ok (.list JV) ∧ HasVec JV [[2, 1]] ∧
      HasDerivAt (fun t => (deepDatum 3 4).f (moveBy θ t (entriesOf [⟨[1, 1], [5]⟩, ⟨[1, 1], [7]⟩])) 0) ((flatData JV).getD 1 0) 0 := by
  have hf : ∀ x y, DifferentiableAt ℝ (deepDatum x y).f θ := by
    intro x y
    unfold deepDatum
    fun_prop
  obtain ⟨JV, h1, h2, h3⟩ := jacobian_directional (shapes := [[1, 1], [1, 1]]) (by decide) (by simp) [1] (by simp) θ [deepDatum 1 2]
    [[deepDatum 3 4]] (by
      intro d hd
      simp only [List.flatten_cons, List.flatten_nil, List.append_nil, List.singleton_append, List.mem_cons, List.not_mem_nil,
        or_false] at hd
      rcases hd with rfl | rfl <;> exact hf _ _) [⟨[1, 1], [5]⟩, ⟨[1, 1], [7]⟩] ⟨rfl, by simp [Tensor.WF]⟩
  exact ⟨JV, h1, h2, h3 1 (deepDatum 3 4) rfl 0⟩

/-- The transposed Jacobian product `(5, 7)` of the same model is the gradient of five times the first plus seven times the second
prediction. -/
example (θ : Fin 2 → ℝ) : ∃ D,
    ((transposedJacobianOp [[1, 1], [1, 1]] 2 (jacBatch [1] (jacRows θ [deepDatum 1 2])) [jacBatch [1] (jacRows θ [deepDatum 3 4])]).matmul
        (.list [⟨[2, 1], [5, 7]⟩])).1 = .ok (.list D) ∧ HasVec D [[1, 1], [1, 1]] ∧
      ∀ i : Fin 2, entriesOf D i = pderiv (fun θ => 5 * (deepDatum 1 2).f θ 0 + 7 * (deepDatum 3 4).f θ 0) i θ := by
  have hf : ∀ x y, DifferentiableAt ℝ (deepDatum x y).f θ := by
    intro x y
    unfold deepDatum
    fun_prop
  obtain ⟨D, h1, h2, h3⟩ := transposedJacobian_gradient (shapes := [[1, 1], [1, 1]]) (by decide) [1] (by simp) θ [deepDatum 1 2]
    [[deepDatum 3 4]] (by
      intro d hd
      simp only [List.flatten_cons, List.flatten_nil, List.append_nil, List.singleton_append, List.mem_cons, List.not_mem_nil,
        or_false] at hd
      rcases hd with rfl | rfl <;> exact hf _ _) [⟨[2, 1], [5, 7]⟩] ⟨rfl, by simp [Tensor.WF]⟩
  refine ⟨D, h1, h2, fun i => (h3 i).trans ?_⟩
  congr 1
  funext θ
  exact (Fin.sum_univ_two _).trans (by simp [flatData])

/-- The quadratic models of the same model: with the Hessian for the risk, with the GGN for the risk of the linearized model. -/
example (θ : Fin 2 → ℝ) : ∃ G L, gradientAndLoss [[1, 1], [1, 1]] .mean (inferNData List.length [[deepDatum 1 2], [deepDatum 3 4]] none)
      List.length (some (netLossGradBatch [[1, 1], [1, 1]] .mean θ)) [[deepDatum 1 2], [deepDatum 3 4]] = .ok (G, L) ∧
    ∃ δ > 0, ∀ V, HasVec V [[1, 1], [1, 1]] → (∀ i : Fin 2, |entriesOf V i| < δ) →
      (∃ HV G' L', ((curvatureOp [[1, 1], [1, 1]] .mean (inferNData List.length [[deepDatum 1 2], [deepDatum 3 4]] none) List.length
          (netHessianBatch [[1, 1], [1, 1]] [2] .mean θ) [[deepDatum 1 2], [deepDatum 3 4]]).matmul (.list V)).1 = .ok (.list HV) ∧
        gradientAndLoss [[1, 1], [1, 1]] .mean (inferNData List.length [[deepDatum 1 2], [deepDatum 3 4]] none) List.length
          (some (netLossGradBatch [[1, 1], [1, 1]] .mean fun i => θ i + entriesOf V i)) [[deepDatum 1 2], [deepDatum 3 4]] =
            .ok (G', L') ∧
        |L' - (L + ∑ i : Fin 2, entriesOf G i * entriesOf V i + (∑ i : Fin 2, entriesOf V i * entriesOf HV i) / 2)| ≤
          1 / 100 * ∑ i : Fin 2, entriesOf V i ^ 2) ∧
      ∃ GV, ((curvatureOp [[1, 1], [1, 1]] .mean (inferNData List.length [[deepDatum 1 2], [deepDatum 3 4]] none) List.length
          (netGGNBatch [[1, 1], [1, 1]] .mean θ) [[deepDatum 1 2], [deepDatum 3 4]]).matmul (.list V)).1 = .ok (.list GV) ∧
        |linearizedRisk .mean [deepDatum 1 2, deepDatum 3 4] θ (entriesOf V) -
            (L + ∑ i : Fin 2, entriesOf G i * entriesOf V i + (∑ i : Fin 2, entriesOf V i * entriesOf GV i) / 2)| ≤
          1 / 100 * ∑ i : Fin 2, entriesOf V i ^ 2 := by
  have h : ∀ x y, ContDiffAt ℝ 2 (fun θ => (deepDatum x y).loss ((deepDatum x y).f θ)) θ := by
    intro x y
    unfold deepDatum
    fun_prop
  have hf : ∀ d ∈ [[deepDatum 1 2], [deepDatum 3 4]].flatten, DifferentiableAt ℝ d.f θ := by
    intro d hd
    simp only [List.flatten_cons, List.flatten_nil, List.append_nil, List.singleton_append, List.mem_cons, List.not_mem_nil,
      or_false] at hd
    rcases hd with rfl | rfl <;> (unfold deepDatum; fun_prop)
  have hL : ∀ x y, ContDiffAt ℝ 2 (deepDatum x y).loss ((deepDatum x y).f θ) := by
    intro x y
    unfold deepDatum
    fun_prop
  obtain ⟨G, L, g, δ, hδ, e⟩ := risk_quadratic_model (shapes := [[1, 1], [1, 1]]) (by decide) (by simp) .mean (Or.inl rfl) θ
    [[deepDatum 1 2], [deepDatum 3 4]] (by simp) (by simp [h]) (1 / 100) (by norm_num)
  obtain ⟨G', L', g', δ', hδ', e'⟩ := linearizedRisk_quadratic_model (shapes := [[1, 1], [1, 1]]) (by decide) (by simp) .mean
    (Or.inl rfl) θ [[deepDatum 1 2], [deepDatum 3 4]] (by simp) hf (by simp [hL]) (1 / 100) (by norm_num)
  rw [g] at g'
  cases g'
  exact ⟨G, L, g, min δ δ', lt_min hδ hδ', fun V hV hs => ⟨e V hV fun i => (hs i).trans_le (min_le_left _ _),
    e' V hV fun i => (hs i).trans_le (min_le_right _ _)⟩⟩

/-- A Gauss-Newton step of the same model. -/
example (θ : Fin 2 → ℝ) (X : List (Tensor ℝ)) (hX : HasVec X [[1, 1], [1, 1]]) :
    ∃ G L Y, gradientAndLoss [[1, 1], [1, 1]] .mean (inferNData List.length [[deepDatum 1 2]] none) List.length
        (some (netLossGradBatch [[1, 1], [1, 1]] .mean θ)) [[deepDatum 1 2]] = .ok (G, L) ∧
      ((curvatureOp [[1, 1], [1, 1]] .mean (inferNData List.length [[deepDatum 1 2]] none) List.length
        (netGGNBatch [[1, 1], [1, 1]] .mean θ) [[deepDatum 1 2]]).matmul (.list X)).1 = .ok (.list Y) ∧
      ((∀ i : Fin 2, entriesOf Y i = -entriesOf G i) ↔ ∀ V, HasVec V [[1, 1], [1, 1]] → ∃ Z,
        ((curvatureOp [[1, 1], [1, 1]] .mean (inferNData List.length [[deepDatum 1 2]] none) List.length
          (netGGNBatch [[1, 1], [1, 1]] .mean θ) [[deepDatum 1 2]]).matmul (.list V)).1 = .ok (.list Z) ∧
        ∑ i : Fin 2, entriesOf G i * entriesOf X i + (∑ i : Fin 2, entriesOf X i * entriesOf Y i) / 2 ≤
          ∑ i : Fin 2, entriesOf G i * entriesOf V i + (∑ i : Fin 2, entriesOf V i * entriesOf Z i) / 2) := by
  have hh : hess (deepDatum 1 2).loss ((deepDatum 1 2).f θ) 0 0 = 2 := by
    have e : (deepDatum 1 2).loss = termLoss .mse fun _ => 2 := by
      funext o; simp [deepDatum, termLoss]
    rw [e, hess_mse]; simp
  refine gaussNewton_step (by decide) (by simp) .mean (Or.inl rfl) θ [[deepDatum 1 2]] (by simp) ?_ ?_ ?_ X hX
  · intro d hd
    obtain rfl : d = deepDatum 1 2 := by simpa using hd
    unfold deepDatum; fun_prop
  · intro d hd
    obtain rfl : d = deepDatum 1 2 := by simpa using hd
    unfold deepDatum; fun_prop
  · intro d hd w
    obtain rfl : d = deepDatum 1 2 := by simpa using hd
    rw [Fin.sum_univ_one, Fin.sum_univ_one, hh]
    nlinarith [mul_self_nonneg (w 0)]

end newton

end Curvlinops
