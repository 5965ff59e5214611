import Verif.Props.Net
import Mathlib.Analysis.Calculus.FDeriv.CompCLM
import Mathlib.Analysis.Calculus.LocalExtr.Basic
import Mathlib.Analysis.Calculus.Deriv.Prod
import Mathlib.Analysis.SpecialFunctions.Log.Deriv
import Mathlib.Tactic.FinCases

/-!
# C77: Hessian and GGN
-/

namespace Curvlinops

section Calculus

variable {ι κ : Type _} [DecidableEq ι] [Fintype ι] [DecidableEq κ] [Fintype κ]

omit [DecidableEq κ] [Fintype κ] in
theorem fderiv_single {f : (ι → ℝ) → κ → ℝ} {x : ι → ℝ} (hf : DifferentiableAt ℝ f x) (s : κ) (i : ι) :
    fderiv ℝ f x (Pi.single i 1) s = pderiv (fun y => f y s) i x := by
  have h : HasFDerivAt (fun y => f y s) ((ContinuousLinearMap.proj s).comp (fderiv ℝ f x)) x :=
    (hasFDerivAt_pi'.1 hf.hasFDerivAt) s
  rw [pderiv_eq_fderiv h.differentiableAt, h.fderiv]
  rfl

omit [DecidableEq κ] in
theorem fderiv2_single {f : (ι → ℝ) → κ → ℝ} {x : ι → ℝ} (hf : ContDiffAt ℝ 2 f x) (s : κ) (i j : ι) :
    fderiv ℝ (fderiv ℝ f) x (Pi.single i 1) (Pi.single j 1) s = hess (fun y => f y s) x i j := by
  have hfs : ContDiffAt ℝ 2 (fun y => f y s) x := contDiffAt_pi.1 hf s
  rw [hess_eq_fderiv hfs]
  have hev : ∀ᶠ y in nhds x, DifferentiableAt ℝ f y :=
    (hf.eventually (by simp)).mono fun y hy => hy.differentiableAt (by norm_num)
  have e1 : (fderiv ℝ fun y => f y s) =ᶠ[nhds x]
      fun y => (ContinuousLinearMap.proj (R := ℝ) (φ := fun _ : κ => ℝ) s).comp (fderiv ℝ f y) :=
    hev.mono fun y hy => ((hasFDerivAt_pi'.1 hy.hasFDerivAt) s).fderiv
  have hf2 : DifferentiableAt ℝ (fderiv ℝ f) x :=
    (hf.fderiv_right (m := 1) (by norm_num)).differentiableAt (by norm_num)
  have e2 : HasFDerivAt (fun y => (ContinuousLinearMap.proj (R := ℝ) (φ := fun _ : κ => ℝ) s).comp (fderiv ℝ f y)) _ x :=
    (ContinuousLinearMap.compL ℝ (ι → ℝ) (κ → ℝ) ℝ
    (ContinuousLinearMap.proj (R := ℝ) (φ := fun _ : κ => ℝ) s)).hasFDerivAt.comp x hf2.hasFDerivAt
  rw [e1.fderiv_eq, HasFDerivAt.fderiv e2]
  rfl

/-- Second-order chain rule. -/
theorem hess_comp (L : (κ → ℝ) → ℝ) (f : (ι → ℝ) → κ → ℝ) (x : ι → ℝ) (hL : ContDiffAt ℝ 2 L (f x))
    (hf : ContDiffAt ℝ 2 f x) (i j : ι) :
    hess (fun y => L (f y)) x i j =
      (∑ s, ∑ s', pderiv (fun y => f y s) i x * hess L (f x) s s' * pderiv (fun y => f y s') j x) +
        ∑ s, pderiv L s (f x) * hess (fun y => f y s) x i j := by
  have hLf : ContDiffAt ℝ 2 (fun y => L (f y)) x := ContDiffAt.comp x hL hf
  have hfd : DifferentiableAt ℝ f x := hf.differentiableAt (by norm_num)
  have hLd : DifferentiableAt ℝ L (f x) := hL.differentiableAt (by norm_num)
  rw [hess_eq_fderiv hLf]
  have hevL : ∀ᶠ y in nhds x, DifferentiableAt ℝ L (f y) :=
    hfd.continuousAt.eventually ((hL.eventually (by simp)).mono fun y hy => hy.differentiableAt (by norm_num))
  have hevf : ∀ᶠ y in nhds x, DifferentiableAt ℝ f y :=
    (hf.eventually (by simp)).mono fun y hy => hy.differentiableAt (by norm_num)
  have e1 : (fderiv ℝ fun y => L (f y)) =ᶠ[nhds x] fun y => (fderiv ℝ L (f y)).comp (fderiv ℝ f y) := by
    filter_upwards [hevL, hevf] with y h1 h2
    exact (h1.hasFDerivAt.comp y h2.hasFDerivAt).fderiv
  have hL2 : DifferentiableAt ℝ (fderiv ℝ L) (f x) :=
    (hL.fderiv_right (m := 1) (by norm_num)).differentiableAt (by norm_num)
  have hf2 : DifferentiableAt ℝ (fderiv ℝ f) x :=
    (hf.fderiv_right (m := 1) (by norm_num)).differentiableAt (by norm_num)
  have e2 : HasFDerivAt (fun y => (fderiv ℝ L (f y)).comp (fderiv ℝ f y)) _ x :=
    (hL2.hasFDerivAt.comp x hfd.hasFDerivAt).clm_comp hf2.hasFDerivAt
  rw [e1.fderiv_eq, HasFDerivAt.fderiv e2]
  change fderiv ℝ L (f x) (fderiv ℝ (fderiv ℝ f) x (Pi.single i 1) (Pi.single j 1)) +
    fderiv ℝ (fderiv ℝ L) (f x) (fderiv ℝ f x (Pi.single i 1)) (fderiv ℝ f x (Pi.single j 1)) = _
  have basis : ∀ u : κ → ℝ, u = ∑ s, u s • Pi.single s (1 : ℝ) := by
    intro u; funext s; simp [Finset.sum_apply, Pi.single_apply]
  rw [add_comm]
  congr 1
  · simp only [hess_eq_fderiv hL, ← fderiv_single hfd]
    generalize fderiv ℝ f x (Pi.single i 1) = u
    generalize fderiv ℝ f x (Pi.single j 1) = v
    conv_lhs => rw [basis u, basis v]
    simp only [map_sum, map_smul, sum_apply, smul_apply, smul_eq_mul]
    simp only [Finset.mul_sum]
    rw [Finset.sum_comm]
    refine Finset.sum_congr rfl fun s _ => ?_
    exact Finset.sum_congr rfl fun s' _ => by ring
  · simp only [← fderiv2_single hf, pderiv_eq_fderiv hLd]
    generalize fderiv ℝ (fderiv ℝ f) x (Pi.single i 1) (Pi.single j 1) = w
    conv_lhs => rw [basis w]
    simp only [map_sum, map_smul, smul_eq_mul]
    exact Finset.sum_congr rfl fun s _ => by ring

end Calculus

variable {P O : Nat}

/-- Specification: what the Hessian of one datum's loss contains besides the GGN: second derivatives of the predictions, weighted with
the derivatives of the loss. -/
noncomputable def residualMatrix (θ : Fin P → ℝ) (d : NetDatum P O) : Mat ℝ :=
  natMat fun i j => ∑ s, pderiv d.loss s (d.f θ) * hess (fun θ => d.f θ s) θ i j

theorem datum_gauss_newton (θ : Fin P → ℝ) (d : NetDatum P O) (hf : ContDiffAt ℝ 2 d.f θ)
    (hL : ContDiffAt ℝ 2 d.loss (d.f θ)) (r c : Nat) :
    natMat (hess (fun θ => d.loss (d.f θ)) θ) r c =
      natMat (hess (fun θ' => (linearizedModel θ d).loss ((linearizedModel θ d).f θ')) θ) r c +
        residualMatrix θ d r c := by
  rw [(hess_linearized θ d (hf.differentiableAt (by norm_num)) hL).2]
  unfold residualMatrix natMat
  by_cases h : r < P ∧ c < P
  · simp only [dif_pos h, if_pos h]
    rw [hess_comp d.loss d.f θ hL hf]
    congr 1
    unfold datumGGN toGGNDatum
    rw [Finset.sum_range]
    refine Finset.sum_congr rfl fun o _ => ?_
    rw [Finset.sum_range]
    refine Finset.sum_congr rfl fun o' _ => ?_
    simp [h.1, h.2]
  · simp only [dif_neg h, if_neg h, add_zero]

/-- The Hessian of the empirical risk is the GGN plus the residual. -/
theorem risk_gauss_newton (red : Reduction) (θ : Fin P → ℝ) (ds : List (NetDatum P O))
    (hf : ∀ d ∈ ds, ContDiffAt ℝ 2 d.f θ) (hL : ∀ d ∈ ds, ContDiffAt ℝ 2 d.loss (d.f θ)) (r c : Nat) :
    natMat (hess (empiricalRisk red ds) θ) r c =
      functorchGGN red θ ds r c + riskMatrix red (residualMatrix θ) ds r c := by
  rw [empiricalRisk_eq, natMat_hess_netLoss red ds θ fun d hd => ContDiffAt.comp θ (hL d hd) (hf d hd)]
  unfold functorchGGN
  rw [natMat_hess_netLoss red _ θ (by
      intro d hd
      obtain ⟨d', hd', rfl⟩ := List.mem_map.mp hd
      exact (hess_linearized θ d' ((hf d' hd').differentiableAt (by norm_num)) (hL d' hd')).1)]
  unfold riskMatrix
  rw [List.length_map, List.map_map, ← mul_add, ← List.sum_map_add]
  congr 2
  exact List.map_congr_left fun d hd => datum_gauss_newton θ d (hf d hd) (hL d hd) r c

/-- Operators with the same in- and output shapes and the same matrix return the same products. -/
theorem represents_same_output {op op' : LinOp ℝ} (h1 : op.inShape = op'.inShape) (h2 : op.outShape = op'.outShape) {A B : Mat ℝ}
    (hA : Represents op A) (hB : Represents op' B) (hAB : ∀ r < op.nrows, ∀ c < op.ncols, A r c = B r c) {K : Nat}
    {Xs : List (Tensor ℝ)} (hX : HasShapes Xs op.inShape K) : (op.matmat Xs).1 = (op'.matmat Xs).1 := by
  obtain ⟨Y, y1, y2, y3⟩ := hA K Xs hX
  obtain ⟨Z, z1, z2, z3⟩ := hB K Xs (h1 ▸ hX)
  rw [y1, z1, Except.ok.injEq]
  have hr : op'.nrows = op.nrows := by simp only [LinOp.nrows, LinOp.outFlat, h2]
  have hc : op'.ncols = op.ncols := by simp only [LinOp.ncols, LinOp.inFlat, h1]
  rw [hr, hc] at z3
  have hflat : flatData Y = flatData Z := by
    refine List.ext_getElem (by rw [y3.1, z3.1]) fun n hy hz => ?_
    have hy' : n < op.nrows * K := y3.1 ▸ hy
    have hK : 0 < K := by
      rcases Nat.eq_zero_or_pos K with h | h
      · rw [h, Nat.mul_zero] at hy'; omega
      · exact h
    have hrow : n / K < op.nrows := Nat.div_lt_of_lt_mul (by rw [Nat.mul_comm]; exact hy')
    have hk : n % K < K := Nat.mod_lt _ hK
    have hnk : n / K * K + n % K = n := by rw [Nat.mul_comm]; exact Nat.div_add_mod n K
    have ey := y3.2 (n / K) hrow (n % K) hk
    have ez := z3.2 (n / K) hrow (n % K) hk
    rw [hnk] at ey ez
    have hg : ∀ (l : List ℝ) (h : n < l.length), l.getD n 0 = l[n] := fun l h => by simp [h]
    rw [← hg _ hy, ← hg _ hz, ey, ez]
    exact Finset.sum_congr rfl fun c hc => by rw [hAB _ hrow c (Finset.mem_range.mp hc)]
  rw [← h2] at z2
  have hsh : Y.map (·.shape) = Z.map (·.shape) := y2.1.trans z2.1.symm
  have hYw := y2.2
  have hZw := z2.2
  clear y1 y2 y3 z1 z2 z3
  induction Y generalizing Z with
  | nil =>
    cases Z with
    | nil => rfl
    | cons _ _ => simp at hsh
  | cons t ts ih =>
    cases Z with
    | nil => simp at hsh
    | cons u us =>
      simp only [List.map_cons, List.cons.injEq] at hsh
      rw [flatData_cons, flatData_cons] at hflat
      have hl : t.data.length = u.data.length := by
        have e1 := hYw t (by simp)
        have e2 := hZw u (by simp)
        unfold Tensor.WF at e1 e2
        rw [e1, e2, hsh.1]
      obtain ⟨hd, htl⟩ := List.append_inj hflat hl
      have htu : t = u := by
        cases t; cases u
        simp_all
      rw [htu, ih us htl hsh.2 (fun x hx => hYw x (by simp [hx])) (fun x hx => hZw x (by simp [hx]))]

/-- C77: the Hessian operator multiplies with the matrix of the GGN operator plus the residual. -/
theorem hessianOp_gauss_newton (shapes : List (List Nat)) (hP : total shapes = P) (hshapes : shapes ≠ [])
    (red : Reduction) (hred : red = .mean ∨ red = .sum) (θ : Fin P → ℝ) (batches : List (List (NetDatum P O)))
    (hne : ∀ b ∈ batches, b ≠ []) (hf : ∀ d ∈ batches.flatten, ContDiffAt ℝ 2 d.f θ)
    (hL : ∀ d ∈ batches.flatten, ContDiffAt ℝ 2 d.loss (d.f θ)) :
    ∃ G : Mat ℝ,
      Represents (curvatureOp shapes red (inferNData List.length batches none) List.length
        (netGGNBatch shapes red θ) batches) G ∧
      Represents (curvatureOp shapes red (inferNData List.length batches none) List.length
          (netHessianBatch shapes [(shapes.length : Int)] red θ) batches)
        (fun r c => G r c + riskMatrix red (residualMatrix θ) batches.flatten r c) := by
  refine ⟨_, ggnOp_eq_functorch shapes hP hshapes red hred θ batches hne
    (fun d hd => (hf d hd).differentiableAt (by norm_num)) hL, ?_⟩
  have h := (netHessianOp_represents shapes hP hshapes red hred θ batches hne
    fun d hd => ContDiffAt.comp θ (hL d hd) (hf d hd)).1
  have e : natMat (hess (empiricalRisk red batches.flatten) θ) = fun r c => functorchGGN red θ batches.flatten r c +
      riskMatrix red (residualMatrix θ) batches.flatten r c :=
    funext fun r => funext fun c => risk_gauss_newton red θ _ hf hL r c
  rwa [e] at h

/-- C77: Hessian and GGN operator return the same products if every prediction of every datum has vanishing second derivatives or does
not influence the loss to first order. -/
theorem hessianOp_eq_ggnOp (shapes : List (List Nat)) (hP : total shapes = P) (hshapes : shapes ≠ [])
    (red : Reduction) (hred : red = .mean ∨ red = .sum) (θ : Fin P → ℝ) (batches : List (List (NetDatum P O)))
    (hne : ∀ b ∈ batches, b ≠ []) (hf : ∀ d ∈ batches.flatten, ContDiffAt ℝ 2 d.f θ)
    (hL : ∀ d ∈ batches.flatten, ContDiffAt ℝ 2 d.loss (d.f θ))
    (h0 : ∀ d ∈ batches.flatten, ∀ s, pderiv d.loss s (d.f θ) = 0 ∨ ∀ i j, hess (fun θ => d.f θ s) θ i j = 0)
    (K : Nat) (Xs : List (Tensor ℝ)) (hX : HasShapes Xs shapes K) :
    ((curvatureOp shapes red (inferNData List.length batches none) List.length
        (netHessianBatch shapes [(shapes.length : Int)] red θ) batches).matmat Xs).1 =
      ((curvatureOp shapes red (inferNData List.length batches none) List.length
        (netGGNBatch shapes red θ) batches).matmat Xs).1 := by
  obtain ⟨G, hG, hH⟩ := hessianOp_gauss_newton shapes hP hshapes red hred θ batches hne hf hL
  refine represents_same_output (by rfl) (by rfl) hH hG (fun r _ c _ => ?_) hX
  have : riskMatrix red (residualMatrix θ) batches.flatten r c = 0 := by
    unfold riskMatrix
    refine mul_eq_zero_of_right _ ?_
    refine List.sum_eq_zero fun x hx => ?_
    obtain ⟨d, hd, rfl⟩ := List.mem_map.mp hx
    unfold residualMatrix natMat
    split
    · refine Finset.sum_eq_zero fun s _ => ?_
      rcases h0 d hd s with h | h <;> simp [h]
    · rfl
  rw [this, add_zero]

/-- C77: models that are affine in the parameters. -/
theorem hessianOp_eq_ggnOp_affine (shapes : List (List Nat)) (hP : total shapes = P) (hshapes : shapes ≠ [])
    (red : Reduction) (hred : red = .mean ∨ red = .sum) (θ : Fin P → ℝ) (batches : List (List (NetDatum P O)))
    (hne : ∀ b ∈ batches, b ≠ [])
    (haff : ∀ d ∈ batches.flatten, ∃ (A : Fin O → Fin P → ℝ) (b : Fin O → ℝ), ∀ θ, d.f θ = fun o => (∑ p, A o p * θ p) + b o)
    (hL : ∀ d ∈ batches.flatten, ContDiffAt ℝ 2 d.loss (d.f θ))
    (K : Nat) (Xs : List (Tensor ℝ)) (hX : HasShapes Xs shapes K) :
    ((curvatureOp shapes red (inferNData List.length batches none) List.length
        (netHessianBatch shapes [(shapes.length : Int)] red θ) batches).matmat Xs).1 =
      ((curvatureOp shapes red (inferNData List.length batches none) List.length
        (netGGNBatch shapes red θ) batches).matmat Xs).1 := by
  refine hessianOp_eq_ggnOp shapes hP hshapes red hred θ batches hne (fun d hd => ?_) hL (fun d hd s => Or.inr fun i j => ?_)
    K Xs hX
  · obtain ⟨A, b, e⟩ := haff d hd
    rw [funext e]
    fun_prop
  · obtain ⟨A, b, e⟩ := haff d hd
    simp only [e]
    have h1 : ∀ y, pderiv (fun θ : Fin P → ℝ => (∑ p, A s p * θ p) + b s) j y = A s j := by
      intro y
      unfold pderiv
      have hd : ∀ t, HasDerivAt (fun t => (∑ p, A s p * Function.update y j t p) + b s) (A s j) t := by
        intro t
        refine HasDerivAt.add_const _ ?_
        have := HasDerivAt.fun_sum (u := Finset.univ) (A := fun p t => A s p * Function.update y j t p)
          (A' := fun p => A s p * Pi.single (M := fun _ => ℝ) j 1 p) (x := t) fun p _ =>
            ((hasDerivAt_pi.1 (hasDerivAt_update y j t)) p).const_mul (A s p)
        simpa [Pi.single_apply] using this
      exact (hd _).deriv
    unfold hess
    simp only [h1]
    simp [pderiv]

/-- C77: parameters that fit all data, in the sense that the losses are minimal (or stationary) as functions of the predictions. -/
theorem hessianOp_eq_ggnOp_interpolation (shapes : List (List Nat)) (hP : total shapes = P) (hshapes : shapes ≠ [])
    (red : Reduction) (hred : red = .mean ∨ red = .sum) (θ : Fin P → ℝ) (batches : List (List (NetDatum P O)))
    (hne : ∀ b ∈ batches, b ≠ []) (hf : ∀ d ∈ batches.flatten, ContDiffAt ℝ 2 d.f θ)
    (hL : ∀ d ∈ batches.flatten, ContDiffAt ℝ 2 d.loss (d.f θ))
    (hmin : ∀ d ∈ batches.flatten, ∀ o, d.loss (d.f θ) ≤ d.loss o)
    (K : Nat) (Xs : List (Tensor ℝ)) (hX : HasShapes Xs shapes K) :
    ((curvatureOp shapes red (inferNData List.length batches none) List.length
        (netHessianBatch shapes [(shapes.length : Int)] red θ) batches).matmat Xs).1 =
      ((curvatureOp shapes red (inferNData List.length batches none) List.length
        (netGGNBatch shapes red θ) batches).matmat Xs).1 := by
  refine hessianOp_eq_ggnOp shapes hP hshapes red hred θ batches hne hf hL (fun d hd s => Or.inl ?_) K Xs hX
  have hm : IsLocalMin d.loss (d.f θ) := Filter.Eventually.of_forall fun o => hmin d hd o
  rw [pderiv_eq_fderiv ((hL d hd).differentiableAt (by norm_num)), hm.fderiv_eq_zero]
  rfl

/-- C77: if every prediction has vanishing second derivatives inside the blocks (as for networks with piecewise linear activations and one
block per layer), then the Hessian operator with these blocks multiplies with the block-diagonal part of the GGN. -/
theorem hessianOp_blocks_eq_ggn (shapes : List (List Nat)) (hP : total shapes = P) (hshapes : shapes ≠ [])
    (blockSizes : List Int) (hpos : ∀ s ∈ blockSizes, 0 < s) (hsum : blockSizes.sum = shapes.length)
    (parts : List (List (List Nat))) (hparts : IsSplit shapes blockSizes parts) (red : Reduction)
    (hred : red = .mean ∨ red = .sum) (θ : Fin P → ℝ) (batches : List (List (NetDatum P O)))
    (hne : ∀ b ∈ batches, b ≠ []) (hf : ∀ d ∈ batches.flatten, ContDiffAt ℝ 2 d.f θ)
    (hL : ∀ d ∈ batches.flatten, ContDiffAt ℝ 2 d.loss (d.f θ))
    (h0 : ∀ d ∈ batches.flatten, ∀ s, ∀ i j : Fin P, blockIndex (parts.map total) i = blockIndex (parts.map total) j →
      hess (fun θ => d.f θ s) θ i j = 0) :
    ∃ G : Mat ℝ,
      Represents (curvatureOp shapes red (inferNData List.length batches none) List.length
        (netGGNBatch shapes red θ) batches) G ∧
      Represents (curvatureOp shapes red (inferNData List.length batches none) List.length
          (netHessianBatch shapes blockSizes red θ) batches)
        (blockDiagonal (parts.map total) G) := by
  refine ⟨_, ggnOp_eq_functorch shapes hP hshapes red hred θ batches hne
    (fun d hd => (hf d hd).differentiableAt (by norm_num)) hL, ?_⟩
  have h := netHessianOp_blocks shapes hP hshapes blockSizes hpos hsum parts hparts red hred θ batches hne
    fun d hd => ContDiffAt.comp θ (hL d hd) (hf d hd)
  have e : blockDiagonal (parts.map total) (natMat (hess (empiricalRisk red batches.flatten) θ)) =
      blockDiagonal (parts.map total) (functorchGGN red θ batches.flatten) := by
    funext r c
    unfold blockDiagonal
    split
    · rename_i hb
      rw [risk_gauss_newton red θ _ hf hL r c]
      have : riskMatrix red (residualMatrix θ) batches.flatten r c = 0 := by
        unfold riskMatrix
        refine mul_eq_zero_of_right _ ?_
        refine List.sum_eq_zero fun x hx => ?_
        obtain ⟨d, hd, rfl⟩ := List.mem_map.mp hx
        unfold residualMatrix natMat
        split
        · refine Finset.sum_eq_zero fun s _ => ?_
          rw [h0 d hd s _ _ hb, mul_zero]
        · rfl
      rw [this, add_zero]
    · rfl
  rwa [e] at h

/-! ## Examples -/

/-- Logistic regression with one input: affine model, non-quadratic loss. -/
noncomputable def logisticDatum (x y : ℝ) : NetDatum 2 1 :=
  ⟨fun θ => fun _ => x * θ 0 + θ 1, fun o => Real.log (1 + Real.exp (o 0)) - y * o 0⟩

example (θ : Fin 2 → ℝ) (K : Nat) (Xs : List (Tensor ℝ)) (hX : HasShapes Xs [[1], [1]] K) :
    ((curvatureOp [[1], [1]] .mean (inferNData List.length [[logisticDatum 1 0, logisticDatum 3 1], [logisticDatum 2 1]] none)
        List.length (netHessianBatch [[1], [1]] [2] .mean θ)
        [[logisticDatum 1 0, logisticDatum 3 1], [logisticDatum 2 1]]).matmat Xs).1 =
      ((curvatureOp [[1], [1]] .mean (inferNData List.length [[logisticDatum 1 0, logisticDatum 3 1], [logisticDatum 2 1]] none)
        List.length (netGGNBatch [[1], [1]] .mean θ)
        [[logisticDatum 1 0, logisticDatum 3 1], [logisticDatum 2 1]]).matmat Xs).1 := by
  have hA : ∀ x y, ∃ (A : Fin 1 → Fin 2 → ℝ) (b : Fin 1 → ℝ), ∀ θ, (logisticDatum x y).f θ = fun o => (∑ p, A o p * θ p) + b o :=
    fun x y => ⟨fun _ p => if p = 0 then x else 1, 0, fun θ => funext fun o => by simp [logisticDatum]⟩
  have hL : ∀ x y, ContDiffAt ℝ 2 (logisticDatum x y).loss ((logisticDatum x y).f θ) := by
    intro x y
    unfold logisticDatum
    have hpos : ∀ t : ℝ, 1 + Real.exp t ≠ 0 := fun t => by positivity
    exact ContDiffAt.sub (ContDiffAt.log (by fun_prop) (hpos _)) (by fun_prop)
  refine hessianOp_eq_ggnOp_affine [[1], [1]] (by decide) (by simp) .mean (Or.inl rfl) θ _ (by simp) ?_ ?_ K Xs hX
  · intro d hd
    simp only [List.flatten_cons, List.flatten_nil, List.append_nil, List.cons_append, List.nil_append, List.mem_cons,
      List.not_mem_nil, or_false] at hd
    rcases hd with rfl | rfl | rfl <;> exact hA _ _
  · simp [hL]

/-- Two scalar linear layers. -/
noncomputable def deepDatum (x y : ℝ) : NetDatum 2 1 := ⟨fun θ => fun _ => θ 1 * (θ 0 * x), fun o => (o 0 - y) ^ 2⟩

theorem deepDatum_pderiv (x y : ℝ) (j : Fin 2) (θ : Fin 2 → ℝ) :
    pderiv (fun θ => (deepDatum x y).f θ 0) j θ = if j = 0 then θ 1 * x else θ 0 * x := by
  unfold pderiv deepDatum
  fin_cases j <;> simp

theorem deepDatum_hess (x y : ℝ) (i j : Fin 2) (θ : Fin 2 → ℝ) :
    hess (fun θ => (deepDatum x y).f θ 0) θ i j = if i = j then 0 else x := by
  unfold hess
  simp only [deepDatum_pderiv]
  unfold pderiv
  fin_cases i <;> fin_cases j <;> simp

/-- One block per layer: the blocks of the Hessian are those of the GGN. -/
example (θ : Fin 2 → ℝ) : ∃ G : Mat ℝ,
    Represents (curvatureOp [[1, 1], [1, 1]] .sum (inferNData List.length [[deepDatum 1 2], [deepDatum 3 4]] none) List.length
      (netGGNBatch [[1, 1], [1, 1]] .sum θ) [[deepDatum 1 2], [deepDatum 3 4]]) G ∧
    Represents (curvatureOp [[1, 1], [1, 1]] .sum (inferNData List.length [[deepDatum 1 2], [deepDatum 3 4]] none) List.length
      (netHessianBatch [[1, 1], [1, 1]] [1, 1] .sum θ) [[deepDatum 1 2], [deepDatum 3 4]]) (blockDiagonal [1, 1] G) := by
  have hf : ∀ x y, ContDiffAt ℝ 2 (deepDatum x y).f θ := by
    intro x y
    unfold deepDatum
    fun_prop
  have hL : ∀ x y, ContDiffAt ℝ 2 (deepDatum x y).loss ((deepDatum x y).f θ) := by
    intro x y
    unfold deepDatum
    fun_prop
  refine hessianOp_blocks_eq_ggn [[1, 1], [1, 1]] (by decide) (by simp) [1, 1] (by simp) (by simp) [[[1, 1]], [[1, 1]]]
    (by simp [IsSplit]) .sum (Or.inr rfl) θ _ (by simp) (by simp [hf]) (by simp [hL]) ?_
  intro d hd s i j hij
  have hs : s = 0 := Subsingleton.elim _ _
  subst hs
  have hij' : i = j := by
    revert hij
    fin_cases i <;> fin_cases j <;> simp [blockIndex, total]
  simp only [List.flatten_cons, List.flatten_nil, List.cons_append, List.nil_append, List.mem_cons,
    List.not_mem_nil, or_false] at hd
  rcases hd with rfl | rfl <;> rw [deepDatum_hess, if_pos hij']

/-- The residual does not vanish in general: for one block, Hessian and GGN differ. -/
example : residualMatrix (P := 2) (O := 1) (fun _ => 1) (deepDatum 1 2) 0 1 = -2 := by
  unfold residualMatrix natMat
  rw [dif_pos (by decide)]
  simp only [Fin.sum_univ_one, Fin.isValue]
  rw [deepDatum_hess]
  have : pderiv (deepDatum 1 2).loss 0 ((deepDatum 1 2).f fun _ => 1) = -2 := by
    unfold pderiv deepDatum
    simp only [Function.update_self]
    have h : HasDerivAt (fun t : ℝ => (t - 2) ^ 2) (2 * (1 * (1 * 1) - 2) ^ 1 * 1) (1 * (1 * 1)) := by
      exact (((hasDerivAt_id' (1 * (1 * 1) : ℝ)).sub_const 2).fun_pow 2).congr_deriv (by norm_num)
    rw [h.deriv]
    norm_num
  rw [this]
  norm_num

end Curvlinops
