import Verif.Props.Selection
import Verif.Props.GaussNewton
import Verif.Props.Descent

/-!
# C106: change of parameters
-/

namespace Curvlinops

/-! ## Specification -/

/-- `Dᵀ A D` for an `n × n` matrix `A`. -/
def pullMat (n : Nat) (D A : Mat ℝ) : Mat ℝ := fun r c =>
  ∑ i ∈ Finset.range n, ∑ j ∈ Finset.range n, D i r * A i j * D j c

/-- `op' @ X = Dᵀ (op @ (D X))` for all matrices `X` in tensor list format; `DX` is `D X` in tensor list format. -/
def IsPullback (D : Mat ℝ) (op op' : LinOp ℝ) : Prop :=
  ∀ K X DX, HasShapes X op'.inShape K → HasShapes DX op.inShape K →
    IsProduct D op.ncols op'.ncols K (flatData X) (flatData DX) →
    ∃ Y Y', (op.matmat DX).1 = .ok Y ∧ (op'.matmat X).1 = .ok Y' ∧ HasShapes Y op.outShape K ∧ HasShapes Y' op'.outShape K ∧
      IsProduct (fun r i => D i r) op'.nrows op.nrows K (flatData Y) (flatData Y')

section generic

theorem pullback_of_represents {D A A' : Mat ℝ} {op op' : LinOp ℝ} (hsq : op.nrows = op.ncols)
    (hA : Represents op A) (hA' : Represents op' A')
    (h : ∀ r < op'.nrows, ∀ c < op'.ncols, A' r c = pullMat op.ncols D A r c) : IsPullback D op op' := by
  intro K X DX hX hDX hD
  obtain ⟨Y, y1, y2, y3⟩ := hA K DX hDX
  obtain ⟨Y', z1, z2, z3⟩ := hA' K X hX
  refine ⟨Y, Y', y1, z1, y2, z2, z3.1, fun r hr k hk => ?_⟩
  rw [z3.2 r hr k hk, hsq]
  have e1 : ∀ c ∈ Finset.range op'.ncols, A' r c * (flatData X).getD (c * K + k) 0 =
      ∑ i ∈ Finset.range op.ncols, ∑ j ∈ Finset.range op.ncols, D i r * A i j * (D j c * (flatData X).getD (c * K + k) 0) := by
    intro c hc
    rw [h r hr c (Finset.mem_range.mp hc), pullMat, Finset.sum_mul]
    refine Finset.sum_congr rfl fun i _ => ?_
    rw [Finset.sum_mul]
    exact Finset.sum_congr rfl fun j _ => by ring
  rw [Finset.sum_congr rfl e1, Finset.sum_comm]
  refine Finset.sum_congr rfl fun i hi => ?_
  rw [y3.2 i (hsq ▸ Finset.mem_range.mp hi) k hk, Finset.sum_comm, Finset.mul_sum]
  refine Finset.sum_congr rfl fun j hj => ?_
  rw [hD.2 j (Finset.mem_range.mp hj) k hk, ← Finset.mul_sum]
  ring

theorem pullMat_sum {β : Type _} (n : Nat) (D : Mat ℝ) (a : β → Mat ℝ) (l : List β) (r c : Nat) :
    (l.map fun b => pullMat n D (a b) r c).sum = pullMat n D (fun i j => (l.map fun b => a b i j).sum) r c := by
  induction l with
  | nil => simp [pullMat]
  | cons b l ih =>
    simp only [List.map_cons, List.sum_cons, ih]
    simp only [pullMat, ← Finset.sum_add_distrib]
    exact Finset.sum_congr rfl fun i _ => Finset.sum_congr rfl fun j _ => by ring

theorem pullMat_mul (n : Nat) (D A : Mat ℝ) (w : ℝ) (r c : Nat) :
    w * pullMat n D A r c = pullMat n D (fun i j => w * A i j) r c := by
  simp only [pullMat, Finset.mul_sum]
  exact Finset.sum_congr rfl fun i _ => Finset.sum_congr rfl fun j _ => by ring

theorem riskMatrix_pull {β γ : Type _} (red : Reduction) (n : Nat) (D : Mat ℝ) (a : β → Mat ℝ) (a' : γ → Mat ℝ) (g : β → γ)
    (ds : List β) (r c : Nat) (h : ∀ d ∈ ds, a' (g d) r c = pullMat n D (a d) r c) :
    riskMatrix red a' (ds.map g) r c = pullMat n D (riskMatrix red a ds) r c := by
  unfold riskMatrix
  rw [List.length_map, List.map_map, ← pullMat_mul, ← pullMat_sum]
  congr 2
  exact List.map_congr_left h

end generic

/-! ## Models as functions of other parameters -/

section net

variable {P P' O : Nat}

/-- The model as function of other parameters, from which those of the model are computed by `φ` (weight tying, scaling,
normalization, ...). -/
def NetDatum.reparam (φ : (Fin P' → ℝ) → Fin P → ℝ) (d : NetDatum P O) : NetDatum P' O := ⟨fun ψ => d.f (φ ψ), d.loss⟩

/-- The Jacobian of the change of parameters. -/
noncomputable def paramJac (φ : (Fin P' → ℝ) → Fin P → ℝ) (ψ : Fin P' → ℝ) : Mat ℝ := fun i r =>
  if h : i < P ∧ r < P' then pderiv (fun y => φ y ⟨i, h.1⟩) ⟨r, h.2⟩ ψ else 0

theorem paramJac_fin (φ : (Fin P' → ℝ) → Fin P → ℝ) (ψ : Fin P' → ℝ) (i : Fin P) (r : Fin P') :
    paramJac φ ψ i r = pderiv (fun y => φ y i) r ψ := dif_pos ⟨i.2, r.2⟩

theorem pullMat_natMat (D : Mat ℝ) (A : Fin P → Fin P → ℝ) (r c : Nat) :
    pullMat P D (natMat A) r c = ∑ i : Fin P, ∑ j : Fin P, D i r * A i j * D j c := by
  unfold pullMat
  rw [Finset.sum_range]
  refine Finset.sum_congr rfl fun i _ => ?_
  rw [Finset.sum_range]
  refine Finset.sum_congr rfl fun j _ => ?_
  rw [natMat, dif_pos ⟨i.2, j.2⟩]

theorem linearizedModel_reparam (φ : (Fin P' → ℝ) → Fin P → ℝ) (ψ : Fin P' → ℝ) (hφ : DifferentiableAt ℝ φ ψ)
    (d : NetDatum P O) (hf : DifferentiableAt ℝ d.f (φ ψ)) (y : Fin P' → ℝ) :
    (linearizedModel ψ (d.reparam φ)).f y = (linearizedModel (φ ψ) d).f (φ ψ + fderiv ℝ φ ψ (y - ψ)) := by
  have h : fderiv ℝ (fun ψ => d.f (φ ψ)) ψ = (fderiv ℝ d.f (φ ψ)).comp (fderiv ℝ φ ψ) :=
    (hf.hasFDerivAt.comp ψ hφ.hasFDerivAt).fderiv
  simp only [linearizedModel, NetDatum.reparam, h, add_sub_cancel_left]
  rfl

theorem datum_linearized_reparam (φ : (Fin P' → ℝ) → Fin P → ℝ) (ψ : Fin P' → ℝ) (hφ : DifferentiableAt ℝ φ ψ)
    (d : NetDatum P O) (hf : DifferentiableAt ℝ d.f (φ ψ)) (hL : ContDiffAt ℝ 2 d.loss (d.f (φ ψ))) (r c : Nat)
    (hr : r < P') (hc : c < P') :
    natMat (hess (fun y => (linearizedModel ψ (d.reparam φ)).loss ((linearizedModel ψ (d.reparam φ)).f y)) ψ) r c =
      pullMat P (paramJac φ ψ)
        (natMat (hess (fun y => (linearizedModel (φ ψ) d).loss ((linearizedModel (φ ψ) d).f y)) (φ ψ))) r c := by
  rw [pullMat_natMat, natMat, dif_pos ⟨hr, hc⟩]
  have e : (fun y => (linearizedModel ψ (d.reparam φ)).loss ((linearizedModel ψ (d.reparam φ)).f y)) =
      fun y => (fun z => (linearizedModel (φ ψ) d).loss ((linearizedModel (φ ψ) d).f z)) (φ ψ + fderiv ℝ φ ψ (y - ψ)) := by
    funext y
    rw [linearizedModel_reparam φ ψ hφ d hf y]
    rfl
  rw [e, (hess_comp_affine _ (φ ψ) (fderiv ℝ φ ψ) ψ (hess_linearized (φ ψ) d hf hL).1 ⟨r, hr⟩ ⟨c, hc⟩).2]
  refine Finset.sum_congr rfl fun i _ => Finset.sum_congr rfl fun j _ => ?_
  rw [fderiv_single hφ, fderiv_single hφ, ← paramJac_fin, ← paramJac_fin]

variable {shapes shapes' : List (List Nat)}

theorem reparam_ne {β γ : Type _} (g : β → γ) {batches : List (List β)} (hb : ∀ b ∈ batches, b ≠ []) :
    ∀ b ∈ batches.map (List.map g), b ≠ [] := by
  intro b hb'
  obtain ⟨b', h', rfl⟩ := List.mem_map.mp hb'
  simpa using hb b' h'

theorem ggnOp_reparam_matrix (hP : total shapes = P) (hP' : total shapes' = P') (hs : shapes ≠ []) (hs' : shapes' ≠ [])
    (red : Reduction) (hred : red = .mean ∨ red = .sum) (φ : (Fin P' → ℝ) → Fin P → ℝ) (ψ : Fin P' → ℝ)
    (hφ : DifferentiableAt ℝ φ ψ) (batches : List (List (NetDatum P O))) (hb : ∀ b ∈ batches, b ≠ [])
    (hf : ∀ d ∈ batches.flatten, DifferentiableAt ℝ d.f (φ ψ))
    (hL : ∀ d ∈ batches.flatten, ContDiffAt ℝ 2 d.loss (d.f (φ ψ))) :
    Represents (curvatureOp shapes red (inferNData List.length batches none) List.length (netGGNBatch shapes red (φ ψ)) batches)
      (functorchGGN red (φ ψ) batches.flatten) ∧
    Represents (curvatureOp shapes' red (inferNData List.length (batches.map (List.map (NetDatum.reparam φ))) none) List.length
        (netGGNBatch shapes' red ψ) (batches.map (List.map (NetDatum.reparam φ))))
      (functorchGGN red ψ (batches.map (List.map (NetDatum.reparam φ))).flatten) ∧
    ∀ r < P', ∀ c < P', functorchGGN red ψ (batches.map (List.map (NetDatum.reparam φ))).flatten r c =
      pullMat P (paramJac φ ψ) (functorchGGN red (φ ψ) batches.flatten) r c := by
  have hf' : ∀ d ∈ batches.flatten, DifferentiableAt ℝ (d.reparam φ).f ψ := fun d hd => (hf d hd).comp ψ hφ
  refine ⟨ggnOp_eq_functorch shapes hP hs red hred (φ ψ) batches hb hf hL,
    ggnOp_eq_functorch shapes' hP' hs' red hred ψ _ (reparam_ne _ hb) (by
      intro d hd
      rw [flatten_map_map] at hd
      obtain ⟨d', hd', rfl⟩ := List.mem_map.mp hd
      exact hf' d' hd') (by
      intro d hd
      rw [flatten_map_map] at hd
      obtain ⟨d', hd', rfl⟩ := List.mem_map.mp hd
      exact hL d' hd'), ?_⟩
  intro r hr c hc
  rw [flatten_map_map]
  generalize batches.flatten = ds at *
  unfold functorchGGN
  rw [natMat_hess_netLoss red _ ψ, natMat_hess_netLoss red _ (φ ψ), List.map_map]
  · have e : ds.map (linearizedModel ψ ∘ NetDatum.reparam φ) =
        (ds.map (linearizedModel (φ ψ))).map fun d => ⟨fun y => d.f (φ ψ + fderiv ℝ φ ψ (y - ψ)), d.loss⟩ := by
      rw [List.map_map]
      refine List.map_congr_left fun d hd => ?_
      have := funext fun y => linearizedModel_reparam φ ψ hφ d (hf d hd) y
      simp only [Function.comp_apply]
      rw [← this]
      rfl
    rw [e]
    refine riskMatrix_pull red P _ _ _ _ _ r c fun d hd => ?_
    obtain ⟨d', hd', rfl⟩ := List.mem_map.mp hd
    rw [← datum_linearized_reparam φ ψ hφ d' (hf d' hd') (hL d' hd') r c hr hc]
    have := funext fun y => linearizedModel_reparam φ ψ hφ d' (hf d' hd') y
    rw [this]
    rfl
  · intro d hd
    obtain ⟨d', hd', rfl⟩ := List.mem_map.mp hd
    exact (hess_linearized (φ ψ) d' (hf d' hd') (hL d' hd')).1
  · intro d hd
    obtain ⟨d', hd', rfl⟩ := List.mem_map.mp hd
    obtain ⟨d'', hd'', rfl⟩ := List.mem_map.mp hd'
    exact (hess_linearized ψ (d''.reparam φ) (hf' d'' hd'') (hL d'' hd'')).1

/-- **C106** (GGN): with the Jacobian `D` of the change of parameters, products of the GGN of the model in the new parameters are
`Dᵀ (GGN @ (D v))`, for every differentiable change of parameters, model, and twice continuously differentiable loss. -/
theorem ggnOp_reparam (hP : total shapes = P) (hP' : total shapes' = P') (hs : shapes ≠ []) (hs' : shapes' ≠ [])
    (red : Reduction) (hred : red = .mean ∨ red = .sum) (φ : (Fin P' → ℝ) → Fin P → ℝ) (ψ : Fin P' → ℝ)
    (hφ : DifferentiableAt ℝ φ ψ) (batches : List (List (NetDatum P O))) (hb : ∀ b ∈ batches, b ≠ [])
    (hf : ∀ d ∈ batches.flatten, DifferentiableAt ℝ d.f (φ ψ))
    (hL : ∀ d ∈ batches.flatten, ContDiffAt ℝ 2 d.loss (d.f (φ ψ))) :
    IsPullback (paramJac φ ψ)
      (curvatureOp shapes red (inferNData List.length batches none) List.length (netGGNBatch shapes red (φ ψ)) batches)
      (curvatureOp shapes' red (inferNData List.length (batches.map (List.map (NetDatum.reparam φ))) none) List.length
        (netGGNBatch shapes' red ψ) (batches.map (List.map (NetDatum.reparam φ)))) := by
  obtain ⟨h1, h2, h3⟩ := ggnOp_reparam_matrix hP hP' hs hs' red hred φ ψ hφ batches hb hf hL
  refine pullback_of_represents rfl h1 h2 fun r hr c hc => ?_
  have hn : (curvatureOp shapes red (inferNData List.length batches none) List.length (netGGNBatch shapes red (φ ψ)) batches).ncols = P := hP
  rw [hn]
  exact h3 r (hP' ▸ hr) c (hP' ▸ hc)

theorem empiricalRisk_reparam (red : Reduction) (φ : (Fin P' → ℝ) → Fin P → ℝ) (ds : List (NetDatum P O)) (ψ : Fin P' → ℝ) :
    empiricalRisk red (ds.map (NetDatum.reparam φ)) ψ = empiricalRisk red ds (φ ψ) := by
  rw [empiricalRisk_eq, empiricalRisk_eq]
  unfold netLoss
  rw [List.length_map, List.map_map]
  rfl

/-- **C106** (Hessian): the same for the Hessian if each parameter of the model depends on the new ones without second derivatives,
or does not influence the empirical risk to first order. -/
theorem hessianOp_reparam (hP : total shapes = P) (hP' : total shapes' = P') (hs : shapes ≠ []) (hs' : shapes' ≠ [])
    (red : Reduction) (hred : red = .mean ∨ red = .sum) (φ : (Fin P' → ℝ) → Fin P → ℝ) (ψ : Fin P' → ℝ)
    (hφ : ContDiffAt ℝ 2 φ ψ) (batches : List (List (NetDatum P O))) (hb : ∀ b ∈ batches, b ≠ [])
    (hdiff : ∀ d ∈ batches.flatten, ContDiffAt ℝ 2 (fun θ => d.loss (d.f θ)) (φ ψ))
    (h0 : ∀ i, pderiv (empiricalRisk red batches.flatten) i (φ ψ) = 0 ∨ ∀ r c, hess (fun y => φ y i) ψ r c = 0) :
    IsPullback (paramJac φ ψ)
      (curvatureOp shapes red (inferNData List.length batches none) List.length
        (netHessianBatch shapes [(shapes.length : Int)] red (φ ψ)) batches)
      (curvatureOp shapes' red (inferNData List.length (batches.map (List.map (NetDatum.reparam φ))) none) List.length
        (netHessianBatch shapes' [(shapes'.length : Int)] red ψ) (batches.map (List.map (NetDatum.reparam φ)))) := by
  refine pullback_of_represents rfl (netHessianOp_represents shapes hP hs red hred (φ ψ) batches hb hdiff).1
    (netHessianOp_represents shapes' hP' hs' red hred ψ _ (reparam_ne _ hb) (by
      intro d hd
      rw [flatten_map_map] at hd
      obtain ⟨d', hd', rfl⟩ := List.mem_map.mp hd
      exact (hdiff d' hd').comp ψ hφ)).1 ?_
  intro r hr c hc
  have hr : r < P' := hP' ▸ hr
  have hc : c < P' := hP' ▸ hc
  have hn : (curvatureOp shapes red (inferNData List.length batches none) List.length
    (netHessianBatch shapes [(shapes.length : Int)] red (φ ψ)) batches).ncols = P := hP
  rw [hn, flatten_map_map]
  generalize batches.flatten = ds at *
  have hF : ContDiffAt ℝ 2 (empiricalRisk red ds) (φ ψ) := by
    rcases Nat.eq_zero_or_pos P with rfl | hpos
    · have e : empiricalRisk red ds = fun _ => empiricalRisk red ds (φ ψ) :=
        funext fun x => by rw [Subsingleton.elim x (φ ψ)]
      rw [e]; exact contDiffAt_const
    · rw [empiricalRisk_eq]; exact (hess_netLoss red ds (φ ψ) hdiff ⟨0, hpos⟩ ⟨0, hpos⟩).1
  rw [pullMat_natMat, natMat, dif_pos ⟨hr, hc⟩]
  have e : empiricalRisk red (ds.map (NetDatum.reparam φ)) = fun y => empiricalRisk red ds (φ y) :=
    funext fun y => empiricalRisk_reparam red φ ds y
  rw [e, hess_comp _ φ ψ hF hφ]
  have hz : ∑ s, pderiv (empiricalRisk red ds) s (φ ψ) * hess (fun y => φ y s) ψ ⟨r, hr⟩ ⟨c, hc⟩ = 0 :=
    Finset.sum_eq_zero fun s _ => by
      rcases h0 s with h | h
      · rw [h, zero_mul]
      · rw [h, mul_zero]
  rw [hz, add_zero]
  refine Finset.sum_congr rfl fun i _ => Finset.sum_congr rfl fun j _ => ?_
  rw [← paramJac_fin, ← paramJac_fin]

/-- **C106** (gradient): `gradient_and_loss` returns the same loss in the new parameters, and `Dᵀ g`. -/
theorem gradient_reparam (hP : total shapes = P) (hP' : total shapes' = P') (red : Reduction) (hred : red = .mean ∨ red = .sum)
    (φ : (Fin P' → ℝ) → Fin P → ℝ) (ψ : Fin P' → ℝ) (hφ : DifferentiableAt ℝ φ ψ) (batches : List (List (NetDatum P O)))
    (hb : ∀ b ∈ batches, b ≠ []) (h : ∀ b ∈ batches, ∀ d ∈ b, DifferentiableAt ℝ (fun θ => d.loss (d.f θ)) (φ ψ)) :
    ∃ G G' L, gradientAndLoss shapes red (inferNData List.length batches none) List.length
        (some (netLossGradBatch shapes red (φ ψ))) batches = .ok (G, L) ∧
      gradientAndLoss shapes' red (inferNData List.length (batches.map (List.map (NetDatum.reparam φ))) none) List.length
        (some (netLossGradBatch shapes' red ψ)) (batches.map (List.map (NetDatum.reparam φ))) = .ok (G', L) ∧
      HasVec G shapes ∧ HasVec G' shapes' ∧ ∀ r < P',
      (flatData G').getD r 0 = ∑ i ∈ Finset.range P, paramJac φ ψ i r * (flatData G).getD i 0 := by
  obtain ⟨G, g1, g2, g3, g4⟩ := netGradient_spec shapes hP red hred (φ ψ) batches hb h
  obtain ⟨G', g1', g2', g3', g4'⟩ := netGradient_spec shapes' hP' red hred ψ (batches.map (List.map (NetDatum.reparam φ)))
    (reparam_ne _ hb) (by
      intro b hb' d hd
      obtain ⟨b', h', rfl⟩ := List.mem_map.mp hb'
      obtain ⟨d', hd', rfl⟩ := List.mem_map.mp hd
      exact (h b' h' d' hd').comp ψ hφ)
  have e : empiricalRisk red (batches.map (List.map (NetDatum.reparam φ))).flatten =
      fun y => empiricalRisk red batches.flatten (φ y) := by
    funext y
    rw [flatten_map_map, empiricalRisk_reparam]
  refine ⟨G, G', _, g1, ?_, g2, g2', fun r hr => ?_⟩
  · rw [g1', e]
  · have h1 := congrFun g4' ⟨r, hr⟩
    rw [e] at h1
    have hc : fderiv ℝ (fun y => empiricalRisk red batches.flatten (φ y)) ψ =
        (fderiv ℝ (empiricalRisk red batches.flatten) (φ ψ)).comp (fderiv ℝ φ ψ) :=
      (g3.hasFDerivAt.comp ψ hφ.hasFDerivAt).fderiv
    rw [pderiv_eq_fderiv (F := fun y => empiricalRisk red batches.flatten (φ y)) (g3.comp ψ hφ), hc] at h1
    rw [ContinuousLinearMap.comp_apply, fderiv_apply_eq_sum g3] at h1
    refine Eq.trans h1 ?_
    rw [Finset.sum_range]
    refine Finset.sum_congr rfl fun i _ => ?_
    rw [fderiv_single hφ, ← paramJac_fin, mul_comm]
    congr 1
    exact (congrFun g4 i).symm

/-- **C106** (Jacobians): the Jacobian of one datum in the new parameters is `J D`. -/
theorem datum_jacobian_reparam (φ : (Fin P' → ℝ) → Fin P → ℝ) (ψ : Fin P' → ℝ) (hφ : DifferentiableAt ℝ φ ψ)
    (d : NetDatum P O) (hf : DifferentiableAt ℝ d.f (φ ψ)) (o r : Nat) :
    (toGGNDatum ψ (d.reparam φ)).J o r = ∑ i ∈ Finset.range P, (toGGNDatum (φ ψ) d).J o i * paramJac φ ψ i r := by
  by_cases h : o < O ∧ r < P'
  · simp only [toGGNDatum, dif_pos h]
    have hc : fderiv ℝ (fun y => d.f (φ y)) ψ = (fderiv ℝ d.f (φ ψ)).comp (fderiv ℝ φ ψ) :=
      (hf.hasFDerivAt.comp ψ hφ.hasFDerivAt).fderiv
    have h1 := fderiv_single (f := fun y => d.f (φ y)) (hf.comp ψ hφ) ⟨o, h.1⟩ ⟨r, h.2⟩
    rw [hc] at h1
    refine Eq.trans h1.symm ?_
    have ho : HasFDerivAt (fun y => d.f y ⟨o, h.1⟩) ((ContinuousLinearMap.proj ⟨o, h.1⟩).comp (fderiv ℝ d.f (φ ψ))) (φ ψ) :=
      (hasFDerivAt_pi'.1 hf.hasFDerivAt) _
    have h2 := fderiv_apply_eq_sum ho.differentiableAt (fderiv ℝ φ ψ (Pi.single ⟨r, h.2⟩ 1))
    rw [ho.fderiv] at h2
    refine Eq.trans h2 ?_
    rw [Finset.sum_range]
    refine Finset.sum_congr rfl fun i _ => ?_
    rw [fderiv_single hφ, ← paramJac_fin φ ψ i ⟨r, h.2⟩, dif_pos ⟨h.1, i.2⟩]
  · rw [Finset.sum_eq_zero]
    · simp only [toGGNDatum, dif_neg h]
    · intro i _
      by_cases ho : o < O
      · rw [paramJac, dif_neg (fun h' => h ⟨ho, h'.2⟩), mul_zero]
      · simp only [toGGNDatum]
        rw [dif_neg (fun h' => ho h'.1), zero_mul]

end net

/-! ## Natural gradients -/

section naturalGradient

variable {P P' O : Nat} {shapes shapes' : List (List Nat)}

theorem hasVec_ext_flat {U V : List (Tensor ℝ)} {shapes : List (List Nat)} (hU : HasVec U shapes) (hV : HasVec V shapes)
    (h : flatData U = flatData V) : U = V := by
  have key : ∀ {U V : List (Tensor ℝ)}, HasVec U shapes → HasVec V shapes → flatData U = flatData V →
      U.map Tensor.unsqueezeLast = V.map Tensor.unsqueezeLast := by
    intro U V hU hV h
    have hs : ∀ {W : List (Tensor ℝ)}, HasVec W shapes → HasShapes (W.map Tensor.unsqueezeLast) shapes 1 := by
      intro W hW
      refine ⟨?_, ?_⟩
      · rw [← hW.1, List.map_map, List.map_map]; rfl
      · intro t ht
        obtain ⟨u, hu, rfl⟩ := List.mem_map.mp ht
        have := hW.2 u hu
        simpa [Tensor.WF, Tensor.unsqueezeLast] using this
    have hfl : ∀ W : List (Tensor ℝ), flatData (W.map Tensor.unsqueezeLast) = flatData W := by
      intro W
      unfold flatData
      rw [List.map_map]
      rfl
    exact hasShapes_ext (hs hU) (hs hV) (by rw [hfl, hfl, h])
  have hinj : Function.Injective (Tensor.unsqueezeLast (α := ℝ)) := by
    rintro ⟨s, d⟩ ⟨s', d'⟩ e
    simp only [Tensor.unsqueezeLast, Tensor.mk.injEq] at e
    obtain ⟨e1, rfl⟩ := e
    rw [List.append_cancel_right e1]
  exact List.map_injective_iff.mpr hinj (key hU hV h)

theorem hasVec_ext_entries {U V : List (Tensor ℝ)} (hP : total shapes = P) (hU : HasVec U shapes) (hV : HasVec V shapes)
    (h : (entriesOf U : Fin P → ℝ) = entriesOf V) : U = V := by
  refine hasVec_ext_flat hU hV (List.ext_getElem ?_ fun i h1 h2 => ?_)
  · rw [hU.flatData_length, hV.flatData_length]
  · have hi : i < P := by rw [hU.flatData_length] at h1; exact hP ▸ h1
    have := congrFun h ⟨i, hi⟩
    simp only [entriesOf] at this
    simpa [List.getD_eq_getElem?_getD, List.getElem?_eq_getElem h1, List.getElem?_eq_getElem h2] using this

/-- **C106** (natural gradient): if the new parameters can move the model's parameters in all directions to first order, then `x'` solves
`GGN' @ x' = gradient'` in the new parameters if and only if `x = D x'` solves `GGN @ x = gradient` in the model's: the natural
gradient step does not depend on the parameters. -/
theorem naturalGradient_reparam (hP : total shapes = P) (hP' : total shapes' = P') (hs : shapes ≠ []) (hs' : shapes' ≠ [])
    (red : Reduction) (hred : red = .mean ∨ red = .sum) (φ : (Fin P' → ℝ) → Fin P → ℝ) (ψ : Fin P' → ℝ)
    (hφ : DifferentiableAt ℝ φ ψ) (batches : List (List (NetDatum P O))) (hb : ∀ b ∈ batches, b ≠ [])
    (hf : ∀ d ∈ batches.flatten, DifferentiableAt ℝ d.f (φ ψ))
    (hL : ∀ d ∈ batches.flatten, ContDiffAt ℝ 2 d.loss (d.f (φ ψ)))
    (hD : ∀ u : Fin P → ℝ, (∀ r : Fin P', ∑ i, pderiv (fun y => φ y i) r ψ * u i = 0) → u = 0)
    (X' X : List (Tensor ℝ)) (hX' : HasVec X' shapes') (hX : HasVec X shapes)
    (hXX' : ∀ i : Fin P, entriesOf X i = ∑ r : Fin P', pderiv (fun y => φ y i) r ψ * entriesOf X' r) :
    ∃ G G' L, gradientAndLoss shapes red (inferNData List.length batches none) List.length
        (some (netLossGradBatch shapes red (φ ψ))) batches = .ok (G, L) ∧
      gradientAndLoss shapes' red (inferNData List.length (batches.map (List.map (NetDatum.reparam φ))) none) List.length
        (some (netLossGradBatch shapes' red ψ)) (batches.map (List.map (NetDatum.reparam φ))) = .ok (G', L) ∧
      (((curvatureOp shapes' red (inferNData List.length (batches.map (List.map (NetDatum.reparam φ))) none) List.length
          (netGGNBatch shapes' red ψ) (batches.map (List.map (NetDatum.reparam φ)))).matmul (.list X')).1 = .ok (.list G') ↔
        ((curvatureOp shapes red (inferNData List.length batches none) List.length (netGGNBatch shapes red (φ ψ))
          batches).matmul (.list X)).1 = .ok (.list G)) := by
  have hdiff : ∀ b ∈ batches, ∀ d ∈ b, DifferentiableAt ℝ (fun θ => d.loss (d.f θ)) (φ ψ) := fun b h1 d h2 =>
    ((hL d (List.mem_flatten_of_mem h1 h2)).differentiableAt (by norm_num)).comp (φ ψ) (hf d (List.mem_flatten_of_mem h1 h2))
  obtain ⟨G, G', L, g1, g1', g2, g2', g3⟩ := gradient_reparam hP hP' red hred φ ψ hφ batches hb hdiff
  obtain ⟨a1, a2, a3⟩ := ggnOp_reparam_matrix hP hP' hs hs' red hred φ ψ hφ batches hb hf hL
  obtain ⟨Y, y1, y2, y3⟩ := matmul_entries _ shapes hP rfl rfl _ a1 X hX
  obtain ⟨Y', z1, z2, z3⟩ := matmul_entries _ shapes' hP' rfl rfl _ a2 X' hX'
  refine ⟨G, G', L, g1, g1', ?_⟩
  rw [y1, z1]
  simp only [Except.ok.injEq, PyVal.list.injEq]
  have hG : ∀ r : Fin P', entriesOf G' r = ∑ i : Fin P, pderiv (fun y => φ y i) r ψ * entriesOf G i := by
    intro r
    refine (g3 r r.2).trans ?_
    rw [Finset.sum_range]
    exact Finset.sum_congr rfl fun i _ => by rw [paramJac_fin]; rfl
  have hY : ∀ r : Fin P', entriesOf Y' r = ∑ i : Fin P, pderiv (fun y => φ y i) r ψ * entriesOf Y i := by
    intro r
    rw [z3 r]
    have e1 : ∀ c : Fin P', functorchGGN red ψ (batches.map (List.map (NetDatum.reparam φ))).flatten r c * entriesOf X' c =
        ∑ i : Fin P, ∑ j : Fin P, pderiv (fun y => φ y i) r ψ * functorchGGN red (φ ψ) batches.flatten i j *
          (pderiv (fun y => φ y j) c ψ * entriesOf X' c) := by
      intro c
      rw [a3 r r.2 c c.2, pullMat, Finset.sum_range, Finset.sum_mul]
      refine Finset.sum_congr rfl fun i _ => ?_
      rw [Finset.sum_range, Finset.sum_mul]
      refine Finset.sum_congr rfl fun j _ => ?_
      rw [paramJac_fin, paramJac_fin]
      ring
    rw [Finset.sum_congr rfl fun c _ => e1 c, Finset.sum_comm]
    refine Finset.sum_congr rfl fun i _ => ?_
    rw [y3 i, Finset.sum_comm, Finset.mul_sum]
    refine Finset.sum_congr rfl fun j _ => ?_
    rw [hXX' j, ← Finset.mul_sum]
    ring
  constructor
  · intro e
    refine hasVec_ext_entries hP y2 g2 ?_
    have h0 := hD (fun i => entriesOf Y i - entriesOf G i) fun r => by
      simp only [mul_sub, Finset.sum_sub_distrib]
      rw [← hG, ← hY, e, sub_self]
    funext i
    have := congrFun h0 i
    simp only [Pi.zero_apply] at this
    linarith
  · intro e
    refine hasVec_ext_entries hP' z2 g2' (funext fun r => ?_)
    rw [hG, hY, e]

end naturalGradient

/-! ## Supported losses -/

section losses

variable {k : LossKind} {C : Nat} {shapes shapes' : List (List Nat)}

/-- The Jacobian of one row of the output in the new parameters, `J D`; prediction and label stay the same. -/
def Term.reparam (P : Nat) (D : Mat ℝ) (t : Term k C) : Term k C :=
  { t with J := fun i r => ∑ p ∈ Finset.range P, t.J i p * D p r }

/-- The data with Jacobians in the new parameters. -/
def reparamData (P : Nat) (D : Mat ℝ) (b : List (List (Term k C))) : List (List (Term k C)) :=
  b.map (List.map (Term.reparam P D))

theorem termSandwich_reparam (P : Nat) (D : Mat ℝ) (t : Term k C) (H : Fin C → Fin C → ℝ) (r c : Nat) :
    termSandwich (t.reparam P D) H r c = pullMat P D (termSandwich t H) r c := by
  have e1 : ∀ i j : Fin C, (t.reparam P D).J i r * H i j * (t.reparam P D).J j c =
      ∑ p ∈ Finset.range P, ∑ q ∈ Finset.range P, D p r * (t.J i p * H i j * t.J j q) * D q c := by
    intro i j
    simp only [Term.reparam, Finset.sum_mul, Finset.mul_sum]
    rw [Finset.sum_comm]
    exact Finset.sum_congr rfl fun p _ => Finset.sum_congr rfl fun q _ => by ring
  have e2 : ∀ p q : Nat, D p r * termSandwich t H p q * D q c =
      ∑ i : Fin C, ∑ j : Fin C, D p r * (t.J i p * H i j * t.J j q) * D q c := by
    intro p q
    simp only [termSandwich, Finset.sum_mul, Finset.mul_sum]
  unfold pullMat
  rw [Finset.sum_congr rfl fun p _ => Finset.sum_congr rfl fun q _ => e2 p q]
  unfold termSandwich
  rw [Finset.sum_congr rfl fun i _ => Finset.sum_congr rfl fun j _ => e1 i j]
  rw [Finset.sum_congr rfl fun i _ => Finset.sum_comm, Finset.sum_comm]
  refine Finset.sum_congr rfl fun p _ => ?_
  rw [Finset.sum_congr rfl fun i _ => Finset.sum_comm, Finset.sum_comm]

theorem reparamData_flatten (P : Nat) (D : Mat ℝ) (b : List (List (Term k C))) :
    (reparamData P D b).flatten = b.flatten.map (Term.reparam P D) := flatten_map_map _ _

theorem reparamData_ne {P : Nat} {D : Mat ℝ} {batches : List (List (List (Term k C)))} (hb : ∀ b ∈ batches, b ≠ []) :
    ∀ b ∈ batches.map (reparamData P D), b ≠ [] := by
  intro b hb'
  obtain ⟨b', h', rfl⟩ := List.mem_map.mp hb'
  simpa [reparamData] using hb b' h'

theorem reparamData_T {P T : Nat} {D : Mat ℝ} {batches : List (List (List (Term k C)))}
    (hT : ∀ b ∈ batches, ∀ d ∈ b, d.length = T) : ∀ b ∈ batches.map (reparamData P D), ∀ d ∈ b, d.length = T := by
  intro b hb' d hd
  obtain ⟨b', h', rfl⟩ := List.mem_map.mp hb'
  obtain ⟨d', hd', rfl⟩ := List.mem_map.mp hd
  rw [List.length_map]
  exact hT b' h' d' hd'

theorem riskMatrix_reparam (red : Reduction) (mean : Bool) (T P : Nat) (D : Mat ℝ) (H : Term k C → Fin C → Fin C → ℝ)
    (hH : ∀ t, H (Term.reparam P D t) = H t) (batches : List (List (List (Term k C)))) (r c : Nat) :
    riskMatrix red (datumMatrix mean T H) (batches.map (reparamData P D)).flatten r c =
      pullMat P D (riskMatrix red (datumMatrix mean T H) batches.flatten) r c := by
  have hfl : (batches.map (reparamData P D)).flatten = batches.flatten.map (List.map (Term.reparam P D)) := flatten_map_map _ _
  rw [hfl]
  refine riskMatrix_pull red P D _ _ _ _ r c fun d _ => ?_
  unfold datumMatrix
  rw [← pullMat_mul, ← pullMat_sum, List.map_map]
  congr 2
  refine List.map_congr_left fun t _ => ?_
  simp only [Function.comp_apply, hH]
  exact termSandwich_reparam P D t (H t) r c

/-- **C106** (GGN and empirical Fisher with the supported losses): the data of the model in the new parameters have the Jacobians `J D`
(`datum_jacobian_reparam`). -/
theorem lossOps_reparam (hs : shapes ≠ []) (hs' : shapes' ≠ []) (D : Mat ℝ) (mean : Bool) (T : Nat)
    (batches : List (List (List (Term k C)))) (hb : ∀ b ∈ batches, b ≠ []) (hT : ∀ b ∈ batches, ∀ d ∈ b, d.length = T) :
    IsPullback D
      (curvatureOp shapes (redOf mean) (inferNData List.length batches none) List.length
        (fun b => ggnLossBatch shapes mean b.flatten) batches)
      (curvatureOp shapes' (redOf mean) (inferNData List.length (batches.map (reparamData (total shapes) D)) none) List.length
        (fun b => ggnLossBatch shapes' mean b.flatten) (batches.map (reparamData (total shapes) D))) ∧
    IsPullback D
      (curvatureOp shapes (redOf mean) (inferNData List.length batches none) List.length
        (fun b => efBatch shapes mean b.flatten) batches)
      (curvatureOp shapes' (redOf mean) (inferNData List.length (batches.map (reparamData (total shapes) D)) none) List.length
        (fun b => efBatch shapes' mean b.flatten) (batches.map (reparamData (total shapes) D))) :=
  ⟨pullback_of_represents rfl (ggnLossOp_represents shapes hs mean T batches hb hT)
      (ggnLossOp_represents _ hs' mean T _ (reparamData_ne hb) (reparamData_T hT))
      fun r _ c _ => riskMatrix_reparam _ mean T _ D _ (fun _ => rfl) batches r c,
    pullback_of_represents rfl (efOp_represents shapes hs mean T batches hb hT)
      (efOp_represents _ hs' mean T _ (reparamData_ne hb) (reparamData_T hT))
      fun r _ c _ => riskMatrix_reparam _ mean T _ D _ (fun _ => rfl) batches r c⟩

theorem pullMat_finsetSum {ι : Type _} (n : Nat) (D : Mat ℝ) (s : Finset ι) (a : ι → Mat ℝ) (r c : Nat) :
    ∑ m ∈ s, pullMat n D (a m) r c = pullMat n D (fun i j => ∑ m ∈ s, a m i j) r c := by
  unfold pullMat
  rw [Finset.sum_comm]
  refine Finset.sum_congr rfl fun i _ => ?_
  rw [Finset.sum_comm]
  refine Finset.sum_congr rfl fun j _ => ?_
  rw [Finset.mul_sum, Finset.sum_mul]

theorem drawAll_reparam {rng : Rng k C} (hrng : rng.OfPredictions) (S P : Nat) (D : Mat ℝ) (r c : Nat) :
    ∀ (bs : List (List (List (Term k C)))) (g : rng.G),
    ((drawAll rng S (bs.map (reparamData P D)) g).map fun lb => ∑ m : Fin lb.data.flatten.length,
      termSandwich lb.data.flatten[m] (sampleOuter lb.data.flatten[m].f fun s => lb.draws s m) r c) =
    (drawAll rng S bs g).map fun lb => pullMat P D (fun i j => ∑ m : Fin lb.data.flatten.length,
      termSandwich lb.data.flatten[m] (sampleOuter lb.data.flatten[m].f fun s => lb.draws s m) i j) r c
  | [], _ => rfl
  | b :: bs, g => by
    have hf : (reparamData P D b).flatten.map Term.f = b.flatten.map Term.f := by
      rw [reparamData_flatten, List.map_map]
      rfl
    have hl : (reparamData P D b).flatten.length = b.flatten.length := by
      rw [reparamData_flatten, List.length_map]
    obtain ⟨h1, h2⟩ := hrng g S _ _ hf
    simp only [List.map_cons, drawAll]
    rw [drawAll_reparam hrng S P D r c bs, h2]
    congr 1
    rw [← pullMat_finsetSum]
    refine Fintype.sum_equiv (finCongr hl) _ _ fun m => ?_
    have hterm : (reparamData P D b).flatten[m] = Term.reparam P D b.flatten[finCongr hl m] := by
      have := congrArg (fun l => l[m.val]?) (reparamData_flatten P D b)
      simp only [List.getElem?_map, List.getElem?_eq_getElem m.2, List.getElem?_eq_getElem (hl ▸ m.2 : m.val < b.flatten.length),
        Option.map_some, Option.some.injEq] at this
      exact this
    have hd : (fun s => (rng.draw g S (reparamData P D b).flatten).1 s m) =
        fun s => (rng.draw g S b.flatten).1 s (finCongr hl m) := by
      funext s
      exact h1 s m _ rfl
    rw [hd, hterm]
    exact termSandwich_reparam P D _ _ r c

/-- **C106** (Monte-Carlo Fisher): with the same seed, the same labels are drawn in the new parameters. -/
theorem mcOp_reparam (rng : Rng k C) (hrng : rng.OfPredictions) (cfg : McConfig k C) (hS : cfg.mcSamples ≠ 0)
    (hs : cfg.shapes ≠ []) (hs' : shapes' ≠ []) (D : Mat ℝ) (T : Nat) (hb : ∀ b ∈ cfg.data, b ≠ [])
    (hT : ∀ b ∈ cfg.data, ∀ d ∈ b, d.length = T) (hbin : ∀ b ∈ cfg.data, BinaryTargets k b.flatten)
    (hN : cfg.nData = cfg.data.flatten.length) (st st' : McState rng) (hdev : st.genDevice = st'.genDevice) :
    IsPullback D (mcOp rng cfg st)
      (mcOp rng { cfg with shapes := shapes', data := cfg.data.map (reparamData (total cfg.shapes) D) } st') := by
  refine pullback_of_represents rfl
    (mcOp_draws rng cfg hS hs T hb hT hbin (nData_cases hb hN) st)
    (mcOp_draws rng { cfg with shapes := shapes', data := cfg.data.map (reparamData (total cfg.shapes) D) } hS hs' T
      (reparamData_ne hb) (reparamData_T hT) ?_ ?_ st') ?_
  · intro b hb'
    obtain ⟨b', h', rfl⟩ := List.mem_map.mp hb'
    have h := hbin b' h'
    rw [reparamData_flatten]
    cases k with
    | bce =>
      intro t ht c
      obtain ⟨t', ht', rfl⟩ := List.mem_map.mp ht
      exact h t' ht' c
    | mse => trivial
    | ce => trivial
  · rcases nData_cases hb hN with h | h
    · exact Or.inl h
    · exact Or.inr (by simp [h])
  · intro r _ c _
    unfold mcMatrix
    simp only
    rw [drawAll_reparam hrng, hdev, pullMat_sum, pullMat_mul]
    rfl

end losses

/-! ## Jacobians -/

section jacobian

variable {P P' O : Nat} {shapes shapes' : List (List Nat)}

/-- The Jacobians of the data of a batch, at the parameters `θ`. -/
noncomputable def jacRows (θ : Fin P → ℝ) (b : List (NetDatum P O)) : List (Mat ℝ) := b.map fun d => (toGGNDatum θ d).J

theorem rowsOf_reparam (φ : (Fin P' → ℝ) → Fin P → ℝ) (ψ : Fin P' → ℝ) (hφ : DifferentiableAt ℝ φ ψ) (S : Nat)
    (ds : List (NetDatum P O)) (hf : ∀ d ∈ ds, DifferentiableAt ℝ d.f (φ ψ)) (r c : Nat) :
    rowsOf S (jacRows ψ (ds.map (NetDatum.reparam φ))) r c =
      ∑ i ∈ Finset.range P, rowsOf S (jacRows (φ ψ) ds) r i * paramJac φ ψ i c := by
  unfold rowsOf jacRows
  rw [List.map_map, List.getElem?_map, List.getElem?_map]
  cases h : ds[r / S]? with
  | none => simp
  | some d =>
    simp only [Option.map_some, Function.comp_apply]
    exact datum_jacobian_reparam φ ψ hφ d (hf d (List.mem_of_getElem? h)) _ _

theorem jacRows_flatten (θ : Fin P → ℝ) (b : List (NetDatum P O)) (bs : List (List (NetDatum P O))) :
    (jacRows θ b :: bs.map (jacRows θ)).flatten = jacRows θ (b :: bs).flatten := by
  rw [← List.map_cons (f := jacRows θ)]
  exact flatten_map_map _ _

theorem reparam_flatten (φ : (Fin P' → ℝ) → Fin P → ℝ) (b : List (NetDatum P O)) (bs : List (List (NetDatum P O))) :
    (b.map (NetDatum.reparam φ) :: bs.map (List.map (NetDatum.reparam φ))).flatten =
      (b :: bs).flatten.map (NetDatum.reparam φ) := by
  rw [← List.map_cons (f := List.map (NetDatum.reparam φ))]
  exact flatten_map_map _ _

theorem jacRows_length (θ : Fin P → ℝ) (b : List (NetDatum P O)) (bs : List (List (NetDatum P O))) :
    (jacRows θ b :: bs.map (jacRows θ)).flatten.length = (b :: bs).flatten.length := by
  rw [jacRows_flatten, jacRows, List.length_map]

/-- **C106** (Jacobian): in the new parameters, `J' @ X = J @ (D X)`. -/
theorem jacobianOp_reparam (hP : total shapes = P) (hP' : total shapes' = P') (hs : shapes ≠ []) (hs' : shapes' ≠ [])
    (φ : (Fin P' → ℝ) → Fin P → ℝ) (ψ : Fin P' → ℝ) (hφ : DifferentiableAt ℝ φ ψ) (S : List Nat)
    (b : List (NetDatum P O)) (bs : List (List (NetDatum P O)))
    (hf : ∀ d ∈ (b :: bs).flatten, DifferentiableAt ℝ d.f (φ ψ)) (K : Nat) (hK : 1 ≤ K) (X DX : List (Tensor ℝ))
    (hX : HasShapes X shapes' K) (hDX : HasShapes DX shapes K)
    (hD : IsProduct (paramJac φ ψ) P P' K (flatData X) (flatData DX)) :
    ∃ Y, ((jacobianOp shapes (b :: bs).flatten.length (jacBatch S (jacRows (φ ψ) b))
        ((bs.map (jacRows (φ ψ))).map (jacBatch S))).matmat DX).1 = .ok Y ∧
      ((jacobianOp shapes' (b :: bs).flatten.length (jacBatch S (jacRows ψ (b.map (NetDatum.reparam φ))))
        (((bs.map (List.map (NetDatum.reparam φ))).map (jacRows ψ)).map (jacBatch S))).matmat X).1 = .ok Y := by
  have y := jacobianOp_rows shapes hs S (jacRows (φ ψ) b) (bs.map (jacRows (φ ψ))) K hK
  have z := jacobianOp_rows shapes' hs' S (jacRows ψ (b.map (NetDatum.reparam φ)))
    ((bs.map (List.map (NetDatum.reparam φ))).map (jacRows ψ)) K hK
  rw [jacRows_flatten, reparam_flatten, jacRows, List.length_map, List.length_map] at z
  rw [jacRows_flatten, jacRows, List.length_map] at y
  obtain ⟨Y, y1, y2, y3⟩ := y DX hDX
  obtain ⟨Z, z1, z2, z3⟩ := z X hX
  refine ⟨Y, y1, ?_⟩
  rw [z1]
  congr 1
  refine hasShapes_ext z2 y2 (isProduct_unique z3 ⟨y3.1, fun r hr k hk => ?_⟩)
  rw [y3.2 r hr k hk]
  change ∑ c ∈ Finset.range (total shapes), _ = ∑ c ∈ Finset.range (total shapes'), _
  rw [hP, hP']
  have e1 : ∀ c ∈ Finset.range P', rowsOf S.prod (jacRows ψ ((b :: bs).flatten.map (NetDatum.reparam φ))) r c *
      (flatData X).getD (c * K + k) 0 = ∑ i ∈ Finset.range P, rowsOf S.prod (jacRows (φ ψ) (b :: bs).flatten) r i *
        (paramJac φ ψ i c * (flatData X).getD (c * K + k) 0) := by
    intro c _
    rw [rowsOf_reparam φ ψ hφ _ _ hf, Finset.sum_mul]
    exact Finset.sum_congr rfl fun i _ => by ring
  refine Eq.trans ?_ (Finset.sum_congr rfl e1).symm
  rw [Finset.sum_comm]
  refine Finset.sum_congr rfl fun i hi => ?_
  rw [hD.2 i (Finset.mem_range.mp hi) k hk, Finset.mul_sum]
  rfl

/-- **C106** (transposed Jacobian): in the new parameters, `J'ᵀ @ W = Dᵀ (Jᵀ @ W)`. -/
theorem transposedJacobianOp_reparam (hP : total shapes = P) (hP' : total shapes' = P')
    (φ : (Fin P' → ℝ) → Fin P → ℝ) (ψ : Fin P' → ℝ) (hφ : DifferentiableAt ℝ φ ψ) (S : List Nat)
    (b : List (NetDatum P O)) (bs : List (List (NetDatum P O)))
    (hf : ∀ d ∈ (b :: bs).flatten, DifferentiableAt ℝ d.f (φ ψ)) (K : Nat) (W : List (Tensor ℝ))
    (hW : HasShapes W [(b :: bs).flatten.length :: S] K) :
    ∃ Y Y', ((transposedJacobianOp shapes (b :: bs).flatten.length (jacBatch S (jacRows (φ ψ) b))
        ((bs.map (jacRows (φ ψ))).map (jacBatch S))).matmat W).1 = .ok Y ∧
      ((transposedJacobianOp shapes' (b :: bs).flatten.length (jacBatch S (jacRows ψ (b.map (NetDatum.reparam φ))))
        (((bs.map (List.map (NetDatum.reparam φ))).map (jacRows ψ)).map (jacBatch S))).matmat W).1 = .ok Y' ∧
      HasShapes Y shapes K ∧ HasShapes Y' shapes' K ∧
      IsProduct (fun r i => paramJac φ ψ i r) P' P K (flatData Y) (flatData Y') := by
  have y := transposedJacobianOp_rows shapes S (jacRows (φ ψ) b) (bs.map (jacRows (φ ψ))) K
  have z := transposedJacobianOp_rows shapes' S (jacRows ψ (b.map (NetDatum.reparam φ)))
    ((bs.map (List.map (NetDatum.reparam φ))).map (jacRows ψ)) K
  rw [jacRows_flatten, reparam_flatten, jacRows, List.length_map, List.length_map] at z
  rw [jacRows_flatten, jacRows, List.length_map] at y
  obtain ⟨Y, y1, y2, y3⟩ := y W hW
  obtain ⟨Z, z1, z2, z3⟩ := z W hW
  refine ⟨Y, Z, y1, z1, y2, z2, ?_, fun r hr k hk => ?_⟩
  · have := z2.flatData_length
    have h' : (flatData Z).length = total shapes' * K := this
    rw [h', hP']
  have hr' : r < total shapes' := hP' ▸ hr
  rw [z3.2 r hr' k hk]
  have e1 : ∀ i ∈ Finset.range P, paramJac φ ψ i r * (flatData Y).getD (i * K + k) 0 =
      ∑ c ∈ Finset.range (transposedJacobianOp shapes (b :: bs).flatten.length (jacBatch S (jacRows (φ ψ) b))
        ((bs.map (jacRows (φ ψ))).map (jacBatch S))).ncols,
        rowsOf S.prod (jacRows (φ ψ) (b :: bs).flatten) c i * paramJac φ ψ i r * (flatData W).getD (c * K + k) 0 := by
    intro i hi
    have hi' : i < total shapes := hP ▸ Finset.mem_range.mp hi
    rw [y3.2 i hi' k hk, Finset.mul_sum]
    refine Finset.sum_congr rfl fun c _ => ?_
    change _ * (rowsOf S.prod (jacRows (φ ψ) (b :: bs).flatten) c i * _) = _
    ring
  rw [Finset.sum_congr rfl e1, Finset.sum_comm]
  refine Finset.sum_congr rfl fun c _ => ?_
  rw [← Finset.sum_mul, ← rowsOf_reparam φ ψ hφ _ _ hf]
  rfl

end jacobian

/-! ## Examples -/

/-- Both layers of `deepDatum` share one weight. -/
def tieWeights : (Fin 1 → ℝ) → Fin 2 → ℝ := fun w _ => w 0

/-- Tied weights: the GGN in the shared weight sums the four blocks of the GGN in the weights of both layers. -/
example (w : Fin 1 → ℝ) :
    IsPullback (paramJac tieWeights w)
      (curvatureOp [[1, 1], [1, 1]] .sum (inferNData List.length [[deepDatum 1 2], [deepDatum 3 4]] none) List.length
        (netGGNBatch [[1, 1], [1, 1]] .sum (tieWeights w)) [[deepDatum 1 2], [deepDatum 3 4]])
      (curvatureOp [[1, 1]] .sum (inferNData List.length [[(deepDatum 1 2).reparam tieWeights], [(deepDatum 3 4).reparam tieWeights]] none)
        List.length (netGGNBatch [[1, 1]] .sum w) [[(deepDatum 1 2).reparam tieWeights], [(deepDatum 3 4).reparam tieWeights]]) ∧
    paramJac tieWeights w 0 0 = 1 ∧ paramJac tieWeights w 1 0 = 1 := by
  have hf : ∀ x y, DifferentiableAt ℝ (deepDatum x y).f (tieWeights w) := by
    intro x y
    unfold deepDatum
    fun_prop
  have hL : ∀ x y, ContDiffAt ℝ 2 (deepDatum x y).loss ((deepDatum x y).f (tieWeights w)) := by
    intro x y
    unfold deepDatum
    fun_prop
  refine ⟨ggnOp_reparam (by decide) (by decide) (by simp) (by simp) .sum (Or.inr rfl) tieWeights w (by unfold tieWeights; fun_prop)
    [[deepDatum 1 2], [deepDatum 3 4]] (by simp) (by
      intro d hd
      simp only [List.flatten_cons, List.flatten_nil, List.cons_append, List.nil_append, List.mem_cons,
        List.not_mem_nil, or_false] at hd
      rcases hd with rfl | rfl <;> exact hf _ _) (by simp [hL]), ?_, ?_⟩
  · simp [paramJac, pderiv, tieWeights]
  · simp [paramJac, pderiv, tieWeights]

/-- Likewise for the Hessian, since the weights depend linearly on the shared one. -/
example (w : Fin 1 → ℝ) :
    IsPullback (paramJac tieWeights w)
      (curvatureOp [[1, 1], [1, 1]] .sum (inferNData List.length [[deepDatum 1 2], [deepDatum 3 4]] none) List.length
        (netHessianBatch [[1, 1], [1, 1]] [2] .sum (tieWeights w)) [[deepDatum 1 2], [deepDatum 3 4]])
      (curvatureOp [[1, 1]] .sum (inferNData List.length [[(deepDatum 1 2).reparam tieWeights], [(deepDatum 3 4).reparam tieWeights]] none)
        List.length (netHessianBatch [[1, 1]] [1] .sum w) [[(deepDatum 1 2).reparam tieWeights], [(deepDatum 3 4).reparam tieWeights]]) := by
  have hf : ∀ x y, ContDiffAt ℝ 2 (fun θ => (deepDatum x y).loss ((deepDatum x y).f θ)) (tieWeights w) := by
    intro x y
    unfold deepDatum
    fun_prop
  refine hessianOp_reparam (by decide) (by decide) (by simp) (by simp) .sum (Or.inr rfl) tieWeights w (by unfold tieWeights; fun_prop)
    [[deepDatum 1 2], [deepDatum 3 4]] (by simp) (by simp [hf]) fun i => Or.inr fun r c => ?_
  obtain rfl : r = 0 := Subsingleton.elim _ _
  obtain rfl : c = 0 := Subsingleton.elim _ _
  simp [hess, pderiv, tieWeights]

/-- The model `θ` with the loss `f`. -/
def lineDatum : NetDatum 1 1 := ⟨fun θ => θ, fun f => f 0⟩

/-- The parameter is the squareParam of the new one. -/
def squareParam : (Fin 1 → ℝ) → Fin 1 → ℝ := fun ψ _ => ψ 0 ^ 2

/-- **C106** (Hessian): products with the Hessian are not pulled back in general: the Hessian of `θ` is zero, that of `ψ²` is `2`. -/
theorem hessianOp_not_reparam (ψ : Fin 1 → ℝ) :
    ¬ IsPullback (paramJac squareParam ψ)
      (curvatureOp [[1]] .sum (inferNData List.length [[lineDatum]] none) List.length
        (netHessianBatch [[1]] [1] .sum (squareParam ψ)) [[lineDatum]])
      (curvatureOp [[1]] .sum (inferNData List.length [[lineDatum.reparam squareParam]] none) List.length
        (netHessianBatch [[1]] [1] .sum ψ) [[lineDatum.reparam squareParam]]) := by
  intro h
  have hd : ∀ d ∈ [[lineDatum]].flatten, ContDiffAt ℝ 2 (fun θ => d.loss (d.f θ)) (squareParam ψ) := by
    intro d hd
    simp only [List.flatten_cons, List.flatten_nil, List.append_nil, List.mem_singleton] at hd
    subst hd
    unfold lineDatum
    fun_prop
  have hd' : ∀ d ∈ [[lineDatum.reparam squareParam]].flatten, ContDiffAt ℝ 2 (fun θ => d.loss (d.f θ)) ψ := by
    intro d hd
    simp only [List.flatten_cons, List.flatten_nil, List.append_nil, List.mem_singleton] at hd
    subst hd
    unfold lineDatum NetDatum.reparam squareParam
    fun_prop
  have a := (netHessianOp_represents [[1]] (by decide) (by simp) .sum (Or.inr rfl) (squareParam ψ) [[lineDatum]] (by simp) hd).1
  have a' := (netHessianOp_represents [[1]] (by decide) (by simp) .sum (Or.inr rfl) ψ [[lineDatum.reparam squareParam]] (by simp) hd').1
  have hX : ∀ x : ℝ, HasShapes [(⟨[1, 1], [x]⟩ : Tensor ℝ)] [[1]] 1 := fun x => ⟨rfl, by simp [Tensor.WF]⟩
  obtain ⟨Y, Y', y1, y1', -, -, y3⟩ := h 1 [⟨[1, 1], [1]⟩] [⟨[1, 1], [2 * ψ 0]⟩] (hX _) (hX _) ⟨rfl, by
    intro r hr k hk
    have hr : r < 1 := hr
    obtain rfl : r = 0 := by omega
    obtain rfl : k = 0 := by omega
    change _ = ∑ c ∈ Finset.range 1, _
    simp [flatData, paramJac, pderiv, squareParam]⟩
  obtain ⟨Z, z1, -, z3⟩ := a 1 [⟨[1, 1], [2 * ψ 0]⟩] (hX _)
  obtain ⟨Z', z1', -, z3'⟩ := a' 1 [⟨[1, 1], [1]⟩] (hX _)
  have e := z1.symm.trans y1
  have e' := z1'.symm.trans y1'
  simp only [Except.ok.injEq] at e e'
  subst e e'
  have q0 : hess (empiricalRisk .sum [lineDatum]) (squareParam ψ) 0 0 = 0 := by
    have e : empiricalRisk .sum [lineDatum] = fun θ : Fin 1 → ℝ => θ 0 := by
      funext θ
      simp [empiricalRisk_eq, netLoss, redScale, lineDatum]
    rw [e]
    simp [hess, pderiv]
  have q1 : hess (empiricalRisk .sum [lineDatum.reparam squareParam]) ψ 0 0 = 2 := by
    have e : empiricalRisk .sum [lineDatum.reparam squareParam] = fun θ : Fin 1 → ℝ => θ 0 ^ 2 := by
      funext θ
      simp [empiricalRisk_eq, netLoss, redScale, lineDatum, NetDatum.reparam, squareParam]
    rw [e]
    simp [hess, pderiv]
  have k1 := y3.2 0 Nat.one_pos 0 Nat.one_pos
  have k2 := z3'.2 0 Nat.one_pos 0 Nat.one_pos
  have k3 := z3.2 0 Nat.one_pos 0 Nat.one_pos
  rw [k2] at k1
  change ∑ c ∈ Finset.range 1, _ = ∑ c ∈ Finset.range 1, _ at k1
  change _ = ∑ c ∈ Finset.range 1, _ at k3
  rw [Finset.sum_range_one, Finset.sum_range_one, k3, Finset.sum_range_one] at k1
  simp [natMat, flatData, q0, q1] at k1

/-- Natural gradients with parameters in other units: `x' = 3` solves the equation in the parameter `ψ = θ / 2` if and only if `x = 6`
does in `θ`. -/
example (ψ : Fin 1 → ℝ) :
    ∃ G G' L, gradientAndLoss [[1]] .mean (inferNData List.length [[lineDatum]] none) List.length
        (some (netLossGradBatch [[1]] .mean fun i => 2 * ψ i)) [[lineDatum]] = .ok (G, L) ∧
      gradientAndLoss [[1]] .mean (inferNData List.length [[lineDatum.reparam fun y i => 2 * y i]] none) List.length
        (some (netLossGradBatch [[1]] .mean ψ)) [[lineDatum.reparam fun y i => 2 * y i]] = .ok (G', L) ∧
      (((curvatureOp [[1]] .mean (inferNData List.length [[lineDatum.reparam fun y i => 2 * y i]] none) List.length
          (netGGNBatch [[1]] .mean ψ) [[lineDatum.reparam fun y i => 2 * y i]]).matmul (.list [⟨[1], [3]⟩])).1 = .ok (.list G') ↔
        ((curvatureOp [[1]] .mean (inferNData List.length [[lineDatum]] none) List.length
          (netGGNBatch [[1]] .mean fun i => 2 * ψ i) [[lineDatum]]).matmul (.list [⟨[1], [6]⟩])).1 = .ok (.list G)) := by
  have hpd : ∀ i r : Fin 1, pderiv (fun y : Fin 1 → ℝ => 2 * y i) r ψ = 2 := by
    intro i r
    obtain rfl : i = r := Subsingleton.elim _ _
    simp [pderiv]
  refine naturalGradient_reparam (by decide) (by decide) (by simp) (by simp) .mean (Or.inl rfl) (fun y i => 2 * y i) ψ (by fun_prop)
    [[lineDatum]] (by simp) ?_ ?_ ?_ [⟨[1], [3]⟩] [⟨[1], [6]⟩] ⟨rfl, by simp [Tensor.WF]⟩ ⟨rfl, by simp [Tensor.WF]⟩ ?_
  · intro d hd
    simp only [List.flatten_cons, List.flatten_nil, List.append_nil, List.mem_singleton] at hd
    subst hd
    unfold lineDatum
    fun_prop
  · intro d hd
    simp only [List.flatten_cons, List.flatten_nil, List.append_nil, List.mem_singleton] at hd
    subst hd
    unfold lineDatum
    fun_prop
  · intro u hu
    have := hu 0
    simp only [hpd, Finset.univ_unique, Finset.sum_singleton] at this
    funext i
    obtain rfl : i = default := Subsingleton.elim _ _
    simpa using this
  · intro i
    simp only [hpd]
    simp [entriesOf, flatData]
    norm_num

/-- GGN and empirical Fisher of a term with two parameters that are equal to one new parameter. -/
example (t : Term .ce 3) :
    IsPullback (fun _ _ => 1)
      (curvatureOp [[1], [1]] (redOf true) (inferNData List.length [[[t]]] none) List.length
        (fun b => ggnLossBatch [[1], [1]] true b.flatten) [[[t]]])
      (curvatureOp [[1]] (redOf true) (inferNData List.length [[[t.reparam 2 fun _ _ => 1]]] none) List.length
        (fun b => ggnLossBatch [[1]] true b.flatten) [[[t.reparam 2 fun _ _ => 1]]]) :=
  (lossOps_reparam (shapes := [[1], [1]]) (by simp) (by simp) (fun _ _ => 1) true 1 [[[t]]] (by simp) (by simp)).1

/-- Jacobians with tied weights: `J' @ [1] = J @ [1, 1]`. -/
example (w : Fin 1 → ℝ) :
    ∃ Y, ((jacobianOp [[1], [1]] 2 (jacBatch [1] (jacRows (tieWeights w) [deepDatum 1 2, deepDatum 3 4])) []).matmat
        [⟨[1, 1], [1]⟩, ⟨[1, 1], [1]⟩]).1 = .ok Y ∧
      ((jacobianOp [[1]] 2 (jacBatch [1] (jacRows w [(deepDatum 1 2).reparam tieWeights, (deepDatum 3 4).reparam tieWeights]))
        []).matmat [⟨[1, 1], [1]⟩]).1 = .ok Y := by
  refine jacobianOp_reparam (shapes := [[1], [1]]) (shapes' := [[1]]) (by decide) (by decide) (by simp) (by simp) tieWeights w
    (by unfold tieWeights; fun_prop) [1] [deepDatum 1 2, deepDatum 3 4] [] ?_ 1 le_rfl [⟨[1, 1], [1]⟩]
    [⟨[1, 1], [1]⟩, ⟨[1, 1], [1]⟩] ⟨rfl, by simp [Tensor.WF]⟩ ⟨rfl, by simp [Tensor.WF]⟩ ⟨rfl, ?_⟩
  · intro d hd
    simp only [List.flatten_cons, List.flatten_nil, List.append_nil, List.mem_cons, List.not_mem_nil, or_false] at hd
    rcases hd with rfl | rfl <;> (unfold deepDatum; fun_prop)
  · intro r hr k hk
    obtain rfl : k = 0 := by omega
    interval_cases r <;> simp [flatData, paramJac, pderiv, tieWeights]

end Curvlinops
