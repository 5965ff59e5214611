import Verif.Model.Net
import Verif.Lemmas.Calculus
import Verif.Props.LossCurvature
import Mathlib.Analysis.SpecialFunctions.Trigonometric.Deriv
import Mathlib.Analysis.SpecialFunctions.ExpDeriv

/-!
# C11, C14: the Hessian, and the GGN as Hessian of the linearized model
-/

namespace Curvlinops

variable {P O : Nat}

/-- Specification: the empirical risk of the whole data set. -/
noncomputable def empiricalRisk (red : Reduction) (ds : List (NetDatum P O)) (θ : Fin P → ℝ) : ℝ :=
  match red with
  | .mean => (ds.map fun d => d.loss (d.f θ)).sum / ds.length
  | _ => (ds.map fun d => d.loss (d.f θ)).sum

theorem empiricalRisk_eq (red : Reduction) (ds : List (NetDatum P O)) :
    empiricalRisk red ds = netLoss red ds := by
  funext θ
  unfold empiricalRisk netLoss redScale
  cases red <;> simp [div_eq_inv_mul]

theorem hess_netLoss (red : Reduction) (ds : List (NetDatum P O)) (θ : Fin P → ℝ)
    (h : ∀ d ∈ ds, ContDiffAt ℝ 2 (fun θ => d.loss (d.f θ)) θ) (i j : Fin P) :
    ContDiffAt ℝ 2 (netLoss red ds) θ ∧ hess (netLoss red ds) θ i j =
      redScale red ds.length * (ds.map fun d => hess (fun θ => d.loss (d.f θ)) θ i j).sum := by
  obtain ⟨h1, h2⟩ := hess_list_sum (fun (d : NetDatum P O) θ => d.loss (d.f θ)) θ i j ds h
  refine ⟨contDiffAt_const.mul h1, ?_⟩
  unfold netLoss
  rw [hess_const_mul, h2]

theorem natMat_hess_netLoss (red : Reduction) (ds : List (NetDatum P O)) (θ : Fin P → ℝ)
    (h : ∀ d ∈ ds, ContDiffAt ℝ 2 (fun θ => d.loss (d.f θ)) θ) :
    natMat (hess (netLoss red ds) θ) =
      riskMatrix red (fun d : NetDatum P O => natMat (hess (fun θ => d.loss (d.f θ)) θ)) ds := by
  funext r c
  unfold riskMatrix natMat
  by_cases hrc : r < P ∧ c < P
  · simp only [dif_pos hrc]
    exact (hess_netLoss red ds θ h _ _).2
  · simp [dif_neg hrc]

theorem curvatureOp_congr {B : Type _} (shapes : List (List Nat)) (red : Reduction) (n : Nat) (size : B → Nat)
    (data : List B) {f g : B → List (Tensor ℝ) → Py (List (Tensor ℝ))} (h : ∀ b ∈ data, f b = g b) :
    curvatureOp shapes red n size f data = curvatureOp shapes red n size g data := by
  have key : ∀ (M : List (Tensor ℝ)) (AM : List (Tensor ℝ)),
      matmatLoop red n size f M data AM = matmatLoop red n size g M data AM := by
    intro M
    induction data with
    | nil => intro _; rfl
    | cons b bs ih =>
      intro AM
      have ih := ih fun b hb => h b (by simp [hb])
      simp only [matmatLoop, h b (by simp), ih]
  unfold curvatureOp curvatureMatmat
  simp only [key]

theorem riskMatrix_eq_batchMatrix {D : Type _} (red : Reduction) (a : D → Mat ℝ) (b : List D) :
    riskMatrix red a b = batchMatrix red a b := by
  unfold riskMatrix batchMatrix
  rfl

/-- C11, C12: at parameters where the losses of all data are twice continuously differentiable, the Hessian operator
multiplies with the block-diagonal part of the matrix of second partial derivatives of the empirical risk, for every
partition of the data into non-empty mini-batches. -/
theorem netHessianOp_blocks (shapes : List (List Nat)) (_hP : total shapes = P) (hshapes : shapes ≠ [])
    (blockSizes : List Int) (hpos : ∀ s ∈ blockSizes, 0 < s) (hsum : blockSizes.sum = shapes.length)
    (parts : List (List (List Nat))) (hparts : IsSplit shapes blockSizes parts) (red : Reduction)
    (hred : red = .mean ∨ red = .sum) (θ : Fin P → ℝ) (batches : List (List (NetDatum P O)))
    (hne : ∀ b ∈ batches, b ≠ [])
    (hdiff : ∀ d ∈ batches.flatten, ContDiffAt ℝ 2 (fun θ => d.loss (d.f θ)) θ) :
    Represents (curvatureOp shapes red (inferNData List.length batches none) List.length
        (netHessianBatch shapes blockSizes red θ) batches)
      (blockDiagonal (parts.map total) (natMat (hess (empiricalRisk red batches.flatten) θ))) := by
  have key := hessianOp_blocks shapes hshapes blockSizes hpos hsum parts hparts red hred
    (fun d : NetDatum P O => natMat (hess (fun θ => d.loss (d.f θ)) θ)) batches hne
  rw [empiricalRisk_eq, natMat_hess_netLoss red batches.flatten θ hdiff]
  rw [curvatureOp_congr shapes red _ List.length batches (fun b hb => ?_)]
  · exact key
  · funext M
    unfold netHessianBatch
    rw [natMat_hess_netLoss red b θ fun d hd => hdiff d (List.mem_flatten_of_mem hb hd)]
    exact congrArg (fun A => hessianMatmatBatch shapes blockSizes A M)
      (riskMatrix_eq_batchMatrix red _ b)

/-- C11: by default (one block), the Hessian operator multiplies with the Hessian of the empirical risk, which is also
the matrix that `functorch_hessian` computes on the concatenated data. -/
theorem netHessianOp_represents (shapes : List (List Nat)) (hP : total shapes = P) (hshapes : shapes ≠ [])
    (red : Reduction) (hred : red = .mean ∨ red = .sum) (θ : Fin P → ℝ) (batches : List (List (NetDatum P O)))
    (hne : ∀ b ∈ batches, b ≠ [])
    (hdiff : ∀ d ∈ batches.flatten, ContDiffAt ℝ 2 (fun θ => d.loss (d.f θ)) θ) :
    Represents (curvatureOp shapes red (inferNData List.length batches none) List.length
        (netHessianBatch shapes [(shapes.length : Int)] red θ) batches)
      (natMat (hess (empiricalRisk red batches.flatten) θ)) ∧
    functorchHessian red θ batches.flatten = natMat (hess (empiricalRisk red batches.flatten) θ) := by
  constructor
  · have hpos : 0 < shapes.length := List.length_pos_of_ne_nil hshapes
    have key := netHessianOp_blocks shapes hP hshapes [(shapes.length : Int)] (by simpa using hpos) (by simp) [shapes]
      (by simp [IsSplit]) red hred θ batches hne hdiff
    intro K Xs hXs
    obtain ⟨Y, y1, y2, y3⟩ := key K Xs hXs
    refine ⟨Y, y1, y2, y3.1, fun r hr k hk => ?_⟩
    rw [y3.2 r hr k hk]
    refine Finset.sum_congr rfl fun c hc => ?_
    congr 1
    exact blockDiagonal_single _ _ r c hr (Finset.mem_range.mp hc)
  · rw [empiricalRisk_eq]; rfl

/-- C11: the Hessian of the empirical risk is symmetric. -/
theorem netHessian_symm (red : Reduction) (θ : Fin P → ℝ) (ds : List (NetDatum P O))
    (hdiff : ∀ d ∈ ds, ContDiffAt ℝ 2 (fun θ => d.loss (d.f θ)) θ) (r c : Nat) :
    natMat (hess (empiricalRisk red ds) θ) r c = natMat (hess (empiricalRisk red ds) θ) c r := by
  rw [empiricalRisk_eq]
  unfold natMat
  by_cases h : r < P ∧ c < P
  · rw [dif_pos h, dif_pos h.symm]
    exact hess_symm (hess_netLoss red ds θ hdiff ⟨r, h.1⟩ ⟨c, h.2⟩).1 _ _
  · rw [dif_neg h, dif_neg fun h' => h h'.symm]

/-! ## C14 -/

/-- What the GGN needs to know about a datum. -/
noncomputable def toGGNDatum (θ : Fin P → ℝ) (d : NetDatum P O) : GGNDatum ℝ where
  J := fun o p => if h : o < O ∧ p < P then pderiv (fun θ => d.f θ ⟨o, h.1⟩) ⟨p, h.2⟩ θ else 0
  HL := fun o o' => if h : o < O ∧ o' < O then hess d.loss (d.f θ) ⟨o, h.1⟩ ⟨o', h.2⟩ else 0

theorem netJ_eq (θ : Fin P → ℝ) (b : List (NetDatum P O)) (s p : Nat) (hs : s < b.length * O) :
    netJ θ b s p = batchJ O (b.map (toGGNDatum θ)) s p := by
  have hO : 0 < O := by
    rcases Nat.eq_zero_or_pos O with rfl | h
    · simp at hs
    · exact h
  have h1 : s / O < b.length := by rwa [Nat.div_lt_iff_lt_mul hO]
  have h2 : s % O < O := Nat.mod_lt _ hO
  unfold netJ batchJ
  simp only [List.getElem?_map, List.getElem?_eq_getElem h1, Option.map_some, toGGNDatum]
  by_cases hp : p < P
  · rw [dif_pos ⟨hs, hp⟩, dif_pos ⟨h2, hp⟩]
    rfl
  · rw [dif_neg fun h => hp h.2, dif_neg fun h => hp h.2]

theorem netHL_eq (red : Reduction) (θ : Fin P → ℝ) (b : List (NetDatum P O)) (s s' : Nat) (hs : s < b.length * O)
    (hs' : s' < b.length * O) :
    flat2 (hess (netOutLoss red b) fun x => (b[x.1]).f θ x.2) s s' = batchHL red O (b.map (toGGNDatum θ)) s s' := by
  have hO : 0 < O := by
    rcases Nat.eq_zero_or_pos O with rfl | h
    · simp at hs
    · exact h
  have h1 : ∀ s, s < b.length * O → s / O < b.length := fun s hs => by rwa [Nat.div_lt_iff_lt_mul hO]
  have h2 : ∀ s, s % O < O := fun s => Nat.mod_lt _ hO
  unfold flat2 batchHL
  simp only [List.getElem?_map, List.getElem?_eq_getElem (h1 s hs), Option.map_some, toGGNDatum, dif_pos (And.intro hs hs')]
  have e := hess_rows (fun m : Fin b.length => (b[m]).loss) (redScale red b.length)⁻¹
    ⟨s / O, h1 s hs⟩ ⟨s' / O, h1 s' hs'⟩ ⟨s % O, h2 s⟩ ⟨s' % O, h2 s'⟩ (fun x => (b[x.1]).f θ x.2)
  have e' : hess (netOutLoss red b) (fun x => (b[x.1]).f θ x.2) (finProdFinEquiv.symm ⟨s, hs⟩)
      (finProdFinEquiv.symm ⟨s', hs'⟩) = _ := e
  rw [e']
  rw [dif_pos ⟨h2 s, h2 s'⟩]
  by_cases hm : s / O = s' / O
  · rw [if_pos hm, if_pos (by simpa using hm), div_inv_eq_mul, mul_comm]
    unfold redScale
    rw [List.length_map]
    rfl
  · rw [if_neg hm, if_neg (by simpa using hm)]

theorem hess_linearized (θ : Fin P → ℝ) (d : NetDatum P O) (hf : DifferentiableAt ℝ d.f θ)
    (hL : ContDiffAt ℝ 2 d.loss (d.f θ)) :
    ContDiffAt ℝ 2 (fun θ' => (linearizedModel θ d).loss ((linearizedModel θ d).f θ')) θ ∧
    natMat (hess (fun θ' => (linearizedModel θ d).loss ((linearizedModel θ d).f θ')) θ) =
      fun r c => if r < P ∧ c < P then datumGGN O (toGGNDatum θ d) r c else 0 := by
  rcases Nat.eq_zero_or_pos P with rfl | hP
  · refine ⟨?_, ?_⟩
    · have e : (fun θ' => (linearizedModel θ d).loss ((linearizedModel θ d).f θ')) =
          fun _ => (linearizedModel θ d).loss ((linearizedModel θ d).f θ) :=
        funext fun x => by rw [Subsingleton.elim x θ]
      rw [e]
      exact contDiffAt_const
    · funext r c
      unfold natMat
      rw [dif_neg (by omega), if_neg (by omega)]
  refine ⟨(hess_comp_affine d.loss (d.f θ) (fderiv ℝ d.f θ) θ hL ⟨0, hP⟩ ⟨0, hP⟩).1, ?_⟩
  funext r c
  unfold natMat
  by_cases h : r < P ∧ c < P
  · rw [dif_pos h, if_pos h]
    refine (hess_comp_affine d.loss (d.f θ) (fderiv ℝ d.f θ) θ hL ⟨r, h.1⟩ ⟨c, h.2⟩).2.trans ?_
    have hJ : ∀ (o : Fin O) (p : Fin P), fderiv ℝ d.f θ (Pi.single p 1) o = pderiv (fun θ => d.f θ o) p θ := by
      intro o p
      have ho : HasFDerivAt (fun θ => d.f θ o) ((ContinuousLinearMap.proj o).comp (fderiv ℝ d.f θ)) θ :=
        (hasFDerivAt_pi'.1 hf.hasFDerivAt) o
      rw [pderiv_eq_fderiv ho.differentiableAt, ho.fderiv]
      rfl
    unfold datumGGN toGGNDatum
    rw [Finset.sum_range]
    refine Finset.sum_congr rfl fun o _ => ?_
    rw [Finset.sum_range]
    refine Finset.sum_congr rfl fun o' _ => ?_
    rw [hJ, hJ]
    simp [h.1, h.2]
  · rw [dif_neg h, if_neg h]

/-- C14: if the model is differentiable in the parameters and the loss twice continuously differentiable in the output,
then for every partition of the data into non-empty mini-batches, the GGN operator multiplies with the matrix that
`functorch_ggn` computes on the concatenated data: the Hessian of the loss of the linearized model. -/
theorem ggnOp_eq_functorch (shapes : List (List Nat)) (hP : total shapes = P) (hshapes : shapes ≠ [])
    (red : Reduction) (hred : red = .mean ∨ red = .sum) (θ : Fin P → ℝ) (batches : List (List (NetDatum P O)))
    (hne : ∀ b ∈ batches, b ≠ []) (hf : ∀ d ∈ batches.flatten, DifferentiableAt ℝ d.f θ)
    (hL : ∀ d ∈ batches.flatten, ContDiffAt ℝ 2 d.loss (d.f θ)) :
    Represents (curvatureOp shapes red (inferNData List.length batches none) List.length
        (netGGNBatch shapes red θ) batches)
      (functorchGGN red θ batches.flatten) := by
  have key := curvatureOp_batching shapes red hred (fun d : NetDatum P O => datumGGN O (toGGNDatum θ d))
    (netGGNBatch shapes red θ) batches (by
      intro b hb K M hM
      obtain ⟨Y, y1, y2, y3⟩ := ggnMatmatBatch_represents shapes hshapes (netJ θ b)
        (flat2 (hess (netOutLoss red b) fun x => (b[x.1]).f θ x.2)) [b.length, O] K M hM
      refine ⟨Y, y1, y2, y3.1, fun r hr k hk => ?_⟩
      rw [y3.2 r hr k hk]
      refine Finset.sum_congr rfl fun c _ => ?_
      congr 1
      have e := ggn_batch_matrix red O (b.map (toGGNDatum θ)) r c
      rw [List.length_map] at e
      have e2 : batchMatrix red (datumGGN O) (b.map (toGGNDatum θ)) r c =
          batchMatrix red (fun d : NetDatum P O => datumGGN O (toGGNDatum θ d)) b r c := by
        unfold batchMatrix
        rw [List.length_map, List.map_map]
        rfl
      rw [e2] at e
      rw [← e]
      have hp : [b.length, O].prod = b.length * O := by simp
      simp only [hp]
      refine Finset.sum_congr rfl fun s hs => Finset.sum_congr rfl fun s' hs' => ?_
      have hs := Finset.mem_range.mp hs
      have hs' := Finset.mem_range.mp hs'
      rw [netJ_eq θ b s r hs, netJ_eq θ b s' c hs', netHL_eq red θ b s s' hs hs']) hne none (Or.inl rfl)
  have hmat : ∀ r < P, ∀ c < P, functorchGGN red θ batches.flatten r c =
      riskMatrix red (fun d : NetDatum P O => datumGGN O (toGGNDatum θ d)) batches.flatten r c := by
    intro r hr c hc
    generalize batches.flatten = ds at hf hL
    unfold functorchGGN
    rw [natMat_hess_netLoss red _ θ (by
      intro d hd
      obtain ⟨d', hd', rfl⟩ := List.mem_map.mp hd
      exact (hess_linearized θ d' (hf d' hd') (hL d' hd')).1)]
    unfold riskMatrix
    rw [List.length_map, List.map_map]
    congr 2
    refine List.map_congr_left fun d hd => ?_
    have := congrFun (congrFun (hess_linearized θ d (hf d hd) (hL d hd)).2 r) c
    simp only [Function.comp_apply, this, hr, hc, and_self, if_true]
  intro K Xs hXs
  obtain ⟨Y, y1, y2, y3⟩ := key K Xs hXs
  refine ⟨Y, y1, y2, y3.1, fun r hr k hk => ?_⟩
  rw [y3.2 r hr k hk]
  refine Finset.sum_congr rfl fun c hc => ?_
  have hn : total shapes = P := hP
  rw [hmat r (hn ▸ hr) c (hn ▸ Finset.mem_range.mp hc)]

/-! ## Examples -/

/-- A nonlinear model with two parameters, and the square loss. -/
noncomputable def sinDatum (x y : ℝ) : NetDatum 2 1 := ⟨fun θ _ => θ 0 * Real.sin (x * θ 1), fun o => (o 0 - y) ^ 2⟩

example (θ : Fin 2 → ℝ) : Represents (curvatureOp [[1], [1]] .mean
      (inferNData List.length [[sinDatum 1 2, sinDatum 3 1], [sinDatum 0 1]] none) List.length
      (netHessianBatch [[1], [1]] [2] .mean θ) [[sinDatum 1 2, sinDatum 3 1], [sinDatum 0 1]])
    (natMat (hess (empiricalRisk .mean [sinDatum 1 2, sinDatum 3 1, sinDatum 0 1]) θ)) :=
  (netHessianOp_represents [[1], [1]] (by decide) (by simp) .mean (Or.inl rfl) θ
    [[sinDatum 1 2, sinDatum 3 1], [sinDatum 0 1]] (by simp) (by
      have key : ∀ x y, ContDiffAt ℝ 2 (fun θ => (sinDatum x y).loss ((sinDatum x y).f θ)) θ := by
        intro x y
        unfold sinDatum
        fun_prop
      simp [key])).1

example (θ : Fin 2 → ℝ) : Represents (curvatureOp [[1], [1]] .sum
      (inferNData List.length [[sinDatum 1 2, sinDatum 3 1], [sinDatum 0 1]] none) List.length
      (netGGNBatch [[1], [1]] .sum θ) [[sinDatum 1 2, sinDatum 3 1], [sinDatum 0 1]])
    (functorchGGN .sum θ [sinDatum 1 2, sinDatum 3 1, sinDatum 0 1]) :=
  ggnOp_eq_functorch [[1], [1]] (by decide) (by simp) .sum (Or.inr rfl) θ
    [[sinDatum 1 2, sinDatum 3 1], [sinDatum 0 1]] (by simp)
    (by
      have key : ∀ x y, DifferentiableAt ℝ (sinDatum x y).f θ := by
        intro x y
        unfold sinDatum
        fun_prop
      intro d hd
      simp only [List.flatten_cons, List.flatten_nil, List.append_nil, List.cons_append, List.nil_append, List.mem_cons,
        List.not_mem_nil, or_false] at hd
      rcases hd with rfl | rfl | rfl <;> exact key _ _)
    (by
      have key : ∀ x y, ContDiffAt ℝ 2 (sinDatum x y).loss ((sinDatum x y).f θ) := by
        intro x y
        unfold sinDatum
        fun_prop
      simp [key])

end Curvlinops
