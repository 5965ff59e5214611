import Verif.Props.NaturalGradient
import Verif.Props.Matmul

/-!
# Damped natural gradient steps with the operators

For networks with a single Kronecker block, products with KFAC's exactly damped inverse solve linear systems with the GGN operator
plus damping.
-/

namespace Curvlinops

variable {D T C : Nat} {k : LossKind}
/-- A product with a vector (a tensor with one dimension). -/
theorem matmul_vec (op : LinOp ℝ) (A : Mat ℝ) (hA : Represents op A) (shapes : List (List Nat)) (hi : op.inShape = shapes)
    (ho : op.outShape = shapes) (hne : shapes ≠ []) (v : List ℝ) (hv : v.length = (shapes.map List.prod).sum) :
    ∃ u, (op.matmul (.tensor ⟨[(shapes.map List.prod).sum], v⟩)).1 = .ok (.tensor ⟨[(shapes.map List.prod).sum], u⟩) ∧
      u.length = (shapes.map List.prod).sum ∧
      ∀ r < (shapes.map List.prod).sum, u.getD r 0 = ∑ c ∈ Finset.range (shapes.map List.prod).sum, A r c * v.getD c 0 := by
  obtain ⟨Y, h1, h2, h3, h4, h5⟩ := matmul_correct op A (.tensor ⟨[(shapes.map List.prod).sum], v⟩) .vec (hA _)
    (by simp [PyVal.WF, Tensor.WF, hv]) (by simp [InSpace, Fmt.dims, hi]) (by rw [hi]; exact Or.inl hne) (by rw [ho]; exact Or.inl hne)
  obtain ⟨t, rfl⟩ : ∃ t, Y = .tensor t := by
    cases Y <;> simp_all [SameKind]
  obtain ⟨s, u⟩ := t
  have hs : s = [(shapes.map List.prod).sum] := by simpa [InSpace, Fmt.dims, ho] using h3
  subst hs
  have hn : op.nrows = (shapes.map List.prod).sum := by simp [LinOp.nrows, LinOp.outFlat, ho]
  have hm : op.ncols = (shapes.map List.prod).sum := by simp [LinOp.ncols, LinOp.inFlat, hi]
  obtain ⟨h6, h7⟩ := h5
  rw [hn, hm] at h7
  rw [hn] at h6
  refine ⟨u, h1, by simpa [PyVal.entries, Fmt.cols] using h6, fun r hr => ?_⟩
  simpa [PyVal.entries, Fmt.cols] using h7 r hr 0 (by simp [Fmt.cols])

/-- `a + δ b` for vectors. -/
def axpy (δ : ℝ) (a b : List ℝ) : List ℝ := List.zipWith (fun x y => x + δ * y) a b

theorem axpy_getD (δ : ℝ) (a b : List ℝ) (h : a.length = b.length) (r : Nat) :
    (axpy δ a b).getD r 0 = a.getD r 0 + δ * b.getD r 0 := by
  unfold axpy
  by_cases hr : r < a.length
  · rw [List.getD_eq_getElem _ _ (by simp [← h, hr]), List.getD_eq_getElem _ _ hr, List.getD_eq_getElem _ _ (h ▸ hr),
      List.getElem_zipWith]
  · simp [Nat.le_of_not_lt hr, ← h]

theorem ext_getD {n : Nat} {u v : List ℝ} (hu : u.length = n) (hv : v.length = n) (h : ∀ r < n, u.getD r 0 = v.getD r 0) : u = v := by
  refine List.ext_getElem (hu.trans hv.symm) fun r h1 h2 => ?_
  have := h r (hu ▸ h1)
  rwa [List.getD_eq_getElem _ _ h1, List.getD_eq_getElem _ _ h2] at this

/-- If `inv` represents the inverse of the matrix of `op` plus damping: `inv @ (op @ v + δ v) = v`, and `x = inv @ g` solves
`op @ x + δ x = g`. -/
theorem solve_of_inverse (op inv : LinOp ℝ) (shapes : List (List Nat)) (hne : shapes ≠ []) (F E : Mat ℝ) (δ : ℝ) (hF : Represents op F)
    (hE : Represents inv E) (hi : op.inShape = shapes) (ho : op.outShape = shapes) (hi' : inv.inShape = shapes)
    (ho' : inv.outShape = shapes)
    (hinv : MatInv (shapes.map List.prod).sum (fun p q => F p q + if p = q then δ else 0) E) (v : List ℝ)
    (hv : v.length = (shapes.map List.prod).sum) :
    (∃ u, (op.matmul (.tensor ⟨[(shapes.map List.prod).sum], v⟩)).1 = .ok (.tensor ⟨[(shapes.map List.prod).sum], u⟩) ∧
      (inv.matmul (.tensor ⟨[(shapes.map List.prod).sum], axpy δ u v⟩)).1 = .ok (.tensor ⟨[(shapes.map List.prod).sum], v⟩)) ∧
    ∃ x u, (inv.matmul (.tensor ⟨[(shapes.map List.prod).sum], v⟩)).1 = .ok (.tensor ⟨[(shapes.map List.prod).sum], x⟩) ∧
      (op.matmul (.tensor ⟨[(shapes.map List.prod).sum], x⟩)).1 = .ok (.tensor ⟨[(shapes.map List.prod).sum], u⟩) ∧ axpy δ u x = v := by
  generalize hP : (shapes.map List.prod).sum = P at *
  have hop := fun v hv => matmul_vec op F hF shapes hi ho hne v hv
  have hin := fun v hv => matmul_vec inv E hE shapes hi' ho' hne v hv
  rw [hP] at hop hin
  have hF' : ∀ (w : Nat → ℝ) (r : Nat), r < P → (∑ c ∈ Finset.range P, F r c * w c) + δ * w r =
      ∑ c ∈ Finset.range P, (F r c + if r = c then δ else 0) * w c := by
    intro w r hr
    simp only [add_mul, Finset.sum_add_distrib, ite_mul, zero_mul]
    rw [Finset.sum_ite_eq, if_pos (Finset.mem_range.mpr hr)]
  have hcancel : ∀ (A B : Mat ℝ) (w : Nat → ℝ), (∀ r < P, ∀ c < P, ∑ m ∈ Finset.range P, A r m * B m c = if r = c then 1 else 0) →
      ∀ r < P, ∑ m ∈ Finset.range P, A r m * ∑ c ∈ Finset.range P, B m c * w c = w r := by
    intro A B w h r hr
    simp only [Finset.mul_sum, ← mul_assoc]
    rw [Finset.sum_comm]
    simp only [← Finset.sum_mul]
    rw [Finset.sum_congr rfl fun c hc => by rw [h r hr c (Finset.mem_range.mp hc)]]
    simp only [ite_mul, one_mul, zero_mul]
    rw [Finset.sum_ite_eq, if_pos (Finset.mem_range.mpr hr)]
  constructor
  · obtain ⟨u, h1, h2, h3⟩ := hop v hv
    have hl : (axpy δ u v).length = P := by simp [axpy, h2, hv]
    obtain ⟨x, g1, g2, g3⟩ := hin (axpy δ u v) hl
    refine ⟨u, h1, ?_⟩
    rw [g1, ext_getD g2 hv fun r hr => ?_]
    rw [g3 r hr]
    rw [← hcancel E _ (fun c => v.getD c 0) (fun r hr c hc => (hinv r hr c hc).2) r hr]
    refine Finset.sum_congr rfl fun m hm => ?_
    rw [axpy_getD δ u v (h2.trans hv.symm), h3 m (Finset.mem_range.mp hm), hF' _ m (Finset.mem_range.mp hm)]
  · obtain ⟨x, g1, g2, g3⟩ := hin v hv
    obtain ⟨u, h1, h2, h3⟩ := hop x g2
    refine ⟨x, u, g1, h1, ext_getD (by simp [axpy, h2, g2]) hv fun r hr => ?_⟩
    rw [axpy_getD δ u x (h2.trans g2.symm), h3 r hr, hF' _ r hr]
    rw [← hcancel _ E (fun c => v.getD c 0) (fun r hr c hc => (hinv r hr c hc).1) r hr]
    refine Finset.sum_congr rfl fun m hm => ?_
    rw [g3 m (Finset.mem_range.mp hm)]

/-- `MatInv` only depends on the entries inside. -/
theorem MatInv.congr {P : Nat} {A B E : Mat ℝ} (h : MatInv P A E) (hAB : ∀ p < P, ∀ q < P, A p q = B p q) : MatInv P B E := by
  intro r hr c hc
  obtain ⟨h1, h2⟩ := h r hr c hc
  refine ⟨h1 ▸ Finset.sum_congr rfl fun m hm => ?_, h2 ▸ Finset.sum_congr rfl fun m hm => ?_⟩
  · rw [hAB r hr m (Finset.mem_range.mp hm)]
  · rw [hAB m (Finset.mem_range.mp hm) c hc]

/-- C80 (one layer, one datum): with the GGN operator on the same datum, `KFACInverse @ (GGN @ v + δ v) = v`, and the damped natural
gradient step `x = KFACInverse @ g` solves `GGN @ x + δ x = g`, for all vectors. -/
theorem naturalGradient_step {cfg : KfacCfg} {shapes : List (List Nat)} {net : SeqNet D 1 C} (hs : net.Setting cfg shapes 1)
    {st : Stage D} (hnet : net.stages = [st]) (hall : ∀ p < shapes.length, p ∈ st.pos.positions)
    (hsep : cfg.sep = true → st.pos.positions.length = 1) (hsh : shapes ≠ []) (hS : st.S = 1) (hmc : cfg.mcSamples = 1)
    (hf : cfg.fisher = .type2) (hk : k = .ce → C ≠ 1) {θ : Nat → ℝ} (x : NetInput D 1 C k) (hd : net.DiffAt shapes θ x.h)
    (hx : x.SqrtOk shapes net θ cfg.mean) (seed : Nat) (shape : Nat × Nat) (progressbar : Bool) (la : LinAlg) (hla : la.Correct)
    (dt : FloatType) (icfg : InvCfg) (hex : icfg.exact = true) (δ : ℝ) (hδ : icfg.damping = .value δ) (hpos : 0 < δ)
    (v : List ℝ) (hv : v.length = (shapes.map List.prod).sum) :
    let P := (shapes.map List.prod).sum
    let ggn := curvatureOp shapes (redOf cfg.mean) (inferNData List.length [[x.terms shapes net θ]] none) List.length
      (fun b => ggnLossBatch shapes cfg.mean b.flatten) [[x.terms shapes net θ]]
    let inv := KInvState.op (net.world shapes [[x]]) la dt shapes ⟨.fresh θ cfg seed shape progressbar, icfg, []⟩
    (∃ u, (ggn.matmul (.tensor ⟨[P], v⟩)).1 = .ok (.tensor ⟨[P], u⟩) ∧
      (inv.matmul (.tensor ⟨[P], axpy δ u v⟩)).1 = .ok (.tensor ⟨[P], v⟩)) ∧
    ∃ s u, (inv.matmul (.tensor ⟨[P], v⟩)).1 = .ok (.tensor ⟨[P], s⟩) ∧
      (ggn.matmul (.tensor ⟨[P], s⟩)).1 = .ok (.tensor ⟨[P], u⟩) ∧ axpy δ u s = v := by
  intro P ggn inv
  obtain ⟨E, hE, hI⟩ := naturalGradient_type2_single hs (by simp [hnet]) (by simp [hnet, hS]) hmc hf hk x hd hx seed shape progressbar
    la hla dt icfg hex δ hδ hpos
  have hG := ggnLossOp_represents (k := k) (C := C) shapes hsh cfg.mean 1 [[x.terms shapes net θ]] (by simp)
    (by simp [NetInput.terms, SeqNet.terms])
  exact solve_of_inverse ggn inv shapes hsh _ E δ hG hE rfl rfl rfl rfl
    (hI.congr fun p hp q hq => dampedBlocks_single hnet hall hsep _ δ p q hp hq) v hv

/-- C80 (one layer, linear after it, square loss): the same for any data in any mini-batches; the GGN operator may use other
mini-batches of the same data. -/
theorem naturalGradient_step_linear {cfg : KfacCfg} {shapes : List (List Nat)} {net : SeqNet D T C}
    (batches batches' : List (List (NetInput D T C .mse))) (hsame : batches'.flatten.Perm batches.flatten)
    (hb' : ∀ b ∈ batches', b ≠ []) (hs : net.Setting cfg shapes batches.flatten.length)
    {st : Stage D} (hnet : net.stages = [st]) (hall : ∀ p < shapes.length, p ∈ st.pos.positions)
    (hsep : cfg.sep = true → st.pos.positions.length = 1) (hsh : shapes ≠ []) (hf : cfg.fisher = .type2) (hmc : cfg.mcSamples = 1)
    {θ : Nat → ℝ} (g : String → Nat → Nat → ℝ) (hd : ∀ x ∈ batches.flatten, net.DiffAt shapes θ x.h)
    (hg : ∀ x ∈ batches.flatten, net.AffineAfter cfg.approx shapes θ g x.h)
    (hx : ∀ x ∈ batches.flatten, x.SqrtOk shapes net θ cfg.mean) (seed : Nat) (shape : Nat × Nat) (progressbar : Bool)
    (la : LinAlg) (hla : la.Correct) (dt : FloatType) (icfg : InvCfg) (hex : icfg.exact = true) (δ : ℝ)
    (hδ : icfg.damping = .value δ) (hpos : 0 < δ) (v : List ℝ) (hv : v.length = (shapes.map List.prod).sum) :
    let P := (shapes.map List.prod).sum
    let terms := batches'.map (·.map (NetInput.terms shapes net θ))
    let ggn := curvatureOp shapes (redOf cfg.mean) (inferNData List.length terms none) List.length
      (fun b => ggnLossBatch shapes cfg.mean b.flatten) terms
    let inv := KInvState.op (net.world shapes batches) la dt shapes ⟨.fresh θ cfg seed shape progressbar, icfg, []⟩
    (∃ u, (ggn.matmul (.tensor ⟨[P], v⟩)).1 = .ok (.tensor ⟨[P], u⟩) ∧
      (inv.matmul (.tensor ⟨[P], axpy δ u v⟩)).1 = .ok (.tensor ⟨[P], v⟩)) ∧
    ∃ s u, (inv.matmul (.tensor ⟨[P], v⟩)).1 = .ok (.tensor ⟨[P], s⟩) ∧
      (ggn.matmul (.tensor ⟨[P], s⟩)).1 = .ok (.tensor ⟨[P], u⟩) ∧ axpy δ u s = v := by
  intro P terms ggn inv
  obtain ⟨E, hE, hI⟩ := naturalGradient_type2_linear batches hs (by simp [hnet]) hf hmc g hd hg hx seed shape progressbar
    la hla dt icfg hex δ hδ hpos
  have hG := ggnLossOp_represents (k := .mse) (C := C) shapes hsh cfg.mean T terms
    (by
      intro b hb
      obtain ⟨b', hb1, rfl⟩ := List.mem_map.mp hb
      simpa using hb' b' hb1)
    (by
      intro b hb d hd
      obtain ⟨b', -, rfl⟩ := List.mem_map.mp hb
      obtain ⟨x, -, rfl⟩ := List.mem_map.mp hd
      simp [NetInput.terms, SeqNet.terms])
  refine solve_of_inverse ggn inv shapes hsh _ E δ hG hE rfl rfl rfl rfl (hI.congr fun p hp q hq => ?_) v hv
  rw [dampedBlocks_single hnet hall hsep _ δ p q hp hq]
  congr 1
  have hfl : terms.flatten = batches'.flatten.map (NetInput.terms shapes net θ) := by
    simp only [terms, List.map_flatten]
  rw [hfl]
  unfold riskMatrix
  simp only [List.length_map, List.map_map]
  rw [hsame.length_eq, (hsame.map _).sum_eq]

/-! ## Example -/

/-- `f(x) = θ₀ x₀ + θ₁ x₁` with square loss on three data: a step with the inverse solves the damped system with the GGN operator, which
uses other mini-batches. -/
example (θ : Nat → ℝ) (h₁ h₂ h₃ : Fin 2 → ℝ) (y₁ y₂ y₃ δ a b : ℝ) (hδ : 0 < δ) (la : LinAlg) (hla : la.Correct) :
    ∃ s u, ((KInvState.op (rowNet.world [[1, 2]] [[expInput h₁ y₁, expInput h₂ y₂], [expInput h₃ y₃]]) la .float64 [[1, 2]]
        ⟨.fresh θ { expCfg .type2 with N := 3 } 0 (2, 2) false, ⟨.value δ, false, 0, true, true, true⟩, []⟩).matmul
          (.tensor ⟨[2], [a, b]⟩)).1 = .ok (.tensor ⟨[2], s⟩) ∧
      ((curvatureOp [[1, 2]] .sum 3 List.length (fun b => ggnLossBatch [[1, 2]] false b.flatten)
        [[(expInput h₁ y₁).terms [[1, 2]] rowNet θ], [(expInput h₂ y₂).terms [[1, 2]] rowNet θ,
          (expInput h₃ y₃).terms [[1, 2]] rowNet θ]]).matmul (.tensor ⟨[2], s⟩)).1 = .ok (.tensor ⟨[2], u⟩) ∧
      axpy δ u s = [a, b] := by
  have hdiff : ∀ h, rowNet.DiffAt [[1, 2]] θ h := fun h =>
    ⟨⟨by simp only [expStage2]; fun_prop, by simp only [expStage2]; fun_prop, trivial⟩, fun t c => by simp only [rowNet]; fun_prop⟩
  refine (naturalGradient_step_linear (cfg := { expCfg .type2 with N := 3 }) [[expInput h₁ y₁, expInput h₂ y₂], [expInput h₃ y₃]]
    [[expInput h₁ y₁], [expInput h₂ y₂, expInput h₃ y₃]] (by simp) (by simp)
    { rowNet_setting .type2 with N := rfl, N_ne := by simp } (st := { expStage2 with pos := .weight 0 }) rfl
    (by intro p hp; have hp : p < 1 := hp; simp [LayerPos.positions]; omega) (by simp [expCfg]) (by simp) rfl rfl (fun _ o _ => if o = 0 then 1 else 0)
    (fun x _ => hdiff x.h) (fun x _ => ?_) ?_ 0 (2, 2) false la hla .float64 ⟨.value δ, false, 0, true, true, true⟩ rfl δ rfl hδ [a, b]
    (by simp)).2
  · refine ⟨by simp [expCfg], fun before st rest hsplit => ?_⟩
    rcases before with _ | ⟨c, before⟩
    · simp only [rowNet, List.nil_append, List.cons.injEq] at hsplit
      obtain ⟨rfl, rfl⟩ := hsplit
      refine ⟨fun _ => rfl, ?_, fun _ _ => 0, ?_⟩
      · intro o ho c
        have ho : 1 ≤ o := ho
        simp [show o ≠ 0 by omega]
      · intro z t c
        have hsum : ∀ f : Fin 1 × Fin 1 → ℝ, ∑ a, f a = f (0, 0) := by
          intro f
          simp [Fintype.sum_prod_type]
        refine Eq.trans ?_ (congrArg (· + (0 : ℝ)) (hsum _).symm)
        simp [rowNet, forward, expStage2]
    · simp [rowNet] at hsplit
  · intro x hx t
    have hx' : x.sqrt = fun _ _ _ => Real.sqrt 2 := by
      simp only [List.flatten_cons, List.flatten_nil, List.append_nil, List.mem_append, List.mem_cons, List.not_mem_nil, or_false] at hx
      rcases hx with (rfl | rfl) | rfl <;> rfl
    refine ⟨[1, 1], [0], fun _ _ => Real.sqrt 2, rfl, by simp [ValidTarget], ?_, fun _ _ => by rw [hx']⟩
    simp only [lossHessianSqrt, redOf, expCfg, sqrtScale]
    simp
    funext i j
    simp [Subsingleton.elim i j]

end Curvlinops
