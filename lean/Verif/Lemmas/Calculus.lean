import Verif.Spec.Calculus
import Mathlib.Analysis.Calculus.Deriv.Pi
import Mathlib.Analysis.Calculus.FDeriv.Symmetric
import Mathlib.Analysis.Calculus.ContDiff.Operations
import Mathlib.Analysis.Calculus.FDeriv.Add
import Mathlib.Analysis.Calculus.FDeriv.Comp
import Mathlib.Topology.Algebra.Module.FiniteDimension

/-!
# Partial and Fréchet derivatives
-/

namespace Curvlinops

variable {ι : Type _} [DecidableEq ι] [Fintype ι]

theorem pderiv_eq_fderiv {F : (ι → ℝ) → ℝ} {x : ι → ℝ} (h : DifferentiableAt ℝ F x) (i : ι) :
    pderiv F i x = fderiv ℝ F x (Pi.single i 1) := by
  unfold pderiv
  have hx : Function.update x i (x i) = x := Function.update_eq_self i x
  have h' : HasFDerivAt F (fderiv ℝ F x) (Function.update x i (x i)) := by rw [hx]; exact h.hasFDerivAt
  exact (h'.comp_hasDerivAt (x i) (hasDerivAt_update x i (x i))).deriv

omit [Fintype ι] in
theorem pderiv_congr {F G : (ι → ℝ) → ℝ} {x : ι → ℝ} (h : F =ᶠ[nhds x] G) (i : ι) : pderiv F i x = pderiv G i x := by
  unfold pderiv
  refine Filter.EventuallyEq.deriv_eq ?_
  have hc : Filter.Tendsto (fun t => Function.update x i t) (nhds (x i)) (nhds x) := by
    have := (continuous_const.update i continuous_id : Continuous fun t => Function.update x i t).tendsto (x i)
    simpa using this
  exact hc.eventually h

/-- For twice continuously differentiable functions, the second partial derivatives are the entries of the second
Fréchet derivative. -/
theorem hess_eq_fderiv {F : (ι → ℝ) → ℝ} {x : ι → ℝ} (h : ContDiffAt ℝ 2 F x) (i j : ι) :
    hess F x i j = fderiv ℝ (fderiv ℝ F) x (Pi.single i 1) (Pi.single j 1) := by
  have h1 : ∀ᶠ y in nhds x, DifferentiableAt ℝ F y :=
    (h.eventually (by simp)).mono fun y hy => hy.differentiableAt (by norm_num)
  have h2 : (fun y => pderiv F j y) =ᶠ[nhds x] fun y => fderiv ℝ F y (Pi.single j 1) :=
    h1.mono fun y hy => pderiv_eq_fderiv hy j
  have h3 : DifferentiableAt ℝ (fderiv ℝ F) x :=
    (h.fderiv_right (m := 1) (by norm_num)).differentiableAt (by norm_num)
  unfold hess
  rw [pderiv_congr h2, pderiv_eq_fderiv (h3.clm_apply (differentiableAt_const _))]
  rw [fderiv_clm_apply h3 (differentiableAt_const _)]
  simp

theorem hess_symm {F : (ι → ℝ) → ℝ} {x : ι → ℝ} (h : ContDiffAt ℝ 2 F x) (i j : ι) : hess F x i j = hess F x j i := by
  rw [hess_eq_fderiv h, hess_eq_fderiv h]
  exact h.isSymmSndFDerivAt (by simp) _ _

omit [Fintype ι] in
theorem hess_const_mul (w : ℝ) (F : (ι → ℝ) → ℝ) (x : ι → ℝ) (i j : ι) :
    hess (fun f => w * F f) x i j = w * hess F x i j := by
  have h : ∀ (F : (ι → ℝ) → ℝ) (i : ι) (x : ι → ℝ), pderiv (fun f => w * F f) i x = w * pderiv F i x := by
    intro F i x
    unfold pderiv
    rw [deriv_const_mul_field]
  unfold hess
  simp only [h]

theorem hess_add {F G : (ι → ℝ) → ℝ} {x : ι → ℝ} (hF : ContDiffAt ℝ 2 F x) (hG : ContDiffAt ℝ 2 G x) (i j : ι) :
    hess (fun y => F y + G y) x i j = hess F x i j + hess G x i j := by
  have hd : ∀ {F : (ι → ℝ) → ℝ}, ContDiffAt ℝ 2 F x → ∀ᶠ y in nhds x, DifferentiableAt ℝ F y := fun h =>
    (h.eventually (by simp)).mono fun y hy => hy.differentiableAt (by norm_num)
  have hd2 : ∀ {F : (ι → ℝ) → ℝ}, ContDiffAt ℝ 2 F x → DifferentiableAt ℝ (fderiv ℝ F) x := fun h =>
    (h.fderiv_right (m := 1) (by norm_num)).differentiableAt (by norm_num)
  rw [hess_eq_fderiv hF, hess_eq_fderiv hG, hess_eq_fderiv (hF.add hG)]
  have e : (fderiv ℝ fun y => F y + G y) =ᶠ[nhds x] fun y => fderiv ℝ F y + fderiv ℝ G y :=
    ((hd hF).and (hd hG)).mono fun y hy => fderiv_fun_add hy.1 hy.2
  rw [e.fderiv_eq, fderiv_fun_add (hd2 hF) (hd2 hG)]
  rfl

theorem hess_list_sum {D : Type _} (ℓ : D → (ι → ℝ) → ℝ) (x : ι → ℝ) (i j : ι) : ∀ (ds : List D),
    (∀ d ∈ ds, ContDiffAt ℝ 2 (ℓ d) x) →
    ContDiffAt ℝ 2 (fun y => (ds.map fun d => ℓ d y).sum) x ∧
    hess (fun y => (ds.map fun d => ℓ d y).sum) x i j = (ds.map fun d => hess (ℓ d) x i j).sum
  | [], _ => by
    refine ⟨by simpa using contDiffAt_const, ?_⟩
    simp [hess, pderiv]
  | d :: ds, h => by
    obtain ⟨h1, h2⟩ := hess_list_sum ℓ x i j ds fun d' hd => h d' (by simp [hd])
    simp only [List.map_cons, List.sum_cons]
    refine ⟨(h d (by simp)).add h1, ?_⟩
    rw [hess_add (h d (by simp)) h1, h2]

/-- Chain rule for an affine inner function. -/
theorem hess_comp_affine {κ : Type _} [DecidableEq κ] [Fintype κ] (L : (κ → ℝ) → ℝ) (b : κ → ℝ)
    (A : (ι → ℝ) →L[ℝ] (κ → ℝ)) (x : ι → ℝ) (hL : ContDiffAt ℝ 2 L b) (i j : ι) :
    ContDiffAt ℝ 2 (fun y => L (b + A (y - x))) x ∧
    hess (fun y => L (b + A (y - x))) x i j =
      ∑ s, ∑ s', A (Pi.single i 1) s * hess L b s s' * A (Pi.single j 1) s' := by
  let g : (ι → ℝ) → (κ → ℝ) := fun y => b + A (y - x)
  have hg : ∀ y, HasFDerivAt g A y := fun y =>
    ((A.hasFDerivAt (x := y - x)).comp y ((hasFDerivAt_id y).sub_const x)).const_add b
  have hgx : g x = b := by simp [g]
  have hgc : ContDiff ℝ 2 g := contDiff_const.add (A.contDiff.comp (contDiff_id.sub contDiff_const))
  have hLg : ContDiffAt ℝ 2 (fun y => L (g y)) x := ContDiffAt.comp x (by rw [hgx]; exact hL) hgc.contDiffAt
  refine ⟨hLg, ?_⟩
  change hess (fun y => L (g y)) x i j = _
  rw [hess_eq_fderiv hLg]
  have hev : ∀ᶠ y in nhds x, DifferentiableAt ℝ L (g y) := by
    have h1 : ∀ᶠ z in nhds (g x), DifferentiableAt ℝ L z := by
      rw [hgx]
      exact (hL.eventually (by simp)).mono fun y hy => hy.differentiableAt (by norm_num)
    exact hgc.continuous.continuousAt.eventually h1
  have e1 : (fderiv ℝ fun y => L (g y)) =ᶠ[nhds x] fun y => (fderiv ℝ L (g y)).comp A :=
    hev.mono fun y hy => (hy.hasFDerivAt.comp y (hg y)).fderiv
  rw [e1.fderiv_eq]
  have hL2 : DifferentiableAt ℝ (fderiv ℝ L) (g x) := by
    rw [hgx]; exact (hL.fderiv_right (m := 1) (by norm_num)).differentiableAt (by norm_num)
  have e2 : HasFDerivAt (fun y => (fderiv ℝ L (g y)).comp A)
      (((ContinuousLinearMap.compL ℝ (ι → ℝ) (κ → ℝ) ℝ).flip A).comp ((fderiv ℝ (fderiv ℝ L) (g x)).comp A)) x :=
    ((ContinuousLinearMap.compL ℝ (ι → ℝ) (κ → ℝ) ℝ).flip A).hasFDerivAt.comp x
      (hL2.hasFDerivAt.comp x (hg x))
  rw [e2.fderiv, hgx]
  simp only [hess_eq_fderiv hL]
  change fderiv ℝ (fderiv ℝ L) b (A (Pi.single i 1)) (A (Pi.single j 1)) = _
  generalize A (Pi.single i 1) = u
  generalize A (Pi.single j 1) = v
  have hu : u = ∑ s, u s • Pi.single s (1 : ℝ) := by
    funext s; simp [Finset.sum_apply, Pi.single_apply]
  have hv : v = ∑ s, v s • Pi.single s (1 : ℝ) := by
    funext s; simp [Finset.sum_apply, Pi.single_apply]
  conv_lhs => rw [hu, hv]
  simp only [map_sum, map_smul, sum_apply, smul_apply, smul_eq_mul]
  simp only [Finset.mul_sum]
  rw [Finset.sum_comm]
  refine Finset.sum_congr rfl fun s _ => ?_
  exact Finset.sum_congr rfl fun s' _ => by ring

end Curvlinops
