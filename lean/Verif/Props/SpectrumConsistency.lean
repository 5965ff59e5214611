import Verif.Props.Lanczos
import Verif.Props.SpectrumDensity
import Verif.Lemmas.RandomDirection
import Mathlib.LinearAlgebra.Lagrange
import Mathlib.Analysis.InnerProductSpace.Trace

/-!
# C95: the Lanczos densities estimate the spectral density

The start vector of `fast_lanczos` is standard normal. Everything is about symmetric operators in exact arithmetic.
-/

namespace Curvlinops

open MeasureTheory ProbabilityTheory Filter Topology Polynomial
open scoped RealInnerProductSpace

variable {d : Nat}

/-- An orthonormal basis of eigenvectors. -/
def EigenBasis (A : EuclideanSpace ℝ (Fin d) →ₗ[ℝ] EuclideanSpace ℝ (Fin d))
    (b : OrthonormalBasis (Fin d) ℝ (EuclideanSpace ℝ (Fin d))) (lam : Fin d → ℝ) : Prop :=
  ∀ i, A (b i) = lam i • b i

/-- The number of different eigenvalues. -/
noncomputable def numDistinct (lam : Fin d → ℝ) : Nat := (Finset.univ.image lam).card

section

variable {A : EuclideanSpace ℝ (Fin d) →ₗ[ℝ] EuclideanSpace ℝ (Fin d)}
  {b : OrthonormalBasis (Fin d) ℝ (EuclideanSpace ℝ (Fin d))} {lam : Fin d → ℝ}

theorem eigenBasis_exists (hA : A.IsSymmetric) : ∃ b lam, EigenBasis A b lam := by
  have hd : Module.finrank ℝ (EuclideanSpace ℝ (Fin d)) = d := by simp
  exact ⟨hA.eigenvectorBasis hd, hA.eigenvalues hd, fun i => hA.apply_eigenvectorBasis hd i⟩

theorem EigenBasis.hasEigenvalue (hb : EigenBasis A b lam) (i : Fin d) : Module.End.HasEigenvalue A (lam i) :=
  Module.End.hasEigenvalue_of_hasEigenvector (x := b i)
    ⟨Module.End.mem_eigenspace_iff.2 (hb i), b.orthonormal.ne_zero i⟩

theorem EigenBasis.aeval (hb : EigenBasis A b lam) (p : ℝ[X]) (i : Fin d) : aeval A p (b i) = p.eval (lam i) • b i :=
  Module.End.aeval_apply_of_hasEigenvector ⟨Module.End.mem_eigenspace_iff.2 (hb i), b.orthonormal.ne_zero i⟩

theorem EigenBasis.inner_aeval (hb : EigenBasis A b lam) (p : ℝ[X]) (x : EuclideanSpace ℝ (Fin d)) :
    ⟪x, Polynomial.aeval A p x⟫ = ∑ i, ⟪b i, x⟫ ^ 2 * p.eval (lam i) := by
  have hx : Polynomial.aeval A p x = ∑ i, ⟪b i, x⟫ • (p.eval (lam i) • b i) := by
    conv_lhs => rw [← b.sum_repr' x]
    rw [map_sum]
    exact Finset.sum_congr rfl fun i _ => by rw [map_smul, hb.aeval]
  rw [hx, inner_sum]
  refine Finset.sum_congr rfl fun i _ => ?_
  rw [inner_smul_right, inner_smul_right, real_inner_comm]
  ring

theorem EigenBasis.aeval_zero_iff (hb : EigenBasis A b lam) (p : ℝ[X]) (x : EuclideanSpace ℝ (Fin d)) :
    Polynomial.aeval A p x = 0 ↔ ∀ i, ⟪b i, x⟫ = 0 ∨ p.eval (lam i) = 0 := by
  have hx : Polynomial.aeval A p x = ∑ i, (⟪b i, x⟫ * p.eval (lam i)) • b i := by
    conv_lhs => rw [← b.sum_repr' x]
    rw [map_sum]
    exact Finset.sum_congr rfl fun i _ => by rw [map_smul, hb.aeval, smul_smul]
  rw [hx]
  constructor
  · intro h i
    have := Fintype.linearIndependent_iff.1 b.orthonormal.linearIndependent _ h i
    exact mul_eq_zero.1 this
  · intro h
    exact Finset.sum_eq_zero fun i _ => by rw [mul_eq_zero.2 (h i), zero_smul]

theorem krylov_sum (p : ℝ[X]) (n : Nat) (hp : p.natDegree < n) (x : EuclideanSpace ℝ (Fin d)) :
    ∑ k : Fin n, p.coeff k • (A ^ (k : Nat)) x = Polynomial.aeval A p x := by
  rw [aeval_eq_sum_range' hp, LinearMap.sum_apply, Finset.sum_range]
  rfl

theorem krylov_independent (hb : EigenBasis A b lam) (n : Nat) (hn : n ≤ numDistinct lam) (x : EuclideanSpace ℝ (Fin d))
    (hx : ∀ i, ⟪b i, x⟫ ≠ 0) : LinearIndependent ℝ fun k : Fin n => (A ^ (k : Nat)) x := by
  rw [Fintype.linearIndependent_iff]
  intro g hg
  rcases Nat.eq_zero_or_pos n with rfl | hpos
  · exact fun i => i.elim0
  set p : ℝ[X] := ∑ k : Fin n, C (g k) * X ^ (k : Nat) with hp
  have hdeg : p.degree < n := by
    rw [degree_lt_iff_coeff_zero]
    intro m hm
    rw [hp, finsetSum_coeff]
    refine Finset.sum_eq_zero fun k _ => ?_
    rw [coeff_C_mul, coeff_X_pow, if_neg (by omega), mul_zero]
  have hcoeff : ∀ k : Fin n, p.coeff k = g k := by
    intro k
    rw [hp, finsetSum_coeff]
    simp only [coeff_C_mul, coeff_X_pow]
    rw [Finset.sum_eq_single k]
    · simp
    · intro l _ hl
      rw [if_neg fun h => hl (Fin.ext h.symm), mul_zero]
    · simp
  have hnat : p.natDegree < n := by
    by_cases h0 : p = 0
    · rw [h0, natDegree_zero]
      exact hpos
    · exact (natDegree_lt_iff_degree_lt h0).2 hdeg
  have hzero : Polynomial.aeval A p x = 0 := by
    rw [← krylov_sum p n hnat x, ← hg]
    exact Finset.sum_congr rfl fun k _ => by rw [hcoeff]
  have hroots := fun i => ((hb.aeval_zero_iff p x).1 hzero i).resolve_left (hx i)
  have hp0 : p = 0 := by
    refine eq_zero_of_degree_lt_of_eval_finset_eq_zero (Finset.univ.image lam) ?_ ?_
    · exact hdeg.trans_le (by exact_mod_cast hn)
    · intro y hy
      obtain ⟨i, -, rfl⟩ := Finset.mem_image.1 hy
      exact hroots i
  intro k
  rw [← hcoeff, hp0, coeff_zero]

theorem krylov_dependent (hb : EigenBasis A b lam) (n : Nat) (hn : numDistinct lam < n) (x : EuclideanSpace ℝ (Fin d)) :
    ¬LinearIndependent ℝ fun k : Fin n => (A ^ (k : Nat)) x := by
  intro h
  rw [Fintype.linearIndependent_iff] at h
  set q : ℝ[X] := ∏ μ ∈ Finset.univ.image lam, (X - C μ) with hq
  have hqd : q.natDegree = numDistinct lam := natDegree_finsetProd_X_sub_C_eq_card _ _
  have hqm : q.Monic := monic_prod_of_monic _ _ fun μ _ => monic_X_sub_C μ
  have hz : Polynomial.aeval A q x = 0 := by
    rw [hb.aeval_zero_iff]
    intro i
    right
    rw [hq, eval_prod]
    exact Finset.prod_eq_zero (Finset.mem_image_of_mem lam (Finset.mem_univ i)) (by simp)
  have := h (fun k => q.coeff k) ((krylov_sum q n (by omega) x).trans hz) ⟨numDistinct lam, hn⟩
  simp only [← hqd] at this
  exact one_ne_zero (hqm.coeff_natDegree.symm.trans this)

/-! ## One run -/

/-- C95: Gauss quadrature for polynomials: weights `evecs[0, :] ** 2` and nodes `evals` against the shares of the start vector
and the eigenvalues. -/
theorem fastLanczos_quadrature_poly (hA : A.IsSymmetric) (hb : EigenBasis A b lam) (eigh eighTri : Eigh)
    (h1 : EighContract eigh) (h2 : EighContract eighTri) (ncv : Nat) (tri : Bool) (r : EuclideanSpace ℝ (Fin d))
    (it : LanczosIter) (h : fastLanczos eigh eighTri A ncv tri r = .ok it) (p : ℝ[X]) (hp : p.natDegree < 2 * ncv) :
    ∑ j ∈ Finset.range ncv, it.evecs 0 j ^ 2 * p.eval (it.evals j) = ∑ i, share b i r * p.eval (lam i) := by
  have hr : ∑ i, share b i r * p.eval (lam i) = ⟪direction r, Polynomial.aeval A p (direction r)⟫ :=
    (hb.inner_aeval p (direction r)).symm
  rw [hr, aeval_eq_sum_range' hp, LinearMap.sum_apply, inner_sum]
  simp only [eval_eq_sum_range' hp, Finset.mul_sum]
  rw [Finset.sum_comm]
  refine Finset.sum_congr rfl fun k hk => ?_
  rw [LinearMap.smul_apply, inner_smul_right]
  have hq := fastLanczos_quadrature A hA eigh eighTri h1 h2 ncv tri r it h k (Finset.mem_range.1 hk)
  rw [show direction r = ‖r‖⁻¹ • r from rfl, ← hq, Finset.mul_sum]
  exact Finset.sum_congr rfl fun j _ => by ring

/-- C95: for any function `f`, the quadrature differs from the sum over the eigenvalues by at most twice the error with which
polynomials of degree less than `2 * ncv` approximate `f` between the eigenvalues. -/
theorem fastLanczos_quadrature_close (hA : A.IsSymmetric) (hb : EigenBasis A b lam) (eigh eighTri : Eigh)
    (h1 : EighContract eigh) (h2 : EighContract eighTri) (ncv : Nat) (tri : Bool) (r : EuclideanSpace ℝ (Fin d))
    (it : LanczosIter) (h : fastLanczos eigh eighTri A ncv tri r = .ok it) (f : ℝ → ℝ) (lo hi : ℝ)
    (hin : ∀ i, lo ≤ lam i ∧ lam i ≤ hi) (p : ℝ[X]) (hp : p.natDegree < 2 * ncv) (ε : ℝ)
    (hε : ∀ t, lo ≤ t → t ≤ hi → |f t - p.eval t| ≤ ε) :
    |∑ j ∈ Finset.range ncv, it.evecs 0 j ^ 2 * f (it.evals j) - ∑ i, share b i r * f (lam i)| ≤ 2 * ε := by
  have hr0 : r ≠ 0 := by
    obtain ⟨V, -, -, hr, -⟩ := fastLanczos_ok A hA eigh eighTri h1 h2 ncv tri r it h
    exact hr
  have hncv : it.ncv = ncv := by
    obtain ⟨V, -, hn, -⟩ := fastLanczos_ok A hA eigh eighTri h1 h2 ncv tri r it h
    exact hn
  have hw := fastLanczos_weights A hA eigh eighTri h1 h2 ncv tri r it h
  rw [hncv] at hw
  have hall : ∀ μ, Module.End.HasEigenvalue A μ → lo ≤ μ ∧ μ ≤ hi := by
    intro μ hμ
    obtain ⟨x, hx⟩ := hμ.exists_hasEigenvector
    have hz : Polynomial.aeval A (X - C μ) x = 0 := by
      rw [Module.End.aeval_apply_of_hasEigenvector hx]
      simp
    have hi := (hb.aeval_zero_iff _ x).1 hz
    by_contra hno
    refine hx.2 ?_
    have hxi : ∀ i, ⟪b i, x⟫ = 0 := by
      intro i
      refine (hi i).resolve_right fun h0 => hno ?_
      rw [eval_sub, eval_X, eval_C, sub_eq_zero] at h0
      rw [← h0]
      exact hin i
    rw [← b.sum_repr' x]
    exact Finset.sum_eq_zero fun i _ => by rw [hxi, zero_smul]
  have hev : ∀ j < ncv, lo ≤ it.evals j ∧ it.evals j ≤ hi := fun j hj =>
    fastLanczos_evals_between A hA eigh eighTri h1 h2 ncv tri r it h lo hi hall j hj
  have hq := fastLanczos_quadrature_poly hA hb eigh eighTri h1 h2 ncv tri r it h p hp
  have hsplit : ∑ j ∈ Finset.range ncv, it.evecs 0 j ^ 2 * f (it.evals j) - ∑ i, share b i r * f (lam i) =
      ∑ j ∈ Finset.range ncv, it.evecs 0 j ^ 2 * (f (it.evals j) - p.eval (it.evals j)) -
        ∑ i, share b i r * (f (lam i) - p.eval (lam i)) := by
    simp only [mul_sub, Finset.sum_sub_distrib, hq]
    ring
  have e1 : |∑ j ∈ Finset.range ncv, it.evecs 0 j ^ 2 * (f (it.evals j) - p.eval (it.evals j))| ≤ ε := by
    calc _ ≤ ∑ j ∈ Finset.range ncv, |it.evecs 0 j ^ 2 * (f (it.evals j) - p.eval (it.evals j))| :=
          Finset.abs_sum_le_sum_abs _ _
      _ ≤ ∑ j ∈ Finset.range ncv, it.evecs 0 j ^ 2 * ε := by
          refine Finset.sum_le_sum fun j hj => ?_
          rw [abs_mul, abs_of_nonneg (sq_nonneg _)]
          have := hev j (Finset.mem_range.1 hj)
          exact mul_le_mul_of_nonneg_left (hε _ this.1 this.2) (sq_nonneg _)
      _ = ε := by rw [← Finset.sum_mul, hw, one_mul]
  have e2 : |∑ i, share b i r * (f (lam i) - p.eval (lam i))| ≤ ε := by
    calc _ ≤ ∑ i, |share b i r * (f (lam i) - p.eval (lam i))| := Finset.abs_sum_le_sum_abs _ _
      _ ≤ ∑ i, share b i r * ε := by
          refine Finset.sum_le_sum fun i _ => ?_
          rw [abs_mul, abs_of_nonneg (share_nonneg b i r)]
          exact mul_le_mul_of_nonneg_left (hε _ (hin i).1 (hin i).2) (share_nonneg b i r)
      _ = ε := by rw [← Finset.sum_mul, share_sum b hr0, one_mul]
  rw [hsplit]
  calc _ ≤ _ := abs_sub _ _
    _ ≤ 2 * ε := by linarith

/-- C95: with as many Lanczos vectors as there are different eigenvalues, the quadrature is exact for every function. -/
theorem fastLanczos_quadrature_exact (hA : A.IsSymmetric) (hb : EigenBasis A b lam) (eigh eighTri : Eigh)
    (h1 : EighContract eigh) (h2 : EighContract eighTri) (tri : Bool) (r : EuclideanSpace ℝ (Fin d)) (it : LanczosIter)
    (h : fastLanczos eigh eighTri A (numDistinct lam) tri r = .ok it) (f : ℝ → ℝ) :
    ∑ j ∈ Finset.range (numDistinct lam), it.evecs 0 j ^ 2 * f (it.evals j) = ∑ i, share b i r * f (lam i) := by
  set m := numDistinct lam with hm
  have hm0 : 0 < m := by
    obtain ⟨V, hpos, -⟩ := fastLanczos_ok A hA eigh eighTri h1 h2 m tri r it h
    exact hpos
  set S := Finset.univ.image lam with hS
  set q : ℝ[X] := ∏ μ ∈ S, (X - C μ) with hq
  have hqd : q.natDegree = m := natDegree_finsetProd_X_sub_C_eq_card _ _
  have hqz : ∀ i, q.eval (lam i) = 0 := by
    intro i
    rw [hq, eval_prod]
    exact Finset.prod_eq_zero (Finset.mem_image_of_mem lam (Finset.mem_univ i)) (by simp)
  have hqz' : ∀ t, q.eval t = 0 → t ∈ S := by
    intro t ht
    rw [hq, eval_prod, Finset.prod_eq_zero_iff] at ht
    obtain ⟨μ, hμ, h0⟩ := ht
    rw [eval_sub, eval_X, eval_C, sub_eq_zero] at h0
    rwa [h0]
  -- nodes with positive weight are eigenvalues
  set N := (Finset.range m).image it.evals with hN
  set s : ℝ[X] := Lagrange.interpolate N id fun t => q.eval t with hs
  have hsd : s.natDegree < m := by
    have h0 : s.degree < N.card := Lagrange.degree_interpolate_lt _ (Function.injective_id.injOn)
    have h1 : N.card ≤ m := Finset.card_image_le.trans (by simp)
    have h2 : s.degree < m := h0.trans_le (by exact_mod_cast h1)
    by_cases hz : s = 0
    · rw [hz, natDegree_zero]
      exact hm0
    · exact (natDegree_lt_iff_degree_lt hz).2 h2
  have hse : ∀ j < m, s.eval (it.evals j) = q.eval (it.evals j) := by
    intro j hj
    exact Lagrange.eval_interpolate_at_node (v := id) (fun t => q.eval t) Function.injective_id.injOn
      (Finset.mem_image_of_mem it.evals (Finset.mem_range.2 hj))
  have hsq := fastLanczos_quadrature_poly hA hb eigh eighTri h1 h2 m tri r it h (q * s)
    (natDegree_mul_le.trans_lt (by omega))
  have hzero : ∑ j ∈ Finset.range m, it.evecs 0 j ^ 2 * q.eval (it.evals j) ^ 2 = 0 := by
    have e1 : ∑ i, share b i r * (q * s).eval (lam i) = 0 :=
      Finset.sum_eq_zero fun i _ => by rw [eval_mul, hqz, zero_mul, mul_zero]
    rw [e1] at hsq
    rw [← hsq]
    refine Finset.sum_congr rfl fun j hj => ?_
    rw [eval_mul, hse j (Finset.mem_range.1 hj), sq (q.eval _)]
  have hnode : ∀ j < m, it.evecs 0 j ^ 2 = 0 ∨ it.evals j ∈ S := by
    intro j hj
    have := (Finset.sum_eq_zero_iff_of_nonneg fun j _ => mul_nonneg (sq_nonneg _) (sq_nonneg _)).1 hzero j
      (Finset.mem_range.2 hj)
    rcases mul_eq_zero.1 this with h0 | h0
    · exact .inl h0
    · exact .inr (hqz' _ (pow_eq_zero_iff two_ne_zero |>.1 h0))
  -- interpolate `f` at the eigenvalues
  set g : ℝ[X] := Lagrange.interpolate S id f with hg
  have hge : ∀ t ∈ S, g.eval t = f t := fun t ht =>
    Lagrange.eval_interpolate_at_node (v := id) f Function.injective_id.injOn ht
  have hgd : g.natDegree < 2 * m := by
    have h0 : g.degree < S.card := Lagrange.degree_interpolate_lt _ (Function.injective_id.injOn)
    by_cases hz : g = 0
    · rw [hz, natDegree_zero]
      omega
    · have : g.natDegree < m := (natDegree_lt_iff_degree_lt hz).2 h0
      omega
  have hgq := fastLanczos_quadrature_poly hA hb eigh eighTri h1 h2 m tri r it h g hgd
  have e2 : ∑ i, share b i r * g.eval (lam i) = ∑ i, share b i r * f (lam i) :=
    Finset.sum_congr rfl fun i _ => by rw [hge _ (Finset.mem_image_of_mem lam (Finset.mem_univ i))]
  rw [← e2, ← hgq]
  refine Finset.sum_congr rfl fun j hj => ?_
  rcases hnode j (Finset.mem_range.1 hj) with h0 | h0
  · rw [h0, zero_mul, zero_mul]
  · rw [hge _ h0]

/-! ## Random start vectors -/

/-- The start vectors of the runs: independent standard normal vectors. -/
structure NormalStarts {Ω : Type _} [MeasurableSpace Ω] (P : Measure Ω) (R : Nat → Ω → EuclideanSpace ℝ (Fin d)) : Prop where
  meas : ∀ i, Measurable (R i)
  law : ∀ i, P.map (fun ω => (R i ω).ofLp) = stdNormal d
  indep : Pairwise fun i j => IndepFun (R i) (R j) P

variable {Ω : Type _} [MeasurableSpace Ω] {P : Measure Ω} [IsProbabilityMeasure P]
  {R : Nat → Ω → EuclideanSpace ℝ (Fin d)}

omit [IsProbabilityMeasure P] in
theorem NormalStarts.gaussian (hR : NormalStarts P R) (i : Nat) :
    P.map (R i) = stdGaussian (EuclideanSpace ℝ (Fin d)) := by
  have h := hR.law i
  have hm := hR.meas i
  rw [← map_pi_eq_stdGaussian]
  change _ = (stdNormal d).map _
  rw [← h, Measure.map_map (by fun_prop) (by fun_prop)]
  rfl

omit [IsProbabilityMeasure P] in
theorem NormalStarts.ae (hR : NormalStarts P R) (i : Nat) {p : EuclideanSpace ℝ (Fin d) → Prop}
    (hp : ∀ᵐ x ∂stdGaussian (EuclideanSpace ℝ (Fin d)), p x) : ∀ᵐ ω ∂P, p (R i ω) := by
  rw [← hR.gaussian i] at hp
  exact ae_of_ae_map (hR.meas i).aemeasurable hp

omit [IsProbabilityMeasure P] in
/-- C95: with at most as many Lanczos vectors as there are different eigenvalues, almost surely no run raises; with more, every
run raises `ValueError` whatever is drawn. -/
theorem fastLanczos_almost_surely (hA : A.IsSymmetric) (hb : EigenBasis A b lam) (eigh eighTri : Eigh)
    (t1 : ∀ n T, ∃ p, eigh n T = .ok p) (t2 : ∀ n T, ∃ p, eighTri n T = .ok p) (hR : NormalStarts P R) (ncv : Nat)
    (hn : 0 < ncv) (tri : Bool) :
    (ncv ≤ numDistinct lam → ∀ᵐ ω ∂P, ∀ i, ∃ it, fastLanczos eigh eighTri A ncv tri (R i ω) = .ok it) ∧
    (numDistinct lam < ncv → ∀ ω i, fastLanczos eigh eighTri A ncv tri (R i ω) = .error .valueError) := by
  constructor
  · intro hle
    have h : ∀ i, ∀ᵐ ω ∂P, ∀ k, ⟪b k, R i ω⟫ ≠ 0 := fun i =>
      hR.ae i (ae_all_iff.2 fun k => stdGaussian_hyperplane (b.orthonormal.1 k))
    filter_upwards [ae_all_iff.2 h] with ω hω i
    exact (fastLanczos_ok_iff A hA eigh eighTri t1 t2 ncv hn tri (R i ω)).2 (krylov_independent hb ncv hle _ (hω i))
  · intro hlt ω i
    have h := krylov_dependent hb ncv hlt (R i ω)
    rw [← fastLanczos_ok_iff A hA eigh eighTri t1 t2 ncv hn tri (R i ω)] at h
    exact (fastLanczos_error_iff A eigh eighTri t1 t2 ncv tri (R i ω)).1.resolve_right h

/-- Averages of the sums over the eigenvalues, weighted with the shares of the start vectors. -/
theorem shares_good (hd : 0 < d) (hR : NormalStarts P R) (b : OrthonormalBasis (Fin d) ℝ (EuclideanSpace ℝ (Fin d)))
    (F : Fin d → ℝ) :
    GoodAverages P (fun i ω => ∑ k, share b k (R i ω) * F k) ((∑ k, F k) / d)
      (2 / (d * (d + 2)) * (∑ k, F k ^ 2 - (∑ k, F k) ^ 2 / d)) := by
  have hFm : Measurable fun x => ∑ k, share b k x * F k :=
    Finset.measurable_sum _ fun k _ => (share_measurable b k).mul_const _
  obtain ⟨hmean, hvar⟩ := share_weighted b hd F
  have hcomm : (fun x => ∑ k, F k * share b k x) = fun x => ∑ k, share b k x * F k := by
    funext x
    exact Finset.sum_congr rfl fun k _ => mul_comm _ _
  have hpt : ∀ x, ∑ k, F k * share b k x = ∑ k, share b k x * F k := fun x => congrFun hcomm x
  simp only [hpt] at hmean hvar
  refine iid_good _ _ _ (∑ k, |F k|) (fun i => hFm.comp (hR.meas i)) (fun i ω => ?_)
    (fun i j hij => (hR.indep hij).comp hFm hFm) (fun i => ?_) ?_ ?_
  · refine (Finset.abs_sum_le_sum_abs _ _).trans (Finset.sum_le_sum fun k _ => ?_)
    rw [abs_mul, abs_of_nonneg (share_nonneg b k _)]
    exact mul_le_of_le_one_left (abs_nonneg _) (share_le b k _)
  · have hid : IdentDistrib (R i) (R 0) P P :=
      ⟨(hR.meas i).aemeasurable, (hR.meas 0).aemeasurable, (hR.gaussian i).trans (hR.gaussian 0).symm⟩
    exact hid.comp hFm
  · rw [← hmean, ← hR.gaussian 0, integral_map (hR.meas 0).aemeasurable hFm.aestronglyMeasurable]
  · rw [← hvar, ← hR.gaussian 0, integral_map (hR.meas 0).aemeasurable
      ((hFm.sub_const _).pow_const 2).aestronglyMeasurable]

/-! ## The densities -/

/-- What the average density at a grid point is for given results of the runs. -/
theorem lanczosSpectrum_value (eigsh : Eigsh) (src : LanczosSource) (its : Nat → LanczosIter) (hsrc : ∀ i, src i = .ok (its i))
    (ncv : Nat) (hn : 2 ≤ ncv) (hits : ∀ i, (its i).ncv = ncv) (calls N n : Nat) (h0 : 0 < n) (kappa : ℝ) (hk : 1 < kappa)
    (boundaries : Boundaries) (margin : ℝ) (hm : 0 ≤ margin) (bd : ℝ × ℝ)
    (hbd : (approximateBoundaries eigsh boundaries).1 = .ok bd) (hlt : bd.1 < bd.2) :
    ∃ a, lanczosSpectrum eigsh src calls N n kappa boundaries margin =
        (.ok (linspace (bd.1 - margin * (bd.2 - bd.1)) (bd.2 + margin * (bd.2 - bd.1)) N, a), calls + n) ∧ a.length = N ∧
      ∀ q < N, a.getD q 0 = (∑ i ∈ Finset.range n, ∑ j ∈ Finset.range ncv, (its (calls + i)).evecs 0 j ^ 2 *
        gaussianPDFReal ((its (calls + i)).evals j)
          (Real.toNNReal (bumpDeviation ((1 + 2 * margin) * (bd.2 - bd.1)) ncv kappa ^ 2))
          ((linspace (bd.1 - margin * (bd.2 - bd.1)) (bd.2 + margin * (bd.2 - bd.1)) N).getD q 0)) / n := by
  obtain ⟨⟨g, a⟩, hr⟩ := lanczosSpectrum_total eigsh src calls N n h0 kappa boundaries margin bd hbd fun i _ =>
    ⟨_, hsrc _, by rw [hits]; omega⟩
  obtain ⟨bd', hbd', n', hn', -, -, ha, its', dens, hi, hv⟩ := lanczosSpectrum_mean eigsh src calls N n kappa boundaries
    margin g a _ hr
  obtain rfl : bd' = bd := Except.ok.inj (hbd'.symm.trans hbd)
  obtain rfl : n = n' := by exact_mod_cast hn'
  have hden : ∀ i < n, g = linspace (bd'.1 - margin * (bd'.2 - bd'.1)) (bd'.2 + margin * (bd'.2 - bd'.1)) N ∧
      dens i = g.map (normalMixture ncv (fun j => (its (calls + i)).evecs 0 j ^ 2) (its (calls + i)).evals
        (bumpDeviation ((1 + 2 * margin) * (bd'.2 - bd'.1)) ncv kappa)) := by
    intro i hi'
    obtain ⟨h1, h2⟩ := hi i hi'
    have hii : its' i = its (calls + i) := Except.ok.inj (h1.symm.trans (hsrc _))
    rw [hii] at h2
    rw [spectrumFromIter_density _ (by rw [hits]; exact hn) bd' hlt N kappa hk margin hm, hits, Except.ok.injEq,
      Prod.mk.injEq] at h2
    obtain ⟨rfl, h2⟩ := h2
    exact ⟨rfl, h2.symm⟩
  have hg := (hden 0 h0).1
  refine ⟨a, by rw [hr, hg], ha, fun q hq => ?_⟩
  rw [hv q hq]
  congr 1
  refine Finset.sum_congr rfl fun i hi' => ?_
  have hlen : (linspace (bd'.1 - margin * (bd'.2 - bd'.1)) (bd'.2 + margin * (bd'.2 - bd'.1)) N).length = N := by simp [linspace]
  rw [(hden i (Finset.mem_range.1 hi')).2, ← hg, List.getD_eq_getElem _ _ (by rw [List.length_map, hg, hlen]; exact hq),
    List.getElem_map, List.getD_eq_getElem _ _ (by rw [hg, hlen]; exact hq)]
  rfl

/-- The same for the density on the logarithmic scale. -/
theorem lanczosLogSpectrum_value (eigsh : Eigsh) (src : LanczosSource) (its : Nat → LanczosIter)
    (hsrc : ∀ i, src i = .ok (its i)) (ncv : Nat) (hn : 2 ≤ ncv) (hits : ∀ i, (its i).ncv = ncv) (calls N n : Nat) (h0 : 0 < n)
    (kappa : ℝ) (hk : 1 < kappa) (boundaries : Boundaries) (margin : ℝ) (hm : 0 ≤ margin) (epsilon : ℝ) (bd : ℝ × ℝ)
    (hbd : (approximateBoundariesAbs eigsh boundaries).1 = .ok bd) (hpos : 0 < bd.1 + epsilon) (hlt : bd.1 < bd.2)
    (lo hi : ℝ) (hlo : lo = Real.log (bd.1 + epsilon)) (hhi : hi = Real.log (bd.2 + epsilon)) :
    ∃ a, lanczosLogSpectrum eigsh src calls N n kappa boundaries margin epsilon =
        (.ok ((linspace (lo - margin * (hi - lo)) (hi + margin * (hi - lo)) N).map Real.exp, a), calls + n) ∧ a.length = N ∧
      ∀ q < N, a.getD q 0 = (∑ i ∈ Finset.range n, ∑ j ∈ Finset.range ncv, (its (calls + i)).evecs 0 j ^ 2 *
        (gaussianPDFReal (Real.log (|(its (calls + i)).evals j| + epsilon))
          (Real.toNNReal (bumpDeviation ((1 + 2 * margin) * (hi - lo)) ncv kappa ^ 2))
          ((linspace (lo - margin * (hi - lo)) (hi + margin * (hi - lo)) N).getD q 0) /
            Real.exp ((linspace (lo - margin * (hi - lo)) (hi + margin * (hi - lo)) N).getD q 0))) / n := by
  subst hlo hhi
  set lo := Real.log (bd.1 + epsilon) with hlo
  set hi := Real.log (bd.2 + epsilon) with hhi
  set L := linspace (lo - margin * (hi - lo)) (hi + margin * (hi - lo)) N with hL
  have hdens : ∀ i, logSpectrumFromIter (its i) bd N kappa margin epsilon = .ok (L.map Real.exp, (L.map Real.exp).map
      (logNormalMixture ncv (fun j => (its i).evecs 0 j ^ 2) (fun j => Real.log (|(its i).evals j| + epsilon))
        (bumpDeviation ((1 + 2 * margin) * (hi - lo)) ncv kappa))) := by
    intro i
    have := logSpectrumFromIter_density (its i) (by rw [hits]; exact hn) bd epsilon hpos hlt N kappa hk margin hm
    rw [hits] at this
    exact this
  have hr : ∃ r, lanczosLogSpectrum eigsh src calls N n kappa boundaries margin epsilon = (.ok r, calls + n) := by
    unfold lanczosLogSpectrum
    rw [hbd]
    exact repeatLoop_total src _ n calls 0 none _ (Or.inl h0) fun i _ => ⟨_, _, hsrc _, hdens _⟩
  obtain ⟨⟨g, a⟩, hr⟩ := hr
  obtain ⟨bd', hbd', n', hn', -, -, ha, its', dens, hi', hv⟩ := lanczosLogSpectrum_mean eigsh src calls N n kappa boundaries
    margin epsilon g a _ hr
  obtain rfl : bd' = bd := Except.ok.inj (hbd'.symm.trans hbd)
  obtain rfl : n = n' := by exact_mod_cast hn'
  have hden : ∀ i < n, g = L.map Real.exp ∧
      dens i = (L.map Real.exp).map (logNormalMixture ncv (fun j => (its (calls + i)).evecs 0 j ^ 2)
        (fun j => Real.log (|(its (calls + i)).evals j| + epsilon))
        (bumpDeviation ((1 + 2 * margin) * (hi - lo)) ncv kappa)) := by
    intro i hin
    obtain ⟨h1, h2⟩ := hi' i hin
    have hii : its' i = its (calls + i) := Except.ok.inj (h1.symm.trans (hsrc _))
    rw [hii] at h2
    rw [hdens, Except.ok.injEq, Prod.mk.injEq] at h2
    exact ⟨h2.1.symm, h2.2.symm⟩
  have hg := (hden 0 h0).1
  have hlen : L.length = N := by simp [hL, linspace]
  refine ⟨a, by rw [hr, hg], ha, fun q hq => ?_⟩
  rw [hv q hq]
  congr 1
  refine Finset.sum_congr rfl fun i hin => ?_
  rw [(hden i (Finset.mem_range.1 hin)).2, List.getD_eq_getElem _ _ (by rw [List.length_map, List.length_map, hlen]; exact hq),
    List.getElem_map, List.getElem_map, List.getD_eq_getElem _ _ (by rw [hlen]; exact hq)]
  unfold logNormalMixture normalMixture
  rw [Real.log_exp, Finset.sum_div]
  exact Finset.sum_congr rfl fun j _ => by rw [mul_div_assoc]

/-- `f` can be approximated with error `ε` by a polynomial of degree less than `2 * ncv`, between the eigenvalues. -/
def Approximable (lam : Fin d → ℝ) (ncv : Nat) (f : ℝ → ℝ) (ε : ℝ) : Prop :=
  ∃ (lo hi : ℝ) (p : ℝ[X]), (∀ i, lo ≤ lam i ∧ lam i ≤ hi) ∧ p.natDegree < 2 * ncv ∧
    ∀ t, lo ≤ t → t ≤ hi → |f t - p.eval t| ≤ ε

omit [MeasurableSpace Ω] in
/-- Averages of quadratures over the runs are averages of good samples up to the error of the approximation. -/
theorem quadrature_averages (hA : A.IsSymmetric) (hb : EigenBasis A b lam) (eigh eighTri : Eigh) (h1 : EighContract eigh)
    (h2 : EighContract eighTri) (ncv : Nat) (tri : Bool) (ω : Ω) (its : Nat → LanczosIter)
    (hits : ∀ i, fastLanczos eigh eighTri A ncv tri (R i ω) = .ok (its i)) (calls n : Nat) (h0 : 0 < n) (f : ℝ → ℝ) :
    (∀ ε, Approximable lam ncv f ε →
      |(∑ i ∈ Finset.range n, ∑ j ∈ Finset.range ncv, (its (calls + i)).evecs 0 j ^ 2 * f ((its (calls + i)).evals j)) / n -
        average (fun i ω => ∑ k, share b k (R (calls + i) ω) * f (lam k)) n ω| ≤ 2 * ε) ∧
    (ncv = numDistinct lam →
      (∑ i ∈ Finset.range n, ∑ j ∈ Finset.range ncv, (its (calls + i)).evecs 0 j ^ 2 * f ((its (calls + i)).evals j)) / n =
        average (fun i ω => ∑ k, share b k (R (calls + i) ω) * f (lam k)) n ω) := by
  have hn : (0 : ℝ) < n := by exact_mod_cast h0
  constructor
  · rintro ε ⟨lo, hi, p, hin, hp, hε⟩
    unfold average
    rw [← sub_div, ← Finset.sum_sub_distrib, abs_div, abs_of_pos hn, div_le_iff₀ hn]
    refine (Finset.abs_sum_le_sum_abs _ _).trans ?_
    refine (Finset.sum_le_sum fun i _ => fastLanczos_quadrature_close hA hb eigh eighTri h1 h2 ncv tri _ _ (hits (calls + i))
      f lo hi hin p hp ε hε).trans ?_
    rw [Finset.sum_const, Finset.card_range, nsmul_eq_mul, mul_comm]
  · rintro rfl
    unfold average
    congr 1
    exact Finset.sum_congr rfl fun i _ => fastLanczos_quadrature_exact hA hb eigh eighTri h1 h2 tri _ _ (hits (calls + i)) f

omit [IsProbabilityMeasure P] in
theorem NormalStarts.shift (hR : NormalStarts P R) (calls : Nat) : NormalStarts P fun i => R (calls + i) :=
  ⟨fun i => hR.meas _, fun i => hR.law _, fun i j hij => hR.indep (by omega)⟩

/-- The runs of a symmetric operator. -/
structure Runs (A : EuclideanSpace ℝ (Fin d) →ₗ[ℝ] EuclideanSpace ℝ (Fin d))
    (b : OrthonormalBasis (Fin d) ℝ (EuclideanSpace ℝ (Fin d))) (lam : Fin d → ℝ) (eigh eighTri : Eigh) : Prop where
  symm : A.IsSymmetric
  basis : EigenBasis A b lam
  c1 : EighContract eigh
  c2 : EighContract eighTri
  t1 : ∀ n T, ∃ p, eigh n T = .ok p
  t2 : ∀ n T, ∃ p, eighTri n T = .ok p

omit [IsProbabilityMeasure P] in
theorem Runs.all_succeed {eigh eighTri : Eigh} (h : Runs A b lam eigh eighTri) (hR : NormalStarts P R) (ncv : Nat)
    (hn : 2 ≤ ncv) (hle : ncv ≤ numDistinct lam) (tri : Bool) :
    ∀ᵐ ω ∂P, ∃ its : Nat → LanczosIter, (∀ i, fastLanczos eigh eighTri A ncv tri (R i ω) = .ok (its i)) ∧
      ∀ i, (its i).ncv = ncv := by
  filter_upwards [(fastLanczos_almost_surely h.symm h.basis eigh eighTri h.t1 h.t2 hR ncv (by omega) tri).1 hle] with ω hω
  choose its hits using hω
  refine ⟨its, hits, fun i => ?_⟩
  obtain ⟨V, -, hn, -⟩ := fastLanczos_ok A h.symm eigh eighTri h.c1 h.c2 ncv tri _ _ (hits i)
  exact hn

theorem numDistinct_le (lam : Fin d → ℝ) : numDistinct lam ≤ d := by
  unfold numDistinct
  refine Finset.card_image_le.trans ?_
  simp

/-- C95 for `lanczos_approximate_spectrum`: almost surely, it does not raise, and the result at every grid point is, up to twice
the error of the polynomial approximation of the bump, an average of independent samples whose mean is the true spectral
density, smoothed with the same bump. With as many Lanczos vectors as there are different eigenvalues there is no error. -/
theorem lanczosSpectrum_consistent {eigh eighTri : Eigh} (h : Runs A b lam eigh eighTri) (hR : NormalStarts P R) (ncv : Nat)
    (hn : 2 ≤ ncv) (hle : ncv ≤ numDistinct lam) (tri : Bool) (eigsh : Eigsh) (calls N : Nat) (kappa : ℝ) (hk : 1 < kappa)
    (boundaries : Boundaries) (margin : ℝ) (hm : 0 ≤ margin) (bd : ℝ × ℝ)
    (hbd : (approximateBoundaries eigsh boundaries).1 = .ok bd) (hlt : bd.1 < bd.2) (g : List ℝ)
    (hg : g = linspace (bd.1 - margin * (bd.2 - bd.1)) (bd.2 + margin * (bd.2 - bd.1)) N) (f : ℝ → ℝ → ℝ)
    (hf : f = fun x t => gaussianPDFReal t (Real.toNNReal (bumpDeviation ((1 + 2 * margin) * (bd.2 - bd.1)) ncv kappa ^ 2)) x) :
    ∃ Y : ℝ → Nat → Ω → ℝ,
      (∀ x, GoodAverages P (Y x) ((∑ k, f x (lam k)) / d)
        (2 / (d * (d + 2)) * (∑ k, f x (lam k) ^ 2 - (∑ k, f x (lam k)) ^ 2 / d))) ∧
      ∀ᵐ ω ∂P, ∀ n : Nat, 0 < n → ∃ a,
        lanczosSpectrum eigsh (fun i => fastLanczos eigh eighTri A ncv tri (R i ω)) calls N n kappa boundaries margin =
          (.ok (g, a), calls + n) ∧ a.length = N ∧ ∀ q < N,
        (∀ ε, Approximable lam ncv (f (g.getD q 0)) ε → |a.getD q 0 - average (Y (g.getD q 0)) n ω| ≤ 2 * ε) ∧
        (ncv = numDistinct lam → a.getD q 0 = average (Y (g.getD q 0)) n ω) := by
  have hd : 0 < d := by
    have := numDistinct_le lam
    omega
  subst hg hf
  refine ⟨fun x i ω => ∑ k, share b k (R (calls + i) ω) * gaussianPDFReal (lam k)
      (Real.toNNReal (bumpDeviation ((1 + 2 * margin) * (bd.2 - bd.1)) ncv kappa ^ 2)) x,
    fun x => shares_good hd (hR.shift calls) b _, ?_⟩
  filter_upwards [h.all_succeed hR ncv hn hle tri] with ω ⟨its, hits, hncv⟩ n h0
  obtain ⟨a, ha, hlen, hv⟩ := lanczosSpectrum_value eigsh _ its hits ncv hn hncv calls N n h0 kappa hk boundaries margin hm bd
    hbd hlt
  refine ⟨a, ha, hlen, fun q hq => ?_⟩
  rw [hv q hq]
  exact quadrature_averages h.symm h.basis eigh eighTri h.c1 h.c2 ncv tri ω its hits calls n h0 fun t =>
    gaussianPDFReal t (Real.toNNReal (bumpDeviation ((1 + 2 * margin) * (bd.2 - bd.1)) ncv kappa ^ 2)) _

/-- C95 for `lanczos_approximate_log_spectrum`: the same, for the density of the logarithm of the shifted absolute value of an
eigenvalue, smoothed with the bump on the logarithmic scale. -/
theorem lanczosLogSpectrum_consistent {eigh eighTri : Eigh} (h : Runs A b lam eigh eighTri) (hR : NormalStarts P R)
    (ncv : Nat) (hn : 2 ≤ ncv) (hle : ncv ≤ numDistinct lam) (tri : Bool) (eigsh : Eigsh) (calls N : Nat) (kappa : ℝ)
    (hk : 1 < kappa) (boundaries : Boundaries) (margin : ℝ) (hm : 0 ≤ margin) (epsilon : ℝ) (bd : ℝ × ℝ)
    (hbd : (approximateBoundariesAbs eigsh boundaries).1 = .ok bd) (hpos : 0 < bd.1 + epsilon) (hlt : bd.1 < bd.2)
    (lo hi : ℝ) (hlo : lo = Real.log (bd.1 + epsilon)) (hhi : hi = Real.log (bd.2 + epsilon)) (l : List ℝ)
    (hl : l = linspace (lo - margin * (hi - lo)) (hi + margin * (hi - lo)) N) (f : ℝ → ℝ → ℝ)
    (hf : f = fun x t => gaussianPDFReal (Real.log (|t| + epsilon))
      (Real.toNNReal (bumpDeviation ((1 + 2 * margin) * (hi - lo)) ncv kappa ^ 2)) x / Real.exp x) :
    ∃ Y : ℝ → Nat → Ω → ℝ,
      (∀ x, GoodAverages P (Y x) ((∑ k, f x (lam k)) / d)
        (2 / (d * (d + 2)) * (∑ k, f x (lam k) ^ 2 - (∑ k, f x (lam k)) ^ 2 / d))) ∧
      ∀ᵐ ω ∂P, ∀ n : Nat, 0 < n → ∃ a,
        lanczosLogSpectrum eigsh (fun i => fastLanczos eigh eighTri A ncv tri (R i ω)) calls N n kappa boundaries margin
          epsilon = (.ok (l.map Real.exp, a), calls + n) ∧ a.length = N ∧ ∀ q < N,
        (∀ ε, Approximable lam ncv (f (l.getD q 0)) ε → |a.getD q 0 - average (Y (l.getD q 0)) n ω| ≤ 2 * ε) ∧
        (ncv = numDistinct lam → a.getD q 0 = average (Y (l.getD q 0)) n ω) := by
  have hd : 0 < d := by
    have := numDistinct_le lam
    omega
  subst hl hf
  refine ⟨fun x i ω => ∑ k, share b k (R (calls + i) ω) * (gaussianPDFReal (Real.log (|lam k| + epsilon))
      (Real.toNNReal (bumpDeviation ((1 + 2 * margin) * (hi - lo)) ncv kappa ^ 2)) x / Real.exp x),
    fun x => shares_good hd (hR.shift calls) b _, ?_⟩
  filter_upwards [h.all_succeed hR ncv hn hle tri] with ω ⟨its, hits, hncv⟩ n h0
  obtain ⟨a, ha, hlen, hv⟩ := lanczosLogSpectrum_value eigsh _ its hits ncv hn hncv calls N n h0 kappa hk boundaries margin hm
    epsilon bd hbd hpos hlt lo hi hlo hhi
  refine ⟨a, ha, hlen, fun q hq => ?_⟩
  rw [hv q hq]
  exact quadrature_averages h.symm h.basis eigh eighTri h.c1 h.c2 ncv tri ω its hits calls n h0 fun t =>
    gaussianPDFReal (Real.log (|t| + epsilon))
      (Real.toNNReal (bumpDeviation ((1 + 2 * margin) * (hi - lo)) ncv kappa ^ 2)) _ / Real.exp _

/-- C95: sums of powers. For `k < 2 * ncv`, the sums of `evecs[0, :] ** 2 * evals ** k` of the runs are almost surely
independent samples with mean `tr(A ^ k) / d`. -/
theorem lanczos_moments {eigh eighTri : Eigh} (h : Runs A b lam eigh eighTri) (hR : NormalStarts P R) (ncv : Nat)
    (hn : 2 ≤ ncv) (hle : ncv ≤ numDistinct lam) (tri : Bool) (k : Nat) (hk : k < 2 * ncv) :
    ∃ Y : Nat → Ω → ℝ,
      GoodAverages P Y (LinearMap.trace ℝ _ (A ^ k) / d)
        (2 / (d * (d + 2)) * (LinearMap.trace ℝ _ (A ^ (2 * k)) - LinearMap.trace ℝ _ (A ^ k) ^ 2 / d)) ∧
      ∀ᵐ ω ∂P, ∀ i, ∃ it, fastLanczos eigh eighTri A ncv tri (R i ω) = .ok it ∧
        ∑ j ∈ Finset.range ncv, it.evecs 0 j ^ 2 * it.evals j ^ k = Y i ω := by
  have hd : 0 < d := by
    have := numDistinct_le lam
    omega
  have htr : ∀ k, LinearMap.trace ℝ _ (A ^ k) = ∑ i, lam i ^ k := by
    intro k
    rw [LinearMap.trace_eq_sum_inner _ b]
    refine Finset.sum_congr rfl fun i _ => ?_
    have := h.basis.aeval (X ^ k) i
    rw [map_pow, aeval_X, eval_pow, eval_X] at this
    rw [this, inner_smul_right, real_inner_self_eq_norm_sq, b.orthonormal.1 i]
    ring
  refine ⟨fun i ω => ∑ l, share b l (R i ω) * lam l ^ k, ?_, ?_⟩
  · have := shares_good hd hR b fun l => lam l ^ k
    rw [htr, htr]
    simpa only [← pow_mul, mul_comm k 2] using this
  · filter_upwards [h.all_succeed hR ncv hn hle tri] with ω ⟨its, hits, _⟩ i
    refine ⟨its i, hits i, ?_⟩
    have := fastLanczos_quadrature_poly h.symm h.basis eigh eighTri h.c1 h.c2 ncv tri _ _ (hits i) (X ^ k)
      (by rw [natDegree_X_pow]; exact hk)
    simpa using this

/-! ## What follows for the error -/

/-- Numbers that are close to good averages. -/
theorem near_good {Y : Nat → Ω → ℝ} {t σ : ℝ} (hY : GoodAverages P Y t σ) (Z : Nat → Ω → ℝ) (e : ℝ)
    (hZ : ∀ᵐ ω ∂P, ∀ n : Nat, 0 < n → |Z n ω - average Y n ω| ≤ e) :
    (∀ n : Nat, 0 < n → ∀ δ, 0 < δ → P.real {ω | e + δ ≤ |Z n ω - t|} ≤ σ / (n * δ ^ 2)) ∧
    ∀ᵐ ω ∂P, ∀ δ, 0 < δ → ∀ᶠ n in atTop, |Z n ω - t| < e + δ := by
  have htri : ∀ x y : ℝ, |x - t| ≤ |x - y| + |y - t| := fun x y => by
    have := abs_add_le (x - y) (y - t)
    rwa [sub_add_sub_cancel] at this
  constructor
  · intro n h0 δ hδ
    refine le_trans ?_ (hY.tail n h0 δ hδ)
    refine ENNReal.toReal_mono (measure_ne_top _ _) (measure_mono_ae ?_)
    filter_upwards [hZ] with ω hω hle
    have h1 : e + δ ≤ |Z n ω - t| := hle
    show δ ≤ |average Y n ω - t|
    have h2 := hω n h0
    have h3 := htri (Z n ω) (average Y n ω)
    linarith
  · filter_upwards [hZ, hY.limit] with ω hω hlim δ hδ
    have h1 := (Metric.tendsto_nhds.1 hlim) δ hδ
    filter_upwards [h1, eventually_gt_atTop 0] with n hn h0
    rw [Real.dist_eq] at hn
    have h2 := hω n h0
    have h3 := htri (Z n ω) (average Y n ω)
    linarith

/-- The density at grid point `q` in the result of a call. -/
def densityAt (r : Py (List ℝ × List ℝ) × Nat) (q : Nat) : ℝ :=
  match r.1 with
  | .ok (_, a) => a.getD q 0
  | .error _ => 0

/-- C95: the error of `lanczos_approximate_spectrum` at a grid point. With probability at least `1 - σ² / (n δ²)` it is less than
`2 ε + δ`, and almost surely it is less than `2 ε + δ` for all large `num_repeats`; `ε` is the error of the polynomial
approximation, which can be dropped if there are as many Lanczos vectors as different eigenvalues. -/
theorem lanczosSpectrum_error {eigh eighTri : Eigh} (h : Runs A b lam eigh eighTri) (hR : NormalStarts P R) (ncv : Nat)
    (hn : 2 ≤ ncv) (hle : ncv ≤ numDistinct lam) (tri : Bool) (eigsh : Eigsh) (calls N : Nat) (kappa : ℝ) (hk : 1 < kappa)
    (boundaries : Boundaries) (margin : ℝ) (hm : 0 ≤ margin) (bd : ℝ × ℝ)
    (hbd : (approximateBoundaries eigsh boundaries).1 = .ok bd) (hlt : bd.1 < bd.2) (g : List ℝ)
    (hg : g = linspace (bd.1 - margin * (bd.2 - bd.1)) (bd.2 + margin * (bd.2 - bd.1)) N) (q : Nat) (hq : q < N) (f : ℝ → ℝ)
    (hf : f = fun t => gaussianPDFReal t (Real.toNNReal (bumpDeviation ((1 + 2 * margin) * (bd.2 - bd.1)) ncv kappa ^ 2))
      (g.getD q 0)) (ε : ℝ) (hε : Approximable lam ncv f ε ∨ (ncv = numDistinct lam ∧ ε = 0)) :
    (∀ n : Nat, 0 < n → ∀ δ, 0 < δ →
      P.real {ω | 2 * ε + δ ≤ |densityAt (lanczosSpectrum eigsh (fun i => fastLanczos eigh eighTri A ncv tri (R i ω)) calls N n
        kappa boundaries margin) q - (∑ k, f (lam k)) / d|} ≤
        2 / (d * (d + 2)) * (∑ k, f (lam k) ^ 2 - (∑ k, f (lam k)) ^ 2 / d) / (n * δ ^ 2)) ∧
    ∀ᵐ ω ∂P, ∀ δ, 0 < δ → ∀ᶠ n : Nat in atTop,
      |densityAt (lanczosSpectrum eigsh (fun i => fastLanczos eigh eighTri A ncv tri (R i ω)) calls N n kappa boundaries
        margin) q - (∑ k, f (lam k)) / d| < 2 * ε + δ := by
  obtain ⟨Y, hY, hall⟩ := lanczosSpectrum_consistent h hR ncv hn hle tri eigsh calls N kappa hk boundaries margin hm bd hbd hlt
    g hg _ rfl
  subst hf
  refine near_good (hY (g.getD q 0)) _ (2 * ε) ?_
  filter_upwards [hall] with ω hω n h0
  obtain ⟨a, ha, -, hv⟩ := hω n h0
  obtain ⟨v1, v2⟩ := hv q hq
  rw [ha]
  show |a.getD q 0 - _| ≤ _
  rcases hε with hε | ⟨hnd, rfl⟩
  · exact v1 ε hε
  · rw [v2 hnd]
    simp

/-- C95: the same for `lanczos_approximate_log_spectrum`. -/
theorem lanczosLogSpectrum_error {eigh eighTri : Eigh} (h : Runs A b lam eigh eighTri) (hR : NormalStarts P R) (ncv : Nat)
    (hn : 2 ≤ ncv) (hle : ncv ≤ numDistinct lam) (tri : Bool) (eigsh : Eigsh) (calls N : Nat) (kappa : ℝ) (hk : 1 < kappa)
    (boundaries : Boundaries) (margin : ℝ) (hm : 0 ≤ margin) (epsilon : ℝ) (bd : ℝ × ℝ)
    (hbd : (approximateBoundariesAbs eigsh boundaries).1 = .ok bd) (hpos : 0 < bd.1 + epsilon) (hlt : bd.1 < bd.2)
    (lo hi : ℝ) (hlo : lo = Real.log (bd.1 + epsilon)) (hhi : hi = Real.log (bd.2 + epsilon)) (l : List ℝ)
    (hl : l = linspace (lo - margin * (hi - lo)) (hi + margin * (hi - lo)) N) (q : Nat) (hq : q < N) (f : ℝ → ℝ)
    (hf : f = fun t => gaussianPDFReal (Real.log (|t| + epsilon))
      (Real.toNNReal (bumpDeviation ((1 + 2 * margin) * (hi - lo)) ncv kappa ^ 2)) (l.getD q 0) / Real.exp (l.getD q 0))
    (ε : ℝ) (hε : Approximable lam ncv f ε ∨ (ncv = numDistinct lam ∧ ε = 0)) :
    (∀ n : Nat, 0 < n → ∀ δ, 0 < δ →
      P.real {ω | 2 * ε + δ ≤ |densityAt (lanczosLogSpectrum eigsh (fun i => fastLanczos eigh eighTri A ncv tri (R i ω)) calls N
        n kappa boundaries margin epsilon) q - (∑ k, f (lam k)) / d|} ≤
        2 / (d * (d + 2)) * (∑ k, f (lam k) ^ 2 - (∑ k, f (lam k)) ^ 2 / d) / (n * δ ^ 2)) ∧
    ∀ᵐ ω ∂P, ∀ δ, 0 < δ → ∀ᶠ n : Nat in atTop,
      |densityAt (lanczosLogSpectrum eigsh (fun i => fastLanczos eigh eighTri A ncv tri (R i ω)) calls N n kappa boundaries
        margin epsilon) q - (∑ k, f (lam k)) / d| < 2 * ε + δ := by
  obtain ⟨Y, hY, hall⟩ := lanczosLogSpectrum_consistent h hR ncv hn hle tri eigsh calls N kappa hk boundaries margin hm epsilon
    bd hbd hpos hlt lo hi hlo hhi l hl _ rfl
  subst hf
  refine near_good (hY (l.getD q 0)) _ (2 * ε) ?_
  filter_upwards [hall] with ω hω n h0
  obtain ⟨a, ha, -, hv⟩ := hω n h0
  obtain ⟨v1, v2⟩ := hv q hq
  rw [ha]
  show |a.getD q 0 - _| ≤ _
  rcases hε with hε | ⟨hnd, rfl⟩
  · exact v1 ε hε
  · rw [v2 hnd]
    simp

end

/-! ## Examples -/

/-- There are independent standard normal start vectors. -/
theorem normalStarts_exists (d : Nat) : ∃ (P : Measure (Nat → Fin d → ℝ)) (R : Nat → (Nat → Fin d → ℝ) → EuclideanSpace ℝ (Fin d)),
    IsProbabilityMeasure P ∧ NormalStarts P R := by
  refine ⟨Measure.infinitePi fun _ : Nat => stdNormal d, fun i ω => WithLp.toLp 2 (ω i), inferInstance, fun i => ?_, fun i => ?_,
    fun i j hij => ?_⟩
  · have := measurable_pi_apply (X := fun _ : Nat => Fin d → ℝ) i
    fun_prop
  · exact Measure.infinitePi_map_eval _ i
  · have h := (iIndepFun_infinitePi (P := fun _ : Nat => stdNormal d) (X := fun _ d => d) fun _ => measurable_id).indepFun hij
    exact h.comp (φ := WithLp.toLp 2) (ψ := WithLp.toLp 2) (by fun_prop) (by fun_prop)

/-- The reflection has the eigenvalues `1` and `-1`. -/
theorem swapMap_basis : ∃ b lam, EigenBasis swapMap b lam ∧ numDistinct lam = 2 ∧ ∑ k, lam k = 0 ∧ ∀ k, lam k ^ 2 = 1 := by
  obtain ⟨b, lam, hb⟩ := eigenBasis_exists swapMap_symmetric
  have hsq : swapMap ^ 2 = 1 := by
    refine LinearMap.ext fun x => ?_
    ext i
    fin_cases i <;> simp [pow_two, swapMap, Matrix.toLpLin_apply, Matrix.vecHead, Matrix.vecTail]
  have hl : ∀ k, lam k ^ 2 = 1 := by
    intro k
    have h := hb.aeval (X ^ 2) k
    rw [map_pow, aeval_X, eval_pow, eval_X, hsq] at h
    have h2 := congrArg (fun x => ⟪b k, x⟫) h
    simp only [Module.End.one_apply, inner_smul_right, real_inner_self_eq_norm_sq, b.orthonormal.1 k] at h2
    linarith
  have htr : ∑ k, lam k = 0 := by
    have h := LinearMap.trace_eq_sum_inner swapMap b
    have e1 : ∀ k, ⟪b k, swapMap (b k)⟫ = lam k := fun k => by
      rw [hb k, inner_smul_right, real_inner_self_eq_norm_sq, b.orthonormal.1 k]
      ring
    simp only [e1] at h
    rw [← h, LinearMap.trace_eq_sum_inner swapMap (EuclideanSpace.basisFun (Fin 2) ℝ)]
    simp [swapMap, Matrix.toLpLin_apply, Fin.sum_univ_two, EuclideanSpace.inner_single_left]
  refine ⟨b, lam, hb, ?_, htr, hl⟩
  rw [Fin.sum_univ_two] at htr
  have hne : lam 0 ≠ lam 1 := by
    intro h
    have h0 : lam 0 = 0 := by linarith
    have := hl 0
    rw [h0] at this
    norm_num at this
  unfold numDistinct
  have : Finset.univ.image lam = {lam 0, lam 1} := by
    ext x
    simp [Fin.exists_fin_two, eq_comm]
  rw [this, Finset.card_pair hne]

/-- For the reflection, two Lanczos vectors and the boundaries `(-1, 1)`: the density at a grid point tends almost surely to the
mean of the two normal densities centred at `-1` and `1`; and the mean of the squared Ritz values is almost surely one. -/
example : ∃ (P : Measure (Nat → Fin 2 → ℝ)) (R : Nat → (Nat → Fin 2 → ℝ) → EuclideanSpace ℝ (Fin 2)) (eigh : Eigh) (lam : Fin 2 → ℝ),
    IsProbabilityMeasure P ∧ ∑ k, lam k = 0 ∧ (∀ k, lam k ^ 2 = 1) ∧
    ∀ q < 10, ∀ᵐ ω ∂P, ∀ δ, 0 < δ → ∀ᶠ n : Nat in atTop,
      |densityAt (lanczosSpectrum (fun _ _ => .error .valueError) (fun i => fastLanczos eigh eigh swapMap 2 false (R i ω)) 0 10 n 3
        (some (some (-1), some 1)) 0) q -
        (∑ k, gaussianPDFReal (lam k) (Real.toNNReal (bumpDeviation ((1 + 2 * 0) * (1 - -1)) 2 3 ^ 2))
          ((linspace (-1 - 0 * (1 - -1)) (1 + 0 * (1 - -1)) 10).getD q 0)) / (2 : Nat)| < 2 * 0 + δ := by
  obtain ⟨P, R, hP, hR⟩ := normalStarts_exists 2
  obtain ⟨eigh, hc, ht⟩ := exists_eigh
  obtain ⟨b, lam, hb, hnd, hs, hl⟩ := swapMap_basis
  refine ⟨P, R, eigh, lam, hP, hs, hl, fun q hq => ?_⟩
  exact (lanczosSpectrum_error ⟨swapMap_symmetric, hb, hc, hc, ht, ht⟩ hR 2 le_rfl hnd.ge false _ 0 10 3 (by norm_num)
    (some (some (-1), some 1)) 0 le_rfl (-1, 1) rfl (by norm_num) _ rfl q hq _ rfl 0 (.inr ⟨hnd.symm, rfl⟩)).2

/-- Three Lanczos vectors for the reflection: every run raises `ValueError`. -/
example (eigh : Eigh) (ht : ∀ n T, ∃ p, eigh n T = .ok p) : ∃ (P : Measure (Nat → Fin 2 → ℝ))
    (R : Nat → (Nat → Fin 2 → ℝ) → EuclideanSpace ℝ (Fin 2)), NormalStarts P R ∧
    ∀ ω i, fastLanczos eigh eigh swapMap 3 true (R i ω) = .error .valueError := by
  obtain ⟨P, R, hP, hR⟩ := normalStarts_exists 2
  obtain ⟨b, lam, hb, hnd, -, -⟩ := swapMap_basis
  exact ⟨P, R, hR, (fastLanczos_almost_surely swapMap_symmetric hb eigh eigh ht ht hR 3 (by norm_num) true).2 (by omega)⟩

/-- A normal density can be approximated with an error below its maximum, even by constants. -/
example (lam : Fin 3 → ℝ) (s : NNReal) (hs : s ≠ 0) (x : ℝ) :
    Approximable lam 2 (fun t => gaussianPDFReal t s x) ((√(2 * Real.pi * s))⁻¹ / 2) := by
  obtain ⟨lo, hlo⟩ := (Set.finite_range lam).bddBelow
  obtain ⟨hi, hhi⟩ := (Set.finite_range lam).bddAbove
  refine ⟨lo, hi, C ((√(2 * Real.pi * s))⁻¹ / 2), fun i => ⟨hlo ⟨i, rfl⟩, hhi ⟨i, rfl⟩⟩, by simp, fun t _ _ => ?_⟩
  rw [eval_C, abs_le]
  have h0 := gaussianPDFReal_nonneg t s x
  have h1 : gaussianPDFReal t s x ≤ (√(2 * Real.pi * s))⁻¹ := by
    unfold gaussianPDFReal
    refine mul_le_of_le_one_right (by positivity) ?_
    rw [Real.exp_le_one_iff]
    have : 0 < (s : ℝ) := by positivity
    exact div_nonpos_of_nonpos_of_nonneg (by nlinarith [sq_nonneg (x - t)]) (by positivity)
  constructor <;> linarith

end Curvlinops
