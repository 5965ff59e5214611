import Verif.Props.Inverse

/-!
# C97: when and how fast the Neumann inverse converges
-/

namespace Curvlinops

open Matrix Filter Topology

variable {n : Nat}

/-- Specification: squared Euclidean norm. -/
def sqNorm (x : Fin n → ℝ) : ℝ := ∑ i, x i ^ 2

/-- Specification: `l` is an eigenvalue. -/
def IsEigenvalue (M : Matrix (Fin n) (Fin n) ℝ) (l : ℝ) : Prop := ∃ x : Fin n → ℝ, x ≠ 0 ∧ M *ᵥ x = l • x

theorem sqNorm_eq (x : Fin n → ℝ) : sqNorm x = x ⬝ᵥ x := Finset.sum_congr rfl fun _ _ => pow_two _

theorem sqNorm_orthogonal {U : Matrix (Fin n) (Fin n) ℝ} (hU : Uᵀ * U = 1) (x : Fin n → ℝ) : sqNorm (U *ᵥ x) = sqNorm x := by
  rw [sqNorm_eq, sqNorm_eq, Matrix.dotProduct_mulVec, ← Matrix.mulVec_transpose, Matrix.mulVec_mulVec, hU, Matrix.one_mulVec]

/-- Powers of `1 - s M` are contractions with the largest `|1 - s l|`. -/
theorem neumann_power_le (M : Matrix (Fin n) (Fin n) ℝ) (hM : Mᵀ = M) (s ρ : ℝ)
    (hρ : ∀ l, IsEigenvalue M l → |1 - s * l| ≤ ρ) (k : Nat) (x : Fin n → ℝ) :
    sqNorm (((1 - s • M) ^ k) *ᵥ x) ≤ (ρ ^ k) ^ 2 * sqNorm x := by
  obtain ⟨U, d, hU, hU', hMd⟩ := exists_eigendecomposition M hM
  have hd : ∀ j, |1 - s * d j| ≤ ρ := fun j =>
    hρ _ ⟨_, (eigendecomposition_col hU hMd j).2, (eigendecomposition_col hU hMd j).1⟩
  have hB : (1 - s • M) = U * diagonal (fun j => 1 - s * d j) * Uᵀ := by
    have : diagonal (fun j => 1 - s * d j) = (1 : Matrix (Fin n) (Fin n) ℝ) - s • diagonal d := by
      rw [← diagonal_one, ← diagonal_smul, diagonal_sub]; rfl
    rw [this, Matrix.mul_sub, Matrix.sub_mul, Matrix.mul_one, hU', Matrix.mul_smul, Matrix.smul_mul, ← hMd]
  rw [hB, eigendecomposition_pow _ hU hU', Matrix.mul_assoc, ← Matrix.mulVec_mulVec, sqNorm_orthogonal hU,
    ← Matrix.mulVec_mulVec]
  have hx : sqNorm x = sqNorm (Uᵀ *ᵥ x) := (sqNorm_orthogonal (U := Uᵀ) (by rw [transpose_transpose]; exact hU') x).symm
  rw [hx]
  unfold sqNorm
  rw [Finset.mul_sum]
  refine Finset.sum_le_sum fun j _ => ?_
  rw [Matrix.mulVec_diagonal, mul_pow]
  refine mul_le_mul_of_nonneg_right ?_ (sq_nonneg _)
  rw [← sq_abs, abs_pow]
  exact pow_le_pow_left₀ (pow_nonneg (abs_nonneg _) _) (pow_le_pow_left₀ (abs_nonneg _) (hd j) k) 2

/-- C97: the residual and the error decrease geometrically: after `num_terms = T` terms the residual is at most `ρ ^ (T + 1)`
times `x`, and the error at most `ρ ^ (T + 1)` times the solution, in the Euclidean norm. -/
theorem neumann_rate (L : SciOp ℝ) (M : Matrix (Fin n) (Fin n) ℝ) (hL : VecRep L M) (hM : Mᵀ = M) (h : NeumannHyper ℝ)
    (ρ : ℝ) (hρ : ∀ l, IsEigenvalue M l → |1 - h.scale * l| ≤ ρ) (x : Fin n → ℝ) :
    ∃ y, (neumannOp (fun _ => false) L h).dot (.vec (List.ofFn x)) = .ok (.vec (List.ofFn y)) ∧
      sqNorm (x - M *ᵥ y) ≤ (ρ ^ (h.numTerms + 1)) ^ 2 * sqNorm x ∧
      ∀ z, M *ᵥ z = x → sqNorm (z - y) ≤ (ρ ^ (h.numTerms + 1)) ^ 2 * sqNorm z := by
  refine ⟨_, neumann_vec L M hL h x, ?_, fun z hz => ?_⟩
  · rw [neumann_residual, sub_sub_cancel]
    exact neumann_power_le M hM _ ρ hρ _ x
  · have e : z - neumannSum M h.scale h.numTerms x = ((1 - h.scale • M) ^ (h.numTerms + 1)) *ᵥ z := by
      have hg : (∑ k ∈ Finset.range (h.numTerms + 1), (1 - h.scale • M) ^ k) * (h.scale • M) =
          1 - (1 - h.scale • M) ^ (h.numTerms + 1) := by
        have := geom_sum_mul_neg (1 - h.scale • M) (h.numTerms + 1)
        rwa [sub_sub_cancel] at this
      have : neumannSum M h.scale h.numTerms x = (1 - (1 - h.scale • M) ^ (h.numTerms + 1)) *ᵥ z := by
        rw [← hg, ← hz, neumannSum, Matrix.mulVec_mulVec, Matrix.mul_smul, Matrix.smul_mulVec]
      rw [this, Matrix.sub_mulVec, Matrix.one_mulVec, sub_sub_cancel]
    rw [e]
    exact neumann_power_le M hM _ ρ hρ _ z

theorem mulVec_pow_eigen (M : Matrix (Fin n) (Fin n) ℝ) (s l : ℝ) (x : Fin n → ℝ) (hx : M *ᵥ x = l • x) (k : Nat) :
    ((1 - s • M) ^ k) *ᵥ x = (1 - s * l) ^ k • x := by
  induction k with
  | zero => simp
  | succ k ih =>
    rw [pow_succ', ← Matrix.mulVec_mulVec, ih, Matrix.mulVec_smul, Matrix.sub_mulVec, Matrix.one_mulVec, Matrix.smul_mulVec, hx]
    funext i
    simp only [Pi.smul_apply, Pi.sub_apply, smul_eq_mul]
    ring

/-- C97: the rate cannot be improved: for right-hand sides `M z` with an eigenvector `z`, the error is exactly
`(1 - scale l) ^ (T + 1)` times the solution. -/
theorem neumann_rate_sharp (L : SciOp ℝ) (M : Matrix (Fin n) (Fin n) ℝ) (hL : VecRep L M) (h : NeumannHyper ℝ) (l : ℝ)
    (z : Fin n → ℝ) (hz : M *ᵥ z = l • z) :
    ∃ y, (neumannOp (fun _ => false) L h).dot (.vec (List.ofFn (M *ᵥ z))) = .ok (.vec (List.ofFn y)) ∧
      z - y = (1 - h.scale * l) ^ (h.numTerms + 1) • z := by
  refine ⟨_, neumann_vec L M hL h _, ?_⟩
  have hg : (∑ k ∈ Finset.range (h.numTerms + 1), (1 - h.scale • M) ^ k) * (h.scale • M) =
      1 - (1 - h.scale • M) ^ (h.numTerms + 1) := by
    have := geom_sum_mul_neg (1 - h.scale • M) (h.numTerms + 1)
    rwa [sub_sub_cancel] at this
  have : neumannSum M h.scale h.numTerms (M *ᵥ z) = (1 - (1 - h.scale • M) ^ (h.numTerms + 1)) *ᵥ z := by
    rw [← hg, neumannSum, Matrix.mulVec_mulVec, Matrix.mul_smul, Matrix.smul_mulVec]
  rw [this, Matrix.sub_mulVec, Matrix.one_mulVec, sub_sub_cancel, mulVec_pow_eigen M _ l z hz]

/-- C97: the documented condition is necessary as well as sufficient. For a symmetric matrix, the results converge to a solution of
`M z = x` for every `x` exactly if `scale` times every eigenvalue is strictly between 0 and 2. -/
theorem neumann_converges_iff (L : SciOp ℝ) (M : Matrix (Fin n) (Fin n) ℝ) (hL : VecRep L M) (hM : Mᵀ = M) (s : ℝ)
    (hy : Nat → NeumannHyper ℝ) (hscale : ∀ T, (hy T).scale = s) (hterms : ∀ T, (hy T).numTerms = T) :
    (∀ x : Fin n → ℝ, ∃ (y : Nat → Fin n → ℝ) (z : Fin n → ℝ),
      (∀ T, (neumannOp (fun _ => false) L (hy T)).dot (.vec (List.ofFn x)) = .ok (.vec (List.ofFn (y T)))) ∧
      M *ᵥ z = x ∧ Tendsto y atTop (𝓝 z)) ↔
    ∀ l, IsEigenvalue M l → 0 < s * l ∧ s * l < 2 := by
  have hrun : ∀ x T, (neumannOp (fun _ => false) L (hy T)).dot (.vec (List.ofFn x)) =
      .ok (.vec (List.ofFn (neumannSum M s T x))) := by
    intro x T
    have := neumann_vec L M hL (hy T) x
    rwa [hscale, hterms] at this
  constructor
  · rintro h l ⟨v, hv, hl⟩
    obtain ⟨y, z, h1, h2, h3⟩ := h v
    have hyv : y = fun T => neumannSum M s T v := by
      funext T
      have := (h1 T).symm.trans (hrun v T)
      simp only [Except.ok.injEq, NpVal.vec.injEq] at this
      exact List.ofFn_injective this
    have hres : Tendsto (fun T => v - M *ᵥ y T) atTop (𝓝 0) := by
      have hc : Continuous fun u : Fin n → ℝ => v - M *ᵥ u := by fun_prop
      have := (hc.tendsto z).comp h3
      rwa [h2, sub_self] at this
    rw [hyv] at hres
    simp only [neumann_residual, sub_sub_cancel, mulVec_pow_eigen M s l v hl] at hres
    obtain ⟨i, hi⟩ := Function.ne_iff.1 hv
    have hp : Tendsto (fun T => (1 - s * l) ^ (T + 1)) atTop (𝓝 0) := by
      have := ((tendsto_pi_nhds.1 hres) i).mul_const (v i)⁻¹
      simp only [Pi.smul_apply, smul_eq_mul, Pi.zero_apply, zero_mul] at this hi
      refine this.congr fun T => ?_
      rw [mul_assoc, mul_inv_cancel₀ hi, mul_one]
    have := tendsto_pow_atTop_nhds_zero_iff.1 ((tendsto_add_atTop_iff_nat 1).1 hp)
    rw [abs_lt] at this
    constructor <;> linarith
  · intro h x
    obtain ⟨hdet, hlim⟩ := neumann_converges M hM s (fun l v hv hl => h l ⟨v, hv, hl⟩) x
    exact ⟨_, _, hrun x, by rw [Matrix.mulVec_mulVec, Matrix.mul_nonsing_inv _ hdet, Matrix.one_mulVec], hlim⟩

/-- C97: the choice of the scale in the documentation (`docs/examples/basic_usage/example_inverses.py:250-252`) satisfies the
condition for every matrix with positive eigenvalues whose largest one is `m`. -/
theorem neumann_doc_scale (M : Matrix (Fin n) (Fin n) ℝ) (m : ℝ) (hpos : ∀ l, IsEigenvalue M l → 0 < l)
    (hmax : ∀ l, IsEigenvalue M l → l ≤ m) (l : ℝ) (hl : IsEigenvalue M l) :
    0 < (if m < 2 then 1 else 1.99 / m) * l ∧ (if m < 2 then 1 else 1.99 / m) * l < 2 := by
  have h1 := hpos l hl
  have h2 := hmax l hl
  split_ifs with h
  · constructor <;> linarith
  · have hm : 0 < m := by linarith
    refine ⟨by positivity, ?_⟩
    rw [div_mul_eq_mul_div, div_lt_iff₀ hm]
    linarith

/-- C97: with eigenvalues between `lo` and `hi` and the scale `1 / hi`, the rate is `1 - lo / hi`. For a positive semi-definite
matrix with largest eigenvalue `m` and damping `δ` this is `m / (m + δ)`. -/
theorem neumann_condition_rate (M : Matrix (Fin n) (Fin n) ℝ) (lo hi : ℝ) (h0 : 0 < hi)
    (hb : ∀ l, IsEigenvalue M l → lo ≤ l ∧ l ≤ hi) (l : ℝ) (hl : IsEigenvalue M l) : |1 - (1 / hi) * l| ≤ 1 - lo / hi := by
  obtain ⟨h1, h2⟩ := hb l hl
  have e1 : (1 / hi) * l = l / hi := by ring
  have e2 : lo / hi ≤ l / hi := div_le_div_of_nonneg_right h1 h0.le
  have e3 : l / hi ≤ 1 := (div_le_one h0).2 h2
  rw [e1, abs_of_nonneg (by linarith)]
  linarith

/-- The eigenvalues of a damped matrix. -/
theorem isEigenvalue_damped (G : Matrix (Fin n) (Fin n) ℝ) (δ l : ℝ) : IsEigenvalue (G + δ • 1) l ↔ IsEigenvalue G (l - δ) := by
  refine exists_congr fun x => and_congr_right fun _ => ?_
  rw [Matrix.add_mulVec, Matrix.smul_mulVec, Matrix.one_mulVec, sub_smul, eq_sub_iff_add_eq]

/-- Non-vacuity: the matrix `diag(1, 2)`, with scale `1/2` the rate is `1/2`; with scale `1` the series does not converge. -/
example : (∀ l, IsEigenvalue (!![1, 0; 0, 2] : Matrix (Fin 2) (Fin 2) ℝ) l → |1 - (1 / 2) * l| ≤ 1 / 2) ∧
    ¬ ∀ l, IsEigenvalue (!![1, 0; 0, 2] : Matrix (Fin 2) (Fin 2) ℝ) l → 0 < 1 * l ∧ 1 * l < 2 := by
  constructor
  · rintro l ⟨x, hx, h⟩
    have h0 := congrFun h 0
    have h1 := congrFun h 1
    simp [Matrix.mulVec, dotProduct, Fin.sum_univ_two] at h0 h1
    by_cases hx0 : x 0 = 0
    · have hx1 : x 1 ≠ 0 := fun hc => hx (funext fun i => by fin_cases i <;> simp [hx0, hc])
      obtain rfl : l = 2 := by
        rcases h1 with h' | h'
        · exact h'.symm
        · exact absurd h' hx1
      norm_num
    · obtain rfl : l = 1 := by
        have : (l - 1) * x 0 = 0 := by linarith
        rcases mul_eq_zero.mp this with h' | h'
        · linarith
        · exact absurd h' hx0
      norm_num [abs_of_pos]
  · intro h
    have := (h 2 ⟨![0, 1], by intro hc; simpa using congrFun hc 1, by
      funext i; fin_cases i <;> simp [Matrix.mulVec, dotProduct, Fin.sum_univ_two]⟩).2
    norm_num at this

end Curvlinops
