import Verif.Model.Programs
import Verif.Props.Descent
import Verif.Props.Export

/-!
# C109: natural gradients and Fisher-weighted averaging with damped inverses
-/

namespace Curvlinops

open Matrix Filter Topology

variable {n : Nat}

/-! ## Arithmetic of SciPy's operators -/

theorem zipWith_ofFn {α : Type _} {n : Nat} (f : α → α → α) (u v : Fin n → α) :
    List.zipWith f (List.ofFn u) (List.ofFn v) = List.ofFn fun i => f (u i) (v i) := by
  refine List.ext_getElem (by simp) fun i h1 h2 => ?_
  simp

theorem map2_matVal {m K : Nat} (X Y : Matrix (Fin m) (Fin K) ℝ) :
    (matVal X).map2 (· + ·) (matVal Y) = .ok (matVal (X + Y)) := by
  unfold matVal
  simp only [NpVal.map2, List.length_ofFn, and_self, if_true]
  congr 2
  refine List.ext_getElem (by simp) fun k h1 h2 => ?_
  simp [zipWith_ofFn]

theorem matVal_one {m : Nat} (X : Matrix (Fin m) (Fin 1) ℝ) : matVal X = .mat m [List.ofFn fun i => X i 0] := by
  simp [matVal]

theorem matVal_two {m K : Nat} (X : Matrix (Fin m) (Fin (K + 2)) ℝ) : ∃ c c' cs, matVal X = .mat m (c :: c' :: cs) := by
  unfold matVal
  rw [List.ofFn_succ, List.ofFn_succ]
  exact ⟨_, _, _, rfl⟩

theorem matVal_reshapeCol {m : Nat} (X : Matrix (Fin m) (Fin 1) ℝ) : (matVal X).reshapeCol m = .ok (matVal X) := by
  rw [matVal_one]
  have e := ravel_col (List.ofFn fun i => X i 0)
  rw [List.length_ofFn] at e
  simp only [NpVal.reshapeCol, e, List.length_ofFn, if_true]

/-- An operator whose implementations multiply with a matrix. -/
theorem matRep_of_impl {m n : Nat} {L : SciOp ℝ} {A : Matrix (Fin m) (Fin n) ℝ} (hr : L.rows = m) (hc : L.cols = n) {K : Nat} (hK : 1 ≤ K)
    (h1 : ∀ X : Matrix (Fin n) (Fin K) ℝ, K = 1 → L.matvecImpl (matVal X) = .ok (matVal (A * X)))
    (h2 : ∀ (X : Matrix (Fin n) (Fin K) ℝ) r cs, 2 ≤ K → matVal X = .mat r cs → L.matmatImpl r cs = .ok (matVal (A * X))) :
    MatRepAt L A K := by
  intro X
  change L.dot (matVal X) = .ok (matVal (A * X))
  match K, hK with
  | 1, _ =>
    have e := h1 X rfl
    rw [matVal_one X] at e ⊢
    simp only [SciOp.dot, SciOp.matvec, hc, if_true, e, hr, matVal_reshapeCol]
  | K + 2, _ =>
    obtain ⟨c, c', cs, e⟩ := matVal_two X
    have := h2 X _ _ (by omega) e
    rw [e]
    simp only [SciOp.dot, SciOp.matmat, hc, if_true, this]

/-- Sums of operators multiply with the sums of the matrices. -/
theorem add_rep {m n : Nat} {A B : SciOp ℝ} {M N : Matrix (Fin m) (Fin n) ℝ} (hA : VecRep A M) (hB : VecRep B N) :
    ∃ S, A.add B = .ok S ∧ VecRep S (M + N) ∧ ∀ K, 1 ≤ K → MatRepAt A M K → MatRepAt B N K → MatRepAt S (M + N) K := by
  obtain ⟨a1, a2, a3⟩ := hA
  obtain ⟨b1, b2, b3⟩ := hB
  refine ⟨A.sumOf B, if_pos ⟨a1.trans b1.symm, a2.trans b2.symm⟩, ⟨a1, a2, fun x => ?_⟩, fun K hK hA hB => ?_⟩
  · refine dot_vec_of_impl (by simp [SciOp.sumOf, a2]) (by simp [SciOp.sumOf, a1]) ?_
    have h1 : A.matvec (.vec (List.ofFn x)) = _ := a3 x
    have h2 : B.matvec (.vec (List.ofFn x)) = _ := b3 x
    simp only [SciOp.sumOf, h1, h2]
    simp only [NpVal.map2, List.length_ofFn, if_true, zipWith_ofFn, Matrix.add_mulVec]
    rfl
  · refine matRep_of_impl (L := A.sumOf B) a1 a2 hK (fun X h => ?_) fun X r cs h hX => ?_
    · subst h
      have h1 : A.dot (matVal X) = .ok (matVal (M * X)) := hA X
      have h2 : B.dot (matVal X) = .ok (matVal (N * X)) := hB X
      rw [Matrix.add_mul, ← map2_matVal]
      rw [matVal_one X] at h1 h2 ⊢
      simp only [SciOp.dot] at h1 h2
      simp only [SciOp.sumOf, h1, h2]
    · obtain ⟨K, rfl⟩ : ∃ q, K = q + 2 := ⟨K - 2, by omega⟩
      have h1 : A.dot (matVal X) = .ok (matVal (M * X)) := hA X
      have h2 : B.dot (matVal X) = .ok (matVal (N * X)) := hB X
      rw [Matrix.add_mul, ← map2_matVal]
      obtain ⟨c, c', cs', e⟩ := matVal_two X
      rw [e] at h1 h2 hX
      obtain ⟨rfl, rfl⟩ : _ = r ∧ _ = cs := by simpa using hX
      simp only [SciOp.dot] at h1 h2
      simp only [SciOp.sumOf, h1, h2]

/-- Operators of different shapes cannot be added. -/
theorem add_shape {α : Type _} [Add α] (A B : SciOp α) (h : A.rows ≠ B.rows ∨ A.cols ≠ B.cols) : A.add B = .error .valueError := by
  unfold SciOp.add
  rw [if_neg (by tauto)]

theorem damping_rep (δ : ℝ) : VecRep (dampingOp n δ) (δ • (1 : Matrix (Fin n) (Fin n) ℝ)) ∧
    ∀ K, 1 ≤ K → MatRepAt (dampingOp n δ) (δ • (1 : Matrix (Fin n) (Fin n) ℝ)) K := by
  have e : ∀ {K : Nat} (X : Matrix (Fin n) (Fin K) ℝ), NpVal.map1 (δ * ·) (matVal X) =
      matVal ((δ • (1 : Matrix (Fin n) (Fin n) ℝ)) * X) := by
    intro K X
    simp only [matVal, NpVal.map1, List.map_ofFn, Matrix.smul_mul, Matrix.one_mul]
    congr 2
    funext k
    simp [Function.comp_def]
  refine ⟨⟨rfl, rfl, fun x => dot_vec_of_impl (by simp [dampingOp]) (by simp [dampingOp]) ?_⟩, fun K hK => ?_⟩
  · simp only [dampingOp, NpVal.map1, List.map_ofFn, Matrix.smul_mulVec, Matrix.one_mulVec]
    rfl
  · refine matRep_of_impl (m := n) (n := n) rfl rfl hK (fun X _ => ?_) fun X r cs _ hX => ?_
    · simp only [dampingOp, e]
    · simp only [dampingOp, ← hX, e]

/-- **C109**: `GGN + damping` multiplies vectors and matrices with the damped matrix. -/
theorem damped_rep {A : SciOp ℝ} {M : Matrix (Fin n) (Fin n) ℝ} (hA : VecRep A M) (δ : ℝ) :
    ∃ D, dampedSci A δ = .ok D ∧ VecRep D (M + δ • 1) ∧ ∀ K, 1 ≤ K → MatRepAt A M K → MatRepAt D (M + δ • 1) K := by
  obtain ⟨h1, h2⟩ := damping_rep (n := n) δ
  obtain ⟨S, s1, s2, s3⟩ := add_rep hA h1
  refine ⟨S, ?_, s2, fun K hK h => s3 K hK h (h2 K hK)⟩
  unfold dampedSci
  rw [hA.1]
  exact s1

/-! ## Damped systems -/

/-- A symmetric positive semi-definite matrix. -/
def SymPsd (M : Matrix (Fin n) (Fin n) ℝ) : Prop := Mᵀ = M ∧ ∀ v, 0 ≤ v ⬝ᵥ M *ᵥ v

theorem damped_quad (M : Matrix (Fin n) (Fin n) ℝ) (δ : ℝ) (v : Fin n → ℝ) :
    v ⬝ᵥ (M + δ • 1) *ᵥ v = v ⬝ᵥ M *ᵥ v + δ * sqNorm v := by
  rw [Matrix.add_mulVec, Matrix.smul_mulVec, Matrix.one_mulVec, dotProduct_add, dotProduct_smul, sqNorm_eq, smul_eq_mul]

theorem sqNorm_nonneg' (v : Fin n → ℝ) : 0 ≤ sqNorm v := Finset.sum_nonneg fun _ _ => sq_nonneg _

/-- Damped systems have exactly one solution. -/
theorem damped_solution {M : Matrix (Fin n) (Fin n) ℝ} (hM : SymPsd M) {δ : ℝ} (hδ : 0 < δ) (b : Fin n → ℝ) :
    ∃! x, (M + δ • 1) *ᵥ x = b := by
  have hinj : Function.Injective (Matrix.mulVecLin (M + δ • 1)) := by
    rw [← LinearMap.ker_eq_bot, LinearMap.ker_eq_bot']
    intro v hv
    have h := damped_quad M δ v
    rw [show (M + δ • 1) *ᵥ v = 0 from hv, dotProduct_zero] at h
    have h2 := hM.2 v
    have h3 := sqNorm_nonneg' v
    have h4 : sqNorm v = 0 := by nlinarith
    rw [sqNorm_eq] at h4
    exact dotProduct_self_eq_zero.mp h4
  obtain ⟨x, hx⟩ := LinearMap.injective_iff_surjective.mp hinj b
  exact ⟨x, hx, fun y hy => hinj (Eq.trans hy hx.symm)⟩

/-- An approximate solution with residual `r` differs from the solution at most by the norm of `r` divided by the damping; measured with
the matrix by the squared norm of `r` divided by the damping. -/
theorem damped_error {M : Matrix (Fin n) (Fin n) ℝ} (hM : SymPsd M) {δ : ℝ} (hδ : 0 < δ) {b x y : Fin n → ℝ}
    (hx : (M + δ • 1) *ᵥ x = b) :
    δ ^ 2 * sqNorm (y - x) ≤ sqNorm (b - (M + δ • 1) *ᵥ y) ∧
    δ * ((y - x) ⬝ᵥ (M + δ • 1) *ᵥ (y - x)) ≤ sqNorm (b - (M + δ • 1) *ᵥ y) := by
  set v := y - x with hv
  have hr : b - (M + δ • 1) *ᵥ y = -((M + δ • 1) *ᵥ v) := by rw [hv, Matrix.mulVec_sub, hx]; abel
  set u := (M + δ • 1) *ᵥ v with hu
  have h1 : δ * sqNorm v ≤ v ⬝ᵥ u := by
    rw [hu, damped_quad]
    linarith [hM.2 v]
  have h2 : 0 ≤ sqNorm (u - δ • v) := sqNorm_nonneg' _
  have h3 : sqNorm (u - δ • v) = sqNorm u - 2 * δ * (v ⬝ᵥ u) + δ ^ 2 * sqNorm v := by
    rw [sqNorm_eq, sub_dotProduct, dotProduct_sub, dotProduct_sub, smul_dotProduct, smul_dotProduct, dotProduct_smul, dotProduct_smul,
      dotProduct_comm u v, sqNorm_eq, sqNorm_eq]
    simp only [smul_eq_mul]
    ring
  have h4 : sqNorm (b - (M + δ • 1) *ᵥ y) = sqNorm u := by rw [hr, sqNorm_eq, sqNorm_eq]; simp
  rw [h4]
  constructor <;> nlinarith

/-! ## The contract of CG -/

/-- SciPy's documentation of `cg` for a symmetric positive definite operator and an exit code that reports success: the residual is at
most `tol` times the norm of the right-hand side. -/
def CGSolves {Obj : Type _} (n : Nat) (cg : SciOp ℝ → NpVal ℝ → CGHyper Obj → Py (NpVal ℝ × Int)) (h : CGHyper Obj) (τ : ℝ) : Prop :=
  ∀ (L : SciOp ℝ) (A : Matrix (Fin n) (Fin n) ℝ), VecRep L A → Aᵀ = A → (∀ v, v ≠ 0 → 0 < v ⬝ᵥ A *ᵥ v) → ∀ b : Fin n → ℝ,
    ∃ x : Fin n → ℝ, cg L (.vec (List.ofFn b)) h = .ok (.vec (List.ofFn x), 0) ∧ sqNorm (b - A *ᵥ x) ≤ τ ^ 2 * sqNorm b

section cg

variable {Obj : Type _} (cg : SciOp ℝ → NpVal ℝ → CGHyper Obj → Py (NpVal ℝ × Int)) (calls : List (CGArgs Obj)) {τ : ℝ}
  (hcg : CGSolves n cg (cgExpected (lastArgs {} calls)) τ)

include hcg

theorem cg_damped {D : SciOp ℝ} {M : Matrix (Fin n) (Fin n) ℝ} (hM : SymPsd M) {δ : ℝ} (hδ : 0 < δ) (hD : VecRep D (M + δ • 1))
    (b : Fin n → ℝ) : ∃ x : Fin n → ℝ, ((calls.foldl CGState.set (mkCG D)).toSci cg).dot (.vec (List.ofFn b)) = .ok (.vec (List.ofFn x)) ∧
      sqNorm (b - (M + δ • 1) *ᵥ x) ≤ τ ^ 2 * sqNorm b := by
  obtain ⟨x, x1, x2⟩ := hcg D _ hD (by rw [transpose_add, transpose_smul, transpose_one, hM.1]) (fun v hv => by
    rw [damped_quad]
    have h1 := hM.2 v
    have h2 : 0 < sqNorm v := by
      rw [sqNorm_eq]
      exact lt_of_le_of_ne (by rw [← sqNorm_eq]; exact sqNorm_nonneg' v) fun h => hv (dotProduct_self_eq_zero.mp h.symm)
    have := mul_pos hδ h2
    linarith) b
  exact ⟨x, cg_forward cg D calls _ _ 0 (by simp [hD.2.1]) (by simp [hD.1]) x1, x2⟩

/-- **C109** (natural gradient): for an operator with a symmetric positive semi-definite matrix `M`, damping `δ > 0` and CG with tolerance
`τ`, `CGInverseLinearOperator(GGN + damping) @ g` differs from the solution of `(M + δ) x = g` at most by `τ / δ` times the norm of `g`. -/
theorem cgSolve_error {A : SciOp ℝ} {M : Matrix (Fin n) (Fin n) ℝ} (hA : VecRep A M) (hM : SymPsd M) {δ : ℝ} (hδ : 0 < δ)
    (g : Fin n → ℝ) :
    ∃ x y : Fin n → ℝ, ((M + δ • 1) *ᵥ x = g ∧ ∀ x', (M + δ • 1) *ᵥ x' = g → x' = x) ∧
      cgSolve cg calls A δ (.vec (List.ofFn g)) = .ok (.vec (List.ofFn y)) ∧ sqNorm (y - x) ≤ (τ / δ) ^ 2 * sqNorm g := by
  obtain ⟨D, d1, d2, -⟩ := damped_rep hA δ
  obtain ⟨y, y1, y2⟩ := cg_damped cg calls hcg hM hδ d2 g
  obtain ⟨x, x1, x2⟩ := damped_solution hM hδ g
  refine ⟨x, y, ⟨x1, x2⟩, by unfold cgSolve; rw [d1]; exact y1, ?_⟩
  have h := (damped_error hM hδ (y := y) x1).1.trans y2
  rw [div_pow, div_mul_eq_mul_div, le_div_iff₀ (by positivity)]
  linarith

/-- **C109** (descent): if the largest eigenvalue of the undamped matrix is at most `l` and the tolerance of CG is smaller than
`δ / (l + δ)`, every sufficiently small step against the natural gradient that CG returns decreases the function. -/
theorem cgSolve_descent (F : (Fin n → ℝ) → ℝ) (θ : Fin n → ℝ) (hF : DifferentiableAt ℝ F θ) (hne : ∃ i, pderiv F i θ ≠ 0)
    {A : SciOp ℝ} {M : Matrix (Fin n) (Fin n) ℝ} (hA : VecRep A M) (hM : SymPsd M) {l : ℝ}
    (hl : ∀ v, v ⬝ᵥ M *ᵥ v ≤ l * sqNorm v) (hl0 : 0 ≤ l) {δ : ℝ} (hδ : 0 < δ) (hτ0 : 0 ≤ τ) (hτ : τ * (l + δ) < δ) :
    ∃ y : Fin n → ℝ, cgSolve cg calls A δ (.vec (List.ofFn fun i => pderiv F i θ)) = .ok (.vec (List.ofFn y)) ∧ Decreases F θ y := by
  set g : Fin n → ℝ := fun i => pderiv F i θ with hg
  obtain ⟨x, y, ⟨x1, -⟩, y1, y2⟩ := cgSolve_error cg calls hcg hA hM hδ g
  refine ⟨y, y1, decreases_of_pos hF ?_⟩
  have hg0 : 0 < sqNorm g := by
    obtain ⟨i, hi⟩ := hne
    exact Finset.sum_pos' (fun _ _ => sq_nonneg _) ⟨i, Finset.mem_univ _, sq_pos_of_ne_zero hi⟩
  have hs : (M + δ • 1)ᵀ = M + δ • 1 := by rw [transpose_add, transpose_smul, transpose_one, hM.1]
  have hc : 0 < l + δ := by linarith
  have h1 := sq_product_le (c := (l + δ)⁻¹) (by positivity) (M + δ • 1) hs (fun v => by
    rw [damped_quad]
    have := mul_nonneg hδ.le (sqNorm_nonneg' v)
    linarith [hM.2 v]) (fun v => by
    rw [damped_quad, ← sqNorm_eq, inv_mul_le_iff₀ hc]
    linarith [hl v]) x
  rw [x1, ← sqNorm_eq] at h1
  -- `g · y ≥ g · x - |g| |y - x|`
  have h2 : g ⬝ᵥ y = x ⬝ᵥ g + g ⬝ᵥ (y - x) := by rw [dotProduct_sub, dotProduct_comm x g]; ring
  have h3 : -(τ / δ * sqNorm g) ≤ g ⬝ᵥ (y - x) := by
    have hk : 0 ≤ sqNorm (y - x + (τ / δ) • g) := sqNorm_nonneg' _
    have e : sqNorm (y - x + (τ / δ) • g) = sqNorm (y - x) + 2 * (τ / δ) * (g ⬝ᵥ (y - x)) + (τ / δ) ^ 2 * sqNorm g := by
      rw [sqNorm_eq, add_dotProduct, dotProduct_add, dotProduct_add, smul_dotProduct, smul_dotProduct, dotProduct_smul, dotProduct_smul,
        dotProduct_comm (y - x) g, sqNorm_eq, sqNorm_eq]
      simp only [smul_eq_mul]
      ring
    rcases hτ0.eq_or_lt with h | h
    · rw [← h] at y2 ⊢
      simp only [zero_div, ne_eq, OfNat.ofNat_ne_zero, not_false_eq_true, zero_pow, zero_mul, neg_zero] at y2 ⊢
      have h0 : sqNorm (y - x) = 0 := le_antisymm y2 (sqNorm_nonneg' _)
      rw [sqNorm_eq] at h0
      rw [dotProduct_self_eq_zero.mp h0, dotProduct_zero]
    · have hp : 0 < τ / δ := div_pos h hδ
      nlinarith
  have h4 : τ / δ < (l + δ)⁻¹ := by
    rw [div_lt_iff₀ hδ, inv_mul_eq_div, lt_div_iff₀ hc]
    exact hτ
  have h5 : 0 < g ⬝ᵥ y := by
    rw [h2]
    nlinarith
  exact h5

end cg

/-! ## Neumann series of the damped operator -/

/-- **C109** (Neumann series): if `maxEig` is the largest eigenvalue of the damped matrix (as `eigsh` promises), the scale of the example
makes products with `NeumannInverseLinearOperator(GGN + damping, scale, num_terms)` converge to the solution of the damped system. -/
theorem neumann_example {A : SciOp ℝ} {M : Matrix (Fin n) (Fin n) ℝ} (hA : VecRep A M) (hM : SymPsd M) {δ : ℝ} (hδ : 0 < δ) (maxEig : ℝ)
    (hmax : ∀ l, IsEigenvalue (M + δ • 1) l → l ≤ maxEig) (hy : Nat → NeumannHyper ℝ) (hscale : ∀ T, (hy T).scale = neumannScale maxEig)
    (hterms : ∀ T, (hy T).numTerms = T) (g : Fin n → ℝ) :
    ∃ D, dampedSci A δ = .ok D ∧ ∃ (y : Nat → Fin n → ℝ) (x : Fin n → ℝ), (M + δ • 1) *ᵥ x = g ∧
      (∀ T, (neumannOp (fun _ => false) D (hy T)).dot (.vec (List.ofFn g)) = .ok (.vec (List.ofFn (y T)))) ∧
      Tendsto y atTop (𝓝 x) := by
  obtain ⟨D, d1, d2, -⟩ := damped_rep hA δ
  have hs : (M + δ • 1)ᵀ = M + δ • 1 := by rw [transpose_add, transpose_smul, transpose_one, hM.1]
  have key : ∀ (l : ℝ) (x : Fin n → ℝ), x ≠ 0 → (M + δ • 1) *ᵥ x = l • x →
      0 < neumannScale maxEig * l ∧ neumannScale maxEig * l < 2 := by
    intro l x hx hl
    have h1 := damped_quad M δ x
    rw [hl, dotProduct_smul, ← sqNorm_eq, smul_eq_mul] at h1
    have hx2 : 0 < sqNorm x := by
      rw [sqNorm_eq]
      exact lt_of_le_of_ne (by rw [← sqNorm_eq]; exact sqNorm_nonneg' x) fun h => hx (dotProduct_self_eq_zero.mp h.symm)
    have hl0 : 0 < l := by
      have h2 := hM.2 x
      have h3 := mul_pos hδ hx2
      by_contra hn
      nlinarith
    have hl1 := hmax l ⟨x, hx, hl⟩
    unfold neumannScale
    split_ifs with h
    · exact ⟨by linarith, by linarith⟩
    · have hm : 0 < maxEig := by linarith
      refine ⟨by positivity, ?_⟩
      rw [div_mul_eq_mul_div, div_lt_iff₀ hm]
      nlinarith
  obtain ⟨hu, ht⟩ := neumann_converges (M + δ • 1) hs (neumannScale maxEig) key g
  refine ⟨D, d1, _, _, ?_, fun T => ?_, ht⟩
  · rw [Matrix.mulVec_mulVec, Matrix.mul_nonsing_inv _ hu, Matrix.one_mulVec]
  · have := neumann_vec D _ d2 (hy T) g
    rwa [hscale, hterms] at this

/-! ## Fisher-weighted averaging -/

/-- A task: the exported Fisher, its matrix, and the trained parameters. -/
structure MergeTask (n : Nat) where
  op : SciOp ℝ
  F : Matrix (Fin n) (Fin n) ℝ
  θ : Fin n → ℝ

/-- Specification: how much parameters differ from those of all tasks, measured with the Fishers, plus `δ` times their squared norm. -/
def mergeLoss (ts : List (MergeTask n)) (δ : ℝ) (θ : Fin n → ℝ) : ℝ :=
  (ts.map fun t => (θ - t.θ) ⬝ᵥ t.F *ᵥ (θ - t.θ)).sum + δ * sqNorm θ

theorem map2_vec (u v : Fin n → ℝ) :
    (NpVal.vec (List.ofFn u)).map2 (· + ·) (.vec (List.ofFn v)) = .ok (.vec (List.ofFn (u + v))) := by
  simp only [NpVal.map2, List.length_ofFn, if_true, zipWith_ofFn]
  rfl

theorem weightedSum_spec (ts : List (MergeTask n)) (h : ∀ t ∈ ts, VecRep t.op t.F) (acc : Fin n → ℝ) :
    weightedSum (ts.map fun t => (t.op, .vec (List.ofFn t.θ))) (some (.vec (List.ofFn acc))) =
      .ok (some (.vec (List.ofFn (acc + (ts.map fun t => t.F *ᵥ t.θ).sum)))) := by
  induction ts generalizing acc with
  | nil => simp [weightedSum]
  | cons t ts ih =>
    simp only [List.map_cons, weightedSum, (h t (by simp)).2.2, map2_vec, List.sum_cons]
    rw [ih (fun t ht => h t (by simp [ht])), add_assoc]

theorem addAll_spec (ts : List (MergeTask n)) (h : ∀ t ∈ ts, VecRep t.op t.F) {S : SciOp ℝ} {A : Matrix (Fin n) (Fin n) ℝ}
    (hS : VecRep S A) : ∃ S', addAll (ts.map MergeTask.op) S = .ok S' ∧ VecRep S' (A + (ts.map MergeTask.F).sum) := by
  induction ts generalizing S A with
  | nil => exact ⟨S, rfl, by simpa using hS⟩
  | cons t ts ih =>
    obtain ⟨S1, s1, s2, -⟩ := add_rep hS (h t (by simp))
    obtain ⟨S', r1, r2⟩ := ih (fun t ht => h t (by simp [ht])) s2
    refine ⟨S', ?_, ?_⟩
    · simp only [List.map_cons, addAll, s1, r1]
    · rwa [List.map_cons, List.sum_cons, ← add_assoc]

theorem sum_symPsd (ts : List (MergeTask n)) (h : ∀ t ∈ ts, SymPsd t.F) : SymPsd (ts.map MergeTask.F).sum := by
  induction ts with
  | nil => exact ⟨by simp, by simp⟩
  | cons t ts ih =>
    obtain ⟨h1, h2⟩ := h t (by simp)
    obtain ⟨h3, h4⟩ := ih fun t ht => h t (by simp [ht])
    rw [List.map_cons, List.sum_cons]
    refine ⟨by rw [transpose_add, h1, h3], fun v => ?_⟩
    rw [Matrix.add_mulVec, dotProduct_add]
    exact add_nonneg (h2 v) (h4 v)

theorem sum_mulVec' (ts : List (MergeTask n)) (v : Fin n → ℝ) :
    (ts.map MergeTask.F).sum *ᵥ v = (ts.map fun t => t.F *ᵥ v).sum := by
  induction ts with
  | nil => simp
  | cons t ts ih => simp only [List.map_cons, List.sum_cons, Matrix.add_mulVec, ih]

/-- Completing the square: around the solution `x`, the specification is quadratic. -/
theorem mergeLoss_expand (ts : List (MergeTask n)) (hs : ∀ t ∈ ts, SymPsd t.F) (δ : ℝ) {x : Fin n → ℝ}
    (hx : ((ts.map MergeTask.F).sum + δ • 1) *ᵥ x = (ts.map fun t => t.F *ᵥ t.θ).sum) (y : Fin n → ℝ) :
    mergeLoss ts δ y = mergeLoss ts δ x + (y - x) ⬝ᵥ ((ts.map MergeTask.F).sum + δ • 1) *ᵥ (y - x) := by
  have e1 : ∀ (ts : List (MergeTask n)), (∀ t ∈ ts, SymPsd t.F) → (ts.map fun t => (y - t.θ) ⬝ᵥ t.F *ᵥ (y - t.θ)).sum =
      (ts.map fun t => (x - t.θ) ⬝ᵥ t.F *ᵥ (x - t.θ)).sum + (y - x) ⬝ᵥ (ts.map MergeTask.F).sum *ᵥ (y - x) +
      2 * ((y - x) ⬝ᵥ ((ts.map MergeTask.F).sum *ᵥ x - (ts.map fun t => t.F *ᵥ t.θ).sum)) := by
    intro ts hs
    induction ts with
    | nil => simp
    | cons t ts ih =>
      have h := ih fun t ht => hs t (by simp [ht])
      simp only [List.map_cons, List.sum_cons]
      rw [h]
      have hd : y - t.θ = (y - x) + (x - t.θ) := by abel
      have hsym : (x - t.θ) ⬝ᵥ t.F *ᵥ (y - x) = (y - x) ⬝ᵥ t.F *ᵥ (x - t.θ) := by
        rw [Matrix.dotProduct_mulVec, ← Matrix.mulVec_transpose, (hs t (by simp)).1, dotProduct_comm]
      have e : (y - t.θ) ⬝ᵥ t.F *ᵥ (y - t.θ) = (x - t.θ) ⬝ᵥ t.F *ᵥ (x - t.θ) + (y - x) ⬝ᵥ t.F *ᵥ (y - x) +
          2 * ((y - x) ⬝ᵥ (t.F *ᵥ x - t.F *ᵥ t.θ)) := by
        rw [hd, Matrix.mulVec_add, add_dotProduct, dotProduct_add, dotProduct_add, hsym, ← Matrix.mulVec_sub]
        ring
      rw [e]
      simp only [Matrix.add_mulVec, dotProduct_add, dotProduct_sub]
      ring
  unfold mergeLoss
  rw [e1 ts hs]
  have e2 : (ts.map MergeTask.F).sum *ᵥ x - (ts.map fun t => t.F *ᵥ t.θ).sum = -(δ • x) := by
    rw [← hx, Matrix.add_mulVec, Matrix.smul_mulVec, Matrix.one_mulVec]
    abel
  rw [e2, Matrix.add_mulVec, dotProduct_add, Matrix.smul_mulVec, Matrix.one_mulVec, dotProduct_smul, ← sqNorm_eq]
  have e3 : sqNorm y = sqNorm x + sqNorm (y - x) + 2 * ((y - x) ⬝ᵥ x) := by
    rw [sqNorm_eq, sqNorm_eq, sqNorm_eq, sub_dotProduct, sub_dotProduct, dotProduct_sub, dotProduct_sub, dotProduct_comm x y]
    ring
  rw [e3, dotProduct_neg, dotProduct_smul, smul_eq_mul, smul_eq_mul]
  ring

/-- **C109** (merging): for at least one task, Fishers with symmetric positive semi-definite matrices, and damping `δ > 0`, there is
exactly one minimizer `x` of the Fisher-weighted distance to all tasks' parameters; it solves the system of the example. With CG of
tolerance `τ`, the merged parameters of the example differ from it at most by `τ / δ` times the norm of the right-hand side, and their
weighted distance is at most `τ² / δ` times the squared norm above the minimum. -/
theorem mergeParams_spec {Obj : Type _} (cg : SciOp ℝ → NpVal ℝ → CGHyper Obj → Py (NpVal ℝ × Int)) (calls : List (CGArgs Obj)) {τ : ℝ}
    (hcg : CGSolves n cg (cgExpected (lastArgs {} calls)) τ) (ts : List (MergeTask n)) (hne : ts ≠ [])
    (hF : ∀ t ∈ ts, VecRep t.op t.F ∧ SymPsd t.F) {δ : ℝ} (hδ : 0 < δ) :
    ∃ x y b : Fin n → ℝ, b = (ts.map fun t => t.F *ᵥ t.θ).sum ∧ ((ts.map MergeTask.F).sum + δ • 1) *ᵥ x = b ∧
      (∀ z, z ≠ x → mergeLoss ts δ x < mergeLoss ts δ z) ∧
      mergeParams cg calls δ (ts.map MergeTask.op) (ts.map fun t => .vec (List.ofFn t.θ)) = .ok (.vec (List.ofFn y)) ∧
      sqNorm (y - x) ≤ (τ / δ) ^ 2 * sqNorm b ∧ mergeLoss ts δ y ≤ mergeLoss ts δ x + τ ^ 2 / δ * sqNorm b := by
  have hM := sum_symPsd ts fun t ht => (hF t ht).2
  set M := (ts.map MergeTask.F).sum with hMdef
  set b := (ts.map fun t => t.F *ᵥ t.θ).sum with hb
  obtain ⟨S, s1, s2⟩ := addAll_spec ts (fun t ht => (hF t ht).1) (damping_rep (n := n) δ).1
  rw [← hMdef, add_comm] at s2
  obtain ⟨y, y1, y2⟩ := cg_damped cg calls hcg hM hδ s2 b
  obtain ⟨x, x1, -⟩ := damped_solution hM hδ b
  have hexp := mergeLoss_expand ts (fun t ht => (hF t ht).2) δ (x := x) x1
  obtain ⟨r1, r2⟩ := damped_error hM hδ (y := y) x1
  refine ⟨x, y, b, rfl, x1, fun z hz => ?_, ?_, ?_, ?_⟩
  · rw [hexp z, ← hMdef, damped_quad]
    have h1 := hM.2 (z - x)
    have h2 : 0 < sqNorm (z - x) := by
      rw [sqNorm_eq]
      exact lt_of_le_of_ne (by rw [← sqNorm_eq]; exact sqNorm_nonneg' _) fun h => hz (sub_eq_zero.mp (dotProduct_self_eq_zero.mp h.symm))
    have := mul_pos hδ h2
    linarith
  · obtain ⟨t, ts', rfl⟩ := List.exists_cons_of_ne_nil hne
    have hw : weightedSum (((t :: ts').map MergeTask.op).zip ((t :: ts').map fun t => .vec (List.ofFn t.θ))) none =
        .ok (some (.vec (List.ofFn b))) := by
      rw [List.zip_map', List.map_cons]
      simp only [weightedSum, (hF t (by simp)).1.2.2]
      rw [weightedSum_spec ts' fun t ht => (hF t (by simp [ht])).1]
      simp [hb]
    unfold mergeParams
    rw [hw]
    simp only [List.map_cons, List.head?_cons, (hF t (by simp)).1.1]
    rw [List.map_cons] at s1
    simp only [s1, y1]
  · rw [div_pow, div_mul_eq_mul_div, le_div_iff₀ (by positivity)]
    linarith [r1.trans y2]
  · rw [hexp y, div_mul_eq_mul_div]
    have := r2.trans y2
    rw [← hMdef]
    gcongr
    rw [le_div_iff₀ hδ]
    linarith

/-- **C109** (exceptions): no tasks: the example raises `IndexError`. A product that raises for the first task: its exception. Fishers of
different dimensions: `ValueError`. -/
theorem mergeParams_raises {Obj : Type _} (cg : SciOp ℝ → NpVal ℝ → CGHyper Obj → Py (NpVal ℝ × Int)) (calls : List (CGArgs Obj)) (δ : ℝ) :
    mergeParams cg calls δ [] [] = .error .indexError ∧
    (∀ (F : SciOp ℝ) (Fs : List (SciOp ℝ)) (θ : NpVal ℝ) (θs : List (NpVal ℝ)) (e : PyErr), F.dot θ = .error e →
      mergeParams cg calls δ (F :: Fs) (θ :: θs) = .error e) ∧
    ∀ (F G : SciOp ℝ) (θ θ' y y' : List ℝ), F.cols = F.rows → G.rows ≠ F.rows → F.dot (.vec θ) = .ok (.vec y) →
      G.dot (.vec θ') = .ok (.vec y') → mergeParams cg calls δ [F, G] [.vec θ, .vec θ'] = .error .valueError := by
  refine ⟨rfl, ?_, ?_⟩
  · intro F Fs θ θs e h
    simp [mergeParams, weightedSum, h]
  · intro F G θ θ' y y' h1 h2 h3 h4
    unfold mergeParams
    simp only [List.zip_cons_cons, List.zip_nil_right, weightedSum, h3, h4]
    by_cases hl : y.length = y'.length
    · simp only [NpVal.map2, if_pos hl, List.head?_cons, addAll]
      obtain ⟨S, hS⟩ : ∃ S, (dampingOp F.rows δ).add F = .ok S := ⟨_, if_pos ⟨rfl, h1.symm⟩⟩
      have hr : S = (dampingOp F.rows δ).sumOf F := by
        have := hS.symm.trans (if_pos ⟨rfl, h1.symm⟩)
        exact Except.ok.inj this
      rw [hS]
      simp only
      rw [add_shape S G (Or.inl (by rw [hr]; exact fun h => h2 h.symm))]
    · simp only [NpVal.map2, if_neg hl]

/-- The exported GGN as a task. -/
theorem ggn_symPsd {k : LossKind} {C : Nat} (mean : Bool) (T : Nat) (ds : List (List (Term k C))) :
    SymPsd (Mat.part (riskMatrix (redOf mean) (datumMatrix mean T lossHessian) ds) n n) := by
  obtain ⟨h1, h2⟩ := ggnLoss_symm_psd (k := k) (C := C) mean T n ds
  refine ⟨by ext i j; exact h1 j i, fun v => ?_⟩
  have := h2 (extend v)
  simp only [Finset.sum_range, extend_fin] at this
  refine this.trans_eq (Finset.sum_congr rfl fun i _ => ?_)
  show _ = v i * ∑ k : Fin n, riskMatrix (redOf mean) (datumMatrix mean T lossHessian) ds i k * v k
  rw [Finset.mul_sum]
  exact Finset.sum_congr rfl fun k _ => by ring

/-- **C109** (GGNs): every exported GGN, on any data and mini-batches, is a Fisher that `mergeParams_spec`, `cgSolve_error`,
`cgSolve_descent` and `neumann_example` can be applied to. -/
theorem ggn_task {k : LossKind} {C : Nat} (shapes : List (List Nat)) (hshapes : shapes ≠ []) (hn : total shapes = n) (mean : Bool) (T : Nat)
    (batches : List (List (List (Term k C)))) (hb : ∀ b ∈ batches, b ≠ []) (hT : ∀ b ∈ batches, ∀ d ∈ b, d.length = T) (dt : DType)
    (dtype : Option DType) :
    ∃ L, (OpObj.plain true (curvatureOp shapes (redOf mean) (inferNData List.length batches none) List.length
        (fun b => ggnLossBatch shapes mean b.flatten) batches)).toScipy dt dtype = .ok L ∧
      VecRep L.toSci (Mat.part (riskMatrix (redOf mean) (datumMatrix mean T lossHessian) batches.flatten) n n) ∧
      SymPsd (Mat.part (riskMatrix (redOf mean) (datumMatrix mean T lossHessian) batches.flatten) n n) := by
  obtain ⟨L, h1, h2, -⟩ := export_symmetric _ _ (ggnLossOp_represents shapes hshapes mean T batches hb hT) (n := n)
    (by rw [LinOp.nrows, LinOp.outFlat, curvatureOp_outShape]; exact hn)
    (by rw [LinOp.ncols, LinOp.inFlat, curvatureOp_inShape]; exact hn) (by rw [curvatureOp_outShape]; exact hshapes)
    (fun r _ c _ => (ggnLoss_symm_psd mean T n _).1 r c) dt dtype
  exact ⟨L, h1, h2, ggn_symPsd mean T _⟩

/-- The GGN operator of a task. -/
noncomputable def taskGGN {k : LossKind} {C : Nat} (shapes : List (List Nat)) (mean : Bool) (batches : List (List (List (Term k C)))) :
    OpObj ℝ :=
  OpObj.plain true (curvatureOp shapes (redOf mean) (inferNData List.length batches none) List.length
    (fun b => ggnLossBatch shapes mean b.flatten) batches)

/-- **C109** (end to end): Fisher-weighted averaging of any number of models of the same shapes, each trained on its own data: all GGNs
are exported, and the merged parameters are, up to the tolerance of CG, the only minimizer of
`Σ_t (θ - θ_t)ᵀ F_t (θ - θ_t) + δ |θ|²`, where `F_t` is the GGN matrix of task `t`. -/
theorem ggn_merge {Obj : Type _} (cg : SciOp ℝ → NpVal ℝ → CGHyper Obj → Py (NpVal ℝ × Int)) (calls : List (CGArgs Obj)) {τ : ℝ}
    (hcg : CGSolves n cg (cgExpected (lastArgs {} calls)) τ) {k : LossKind} {C : Nat} (shapes : List (List Nat)) (hshapes : shapes ≠ [])
    (hn : total shapes = n) (mean : Bool) (T : Nat) (tasks : List (List (List (List (Term k C))) × (Fin n → ℝ))) (hne : tasks ≠ [])
    (hb : ∀ t ∈ tasks, ∀ b ∈ t.1, b ≠ []) (hT : ∀ t ∈ tasks, ∀ b ∈ t.1, ∀ d ∈ b, d.length = T) (dt : DType) (dtype : Option DType)
    {δ : ℝ} (hδ : 0 < δ) :
    let F : List (List (List (Term k C))) → Matrix (Fin n) (Fin n) ℝ := fun batches =>
      Mat.part (riskMatrix (redOf mean) (datumMatrix mean T lossHessian) batches.flatten) n n
    let loss : (Fin n → ℝ) → ℝ := fun θ => (tasks.map fun t => (θ - t.2) ⬝ᵥ F t.1 *ᵥ (θ - t.2)).sum + δ * sqNorm θ
    ∃ Ls, pyMapM (fun t => (taskGGN shapes mean t.1).toScipy dt dtype) tasks = .ok Ls ∧
      ∃ x y : Fin n → ℝ, (∀ z, z ≠ x → loss x < loss z) ∧
        mergeParams cg calls δ (Ls.map ScipyOp.toSci) (tasks.map fun t => .vec (List.ofFn t.2)) = .ok (.vec (List.ofFn y)) ∧
        sqNorm (y - x) ≤ (τ / δ) ^ 2 * sqNorm (tasks.map fun t => F t.1 *ᵥ t.2).sum := by
  intro F loss
  have key : ∀ ts : List (List (List (List (Term k C))) × (Fin n → ℝ)), (∀ t ∈ ts, ∀ b ∈ t.1, b ≠ []) →
      (∀ t ∈ ts, ∀ b ∈ t.1, ∀ d ∈ b, d.length = T) →
      ∃ Ls, pyMapM (fun t => (taskGGN shapes mean t.1).toScipy dt dtype) ts = .ok Ls ∧ ∃ ms : List (MergeTask n),
        ms.map MergeTask.op = Ls.map ScipyOp.toSci ∧ ms.map MergeTask.θ = ts.map Prod.snd ∧ ms.map MergeTask.F = ts.map (fun t => F t.1) ∧
        ∀ m ∈ ms, VecRep m.op m.F ∧ SymPsd m.F := by
    intro ts hb hT
    induction ts with
    | nil => exact ⟨[], rfl, [], rfl, rfl, rfl, by simp⟩
    | cons t ts ih =>
      obtain ⟨Ls, l1, ms, m1, m2, m3, m4⟩ := ih (fun t ht => hb t (by simp [ht])) fun t ht => hT t (by simp [ht])
      obtain ⟨L, h1, h2, h3⟩ := ggn_task shapes hshapes hn mean T t.1 (hb t (by simp)) (hT t (by simp)) dt dtype
      refine ⟨L :: Ls, ?_, ⟨L.toSci, F t.1, t.2⟩ :: ms, by simp [m1], by simp [m2], by simp [m3], ?_⟩
      · have h1' : (taskGGN shapes mean t.1).toScipy dt dtype = .ok L := h1
        simp only [pyMapM, h1', l1]
      · intro m hm
        rcases List.mem_cons.mp hm with rfl | hm
        · exact ⟨h2, h3⟩
        · exact m4 m hm
  obtain ⟨Ls, l1, ms, m1, m2, m3, m4⟩ := key tasks hb hT
  have hms : ms ≠ [] := by
    rintro rfl
    exact hne (by simpa using m2.symm)
  have e1 : ∀ {β : Type} (g : Matrix (Fin n) (Fin n) ℝ → (Fin n → ℝ) → β), (ms.map fun t => g t.F t.θ) = tasks.map fun t => g (F t.1) t.2 := by
    intro β g
    have h : ms.map (fun t => (t.F, t.θ)) = tasks.map fun t => (F t.1, t.2) := by
      have := congrArg₂ List.zip m3 m2
      rwa [List.zip_map', List.zip_map'] at this
    have := congrArg (List.map fun p => g p.1 p.2) h
    simpa [Function.comp_def] using this
  obtain ⟨x, y, b, hb', -, x2, y1, y2, -⟩ := mergeParams_spec cg calls hcg ms hms m4 hδ
  have eloss : mergeLoss ms δ = loss := by
    funext θ
    unfold mergeLoss
    rw [e1 fun F θ' => (θ - θ') ⬝ᵥ F *ᵥ (θ - θ')]
  rw [eloss] at x2
  refine ⟨Ls, l1, x, y, x2, ?_, ?_⟩
  · rw [← m1, ← y1]
    congr 1
    have := congrArg (List.map fun θ : Fin n → ℝ => NpVal.vec (List.ofFn θ)) m2
    simpa [Function.comp_def] using this.symm
  · rw [hb', e1 fun F θ => F *ᵥ θ] at y2
    exact y2

/-! ## Examples -/

/-- A solver for one unknown: multiplies with `1` and divides. -/
noncomputable def divideCG (L : SciOp ℝ) (b : NpVal ℝ) (_ : CGHyper Unit) : Py (NpVal ℝ × Int) :=
  match L.mulVec [1] with
  | .error e => .error e
  | .ok a => .ok (b.map1 (· / a.headD 0), 0)

/-- It satisfies the contract of CG with any tolerance. -/
theorem divideCG_solves (h : CGHyper Unit) (τ : ℝ) : CGSolves 1 divideCG h τ := by
  intro L A hL _ hpos b
  have e : L.mulVec [1] = .ok [A 0 0] := by
    have := hL.mulVec fun _ => 1
    simpa [List.ofFn_succ, Matrix.mulVec, dotProduct] using this
  have hp : A 0 0 ≠ 0 := by
    have := hpos (fun _ => 1) fun h => one_ne_zero (congrFun h 0)
    simp [Matrix.mulVec, dotProduct] at this
    exact this.ne'
  refine ⟨fun i => b i / A 0 0, ?_, ?_⟩
  · simp only [divideCG, e, NpVal.map1, List.headD_cons, List.map_ofFn]
    rfl
  · have : b - A *ᵥ (fun i => b i / A 0 0) = 0 := by
      funext i
      obtain rfl := Subsingleton.elim i 0
      simp [Matrix.mulVec, dotProduct]
      field_simp
      ring
    rw [this]
    have : sqNorm (0 : Fin 1 → ℝ) = 0 := by simp [sqNorm]
    rw [this]
    exact mul_nonneg (sq_nonneg _) (sqNorm_nonneg' b)

/-- Two tasks with Fishers `1` and `3` and parameters `0` and `1`: with damping `1` the merged parameter is `3/5`. -/
example : mergeParams divideCG [] (1 : ℝ) [dampingOp 1 1, dampingOp 1 3] [.vec [0], .vec [1]] = .ok (.vec [3 / 5]) := by
  simp [mergeParams, weightedSum, addAll, SciOp.add, SciOp.sumOf, dampingOp, SciOp.dot, SciOp.matvec, NpVal.map1, NpVal.map2,
    NpVal.reshapeVec, NpVal.ravel, CGState.toSci, mkCG, divideCG, SciOp.mulVec]
  norm_num

/-- The same through the theorem: the result is the minimizer, up to the tolerance. -/
example : ∃ x y b : Fin 1 → ℝ, (∀ z : Fin 1 → ℝ, z ≠ x → x 0 * x 0 + 3 * ((x 0 - 1) * (x 0 - 1)) + x 0 ^ 2 <
      z 0 * z 0 + 3 * ((z 0 - 1) * (z 0 - 1)) + z 0 ^ 2) ∧
    mergeParams divideCG [] (1 : ℝ) [dampingOp 1 1, dampingOp 1 3] [.vec [0], .vec [1]] = .ok (.vec (List.ofFn y)) ∧
    sqNorm (y - x) ≤ (1 / 100000 / 1) ^ 2 * sqNorm b := by
  have h : ∀ c : ℝ, 0 ≤ c → SymPsd (c • (1 : Matrix (Fin 1) (Fin 1) ℝ)) := fun c hc =>
    ⟨by simp, fun v => by
      rw [Matrix.smul_mulVec, Matrix.one_mulVec, dotProduct_smul, ← sqNorm_eq]
      exact mul_nonneg hc (sqNorm_nonneg' v)⟩
  obtain ⟨x, y, b, -, -, h1, h2, h3, -⟩ := mergeParams_spec divideCG [] (divideCG_solves _ (1 / 100000))
    [⟨dampingOp 1 1, (1 : ℝ) • 1, ![0]⟩, ⟨dampingOp 1 3, (3 : ℝ) • 1, ![1]⟩] (by simp)
    (by
      intro t ht
      simp only [List.mem_cons, List.not_mem_nil, or_false] at ht
      rcases ht with rfl | rfl
      · exact ⟨(damping_rep 1).1, h 1 (by norm_num)⟩
      · exact ⟨(damping_rep 3).1, h 3 (by norm_num)⟩) one_pos
  refine ⟨x, y, b, fun z hz => ?_, by simpa [List.ofFn_succ] using h2, h3⟩
  have := h1 z hz
  simpa [mergeLoss, sqNorm, dotProduct, Matrix.smul_mulVec, mul_left_comm, Matrix.vecHead] using this

/-- Natural gradient of a function with derivative `6` for the Fisher `2` and damping `1`: `2`. -/
example : cgSolve divideCG [] (dampingOp 1 2) (1 : ℝ) (.vec [6]) = .ok (.vec [2]) := by
  simp [cgSolve, dampedSci, SciOp.add, SciOp.sumOf, dampingOp, SciOp.dot, SciOp.matvec, NpVal.map1, NpVal.map2,
    NpVal.reshapeVec, NpVal.ravel, CGState.toSci, mkCG, divideCG, SciOp.mulVec]
  norm_num

/-- The scales of the example for largest eigenvalues `3/2` and `4`. -/
example : neumannScale (3 / 2) = 1 ∧ neumannScale 4 = 0.4975 := by
  unfold neumannScale
  norm_num

end Curvlinops
