import Verif.Model.Deflation
import Verif.Props.Programs
import Verif.Props.KfacSpectrum
import Verif.Props.EstimatorVariance
import Verif.Props.Export

/-!
# C119: removing eigenpairs from an operator
-/

namespace Curvlinops

open Matrix MeasureTheory

variable {d k m : Nat}

/-! ## Arithmetic of SciPy's operators -/

/-- A multiple of an operator. -/
theorem scaled_rep {A : SciOp ℝ} {M : Matrix (Fin m) (Fin d) ℝ} (hA : VecRep A M) (c : ℝ) : VecRep (A.scaled c) (c • M) := by
  obtain ⟨a1, a2, a3⟩ := hA
  refine ⟨a1, a2, fun x => dot_vec_of_impl (by simp [SciOp.scaled, a2]) (by simp [SciOp.scaled, a1]) ?_⟩
  have h1 : A.matvec (.vec (List.ofFn x)) = _ := a3 x
  simp only [SciOp.scaled, h1, NpVal.map1, List.map_ofFn, Matrix.smul_mulVec]
  rfl

/-- A difference of operators. -/
theorem sub_rep {A B : SciOp ℝ} {M N : Matrix (Fin m) (Fin d) ℝ} (hA : VecRep A M) (hB : VecRep B N) :
    ∃ D, A.sub B = .ok D ∧ VecRep D (M - N) := by
  obtain ⟨D, h1, h2, -⟩ := add_rep hA (scaled_rep hB (-1))
  refine ⟨D, h1, ?_⟩
  rwa [neg_one_smul, ← sub_eq_add_neg] at h2

/-- **C119**: the deflated operator multiplies vectors with `M - ∑ⱼ cⱼ aⱼ aⱼᵀ`, for any numbers and columns. -/
theorem deflate_rep {A : SciOp ℝ} {M : Matrix (Fin d) (Fin d) ℝ} (hA : VecRep A M) (c : Fin k → ℝ) (V : Matrix (Fin d) (Fin k) ℝ) :
    ∃ D, deflate A d (List.ofFn c) (List.ofFn fun j => List.ofFn fun i => V i j) = .ok D ∧ VecRep D (M - outerMatrix c V) :=
  sub_rep hA (outer_vec_partial c V).1

/-- An array of eigenvectors with another number of rows is refused. -/
theorem deflate_shape {A : SciOp ℝ} {M : Matrix (Fin d) (Fin d) ℝ} (hA : VecRep A M) (r : Nat) (hr : r ≠ d) (evals : List ℝ)
    (evecs : List (List ℝ)) : deflate A r evals evecs = .error .valueError :=
  add_shape _ _ (Or.inl fun h => hr (by rw [hA.1] at h; exact h.symm))

/-- Errors of products with matrices pass through multiples and sums. -/
theorem scaled_dot_error (A : SciOp ℝ) (c : ℝ) (r : Nat) (cs : List (List ℝ)) (h : A.dot (.mat r cs) = .error .valueError) :
    (A.scaled c).dot (.mat r cs) = .error .valueError := by
  rcases cs with _ | ⟨x, _ | ⟨x', cs⟩⟩ <;> simp only [SciOp.dot] at h ⊢
  · by_cases hr : r = (A.scaled c).cols
    · rw [SciOp.matmat, if_pos hr]
      simp only [SciOp.scaled, h]
    · rw [SciOp.matmat, if_neg hr]
  · by_cases hr : r = (A.scaled c).cols
    · rw [SciOp.matvec, if_pos hr]
      simp only [SciOp.scaled, h]
    · rw [SciOp.matvec, if_neg hr]
  · by_cases hr : r = (A.scaled c).cols
    · rw [SciOp.matmat, if_pos hr]
      simp only [SciOp.scaled, h]
    · rw [SciOp.matmat, if_neg hr]

theorem sumOf_dot_error (A B : SciOp ℝ) (r : Nat) (cs : List (List ℝ)) (y : NpVal ℝ) (h1 : A.dot (.mat r cs) = .ok y)
    (h2 : B.dot (.mat r cs) = .error .valueError) : (A.sumOf B).dot (.mat r cs) = .error .valueError := by
  rcases cs with _ | ⟨x, _ | ⟨x', cs⟩⟩ <;> simp only [SciOp.dot] at h1 h2 ⊢
  · by_cases hr : r = (A.sumOf B).cols
    · rw [SciOp.matmat, if_pos hr]
      simp only [SciOp.sumOf, h1, h2]
    · rw [SciOp.matmat, if_neg hr]
  · by_cases hr : r = (A.sumOf B).cols
    · rw [SciOp.matvec, if_pos hr]
      simp only [SciOp.sumOf, h1, h2]
    · rw [SciOp.matvec, if_neg hr]
  · by_cases hr : r = (A.sumOf B).cols
    · rw [SciOp.matmat, if_pos hr]
      simp only [SciOp.sumOf, h1, h2]
    · rw [SciOp.matmat, if_neg hr]

/-- The deflated operator cannot be multiplied with matrices (because `OuterProductLinearOperator` cannot, see `outer_matrix_raises`). -/
theorem deflate_matrix_raises {A : SciOp ℝ} {M : Matrix (Fin d) (Fin d) ℝ} (hA : VecRep A M)
    (evals : List ℝ) (evecs : List (List ℝ)) : ∃ D, deflate A d evals evecs = .ok D ∧
      ∀ cs, (∃ y, A.dot (.mat d cs) = .ok y) → D.dot (.mat d cs) = .error .valueError := by
  obtain ⟨a1, a2, -⟩ := hA
  exact ⟨_, if_pos ⟨a1, a2⟩, fun cs ⟨y, hy⟩ => sumOf_dot_error _ _ _ _ y hy
    (scaled_dot_error _ _ _ _ (outer_matrix_raises (OuterState.mk d evals evecs) cs))⟩

/-! ## The spectrum -/

/-- Specification: the eigenvalues of a symmetric matrix, with multiplicities. -/
def Matrix.HasEigs (M : Matrix (Fin d) (Fin d) ℝ) (vals : List ℝ) : Prop := HasSpectrum d (natMat M) vals

/-- Specification: `c` and the columns of `V` are eigenpairs, with orthonormal vectors. -/
structure EigenPairs (M : Matrix (Fin d) (Fin d) ℝ) (c : Fin k → ℝ) (V : Matrix (Fin d) (Fin k) ℝ) : Prop where
  ortho : Vᵀ * V = 1
  eigen : ∀ j, M *ᵥ (fun i => V i j) = c j • fun i => V i j

theorem EigenPairs.dot {M : Matrix (Fin d) (Fin d) ℝ} {c : Fin k → ℝ} {V : Matrix (Fin d) (Fin k) ℝ} (h : EigenPairs M c V)
    (a b : Fin k) : (fun i => V i a) ⬝ᵥ (fun i => V i b) = if a = b then 1 else 0 := by
  have := congrFun (congrFun h.ortho a) b
  rwa [Matrix.mul_apply, Matrix.one_apply] at this

/-- Orthonormal eigenvectors can be completed. -/
theorem eigen_complete (M : Matrix (Fin d) (Fin d) ℝ) (hM : Mᵀ = M) (c : Fin k → ℝ) (V : Matrix (Fin d) (Fin k) ℝ)
    (h : EigenPairs M c V) : ∃ (m : Nat) (_ : k + m = d) (mu : Fin m → ℝ) (w : Fin m → Fin d → ℝ),
      (∀ a b, w a ⬝ᵥ w b = if a = b then 1 else 0) ∧ (∀ a j, (fun i => V i j) ⬝ᵥ w a = 0) ∧ ∀ a, M *ᵥ w a = mu a • w a := by
  let T := Matrix.toEuclideanLin M
  have hT : T.IsSymmetric := by
    rw [Matrix.isSymmetric_toEuclideanLin_iff, Matrix.IsHermitian, Matrix.conjTranspose_eq_transpose_of_trivial]
    exact hM
  let v : Fin k → EuclideanSpace ℝ (Fin d) := fun j => WithLp.toLp 2 fun i => V i j
  have hin : ∀ x y : EuclideanSpace ℝ (Fin d), inner ℝ x y = x.ofLp ⬝ᵥ y.ofLp := by
    intro x y
    rw [EuclideanSpace.inner_eq_star_dotProduct, dotProduct_comm]
    simp
  have hv : Orthonormal ℝ v := by
    rw [orthonormal_iff_ite]
    intro a b
    rw [hin]
    exact h.dot a b
  let W := (Submodule.span ℝ (Set.range v))ᗮ
  have hTv : ∀ j, T (v j) = c j • v j := by
    intro j
    ext i
    simpa [T, v, Matrix.toLpLin_apply] using congrFun (h.eigen j) i
  have hW : ∀ x ∈ W, T x ∈ W := by
    intro x hx
    rw [Submodule.mem_orthogonal] at hx ⊢
    intro u hu
    rw [← hT]
    have : T u ∈ Submodule.span ℝ (Set.range v) := by
      refine Submodule.span_induction (p := fun u _ => T u ∈ Submodule.span ℝ (Set.range v)) ?_ ?_ ?_ ?_ hu
      · rintro _ ⟨j, rfl⟩
        rw [hTv]
        exact Submodule.smul_mem _ _ (Submodule.subset_span ⟨j, rfl⟩)
      · simp
      · intro a b _ _ ha hb
        rw [map_add]
        exact Submodule.add_mem _ ha hb
      · intro a b _ hb
        rw [map_smul]
        exact Submodule.smul_mem _ _ hb
    exact hx _ this
  have hdim : k + Module.finrank ℝ W = d := by
    have h1 := Submodule.finrank_add_finrank_orthogonal (Submodule.span ℝ (Set.range v))
    rw [finrank_span_eq_card hv.linearIndependent] at h1
    simpa using h1
  have hR := hT.restrict_invariant hW
  refine ⟨Module.finrank ℝ W, hdim, hR.eigenvalues rfl, fun a => (hR.eigenvectorBasis rfl a : EuclideanSpace ℝ (Fin d)).ofLp,
    fun a b => ?_, fun a j => ?_, fun a => ?_⟩
  · rw [← hin]
    have := orthonormal_iff_ite.mp (hR.eigenvectorBasis rfl).orthonormal a b
    rwa [Submodule.coe_inner] at this
  · have h1 : inner ℝ (v j) (hR.eigenvectorBasis rfl a : EuclideanSpace ℝ (Fin d)) = 0 :=
      (Submodule.mem_orthogonal _ _).mp (hR.eigenvectorBasis rfl a).2 _ (Submodule.subset_span ⟨j, rfl⟩)
    rwa [hin] at h1
  · have h1 := congrArg (Subtype.val) (hR.apply_eigenvectorBasis rfl a)
    have h2 : T (hR.eigenvectorBasis rfl a : EuclideanSpace ℝ (Fin d)) = _ := h1
    have h3 := congrArg WithLp.ofLp h2
    simpa [T, Matrix.toLpLin_apply] using h3

/-- A spectrum from two families of eigenvectors. -/
theorem spectrum_of_parts (M : Matrix (Fin d) (Fin d) ℝ) (hd : k + m = d) (c : Fin k → ℝ) (v : Fin k → Fin d → ℝ) (mu : Fin m → ℝ)
    (w : Fin m → Fin d → ℝ) (hv : ∀ a b, v a ⬝ᵥ v b = if a = b then 1 else 0) (hw : ∀ a b, w a ⬝ᵥ w b = if a = b then 1 else 0)
    (hvw : ∀ a j, v j ⬝ᵥ w a = 0) (ev : ∀ a, M *ᵥ v a = c a • v a) (ew : ∀ a, M *ᵥ w a = mu a • w a) :
    Matrix.HasEigs M (List.ofFn c ++ List.ofFn mu) := by
  subst hd
  refine ⟨Fin.append c mu, Fin.append v w, fun p p' => ?_, fun p r => ?_, by rw [List.ofFn_fin_append]⟩
  · show Fin.append v w p ⬝ᵥ Fin.append v w p' = _
    refine Fin.addCases (fun a => ?_) (fun a => ?_) p <;> refine Fin.addCases (fun b => ?_) (fun b => ?_) p'
    · simp only [Fin.append_left, hv, Fin.castAdd_inj]
    · rw [Fin.append_left, Fin.append_right, hvw, if_neg]
      intro h
      have := congrArg Fin.val h
      simp at this
      omega
    · rw [Fin.append_left, Fin.append_right, dotProduct_comm, hvw, if_neg]
      intro h
      have := congrArg Fin.val h
      simp at this
      omega
    · simp only [Fin.append_right, hw, Fin.natAdd_inj]
  · have h1 : ∀ x : Fin (k + m) → ℝ, ∑ s : Fin (k + m), natMat M r s * x s = (M *ᵥ x) r := by
      intro x
      simp [natMat, Matrix.mulVec, dotProduct]
    rw [h1]
    refine Fin.addCases (fun a => ?_) (fun a => ?_) p
    · rw [Fin.append_left, Fin.append_left, ev]; rfl
    · rw [Fin.append_right, Fin.append_right, ew]; rfl

theorem outerMatrix_mulVec (c : Fin k → ℝ) (V : Matrix (Fin d) (Fin k) ℝ) (x : Fin d → ℝ) :
    outerMatrix c V *ᵥ x = fun i => ∑ j, c j * ((fun i => V i j) ⬝ᵥ x) * V i j := by
  funext i
  simp only [outerMatrix, Matrix.mulVec, dotProduct, Matrix.sum_apply, Matrix.smul_apply,
    Matrix.vecMulVec_apply, smul_eq_mul, Finset.sum_mul, Finset.mul_sum]
  rw [Finset.sum_comm]
  exact Finset.sum_congr rfl fun _ _ => Finset.sum_congr rfl fun _ _ => by ring

/-- For orthonormal columns that need not be eigenvectors, what the deflated matrix does to them is the residual. -/
theorem deflated_residual (M : Matrix (Fin d) (Fin d) ℝ) (c : Fin k → ℝ) (V : Matrix (Fin d) (Fin k) ℝ) (hV : Vᵀ * V = 1) (j : Fin k) :
    (M - outerMatrix c V) *ᵥ (fun i => V i j) = M *ᵥ (fun i => V i j) - c j • fun i => V i j := by
  have h : ∀ a b : Fin k, (fun i => V i a) ⬝ᵥ (fun i => V i b) = if a = b then 1 else 0 := by
    intro a b
    have := congrFun (congrFun hV a) b
    rwa [Matrix.mul_apply, Matrix.one_apply] at this
  rw [Matrix.sub_mulVec, outerMatrix_mulVec]
  congr 1
  funext i
  simp [h]

/-- **C119**: whatever orthonormal eigenpairs are subtracted, in the list of eigenvalues exactly theirs are replaced by zeros. -/
theorem deflated_spectrum {M : Matrix (Fin d) (Fin d) ℝ} (hM : Mᵀ = M) {c : Fin k → ℝ} {V : Matrix (Fin d) (Fin k) ℝ}
    (h : EigenPairs M c V) : (M - outerMatrix c V)ᵀ = M - outerMatrix c V ∧
      ∃ rest : List ℝ, Matrix.HasEigs M (List.ofFn c ++ rest) ∧ Matrix.HasEigs (M - outerMatrix c V) (List.replicate k 0 ++ rest) := by
  refine ⟨by rw [Matrix.transpose_sub, hM, (outer_vec_partial c V).2.2], ?_⟩
  obtain ⟨m, hd, mu, w, h1, h2, h3⟩ := eigen_complete M hM c V h
  refine ⟨List.ofFn mu, spectrum_of_parts M hd c (fun j i => V i j) mu w h.dot h1 h2 h.eigen h3, ?_⟩
  rw [← List.ofFn_const]
  refine spectrum_of_parts _ hd (fun _ => 0) (fun j i => V i j) mu w h.dot h1 h2 (fun j => ?_) fun a => ?_
  · rw [deflated_residual M c V h.ortho, h.eigen]
    simp
  · rw [Matrix.sub_mulVec, h3, outerMatrix_mulVec]
    funext i
    simp [h2]

/-- The remaining eigenvalues are determined by all eigenvalues and the removed ones. -/
theorem deflated_rest {M : Matrix (Fin d) (Fin d) ℝ} {c : Fin k → ℝ} {vals rest : List ℝ} (h : Matrix.HasEigs M vals)
    (h' : Matrix.HasEigs M (List.ofFn c ++ rest)) : rest.Perm (vals.diff (List.ofFn c)) := by
  have h1 : (List.ofFn c ++ rest).Perm vals := HasSpectrum.unique h' h
  have h2 := h1.diff_right (List.ofFn c)
  have h3 : ∀ l r : List ℝ, (l ++ r).diff l = r := by
    intro l r
    induction l with
    | nil => simp
    | cons x l ih => rw [List.cons_append, List.diff_cons, List.erase_cons_head, ih]
  rwa [h3] at h2

theorem Matrix.HasEigs.trace {M : Matrix (Fin d) (Fin d) ℝ} {vals : List ℝ} (h : Matrix.HasEigs M vals) : M.trace = vals.sum := by
  rw [← HasSpectrum.trace h, matTrace, Finset.sum_range, Matrix.trace]
  simp [natMat]

theorem Matrix.HasEigs.squares {M : Matrix (Fin d) (Fin d) ℝ} {vals : List ℝ} (h : Matrix.HasEigs M vals) :
    ∑ i, ∑ j, M i j ^ 2 = (vals.map (· ^ 2)).sum := by
  rw [← HasSpectrum.squares h, matSquares, Finset.sum_range]
  simp [natMat, Finset.sum_range]

/-- The quadratic form lies between bounds on the eigenvalues. -/
theorem Matrix.HasEigs.bounds {M : Matrix (Fin d) (Fin d) ℝ} {vals : List ℝ} (h : Matrix.HasEigs M vals) {lo hi : ℝ}
    (hv : ∀ x ∈ vals, lo ≤ x ∧ x ≤ hi) (x : Fin d → ℝ) : lo * (x ⬝ᵥ x) ≤ x ⬝ᵥ (M *ᵥ x) ∧ x ⬝ᵥ (M *ᵥ x) ≤ hi * (x ⬝ᵥ x) := by
  have := HasSpectrum.bounds h hv fun r => if hr : r < d then x ⟨r, hr⟩ else 0
  simpa [Finset.sum_range, natMat, Matrix.mulVec, dotProduct] using this

/-- The eigenvalues as those of an orthonormal basis. -/
theorem Matrix.HasEigs.basis {M : Matrix (Fin d) (Fin d) ℝ} {vals : List ℝ} (h : Matrix.HasEigs M vals) :
    ∃ b lam, EigenBasis (Matrix.toEuclideanLin M) b lam ∧ vals.Perm (List.ofFn lam) := by
  obtain ⟨lam, q, hq, he, hp⟩ := h
  have ho : Orthonormal ℝ fun p => (WithLp.toLp 2 (q p) : EuclideanSpace ℝ (Fin d)) := by
    rw [orthonormal_iff_ite]
    intro a b
    rw [EuclideanSpace.inner_eq_star_dotProduct, dotProduct_comm]
    simpa [dotProduct] using hq a b
  have hcard : Fintype.card (Fin d) = Module.finrank ℝ (EuclideanSpace ℝ (Fin d)) := by simp
  refine ⟨OrthonormalBasis.mk ho (ho.linearIndependent.span_eq_top_of_card_eq_finrank' hcard).ge, lam, fun i => ?_, hp⟩
  rw [OrthonormalBasis.coe_mk]
  ext r
  have := he i r
  simpa [Matrix.toLpLin_apply, Matrix.mulVec, dotProduct, natMat] using this

/-! ## Consequences -/

/-- **C119** (bounds): if the removed eigenvalues are the largest ones (`which="LA"`) and not negative, the quadratic form of the deflated
matrix is at most the next eigenvalue, or zero. -/
theorem deflated_top {M : Matrix (Fin d) (Fin d) ℝ} (hM : Mᵀ = M) {c : Fin k → ℝ} {V : Matrix (Fin d) (Fin k) ℝ} (h : EigenPairs M c V)
    {vals : List ℝ} (hv : Matrix.HasEigs M vals) (x : Fin d → ℝ) (next : ℝ) (hn : ∀ y ∈ vals.diff (List.ofFn c), y ≤ next) :
    x ⬝ᵥ ((M - outerMatrix c V) *ᵥ x) ≤ max 0 next * (x ⬝ᵥ x) := by
  obtain ⟨-, rest, h1, h2⟩ := deflated_spectrum hM h
  have hp := deflated_rest hv h1
  obtain ⟨lo, hlo⟩ : ∃ lo, ∀ y ∈ List.replicate k 0 ++ rest, lo ≤ y := by
    obtain ⟨lo, hlo⟩ := (List.replicate k (0 : ℝ) ++ rest).toFinset.bddBelow
    exact ⟨lo, fun y hy => hlo (by simpa using hy)⟩
  refine (h2.bounds (lo := lo) (hi := max 0 next) (fun y hy => ⟨hlo y hy, ?_⟩) x).2
  rcases List.mem_append.mp hy with hy | hy
  · rw [List.eq_of_mem_replicate hy]
    exact le_max_left _ _
  · exact (hn y (hp.mem_iff.mp hy)).trans (le_max_right _ _)

/-- **C119** (boundaries): boundaries of the original spectrum are boundaries of the deflated one exactly if they enclose zero. -/
theorem deflated_boundaries {M : Matrix (Fin d) (Fin d) ℝ} (hM : Mᵀ = M) {c : Fin k → ℝ} {V : Matrix (Fin d) (Fin k) ℝ}
    (h : EigenPairs M c V) (hk : 0 < k) {vals : List ℝ} (hv : Matrix.HasEigs M vals) {lo hi : ℝ} (hb : ∀ y ∈ vals, lo ≤ y ∧ y ≤ hi) :
    ∃ vals', Matrix.HasEigs (M - outerMatrix c V) vals' ∧ ((∀ y ∈ vals', lo ≤ y ∧ y ≤ hi) ↔ lo ≤ 0 ∧ 0 ≤ hi) := by
  obtain ⟨-, rest, h1, h2⟩ := deflated_spectrum hM h
  refine ⟨_, h2, fun hall => hall 0 (List.mem_append.mpr (Or.inl (List.mem_replicate.mpr ⟨by omega, rfl⟩))), fun h0 y hy => ?_⟩
  rcases List.mem_append.mp hy with hy | hy
  · rw [List.eq_of_mem_replicate hy]
    exact h0
  · exact hb y ((HasSpectrum.unique h1 hv).mem_iff.mp (List.mem_append.mpr (Or.inr hy)))

/-- **C119** (trace): a sample of Hutchinson's estimator on the deflated operator, plus the removed eigenvalues, is an unbiased estimate
of the trace of the original matrix, and with normal vectors its variance is smaller by twice the sum of their squares. -/
theorem deflated_trace {A : SciOp ℝ} {M : Matrix (Fin d) (Fin d) ℝ} (hA : VecRep A M) (hM : Mᵀ = M) {c : Fin k → ℝ}
    {V : Matrix (Fin d) (Fin k) ℝ} (h : EigenPairs M c V) {W : Type _} (E : Ext ℝ W) (w : (Fin d → ℝ) → W) (hw : DrawsNormal E w) :
    ∃ D, deflate A d (List.ofFn c) (List.ofFn fun j => List.ofFn fun i => V i j) = .ok D ∧ ∃ F G : (Fin d → ℝ) → ℝ,
      (∀ v, (hutchTrace (E.withOp D) d (.str "normal") (w v)).1 = .ok (F v)) ∧
      (∀ v, (hutchTrace (E.withOp A) d (.str "normal") (w v)).1 = .ok (G v)) ∧
      ∫ v, F v + ∑ j, c j ∂stdNormal d = M.trace ∧
      ∫ v, (F v + ∑ j, c j - M.trace) ^ 2 ∂stdNormal d = ∫ v, (G v - M.trace) ^ 2 ∂stdNormal d - 2 * ∑ j, c j ^ 2 := by
  obtain ⟨D, hD, hDr⟩ := deflate_rep hA c V
  refine ⟨D, hD, ?_⟩
  obtain ⟨hs, rest, h1, h2⟩ := deflated_spectrum hM h
  obtain ⟨F, hF, hFi, hFv⟩ := hutchTrace_normal_var (E.withOp D) _ (withOp_multiplies E D _ hDr) w hw
  obtain ⟨G, hG, -, hGv⟩ := hutchTrace_normal_var (E.withOp A) _ (withOp_multiplies E A _ hA) w hw
  obtain ⟨F', hF', hFi', hFm⟩ := hutchTrace_normal (E.withOp D) _ (withOp_multiplies E D _ hDr) w hw
  obtain rfl : F = F' := funext fun v => by
    have := (hF v).symm.trans (hF' v)
    exact Except.ok.inj this
  have htr : (M - outerMatrix c V).trace + ∑ j, c j = M.trace := by
    rw [h1.trace, h2.trace]
    simp [List.sum_ofFn, add_comm]
  have hsq : ∀ (N : Matrix (Fin d) (Fin d) ℝ), Nᵀ = N → ∑ i, ∑ j, N i j * (N i j + N j i) = 2 * ∑ i, ∑ j, N i j ^ 2 := by
    intro N hN
    simp only [Finset.mul_sum]
    refine Finset.sum_congr rfl fun i _ => Finset.sum_congr rfl fun j _ => ?_
    have : N j i = N i j := congrFun (congrFun hN i) j
    rw [this]
    ring
  refine ⟨F, G, hF, hG, ?_, ?_⟩
  · rw [integral_add hFi' (integrable_const _), hFm]
    simpa using htr
  · rw [hGv, hsq M hM, h1.squares]
    have h3 : ∀ v, (F v + ∑ j, c j - M.trace) = F v - (M - outerMatrix c V).trace := by
      intro v
      rw [← htr]
      ring
    simp only [h3]
    rw [hFv, hsq _ hs, h2.squares]
    simp only [List.map_append, List.sum_append, sum_ofFn_map, List.map_replicate, List.sum_replicate]
    simp
    ring

/-- **C119** (spectral density): what `lanczos_approximate_spectrum` computes from the deflated operator with standard normal start vectors.
At every grid point it is close to the smoothed density of the eigenvalues in which the removed ones are replaced by zeros
(`lanczosSpectrum_error` explains the constants). With more Lanczos vectors than different eigenvalues, zero included, every run raises. -/
theorem deflated_lanczos {A : SciOp ℝ} {M : Matrix (Fin d) (Fin d) ℝ} (hA : VecRep A M) (hM : Mᵀ = M) {c : Fin k → ℝ}
    {V : Matrix (Fin d) (Fin k) ℝ} (h : EigenPairs M c V) {vals vals' : List ℝ} (hv : Matrix.HasEigs M vals)
    (hv' : vals' = List.replicate k 0 ++ vals.diff (List.ofFn c)) (eigh eighTri : Eigh)
    (c1 : EighContract eigh) (c2 : EighContract eighTri) (t1 : ∀ n T, ∃ p, eigh n T = .ok p)
    (t2 : ∀ n T, ∃ p, eighTri n T = .ok p) {Ω : Type _} [MeasurableSpace Ω] {μ : Measure Ω} [IsProbabilityMeasure μ]
    {R : Nat → Ω → EuclideanSpace ℝ (Fin d)} (hR : NormalStarts μ R) (ncv : Nat) (hn : 2 ≤ ncv)
    (tri : Bool) (eigsh : Eigsh) (calls N : Nat) (kappa : ℝ) (hk : 1 < kappa) (boundaries : Boundaries) (margin : ℝ)
    (hm : 0 ≤ margin) (bd : ℝ × ℝ) (hbd : (approximateBoundaries eigsh boundaries).1 = .ok bd) (hlt : bd.1 < bd.2) (g : List ℝ)
    (hg : g = linspace (bd.1 - margin * (bd.2 - bd.1)) (bd.2 + margin * (bd.2 - bd.1)) N) (q : Nat) (hq : q < N) (f : ℝ → ℝ)
    (hf : f = fun t => ProbabilityTheory.gaussianPDFReal t
      (Real.toNNReal (bumpDeviation ((1 + 2 * margin) * (bd.2 - bd.1)) ncv kappa ^ 2)) (g.getD q 0)) (ε : ℝ)
    (hε : (∃ (lo hi : ℝ) (p : Polynomial ℝ), (∀ y ∈ vals', lo ≤ y ∧ y ≤ hi) ∧ p.natDegree < 2 * ncv ∧
      ∀ t, lo ≤ t → t ≤ hi → |f t - p.eval t| ≤ ε) ∨ (ncv = vals'.toFinset.card ∧ ε = 0)) :
    ∃ D, deflate A d (List.ofFn c) (List.ofFn fun j => List.ofFn fun i => V i j) = .ok D ∧
      (ncv ≤ vals'.toFinset.card → (∀ n : Nat, 0 < n → ∀ δ, 0 < δ →
        μ.real {ω | 2 * ε + δ ≤ |densityAt (lanczosSpectrum eigsh (fun i => fastLanczos eigh eighTri D.asFunction ncv tri
          (R i ω)) calls N n kappa boundaries margin) q - (k * f 0 + ((vals.diff (List.ofFn c)).map f).sum) / d|} ≤
          2 / (d * (d + 2)) * ((vals'.map fun y => f y ^ 2).sum - (vals'.map f).sum ^ 2 / d) / (n * δ ^ 2)) ∧
      ∀ᵐ ω ∂μ, ∀ δ, 0 < δ → ∀ᶠ n : Nat in Filter.atTop,
        |densityAt (lanczosSpectrum eigsh (fun i => fastLanczos eigh eighTri D.asFunction ncv tri (R i ω)) calls N n kappa
          boundaries margin) q - (k * f 0 + ((vals.diff (List.ofFn c)).map f).sum) / d| < 2 * ε + δ) ∧
      (vals'.toFinset.card < ncv → ∀ ω i, fastLanczos eigh eighTri D.asFunction ncv tri (R i ω) = .error .valueError) := by
  obtain ⟨D, hD, hDr⟩ := deflate_rep hA c V
  refine ⟨D, hD, ?_⟩
  obtain ⟨hs, rest, h1, h2⟩ := deflated_spectrum hM h
  have hperm : (List.replicate k 0 ++ rest).Perm vals' := by
    rw [hv']
    exact (deflated_rest hv h1).append_left _
  obtain ⟨b, lam, hb, hl⟩ := h2.basis
  have hp : vals'.Perm (List.ofFn lam) := hperm.symm.trans hl
  have hnd : numDistinct lam = vals'.toFinset.card := by
    have e : vals'.toFinset = Finset.univ.image lam := by
      ext y
      rw [List.mem_toFinset, hp.mem_iff, List.mem_ofFn]
      simp
    rw [numDistinct, e]
  have hsum : ∀ F : ℝ → ℝ, ∑ k, F (lam k) = (vals'.map F).sum := fun F => by rw [(hp.map F).sum_eq, sum_ofFn_map]
  have hsum0 : (vals'.map f).sum = k * f 0 + ((vals.diff (List.ofFn c)).map f).sum := by
    rw [hv', List.map_append, List.sum_append, List.map_replicate, List.sum_replicate, nsmul_eq_mul]
  have hmem : ∀ i, lam i ∈ vals' := fun i => hp.mem_iff.mpr (List.mem_ofFn.mpr ⟨i, rfl⟩)
  have hsymm : (Matrix.toEuclideanLin (M - outerMatrix c V)).IsSymmetric := by
    rw [Matrix.isSymmetric_toEuclideanLin_iff, Matrix.IsHermitian, Matrix.conjTranspose_eq_transpose_of_trivial]
    exact hs
  rw [asFunction_eq D _ hDr]
  constructor
  · intro hle
    have key := lanczosSpectrum_error (b := b) (lam := lam) ⟨hsymm, hb, c1, c2, t1, t2⟩ hR ncv hn (hnd ▸ hle) tri eigsh calls N kappa hk
      boundaries margin hm bd hbd hlt g hg q hq f hf ε (by
        rcases hε with ⟨lo, hi, p, p1, p2, p3⟩ | ⟨e1, e2⟩
        · exact Or.inl ⟨lo, hi, p, fun i => p1 _ (hmem i), p2, p3⟩
        · exact Or.inr ⟨by rw [hnd]; exact e1, e2⟩)
    rw [hsum f, hsum fun y => f y ^ 2] at key
    rw [← hsum0]
    exact key
  · intro hlt
    exact (fastLanczos_almost_surely hsymm hb eigh eighTri t1 t2 hR ncv (by omega) tri).2 (hnd ▸ hlt)

/-- **C119** for the Hessian of the empirical risk: the export of `HessianLinearOperator`, deflated. -/
theorem hessian_deflated {P O : Nat} {shapes : List (List Nat)} {red : Reduction} {θ : Fin P → ℝ} {batches : List (List (NetDatum P O))}
    (h : HessianSetting shapes red θ batches) (dt : DType) (dtype : Option DType) {c : Fin k → ℝ} {V : Matrix (Fin P) (Fin k) ℝ}
    (he : EigenPairs (riskHessian red θ batches.flatten) c V) {vals : List ℝ}
    (hv : Matrix.HasEigs (riskHessian red θ batches.flatten) vals) :
    ∃ L D H, (hessianObj shapes red θ batches).toScipy dt dtype = .ok L ∧
      deflate L.toSci P (List.ofFn c) (List.ofFn fun j => List.ofFn fun i => V i j) = .ok D ∧ VecRep D H ∧
      Matrix.HasEigs H (List.replicate k 0 ++ vals.diff (List.ofFn c)) ∧ ∀ j, H *ᵥ (fun i => V i j) = 0 := by
  obtain ⟨L, hL, hr, -⟩ := hessian_export h dt dtype
  obtain ⟨D, hD, hDr⟩ := deflate_rep hr c V
  obtain ⟨-, rest, h1, h2⟩ := deflated_spectrum (riskHessian_symm h) he
  refine ⟨L, D, _, hL, hD, hDr, ?_, fun j => ?_⟩
  · obtain ⟨lam, q, e1, e2, e3⟩ := h2
    exact ⟨lam, q, e1, e2, ((deflated_rest hv h1).append_left _).symm.trans e3⟩
  · rw [deflated_residual _ _ _ he.ortho, he.eigen, sub_self]

/-! ## Examples -/

/-- A reflection: eigenvalue `25` at `(3, 4) / 5` and `-25` at `(4, -3) / 5`. -/
def reflection : Matrix (Fin 2) (Fin 2) ℝ := !![-7, 24; 24, 7]

theorem reflection_pairs : EigenPairs reflection ![25] !![3 / 5; 4 / 5] := by
  constructor
  · ext i j
    fin_cases i; fin_cases j
    norm_num [Matrix.mul_apply, Fin.sum_univ_two]
  · intro j
    fin_cases j
    funext i
    fin_cases i <;> norm_num [reflection, Matrix.mulVec, dotProduct, Fin.sum_univ_two]

/-- Removing the first pair leaves the second one. -/
example : ∃ D, deflate (denseSci reflection) 2 [25] [[3 / 5, 4 / 5]] = .ok D ∧ D.dot (.vec [3, 4]) = .ok (.vec [0, 0]) ∧
    D.dot (.vec [4, -3]) = .ok (.vec [-100, 75]) := by
  have h := deflate_rep (denseSci_vecRep reflection) ![25] !![3 / 5; 4 / 5]
  simp only [List.ofFn_succ, List.ofFn_zero] at h
  obtain ⟨D, hD, -, -, hx⟩ := h
  refine ⟨D, by simpa using hD, ?_, ?_⟩
  · have := hx ![3, 4]
    simp [List.ofFn_succ] at this
    rw [this]
    norm_num [outerMatrix, reflection, Matrix.mulVec, dotProduct, Fin.sum_univ_two, Matrix.vecMulVec_apply]
  · have := hx ![4, -3]
    simp [List.ofFn_succ] at this
    rw [this]
    norm_num [outerMatrix, reflection, Matrix.mulVec, dotProduct, Fin.sum_univ_two, Matrix.vecMulVec_apply]

/-- Its eigenvalues before and after. -/
example : Matrix.HasEigs reflection [25, -25] ∧ Matrix.HasEigs (reflection - outerMatrix ![25] !![3 / 5; 4 / 5]) [0, -25] := by
  have hs : reflectionᵀ = reflection := by
    ext i j
    fin_cases i <;> fin_cases j <;> rfl
  obtain ⟨-, rest, h1, h2⟩ := deflated_spectrum hs reflection_pairs
  have htr := h1.trace
  have hlen : rest.length = 1 := by
    obtain ⟨_, _, _, _, hp⟩ := h1
    have := hp.length_eq
    simp at this
    omega
  obtain ⟨y, rfl⟩ := List.length_eq_one_iff.mp hlen
  simp [reflection, Matrix.trace, Fin.sum_univ_two] at htr
  obtain rfl : y = -25 := by linarith
  exact ⟨by simpa using h1, by simpa using h2⟩

end Curvlinops
