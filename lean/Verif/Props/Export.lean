import Verif.Model.Export
import Verif.Props.Jacobian
import Verif.Props.Inverse
import Verif.Props.Estimators
import Verif.Props.Net
import Verif.Props.LossCurvature
import Verif.Props.KfacScalars
import Verif.Props.Scaling
import Verif.Props.SpectrumConsistency

/-!
# C96: algorithms on exported curvature operators
-/

namespace Curvlinops

open Matrix MeasureTheory Filter Topology

variable {α : Type _}

/-! ## The export multiplies with the matrix -/

/-- The leading `m × n` part of a matrix. -/
def Mat.part (M : Mat α) (m n : Nat) : Matrix (Fin m) (Fin n) α := fun i j => M i j

/-- The columns of a matrix as a NumPy array. -/
def matVal {m K : Nat} (X : Matrix (Fin m) (Fin K) α) : NpVal α := .mat m (List.ofFn fun k => List.ofFn fun i => X i k)

theorem matVal_row {m K : Nat} (X : Matrix (Fin m) (Fin K) α) (i : Nat) (hi : i < m) :
    ((List.ofFn fun k => List.ofFn fun i => X i k).filterMap fun c => c[i]?) = List.ofFn fun k => X ⟨i, hi⟩ k := by
  induction K with
  | zero => simp
  | succ K ih =>
    rw [List.ofFn_succ, List.filterMap_cons, List.ofFn_succ]
    have := ih fun i k => X i k.succ
    simp only [List.getElem?_ofFn, hi, dite_true, this]

theorem matVal_ravel [Zero α] {m K : Nat} (X : Matrix (Fin m) (Fin K) α) :
    (matVal X).ravel.length = m * K ∧ ∀ (i : Fin m) (k : Fin K), (matVal X).ravel.getD (i * K + k) 0 = X i k := by
  have hl : ∀ i < m, ((List.ofFn fun k => List.ofFn fun i => X i k).filterMap fun c => c[i]?).length = K := by
    intro i hi
    rw [matVal_row X i hi, List.length_ofFn]
  constructor
  · simp only [matVal, NpVal.ravel, List.length_flatMap]
    rw [List.map_congr_left (g := fun _ => K) fun i hi => hl i (List.mem_range.1 hi)]
    simp
  · intro i k
    simp only [matVal, NpVal.ravel]
    rw [(getD_flatMap_range _ m K 0 hl i k i.2 k.2).2, matVal_row X i i.2]
    simp [List.getD_eq_getElem?_getD]

theorem filterMap_range_ofFn [Zero α] (l : List α) (m : Nat) (g : Nat → Nat) (y : Fin m → α)
    (hg : ∀ i < m, g i < l.length) (hy : ∀ i : Fin m, l.getD (g i) 0 = y i) :
    (List.range m).filterMap (fun i => l[g i]?) = List.ofFn y := by
  have h : (List.range m).filterMap (fun i => l[g i]?) = (List.range m).map fun i => l.getD (g i) 0 := by
    rw [← List.filterMap_eq_map]
    refine List.filterMap_congr fun i hi => ?_
    have := hg i (List.mem_range.1 hi)
    simp [List.getD_eq_getElem?_getD, this]
  rw [h]
  refine List.ext_getElem (by simp) fun i h1 h2 => ?_
  have hi : i < m := by simpa using h1
  simpa using hy ⟨i, hi⟩

theorem callFn_vec [NonUnitalNonAssocSemiring α] (op : LinOp α) (M : Mat α) (hM : RepresentsPos op M) (ho : op.outShape ≠ [])
    (dt : DType) {m n : Nat} (hm : op.nrows = m) (hn : op.ncols = n) (x : Fin n → α) :
    callFn (scipyCompatible op dt) (.vec (List.ofFn x)) = .ok (.vec (List.ofFn (M.part m n *ᵥ x))) := by
  subst hm hn
  obtain ⟨Y, y1, -, y3, -, y5, y6⟩ := scipyCompatible_spec op M .vec (hM 1 le_rfl) ho dt (NpVal.vec (List.ofFn x)).toArray
    (by simp [NpVal.toArray, Tensor.WF]) (by simp [NpVal.toArray, Fmt.dims])
  unfold callFn
  rw [y1]
  simp only [NpArray.toVal, y3, Fmt.dims]
  congr 2
  simp only [Fmt.cols, Nat.mul_one] at y5
  refine List.ext_getElem (by simp [y5]) fun i h1 h2 => ?_
  have := y6 i (y5 ▸ h1) 0 (by simp [Fmt.cols])
  simp only [Fmt.cols, Nat.mul_one, Nat.add_zero, NpVal.toArray] at this
  rw [List.getD_eq_getElem _ _ h1] at this
  rw [this, List.getElem_ofFn, Matrix.mulVec, dotProduct, Finset.sum_range]
  exact Finset.sum_congr rfl fun j _ => by simp [Mat.part, List.getD_eq_getElem?_getD]

theorem callFn_mat [NonUnitalNonAssocSemiring α] (op : LinOp α) (M : Mat α) (hM : RepresentsPos op M) (ho : op.outShape ≠ [])
    (dt : DType) {m n K : Nat} (hm : op.nrows = m) (hn : op.ncols = n) (hK : 1 ≤ K) (X : Matrix (Fin n) (Fin K) α) :
    callFn (scipyCompatible op dt) (matVal X) = .ok (matVal (M.part m n * X)) := by
  subst hm hn
  obtain ⟨r1, r2⟩ := matVal_ravel X
  have harr : (matVal X).toArray = ⟨.float64, ⟨[op.ncols, K], (matVal X).ravel⟩⟩ := by
    simp [matVal, NpVal.toArray]
  obtain ⟨Y, y1, -, y3, -, y5, y6⟩ := scipyCompatible_spec op M (.mat K) (hM K hK) ho dt (matVal X).toArray
    (by rw [harr]; simp [Tensor.WF, r1]) (by rw [harr]; rfl)
  rw [harr] at y6
  unfold callFn
  rw [y1]
  simp only [NpArray.toVal, y3, Fmt.dims, matVal]
  simp only [Fmt.cols] at y5 y6
  congr 2
  refine List.ext_getElem (by simp) fun k h1 h2 => ?_
  have hk : k < K := by simpa using h1
  simp only [List.getElem_map, List.getElem_range, List.getElem_ofFn]
  refine filterMap_range_ofFn _ _ (fun i => i * K + k) _ (fun i hi => ?_) fun i => ?_
  · rw [y5]
    exact flat_index_lt hi hk
  · rw [y6 i i.2 k hk, Matrix.mul_apply, Finset.sum_range]
    exact Finset.sum_congr rfl fun j _ => by rw [r2 j ⟨k, hk⟩]; rfl

theorem exported_rep [NonUnitalNonAssocSemiring α] (op : LinOp α) (M : Mat α) (hM : RepresentsPos op M) (ho : op.outShape ≠ [])
    (dt : DType) {m n : Nat} (hm : op.nrows = m) (hn : op.ncols = n) (L : SciOp α) (hr : L.rows = m) (hc : L.cols = n)
    (h1 : L.matvecImpl = callFn (scipyCompatible op dt))
    (h2 : ∀ r cs, L.matmatImpl r cs = callFn (scipyCompatible op dt) (.mat r cs)) :
    VecRep L (M.part m n) ∧ ∀ K, 1 ≤ K → MatRepAt L (M.part m n) K := by
  refine ⟨⟨hr, hc, fun x => dot_vec_of_impl (by simp [hc]) (by simp [hr]) ?_⟩, fun K hK X => ?_⟩
  · rw [h1]
    exact callFn_vec op M hM ho dt hm hn x
  · have key := callFn_mat op M hM ho dt hm hn hK X
    change L.dot (matVal X) = .ok (matVal (M.part m n * X))
    match K, hK with
    | 1, _ =>
      have e : ∀ {m : Nat} (X : Matrix (Fin m) (Fin 1) α), matVal X = .mat m [List.ofFn fun i => X i 0] := by
        intro m X
        simp [matVal]
      have hl : ((matVal (M.part m n * X)).ravel).length = m := by simpa using (matVal_ravel (M.part m n * X)).1
      rw [e X] at key ⊢
      simp only [SciOp.dot, SciOp.matvec, hc, if_true, h1, key, NpVal.reshapeCol, hr, hl]
      rw [e]
      have := ravel_col (List.ofFn fun i => (M.part m n * X) i 0)
      rw [List.length_ofFn] at this
      rw [this]
    | K + 2, _ =>
      have e : ∃ c c' cs, (List.ofFn fun k => List.ofFn fun i => X i k) = c :: c' :: cs := by
        rw [List.ofFn_succ, List.ofFn_succ]
        exact ⟨_, _, _, rfl⟩
      obtain ⟨c, c', cs, e⟩ := e
      rw [← key]
      unfold matVal
      rw [e]
      simp only [SciOp.dot, SciOp.matmat, hc, if_true, h2]

/-- C96: whatever matrix an operator and its adjoint represent, the exported operator multiplies 1d arrays and 2d arrays with at
least one column with it, and the adjoint of the exported operator with its transpose. -/
theorem export_represents [NonUnitalNonAssocSemiring α] (A At : OpObj α) (M : Mat α) (hAt : A.adjoint = .ok At)
    (hM : RepresentsPos A.op M) (hMt : RepresentsPos At.op (fun r c => M c r)) {m n : Nat} (hm : A.op.nrows = m)
    (hn : A.op.ncols = n) (hr : At.op.nrows = n) (hc : At.op.ncols = m) (hi : At.op.outShape ≠ []) (ho : A.op.outShape ≠ [])
    (dt : DType) (dtype : Option DType) :
    ∃ L, A.toScipy dt dtype = .ok L ∧ VecRep L.toPair.op (M.part m n) ∧ VecRep L.toPair.adj (M.part m n)ᵀ ∧
      ∀ K, 1 ≤ K → MatRepAt L.toPair.op (M.part m n) K ∧ MatRepAt L.toPair.adj (M.part m n)ᵀ K := by
  refine ⟨_, by unfold OpObj.toScipy; rw [hAt], ?_⟩
  have h1 := exported_rep A.op M hM ho dt hm hn
  have h2 := exported_rep At.op (fun r c => M c r) hMt hi dt hr hc
  exact ⟨(h1 _ hm hn rfl fun _ _ => rfl).1, (h2 _ hn hm rfl fun _ _ => rfl).1, fun K hK =>
    ⟨(h1 _ hm hn rfl fun _ _ => rfl).2 K hK, (h2 _ hn hm rfl fun _ _ => rfl).2 K hK⟩⟩

/-- C96: the export of an operator that is declared self-adjoint and represents a symmetric matrix. -/
theorem export_symmetric [NonUnitalNonAssocSemiring α] (op : LinOp α) (M : Mat α) (hM : Represents op M) {n : Nat}
    (hr : op.nrows = n) (hc : op.ncols = n) (ho : op.outShape ≠ []) (hsym : ∀ r < n, ∀ c < n, M r c = M c r) (dt : DType)
    (dtype : Option DType) :
    ∃ L, (OpObj.plain true op).toScipy dt dtype = .ok L ∧ VecRep L.toPair.op (M.part n n) ∧
      VecRep L.toPair.adj (M.part n n) ∧
      ∀ K, 1 ≤ K → MatRepAt L.toPair.op (M.part n n) K ∧ MatRepAt L.toPair.adj (M.part n n) K := by
  obtain ⟨At, h1, h2⟩ := adjoint_selfAdjoint op M hM (by rw [hr, hc]; exact hsym)
  obtain rfl : OpObj.plain true op = At := Except.ok.inj h1
  have e : (M.part n n)ᵀ = M.part n n := by
    ext i j
    exact hsym j j.2 i i.2
  have := export_represents _ _ M h1 (fun K _ => hM K) (fun K _ => h2 K) hr hc hr hc ho ho dt dtype
  rwa [e] at this

/-- C96: an exception that a product raises reaches the caller of the exported operator unchanged; for the adjoint, an exception of a
product with the adjoint operator. The operator is multiplied with a tensor that has the shape and the entries of the array. -/
theorem export_raises [NonUnitalNonAssocSemiring α] (A At : OpObj α) (hAt : A.adjoint = .ok At) (dt : DType) (dtype : Option DType) (e : PyErr) :
    ∃ L, A.toScipy dt dtype = .ok L ∧
      (∀ v : List α, v.length = A.op.ncols → (A.op.matmul (.tensor ⟨[v.length], v⟩)).1 = .error e →
        L.toPair.op.dot (.vec v) = .error e) ∧
      (∀ v : List α, v.length = A.op.nrows → (At.op.matmul (.tensor ⟨[v.length], v⟩)).1 = .error e →
        L.toPair.adj.dot (.vec v) = .error e) ∧
      (∀ cs : List (List α), (A.op.matmul (.tensor ⟨[A.op.ncols, cs.length], (NpVal.mat A.op.ncols cs).ravel⟩)).1 = .error e → cs ≠ [] →
        L.toPair.op.dot (.mat A.op.ncols cs) = .error e) ∧
      ∀ cs : List (List α), (At.op.matmul (.tensor ⟨[A.op.nrows, cs.length], (NpVal.mat A.op.nrows cs).ravel⟩)).1 = .error e → cs ≠ [] →
        L.toPair.adj.dot (.mat A.op.nrows cs) = .error e := by
  refine ⟨_, by unfold OpObj.toScipy; rw [hAt], fun v hv h => ?_, fun v hv h => ?_, fun cs h hc => ?_, fun cs h hc => ?_⟩
  · simp [SciOp.dot, SciOp.matvec, ScipyOp.toPair, ScipyOp.toSci, ← hv, callFn, NpVal.toArray, scipyCompatible, h]
  · simp [SciOp.dot, SciOp.matvec, ScipyOp.toPair, ScipyOp.adjSci, ← hv, callFn, NpVal.toArray, scipyCompatible, h]
  · match cs, hc with
    | [c], _ => simp_all [SciOp.dot, SciOp.matvec, ScipyOp.toPair, ScipyOp.toSci, callFn, NpVal.toArray, scipyCompatible]
    | c :: c' :: cs, _ => simp_all [SciOp.dot, SciOp.matmat, ScipyOp.toPair, ScipyOp.toSci, callFn, NpVal.toArray, scipyCompatible]
  · match cs, hc with
    | [c], _ => simp_all [SciOp.dot, SciOp.matvec, ScipyOp.toPair, ScipyOp.adjSci, callFn, NpVal.toArray, scipyCompatible]
    | c :: c' :: cs, _ => simp_all [SciOp.dot, SciOp.matmat, ScipyOp.toPair, ScipyOp.adjSci, callFn, NpVal.toArray, scipyCompatible]

/-! ## Estimators -/

/-- The products of an estimator for a SciPy operator. -/
theorem withOp_multiplies [NonUnitalNonAssocSemiring α] {W : Type _} {m n : Nat} (E : Ext α W) (L : SciOp α)
    (A : Matrix (Fin m) (Fin n) α) (hL : VecRep L A) : Multiplies (E.withOp L) A := fun v _ => hL.mulVec v

/-- C96: Hutchinson's estimators on the export of any operator that is declared self-adjoint: unbiased for the trace, the
diagonal and the squared Frobenius norm of the matrix that it represents. -/
theorem export_estimators (op : LinOp ℝ) (M : Mat ℝ) (hM : Represents op M) {n : Nat} (hr : op.nrows = n) (hc : op.ncols = n)
    (ho : op.outShape ≠ []) (dt : DType) (dtype : Option DType) {W : Type _} (E : Ext ℝ W) (w : (Fin n → Bool) → W)
    (hw : DrawsBits E w) :
    ∃ L, (OpObj.plain true op).toScipy dt dtype = .ok L ∧
      (∃ F : (Fin n → Bool) → ℝ, (∀ b, (hutchTrace (E.withOp L.toSci) n (.str "rademacher") (w b)).1 = .ok (F b)) ∧
        signMean F = ∑ i ∈ Finset.range n, M i i) ∧
      (∃ F : (Fin n → Bool) → Fin n → ℝ,
        (∀ b, (hutchDiag (E.withOp L.toSci) n (.str "rademacher") (w b)).1 = .ok (List.ofFn (F b))) ∧
        ∀ i : Fin n, signMean (fun b => F b i) = M i i) ∧
      ∃ F : (Fin n → Bool) → ℝ, (∀ b, (hutchNorm (E.withOp L.toSci) n (.str "rademacher") (w b)).1 = .ok (F b)) ∧
        signMean F = ∑ i ∈ Finset.range n, ∑ j ∈ Finset.range n, M i j ^ 2 := by
  have hv := (exported_rep op M (fun K _ => hM K) ho dt hr hc
    (ScipyOp.toSci ⟨op.nrows, op.ncols, scipyCompatible op dt, scipyCompatible op dt, scipyCompatible op dt,
      scipyCompatible op dt, match dtype with | none => .float64 | some d => d⟩) hr hc rfl fun _ _ => rfl).1
  have hm := withOp_multiplies E _ _ hv
  refine ⟨_, rfl, ?_, hutchDiag_rademacher _ _ hm w hw, ?_⟩
  · obtain ⟨F, h1, h2⟩ := hutchTrace_rademacher _ _ hm w hw
    exact ⟨F, h1, by rw [h2, Matrix.trace, Finset.sum_range]; rfl⟩
  · obtain ⟨F, h1, h2⟩ := hutchNorm_rademacher _ _ hm w hw
    refine ⟨F, h1, ?_⟩
    rw [h2, Finset.sum_range]
    exact Finset.sum_congr rfl fun i _ => by rw [Finset.sum_range]; rfl

/-- C96: on the exported empirical Fisher, the trace estimator is unbiased for the weighted sum of the squared norms of the
gradients of all loss terms. -/
theorem ef_trace_estimator {k : LossKind} {C : Nat} (shapes : List (List Nat)) (hshapes : shapes ≠ []) (mean : Bool) (T : Nat)
    (batches : List (List (List (Term k C)))) (hne : ∀ b ∈ batches, b ≠ []) (hT : ∀ b ∈ batches, ∀ d ∈ b, d.length = T)
    (dt : DType) (dtype : Option DType) {W : Type _} (E : Ext ℝ W) (w : (Fin (total shapes) → Bool) → W)
    (hw : DrawsBits E w) :
    ∃ L, (OpObj.plain true (curvatureOp shapes (redOf mean) (inferNData List.length batches none) List.length
        (fun b => efBatch shapes mean b.flatten) batches)).toScipy dt dtype = .ok L ∧
      ∃ F : (Fin (total shapes) → Bool) → ℝ,
        (∀ b, (hutchTrace (E.withOp L.toSci) (total shapes) (.str "rademacher") (w b)).1 = .ok (F b)) ∧
        signMean F = termWeight k mean batches.flatten.flatten.length C *
          (batches.flatten.flatten.map fun t => ∑ r ∈ Finset.range (total shapes), termGrad t r ^ 2).sum := by
  obtain ⟨L, hL, ⟨F, h1, h2⟩, -⟩ := export_estimators _ _ (efOp_represents shapes hshapes mean T batches hne hT)
    (n := total shapes) (by rw [LinOp.nrows, LinOp.outFlat, curvatureOp_outShape]; rfl)
    (by rw [LinOp.ncols, LinOp.inFlat, curvatureOp_inShape]; rfl) (by rw [curvatureOp_outShape]; exact hshapes) dt dtype E w hw
  refine ⟨L, hL, F, h1, ?_⟩
  have hT' : ∀ d ∈ batches.flatten, d.length = T := by
    intro d hd
    obtain ⟨b, hb, hd⟩ := List.mem_flatten.1 hd
    exact hT b hb d hd
  rw [h2]
  simp only [ef_matrix mean T batches.flatten hT', ← pow_two]
  rw [← Finset.mul_sum]
  congr 1
  generalize batches.flatten.flatten = ts
  induction ts with
  | nil => simp
  | cons t ts ih => simp [Finset.sum_add_distrib, ih]

/-- C96: on the exported KFAC operator, the trace estimator is unbiased for its property `trace`, and the estimator of the squared
Frobenius norm for the square of its property `frobenius_norm`. -/
theorem kfac_estimators {sep : Bool} {shapes : List (List Nat)} {mapping : Dict (Dict Nat)} {inCov gradCov : Dict (Factor ℝ)}
    {layers : List (Layer ℝ)} (h : KfacLayers sep shapes mapping inCov gradCov layers) (M : Mat ℝ)
    (hM : IsKron (kfacBlocks sep shapes layers) M) (hl : layers ≠ []) (hshapes : shapes ≠ []) (dt : DType)
    (dtype : Option DType) {W : Type _} (E : Ext ℝ W) (w : (Fin (total shapes) → Bool) → W) (hw : DrawsBits E w) :
    ∃ L, (OpObj.plain true (kfacOp shapes sep mapping inCov gradCov)).toScipy dt dtype = .ok L ∧
      (∃ F t, (∀ b, (hutchTrace (E.withOp L.toSci) (total shapes) (.str "rademacher") (w b)).1 = .ok (F b)) ∧
        kfacTrace sep mapping inCov gradCov = .ok t ∧ signMean F = t) ∧
      ∃ F t, (∀ b, (hutchNorm (E.withOp L.toSci) (total shapes) (.str "rademacher") (w b)).1 = .ok (F b)) ∧
        kfacFrobenius sep mapping inCov gradCov = .ok t ∧ signMean F = t ^ 2 := by
  obtain ⟨L, hL, ⟨F, f1, f2⟩, -, G, g1, g2⟩ := export_estimators _ M (kfac_represents sep shapes mapping inCov gradCov layers h M hM)
    (n := total shapes) rfl rfl hshapes dt dtype E w hw
  refine ⟨L, hL, ⟨F, _, f1, kfacTrace_eq h M hM, f2⟩, G, _, g1, kfacFrobenius_eq h M hM hl, ?_⟩
  unfold matSquares
  rw [Real.sq_sqrt (Finset.sum_nonneg fun i _ => Finset.sum_nonneg fun j _ => sq_nonneg _)]
  exact g2

/-! ## The Hessian -/

section hessian

variable {P O : Nat}

/-- `HessianLinearOperator(model, loss, params, data)` (`hessian.py:14-84`, `SELF_ADJOINT` in line 42) at the parameters `θ`. -/
noncomputable def hessianObj (shapes : List (List Nat)) (red : Reduction) (θ : Fin P → ℝ)
    (batches : List (List (NetDatum P O))) : OpObj ℝ :=
  .plain true (curvatureOp shapes red (inferNData List.length batches none) List.length
    (netHessianBatch shapes [(shapes.length : Int)] red θ) batches)

/-- The matrix of second partial derivatives of the empirical risk. -/
noncomputable def riskHessian (red : Reduction) (θ : Fin P → ℝ) (ds : List (NetDatum P O)) : Matrix (Fin P) (Fin P) ℝ :=
  Matrix.of fun i j => hess (empiricalRisk red ds) θ i j

/-- The setting: parameters, data in non-empty mini-batches, and losses that are twice continuously differentiable. -/
structure HessianSetting (shapes : List (List Nat)) (red : Reduction) (θ : Fin P → ℝ)
    (batches : List (List (NetDatum P O))) : Prop where
  dim : total shapes = P
  params : shapes ≠ []
  reduction : red = .mean ∨ red = .sum
  nonempty : ∀ b ∈ batches, b ≠ []
  smooth : ∀ d ∈ batches.flatten, ContDiffAt ℝ 2 (fun θ => d.loss (d.f θ)) θ

variable {shapes : List (List Nat)} {red : Reduction} {θ : Fin P → ℝ} {batches : List (List (NetDatum P O))}

theorem natMat_part (H : Fin P → Fin P → ℝ) : Mat.part (natMat H) P P = Matrix.of H := by
  ext i j
  simp [Mat.part, natMat]

theorem riskHessian_symm (h : HessianSetting shapes red θ batches) :
    (riskHessian red θ batches.flatten)ᵀ = riskHessian red θ batches.flatten := by
  have := netHessian_symm red θ batches.flatten h.smooth
  ext i j
  have := this j i
  simpa [natMat, riskHessian] using this

/-- C96: the exported Hessian operator and its adjoint multiply with the matrix of second partial derivatives. -/
theorem hessian_export (h : HessianSetting shapes red θ batches) (dt : DType) (dtype : Option DType) :
    ∃ L, (hessianObj shapes red θ batches).toScipy dt dtype = .ok L ∧
      VecRep L.toPair.op (riskHessian red θ batches.flatten) ∧ VecRep L.toPair.adj (riskHessian red θ batches.flatten) ∧
      ∀ K, 1 ≤ K → MatRepAt L.toPair.op (riskHessian red θ batches.flatten) K ∧
        MatRepAt L.toPair.adj (riskHessian red θ batches.flatten) K := by
  have key := export_symmetric _ _ (netHessianOp_represents shapes h.dim h.params red h.reduction θ batches h.nonempty h.smooth).1
    (n := P) (by rw [LinOp.nrows, LinOp.outFlat, curvatureOp_outShape]; exact h.dim)
    (by rw [LinOp.ncols, LinOp.inFlat, curvatureOp_inShape]; exact h.dim) (by rw [curvatureOp_outShape]; exact h.params)
    (fun r _ c _ => netHessian_symm red θ batches.flatten h.smooth r c) dt dtype
  rw [natMat_part] at key
  exact key

/-- C96: Hutchinson's trace estimator on the exported Hessian is unbiased for `Σ_i ∂²L/∂θ_i²`, and the diagonal estimator for
`∂²L/∂θ_i²`, for both distributions. -/
theorem hessian_estimators (h : HessianSetting shapes red θ batches) (dt : DType) (dtype : Option DType) {W : Type _}
    (E : Ext ℝ W) (wb : (Fin P → Bool) → W) (hwb : DrawsBits E wb) (wn : (Fin P → ℝ) → W) (hwn : DrawsNormal E wn) :
    ∃ L, (hessianObj shapes red θ batches).toScipy dt dtype = .ok L ∧
      (∃ F : (Fin P → Bool) → ℝ, (∀ b, (hutchTrace (E.withOp L.toSci) P (.str "rademacher") (wb b)).1 = .ok (F b)) ∧
        signMean F = ∑ i, hess (empiricalRisk red batches.flatten) θ i i) ∧
      (∃ F : (Fin P → ℝ) → ℝ, (∀ v, (hutchTrace (E.withOp L.toSci) P (.str "normal") (wn v)).1 = .ok (F v)) ∧
        Integrable F (stdNormal P) ∧ ∫ v, F v ∂stdNormal P = ∑ i, hess (empiricalRisk red batches.flatten) θ i i) ∧
      (∃ F : (Fin P → Bool) → Fin P → ℝ,
        (∀ b, (hutchDiag (E.withOp L.toSci) P (.str "rademacher") (wb b)).1 = .ok (List.ofFn (F b))) ∧
        ∀ i, signMean (fun b => F b i) = hess (empiricalRisk red batches.flatten) θ i i) ∧
      ∃ F : (Fin P → ℝ) → Fin P → ℝ,
        (∀ v, (hutchDiag (E.withOp L.toSci) P (.str "normal") (wn v)).1 = .ok (List.ofFn (F v))) ∧
        ∀ i, Integrable (fun v => F v i) (stdNormal P) ∧
          ∫ v, F v i ∂stdNormal P = hess (empiricalRisk red batches.flatten) θ i i := by
  obtain ⟨L, hL, hv, -⟩ := hessian_export h dt dtype
  have hm := withOp_multiplies E L.toSci _ hv
  exact ⟨L, hL, hutchTrace_rademacher _ _ hm wb hwb, hutchTrace_normal _ _ hm wn hwn, hutchDiag_rademacher _ _ hm wb hwb,
    hutchDiag_normal _ _ hm wn hwn⟩

/-- C96: the sub-matrix operator of the exported Hessian multiplies vectors with the second partial derivatives in the chosen
parameters, rows and columns in the given order; matrices with at least two columns as well. -/
theorem hessian_submatrix (h : HessianSetting shapes red θ batches) (dt : DType) (dtype : Option DType) {k l : Nat}
    (rowIdx : Fin k → Fin P) (colIdx : Fin l → Fin P) (hrow : Function.Injective rowIdx) (hcol : Function.Injective colIdx) :
    ∃ L s, (hessianObj shapes red θ batches).toScipy dt dtype = .ok L ∧
      mkSubmatrix L.toPair (idxList rowIdx) (idxList colIdx) = .ok s ∧
      VecRep s.toSci (Matrix.of fun i j => hess (empiricalRisk red batches.flatten) θ (rowIdx i) (colIdx j)) ∧
      ∀ K, 2 ≤ K →
        MatRepAt s.toSci (Matrix.of fun i j => hess (empiricalRisk red batches.flatten) θ (rowIdx i) (colIdx j)) K := by
  obtain ⟨L, hL, hv, -⟩ := hessian_export h dt dtype
  obtain ⟨s, s1, s2, s3⟩ := submatrix_dense_partial L.toPair _ hv rowIdx colIdx hrow hcol
  exact ⟨L, s, hL, s1, s2, s3⟩

/-- C96: the Neumann inverse of the exported Hessian converges to the inverse matrix times the vector, if `scale` times every
eigenvalue is between 0 and 2. -/
theorem hessian_neumann (h : HessianSetting shapes red θ batches) (dt : DType) (dtype : Option DType) (s : ℝ)
    (hs : ∀ (l : ℝ) (x : Fin P → ℝ), x ≠ 0 → riskHessian red θ batches.flatten *ᵥ x = l • x → 0 < s * l ∧ s * l < 2)
    (hy : Nat → NeumannHyper ℝ) (hscale : ∀ T, (hy T).scale = s) (hterms : ∀ T, (hy T).numTerms = T) (x : Fin P → ℝ) :
    ∃ L, (hessianObj shapes red θ batches).toScipy dt dtype = .ok L ∧ ∃ y : Nat → Fin P → ℝ,
      (∀ T, (neumannOp (fun _ => false) L.toSci (hy T)).dot (.vec (List.ofFn x)) = .ok (.vec (List.ofFn (y T)))) ∧
      Tendsto y atTop (𝓝 ((riskHessian red θ batches.flatten)⁻¹ *ᵥ x)) := by
  obtain ⟨L, hL, hv, -⟩ := hessian_export h dt dtype
  refine ⟨L, hL, fun T => neumannSum (riskHessian red θ batches.flatten) s T x, fun T => ?_,
    (neumann_converges _ (riskHessian_symm h) s hs x).2⟩
  have := neumann_vec L.toSci _ hv (hy T) x
  rwa [hscale, hterms] at this

/-- A SciPy operator as function on vectors. -/
theorem asFunction_eq {d : Nat} (L : SciOp ℝ) (A : Matrix (Fin d) (Fin d) ℝ) (hL : VecRep L A) :
    (L.asFunction : EuclideanSpace ℝ (Fin d) → EuclideanSpace ℝ (Fin d)) = Matrix.toEuclideanLin A := by
  funext x
  unfold SciOp.asFunction
  rw [hL.mulVec]
  ext i
  simp [Matrix.toLpLin_apply, List.getD_eq_getElem?_getD]

/-- C96: the spectral density that `lanczos_approximate_spectrum` computes from the exported Hessian, with standard normal start
vectors: its error at a grid point with respect to the smoothed density of the eigenvalues of the matrix of second partial
derivatives (see `lanczosSpectrum_error` for the constants). -/
theorem hessian_lanczos (h : HessianSetting shapes red θ batches) (dt : DType) (dtype : Option DType)
    (b : OrthonormalBasis (Fin P) ℝ (EuclideanSpace ℝ (Fin P))) (lam : Fin P → ℝ)
    (hb : ∀ i, riskHessian red θ batches.flatten *ᵥ (b i).ofLp = lam i • (b i).ofLp) (eigh eighTri : Eigh)
    (c1 : EighContract eigh) (c2 : EighContract eighTri) (t1 : ∀ n T, ∃ p, eigh n T = .ok p)
    (t2 : ∀ n T, ∃ p, eighTri n T = .ok p) {Ω : Type _} [MeasurableSpace Ω] {μ : Measure Ω} [IsProbabilityMeasure μ]
    {R : Nat → Ω → EuclideanSpace ℝ (Fin P)} (hR : NormalStarts μ R) (ncv : Nat) (hn : 2 ≤ ncv) (hle : ncv ≤ numDistinct lam)
    (tri : Bool) (eigsh : Eigsh) (calls N : Nat) (kappa : ℝ) (hk : 1 < kappa) (boundaries : Boundaries) (margin : ℝ)
    (hm : 0 ≤ margin) (bd : ℝ × ℝ) (hbd : (approximateBoundaries eigsh boundaries).1 = .ok bd) (hlt : bd.1 < bd.2) (g : List ℝ)
    (hg : g = linspace (bd.1 - margin * (bd.2 - bd.1)) (bd.2 + margin * (bd.2 - bd.1)) N) (q : Nat) (hq : q < N) (f : ℝ → ℝ)
    (hf : f = fun t => ProbabilityTheory.gaussianPDFReal t
      (Real.toNNReal (bumpDeviation ((1 + 2 * margin) * (bd.2 - bd.1)) ncv kappa ^ 2)) (g.getD q 0)) (ε : ℝ)
    (hε : Approximable lam ncv f ε ∨ (ncv = numDistinct lam ∧ ε = 0)) :
    ∃ L, (hessianObj shapes red θ batches).toScipy dt dtype = .ok L ∧
      (∀ n : Nat, 0 < n → ∀ δ, 0 < δ →
        μ.real {ω | 2 * ε + δ ≤ |densityAt (lanczosSpectrum eigsh (fun i => fastLanczos eigh eighTri L.toSci.asFunction ncv tri
          (R i ω)) calls N n kappa boundaries margin) q - (∑ k, f (lam k)) / P|} ≤
          2 / (P * (P + 2)) * (∑ k, f (lam k) ^ 2 - (∑ k, f (lam k)) ^ 2 / P) / (n * δ ^ 2)) ∧
      ∀ᵐ ω ∂μ, ∀ δ, 0 < δ → ∀ᶠ n : Nat in atTop,
        |densityAt (lanczosSpectrum eigsh (fun i => fastLanczos eigh eighTri L.toSci.asFunction ncv tri (R i ω)) calls N n kappa
          boundaries margin) q - (∑ k, f (lam k)) / P| < 2 * ε + δ := by
  obtain ⟨L, hL, hv, -⟩ := hessian_export h dt dtype
  refine ⟨L, hL, ?_⟩
  rw [asFunction_eq L.toSci _ hv]
  have hsymm : (Matrix.toEuclideanLin (riskHessian red θ batches.flatten)).IsSymmetric := by
    rw [Matrix.isSymmetric_toEuclideanLin_iff, Matrix.IsHermitian, Matrix.conjTranspose_eq_transpose_of_trivial]
    exact riskHessian_symm h
  refine lanczosSpectrum_error (b := b) ⟨hsymm, fun i => ?_, c1, c2, t1, t2⟩ hR ncv hn hle tri eigsh calls N kappa hk boundaries margin hm
    bd hbd hlt g hg q hq f hf ε hε
  ext j
  simpa [Matrix.toLpLin_apply] using congrFun (hb i) j

/-- Non-vacuity: two parameters of a non-linear model, three data in two mini-batches. -/
example (θ : Fin 2 → ℝ) :
    HessianSetting [[1], [1]] .mean θ [[sinDatum 1 2, sinDatum 3 1], [sinDatum 0 1]] where
  dim := by decide
  params := by simp
  reduction := Or.inl rfl
  nonempty := by simp
  smooth := by
    have key : ∀ x y, ContDiffAt ℝ 2 (fun θ => (sinDatum x y).loss ((sinDatum x y).f θ)) θ := by
      intro x y
      unfold sinDatum
      fun_prop
    simp [key]

end hessian

/-- Non-vacuity: a generator whose state is what it returns next satisfies the contract of the estimators. -/
example : DrawsBits (⟨fun _ w => (w, w), fun _ w => ([], w), fun v w => (.ok v, w), id⟩ : Ext ℝ (List Bool))
    (fun b : Fin 3 → Bool => List.ofFn b) := fun _ => rfl

/-- A concrete non-symmetric operator for the example: the matrix `[[1, 2], [3, 4]]` on a parameter of shape `(2,)`. -/
def exportExample : LinOp ℤ where
  inShape := [[2]]
  outShape := [[2]]
  matmat Xs := (.ok (Xs.map fun t =>
    let K := t.shape.getD 1 0
    ⟨[2, K], ((List.range K).map fun k => t.data.getD k 0 + 2 * t.data.getD (K + k) 0) ++
      (List.range K).map fun k => 3 * t.data.getD k 0 + 4 * t.data.getD (K + k) 0⟩), Xs)

/-- Non-vacuity: the operator is exported and multiplied with a vector, with a matrix with one column and with a matrix with
two columns. Without the flag the export raises. -/
example : (match (OpObj.plain true exportExample).toScipy .float32 none with
      | .error _ => none
      | .ok L => some (L.toSci.dot (.vec [1, 10]), L.toSci.dot (.mat 2 [[1, 10]]), L.toSci.dot (.mat 2 [[1, 10], [0, 1]]))) =
      some (.ok (.vec [21, 43]), .ok (.mat 2 [[21, 43]]), .ok (.mat 2 [[21, 43], [2, 4]])) ∧
    (match (OpObj.plain false exportExample).toScipy .float32 none with
      | .error e => some e
      | .ok _ => none) = some .notImplementedError ∧
    (matVal !![(1 : ℤ), 2, 5; 3, 4, 6]).toArray.toVal = .ok (matVal !![(1 : ℤ), 2, 5; 3, 4, 6]) := by
  decide

/-- An operator whose product fails, e.g. because the data loader raises: the exception reaches the caller for vectors, for a single
column and for two columns. -/
example : (match (OpObj.plain true { exportExample with matmat := fun Xs => (.error .runtimeError, Xs) }).toScipy .float32 none with
      | .error _ => none
      | .ok L => some (L.toSci.dot (.vec [1, 10]), L.adjSci.dot (.mat 2 [[1, 10]]), L.toSci.dot (.mat 2 [[1, 10], [0, 1]]))) =
    some (.error .runtimeError, .error .runtimeError, .error .runtimeError) := by
  decide

end Curvlinops
