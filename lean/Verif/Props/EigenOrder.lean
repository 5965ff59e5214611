import Verif.Lemmas.EigenOrder
import Verif.Props.Deflation
import Verif.Props.Selection
import Verif.Props.AddedData
import Verif.Props.KfacDistance

/-!
# C120: how the eigenvalues of different operators compare

Eigenvalues of sub-matrices and of operators on some of the parameters interlace with those of the whole operator. Adding data, all
eigenvalues grow. The eigenvalues of KFAC differ from those of the block-diagonal GGN or Fisher at most by the distance of C114.
-/

namespace Curvlinops

open _root_.Matrix

/-- Specification: `vals'` interlaces with `vals`, both in decreasing order: the `i`-th largest number in `vals'` lies between the `i`-th
largest and the `i`-th largest after leaving out the first `n - k`. -/
def Interlaces (n k : Nat) (vals vals' : List ℝ) : Prop :=
  ∀ i < k, vals.getD (i + (n - k)) 0 ≤ vals'.getD i 0 ∧ vals'.getD i 0 ≤ vals.getD i 0

/-- Every list of eigenvalues can be sorted. -/
theorem HasSpectrum.sort {N : Nat} {M : Mat ℝ} {vals : List ℝ} (h : HasSpectrum N M vals) :
    ∃ vals', HasSpectrum N M vals' ∧ Decreasing vals' := by
  obtain ⟨lam, q, hq, he, hp⟩ := h
  exact ⟨vals.insertionSort (· ≥ ·), ⟨lam, q, hq, he, (List.perm_insertionSort _ _).trans hp⟩, List.pairwise_insertionSort _ _⟩

/-- Symmetric matrices have eigenvalues. -/
theorem hasEigs_exists {d : Nat} (M : Matrix (Fin d) (Fin d) ℝ) (hM : Mᵀ = M) : ∃ vals, Matrix.HasEigs M vals ∧ Decreasing vals := by
  obtain ⟨m, hm, mu, w, w1, -, w3⟩ := eigen_complete (k := 0) M hM (fun i => i.elim0) (Matrix.of fun _ i => i.elim0)
    ⟨by ext i; exact i.elim0, fun j => j.elim0⟩
  obtain rfl : m = d := by omega
  refine HasSpectrum.sort (vals := List.ofFn mu) ⟨mu, w, w1, fun p r => ?_, List.Perm.refl _⟩
  have := congrFun (w3 p) r
  simpa [natMat, Matrix.mulVec, dotProduct] using this

/-- Specification: the operator multiplies with a symmetric matrix, and `vals` are its eigenvalues in decreasing order, with
multiplicities. -/
def LinOp.HasEigenvalues (op : LinOp ℝ) (vals : List ℝ) : Prop := ∃ M, Represents op M ∧ HasSpectrum op.nrows M vals ∧ Decreasing vals

theorem HasSpectrum.congr {N : Nat} {M M' : Mat ℝ} {vals : List ℝ} (h : HasSpectrum N M vals) (he : ∀ r < N, ∀ c < N, M r c = M' r c) :
    HasSpectrum N M' vals := by
  obtain ⟨lam, q, hq, hv, hp⟩ := h
  refine ⟨lam, q, hq, fun p r => ?_, hp⟩
  rw [← hv]
  exact Finset.sum_congr rfl fun c _ => by rw [he r r.2 c c.2]

/-- Operators with symmetric matrices have eigenvalues. -/
theorem hasEigenvalues_exists {op : LinOp ℝ} {M : Mat ℝ} (hM : Represents op M)
    (hsym : ∀ r < op.nrows, ∀ c < op.nrows, M r c = M c r) : ∃ vals, op.HasEigenvalues vals := by
  obtain ⟨vals, h1, h2⟩ := hasEigs_exists (Matrix.of fun r c : Fin op.nrows => M r c)
    (by ext r c; exact hsym c c.2 r r.2)
  refine ⟨vals, M, hM, HasSpectrum.congr h1 fun r hr c hc => ?_, h2⟩
  simp [natMat, hr, hc]

/-- They are unique. -/
theorem LinOp.HasEigenvalues.unique {op : LinOp ℝ} (hsq : op.ncols = op.nrows) {vals vals' : List ℝ} (h : op.HasEigenvalues vals)
    (h' : op.HasEigenvalues vals') : vals = vals' := by
  obtain ⟨M, hM, h1, h2⟩ := h
  obtain ⟨M', hM', h3, h4⟩ := h'
  exact ((h1.congr fun r hr c hc => represents_unique op M M' hM hM' r c hr (hsq ▸ hc)).unique h3).eq_of_pairwise' h2 h4

/-! ## Sub-matrices -/

section sub

variable {n k : Nat}

/-- Vectors with the entries `y` at the places `e`. -/
def spread (e : Fin k → Fin n) : (Fin k → ℝ) →ₗ[ℝ] (Fin n → ℝ) :=
  LinearMap.pi fun r => ∑ j, (if e j = r then (1 : ℝ) else 0) • LinearMap.proj j

theorem spread_apply (e : Fin k → Fin n) (y : Fin k → ℝ) (r : Fin n) : spread e y r = ∑ j, if e j = r then y j else 0 := by
  simp only [spread, LinearMap.pi_apply, LinearMap.sum_apply, LinearMap.smul_apply, LinearMap.proj_apply, smul_eq_mul, ite_mul, one_mul,
    zero_mul]

theorem spread_sum (e : Fin k → Fin n) (y : Fin k → ℝ) (f : Fin n → ℝ) : ∑ r, f r * spread e y r = ∑ j, f (e j) * y j := by
  simp only [spread_apply, Finset.mul_sum]
  rw [Finset.sum_comm]
  refine Finset.sum_congr rfl fun j _ => ?_
  simp

theorem spread_at {e : Fin k → Fin n} (he : Function.Injective e) (y : Fin k → ℝ) (j : Fin k) : spread e y (e j) = y j := by
  rw [spread_apply]
  simp [he.eq_iff]

theorem spread_iso {e : Fin k → Fin n} (he : Function.Injective e) (y : Fin k → ℝ) :
    ∑ r, spread e y r * spread e y r = ∑ r, y r * y r := by
  rw [spread_sum]
  exact Finset.sum_congr rfl fun j _ => by rw [spread_at he]

theorem spread_quad (e : Fin k → Fin n) {M B : Mat ℝ} (hB : ∀ i j : Fin k, B i j = M (e i) (e j))
    (y : Fin k → ℝ) : ∑ r, y r * ∑ j : Fin k, B r j * y j = ∑ r, spread e y r * ∑ j : Fin n, M r j * spread e y j := by
  have h1 : ∀ r : Fin n, ∑ j : Fin n, M r j * spread e y j = ∑ j, M r (e j) * y j := fun r => spread_sum e y fun j => M r j
  simp only [h1, mul_comm (spread e y _)]
  rw [spread_sum e y fun r => ∑ j, M r (e j) * y j]
  exact Finset.sum_congr rfl fun i _ => by simp only [hB, mul_comm]

/-- Eigenvalues of a principal sub-matrix, in any order of the rows and columns, interlace. -/
theorem HasSpectrum.interlaces {e : Fin k → Fin n} (he : Function.Injective e) {M B : Mat ℝ}
    (hB : ∀ i j : Fin k, B i j = M (e i) (e j)) {vals vals' : List ℝ} (h : HasSpectrum n M vals) (hs : Decreasing vals)
    (h' : HasSpectrum k B vals') (hs' : Decreasing vals') : Interlaces n k vals vals' := by
  have hkn : k ≤ n := by simpa using Fintype.card_le_of_injective e he
  exact fun i hi => ⟨HasSpectrum.ge hkn h hs h' hs' (spread e) (spread_iso he) (fun y => (spread_quad e hB y).ge) i hi,
    HasSpectrum.le hkn h hs h' hs' (spread e) (spread_iso he) (fun y => (spread_quad e hB y).le) i hi⟩

/-- **C120** (sub-matrices): `SubmatrixLinearOperator` with the same distinct row and column indices, in any order, multiplies with a
symmetric matrix whose eigenvalues interlace with those of the operator. -/
theorem submatrix_interlaces (P : SciPair ℝ) (A : Matrix (Fin n) (Fin n) ℝ) (hA : VecRep P.op A) (hsym : Aᵀ = A) (e : Fin k → Fin n)
    (he : Function.Injective e) :
    ∃ (s : SubState ℝ) (B : Matrix (Fin k) (Fin k) ℝ) (vals vals' : List ℝ), mkSubmatrix P (idxList e) (idxList e) = .ok s ∧ VecRep s.toSci B ∧ Bᵀ = B ∧
      Matrix.HasEigs A vals ∧ Decreasing vals ∧ Matrix.HasEigs B vals' ∧ Decreasing vals' ∧ Interlaces n k vals vals' := by
  obtain ⟨s, s1, s2, -⟩ := submatrix_dense_partial P A hA e e he he
  have hB : (A.submatrix e e)ᵀ = A.submatrix e e := by rw [Matrix.transpose_submatrix, hsym]
  obtain ⟨vals, h1, h2⟩ := hasEigs_exists A hsym
  obtain ⟨vals', h3, h4⟩ := hasEigs_exists _ hB
  refine ⟨s, _, vals, vals', s1, s2, hB, h1, h2, h3, h4, HasSpectrum.interlaces he (fun i j => ?_) h1 h2 h3 h4⟩
  simp [natMat]

end sub

/-! ## Operators on some of the parameters -/

section selection

variable {shapes : List (List Nat)} {sel : List Nat}

/-- The matrix of a restriction is the sub-matrix. -/
theorem IsRestriction.entries (hs : Selects shapes sel) {op op' : LinOp ℝ} (hin : op.inShape = shapes)
    (hout : op.outShape = shapes) (hin' : op'.inShape = selShapes shapes sel) (hout' : op'.outShape = selShapes shapes sel)
    (hr : IsRestriction shapes sel op op') {A A' : Mat ℝ} (hA : Represents op A) (hA' : Represents op' A') :
    ∀ r < total (selShapes shapes sel), ∀ c < total (selShapes shapes sel), A' r c = subMatrix shapes sel A r c := by
  have hrow : op.nrows = total shapes := by rw [LinOp.nrows, LinOp.outFlat, hout]; rfl
  have hcol : op.ncols = total shapes := by rw [LinOp.ncols, LinOp.inFlat, hin]; rfl
  have hrow' : op'.nrows = total (selShapes shapes sel) := by rw [LinOp.nrows, LinOp.outFlat, hout']; rfl
  have hcol' : op'.ncols = total (selShapes shapes sel) := by rw [LinOp.ncols, LinOp.inFlat, hin']; rfl
  have key : Represents op' (subMatrix shapes sel A) := by
    intro K M hM
    rw [hin'] at hM
    obtain ⟨Y, y1, y2, y3⟩ := hr K M hM
    obtain ⟨Z, z1, -, z3⟩ := hA K (padParams shapes sel K M) (by rw [hin]; exact padParams_hasShapes hM)
    rw [y1, Except.ok.injEq] at z1
    subst z1
    rw [hrow, hcol] at z3
    refine ⟨pickParams sel Y, y3, by rw [hout']; exact pickParams_hasShapes y2 hs, ?_, fun r hr k hk => ?_⟩
    · rw [hrow']
      exact (pickParams_hasShapes y2 hs).flatData_length
    · rw [hrow'] at hr
      rw [hcol', pickParams_entry y2 hs hr hk, z3.2 _ (selIndex_lt hs hr) k hk, sum_padParams hs hM _ hk]
      rfl
  intro r hr c hc
  exact represents_unique op' A' _ hA' key r c (by rw [hrow']; exact hr) (by rw [hcol']; exact hc)

/-- **C120** (parameters): the eigenvalues of an operator on some of the parameters interlace with those of the operator on all of them. -/
theorem restriction_interlaces (hs : Selects shapes sel) {op op' : LinOp ℝ} (hin : op.inShape = shapes)
    (hout : op.outShape = shapes) (hin' : op'.inShape = selShapes shapes sel) (hout' : op'.outShape = selShapes shapes sel)
    (hr : IsRestriction shapes sel op op') {vals vals' : List ℝ} (h : op.HasEigenvalues vals) (h' : op'.HasEigenvalues vals') :
    Interlaces (total shapes) (total (selShapes shapes sel)) vals vals' := by
  obtain ⟨A, hA, h1, h2⟩ := h
  obtain ⟨A', hA', h3, h4⟩ := h'
  rw [show op.nrows = total shapes by rw [LinOp.nrows, LinOp.outFlat, hout]; rfl] at h1
  rw [show op'.nrows = total (selShapes shapes sel) by rw [LinOp.nrows, LinOp.outFlat, hout']; rfl] at h3
  exact HasSpectrum.interlaces (e := selFin hs) (selFin_injective hs)
    (fun i j => hr.entries hs hin hout hin' hout' hA hA' i i.2 j j.2) h1 h2 h3 h4

/-- **C120** (Hessian): adding parameters to the operator, the eigenvalues interlace. -/
theorem hessian_interlaces {O : Nat} (hs : Selects shapes sel) (hne : sel ≠ []) (red : Reduction) (hred : red = .mean ∨ red = .sum)
    (θ : Fin (total shapes) → ℝ) (batches : List (List (NetDatum (total shapes) O))) (hb : ∀ b ∈ batches, b ≠ [])
    (hdiff : ∀ d ∈ batches.flatten, ContDiffAt ℝ 2 (fun θ => d.loss (d.f θ)) θ) {vals vals' : List ℝ}
    (h : (curvatureOp shapes red (inferNData List.length batches none) List.length
        (netHessianBatch shapes [(shapes.length : Int)] red θ) batches).HasEigenvalues vals)
    (h' : (curvatureOp (selShapes shapes sel) red
        (inferNData List.length (batches.map (List.map (NetDatum.select (selFin hs) θ))) none) List.length
        (netHessianBatch (selShapes shapes sel) [((selShapes shapes sel).length : Int)] red fun r => θ (selFin hs r))
        (batches.map (List.map (NetDatum.select (selFin hs) θ)))).HasEigenvalues vals') :
    Interlaces (total shapes) (total (selShapes shapes sel)) vals vals' :=
  restriction_interlaces hs rfl rfl rfl rfl (hessianOp_selection hs hne red hred θ batches hb hdiff) h h'

/-- **C120** (GGN): the same for the generalized Gauss-Newton matrix. -/
theorem ggn_interlaces {k : LossKind} {C : Nat} (hs : Selects shapes sel) (hne : sel ≠ []) (mean : Bool) (T : Nat)
    (batches : List (List (List (Term k C)))) (hb : ∀ b ∈ batches, b ≠ []) (hT : ∀ b ∈ batches, ∀ d ∈ b, d.length = T)
    {vals vals' : List ℝ}
    (h : (curvatureOp shapes (redOf mean) (inferNData List.length batches none) List.length
        (fun b => ggnLossBatch shapes mean b.flatten) batches).HasEigenvalues vals)
    (h' : (curvatureOp (selShapes shapes sel) (redOf mean)
        (inferNData List.length (batches.map (selectData shapes sel)) none) List.length
        (fun b => ggnLossBatch (selShapes shapes sel) mean b.flatten) (batches.map (selectData shapes sel))).HasEigenvalues vals') :
    Interlaces (total shapes) (total (selShapes shapes sel)) vals vals' :=
  restriction_interlaces hs rfl rfl rfl rfl (lossOps_selection hs hne mean T batches hb hT).1 h h'

/-- **C120** (empirical Fisher): the same. -/
theorem ef_interlaces {k : LossKind} {C : Nat} (hs : Selects shapes sel) (hne : sel ≠ []) (mean : Bool) (T : Nat)
    (batches : List (List (List (Term k C)))) (hb : ∀ b ∈ batches, b ≠ []) (hT : ∀ b ∈ batches, ∀ d ∈ b, d.length = T)
    {vals vals' : List ℝ}
    (h : (curvatureOp shapes (redOf mean) (inferNData List.length batches none) List.length
        (fun b => efBatch shapes mean b.flatten) batches).HasEigenvalues vals)
    (h' : (curvatureOp (selShapes shapes sel) (redOf mean)
        (inferNData List.length (batches.map (selectData shapes sel)) none) List.length
        (fun b => efBatch (selShapes shapes sel) mean b.flatten) (batches.map (selectData shapes sel))).HasEigenvalues vals') :
    Interlaces (total shapes) (total (selShapes shapes sel)) vals vals' :=
  restriction_interlaces hs rfl rfl rfl rfl (lossOps_selection hs hne mean T batches hb hT).2 h h'

/-- **C120** (Monte-Carlo Fisher): the same with the same seed. -/
theorem mc_interlaces {k : LossKind} {C : Nat} (rng : Rng k C) (hrng : rng.OfPredictions) (cfg : McConfig k C) (hS : cfg.mcSamples ≠ 0)
    (hs : Selects cfg.shapes sel) (hne : sel ≠ []) (T : Nat) (hb : ∀ b ∈ cfg.data, b ≠ []) (hT : ∀ b ∈ cfg.data, ∀ d ∈ b, d.length = T)
    (hbin : ∀ b ∈ cfg.data, BinaryTargets k b.flatten) (hN : cfg.nData = cfg.data.flatten.length) (st st' : McState rng)
    (hdev : st.genDevice = st'.genDevice) {vals vals' : List ℝ} (h : (mcOp rng cfg st).HasEigenvalues vals)
    (h' : (mcOp rng { cfg with shapes := selShapes cfg.shapes sel, data := cfg.data.map (selectData cfg.shapes sel) }
      st').HasEigenvalues vals') :
    Interlaces (total cfg.shapes) (total (selShapes cfg.shapes sel)) vals vals' :=
  restriction_interlaces hs rfl rfl rfl rfl (mcOp_selection rng hrng cfg hS hs hne T hb hT hbin hN st st' hdev) h h'

end selection

/-! ## More data -/

/-- Loewner order and eigenvalues. -/
theorem LoewnerLe.eigenvalues {N : Nat} {M M' : Mat ℝ} (hle : LoewnerLe N M M') {vals vals' : List ℝ} (h : HasSpectrum N M vals)
    (hd : Decreasing vals) (h' : HasSpectrum N M' vals') (hd' : Decreasing vals') : ∀ i < N, vals.getD i 0 ≤ vals'.getD i 0 := by
  refine fun i hi => HasSpectrum.le le_rfl h' hd' h hd LinearMap.id (fun y => rfl) (fun y => ?_) i hi
  have := hle fun r => if hr : r < N then y ⟨r, hr⟩ else 0
  simpa [Finset.sum_range] using this

theorem HasSpectrum.mul {N : Nat} {M : Mat ℝ} {vals : List ℝ} (h : HasSpectrum N M vals) (c : ℝ) :
    HasSpectrum N (fun r k => c * M r k) (vals.map (c * ·)) := by
  obtain ⟨lam, q, hq, he, hp⟩ := h
  refine ⟨fun p => c * lam p, q, hq, fun p r => ?_, ?_⟩
  · simp only [mul_assoc, ← Finset.mul_sum, he]
  · have := hp.map (c * ·)
    rwa [List.map_ofFn] at this

/-- **C120** (data): if all quadratic forms of an operator are at least `c ≥ 0` times those of another, then all its eigenvalues are at
least `c` times the eigenvalues of the other, one by one. -/
theorem AtLeast.eigenvalues {c : ℝ} (hc : 0 ≤ c) {op op' : LinOp ℝ} (h : AtLeast c op op') (hin : op'.inShape = op.inShape)
    (hout : op'.outShape = op.outShape) (hsq : op.ncols = op.nrows) {vals vals' : List ℝ} (hv : op.HasEigenvalues vals)
    (hv' : op'.HasEigenvalues vals') : ∀ i < op.nrows, c * vals.getD i 0 ≤ vals'.getD i 0 := by
  obtain ⟨E, E', hE, hE', hle⟩ := h
  obtain ⟨M, hM, hv, hd⟩ := hv
  obtain ⟨M', hM', hv', hd'⟩ := hv'
  have hn : op'.nrows = op.nrows := by simp only [LinOp.nrows, LinOp.outFlat, hout]
  have hcol : op'.ncols = op.ncols := by simp only [LinOp.ncols, LinOp.inFlat, hin]
  rw [hn] at hv'
  have hle' : LoewnerLe op.nrows (fun r k => c * M r k) M' := by
    intro v
    have e1 : ∀ r ∈ Finset.range op.nrows, ∑ k ∈ Finset.range op.nrows, c * M r k * v k = ∑ k ∈ Finset.range op.nrows, c * E r k * v k :=
      fun r hr => Finset.sum_congr rfl fun k hk => by
        rw [represents_unique op M E hM hE r k (Finset.mem_range.mp hr) (by rw [hsq]; exact Finset.mem_range.mp hk)]
    have e2 : ∀ r ∈ Finset.range op.nrows, ∑ k ∈ Finset.range op.nrows, M' r k * v k = ∑ k ∈ Finset.range op.nrows, E' r k * v k :=
      fun r hr => Finset.sum_congr rfl fun k hk => by
        rw [represents_unique op' M' E' hM' hE' r k (by rw [hn]; exact Finset.mem_range.mp hr)
          (by rw [hcol, hsq]; exact Finset.mem_range.mp hk)]
    rw [Finset.sum_congr rfl fun r hr => congrArg (v r * ·) (e1 r hr), Finset.sum_congr rfl fun r hr => congrArg (v r * ·) (e2 r hr)]
    exact hle v
  intro i hi
  have := LoewnerLe.eigenvalues hle' (hv.mul c) (List.pairwise_map.mpr (hd.imp fun h => mul_le_mul_of_nonneg_left h hc)) hv' hd' i hi
  rw [List.getD_eq_getElem?_getD, List.getElem?_map] at this
  have hlen : i < vals.length := by rw [hv.length]; exact hi
  simpa [List.getD_eq_getElem?_getD, hlen] using this

section added

variable {k : LossKind} {C : Nat}

/-- **C120** (GGN): adding data, every eigenvalue of the GGN grows for reduction `sum`, and every eigenvalue times the number of data for
reduction `mean`. -/
theorem ggn_eigenvalues_added (shapes : List (List Nat)) (hshapes : shapes ≠ []) (mean : Bool) (T : Nat)
    (batches added : List (List (List (Term k C)))) (hne : ∀ b ∈ batches ++ added, b ≠ [])
    (hT : ∀ b ∈ batches ++ added, ∀ d ∈ b, d.length = T) {vals vals' : List ℝ}
    (h : (curvatureOp shapes (redOf mean) (inferNData List.length batches none) List.length
        (fun b => ggnLossBatch shapes mean b.flatten) batches).HasEigenvalues vals)
    (h' : (curvatureOp shapes (redOf mean) (inferNData List.length (batches ++ added) none) List.length
        (fun b => ggnLossBatch shapes mean b.flatten) (batches ++ added)).HasEigenvalues vals') :
    ∀ i < total shapes, (if mean then (batches.flatten.length : ℝ) / (batches ++ added).flatten.length else 1) * vals.getD i 0 ≤
      vals'.getD i 0 :=
  AtLeast.eigenvalues (by split <;> positivity) (ggn_added shapes hshapes mean T batches added hne hT) rfl rfl rfl h h'

/-- **C120** (empirical Fisher): the same. -/
theorem ef_eigenvalues_added (shapes : List (List Nat)) (hshapes : shapes ≠ []) (mean : Bool) (T : Nat)
    (batches added : List (List (List (Term k C)))) (hne : ∀ b ∈ batches ++ added, b ≠ [])
    (hT : ∀ b ∈ batches ++ added, ∀ d ∈ b, d.length = T) {vals vals' : List ℝ}
    (h : (curvatureOp shapes (redOf mean) (inferNData List.length batches none) List.length
        (fun b => efBatch shapes mean b.flatten) batches).HasEigenvalues vals)
    (h' : (curvatureOp shapes (redOf mean) (inferNData List.length (batches ++ added) none) List.length
        (fun b => efBatch shapes mean b.flatten) (batches ++ added)).HasEigenvalues vals') :
    ∀ i < total shapes, (if mean then (batches.flatten.length : ℝ) / (batches ++ added).flatten.length else 1) * vals.getD i 0 ≤
      vals'.getD i 0 :=
  AtLeast.eigenvalues (by split <;> positivity) (ef_added shapes hshapes mean T batches added hne hT) rfl rfl rfl h h'

/-- **C120** (Monte-Carlo Fisher): the same with the same seed. -/
theorem mc_eigenvalues_added (rng : Rng k C) (cfg : McConfig k C) (added : List (List (List (Term k C)))) (hS : cfg.mcSamples ≠ 0)
    (hsh : cfg.shapes ≠ []) (T : Nat) (hne : ∀ b ∈ cfg.data ++ added, b ≠ []) (hT : ∀ b ∈ cfg.data ++ added, ∀ d ∈ b, d.length = T)
    (hbin : ∀ b ∈ cfg.data ++ added, BinaryTargets k b.flatten) (hN : cfg.nData ≠ 0) {N' : Nat} (hN' : N' ≠ 0) (st st' : McState rng)
    (hdev : st.genDevice = st'.genDevice) {vals vals' : List ℝ} (h : (mcOp rng cfg st).HasEigenvalues vals)
    (h' : (mcOp rng { cfg with data := cfg.data ++ added, nData := N' } st').HasEigenvalues vals') :
    ∀ i < total cfg.shapes, (if cfg.mean then (cfg.nData : ℝ) / N' else 1) * vals.getD i 0 ≤ vals'.getD i 0 :=
  AtLeast.eigenvalues (by split <;> positivity) (mc_added rng cfg added hS hsh T hne hT hbin hN hN' st st' hdev) rfl rfl rfl h h'

/-- **C120** (KFAC): adding data, its eigenvalues decrease at most by the ratio of the numbers of data, or its square. -/
theorem kfac_eigenvalues_added {cfg : KfacCfg} {shapes : List (List Nat)} {layers : List PLayer} (hnet : PNet shapes layers)
    (batches added : List (List KDatum)) (hne : batches ≠ []) (hT : cfg.T ≠ 0) (hC : cfg.C ≠ 0) (hmc : cfg.mcSamples ≠ 0)
    (hN : cfg.N ≠ 0) {N' : Nat} (hle : cfg.N ≤ N') {vals vals' : List ℝ} (h : (pKfac cfg shapes layers batches).HasEigenvalues vals)
    (h' : (pKfac { cfg with N := N' } shapes layers (batches ++ added)).HasEigenvalues vals') :
    ∀ i < total shapes, (if cfg.mean = true ∧ cfg.fisher ≠ .forwardOnly then ((cfg.N : ℝ) / N') ^ 2 else (cfg.N : ℝ) / N') *
      vals.getD i 0 ≤ vals'.getD i 0 :=
  AtLeast.eigenvalues (by split <;> positivity) (kfac_added hnet batches added hne hT hC hmc hN hle) rfl rfl rfl h h'

end added

/-! ## KFAC -/

section kfac

variable {D T C : Nat} {k : LossKind}

/-- Eigenvalues of matrices at a small distance. -/
theorem CloseTo.eigenvalues {net : SeqNet D T C} {sep : Bool} {shapes : List (List Nat)} {b : ℝ} {R M : Mat ℝ}
    (h : CloseTo net sep shapes b R M) {vals vals' : List ℝ} (hv : HasSpectrum (shapes.map List.prod).sum M vals)
    (hd : Decreasing vals) (hv' : HasSpectrum (shapes.map List.prod).sum (net.blockDiagonal sep shapes R) vals') (hd' : Decreasing vals') :
    ∑ i ∈ Finset.range (shapes.map List.prod).sum, (vals.getD i 0 - vals'.getD i 0) ^ 2 ≤ b := by
  have := HasSpectrum.distance hv' hd' hv hd
  refine le_trans (le_of_eq ?_) (this.trans h.distance)
  exact Finset.sum_congr rfl fun i _ => by ring

theorem kfac_eigenvalues {net : SeqNet D T C} {cfg : KfacCfg} {shapes : List (List Nat)} {b : ℝ} {R : Mat ℝ}
    {batches : List (List KDatum)} (h : ∃ M, Represents (net.kfac cfg shapes batches) M ∧ CloseTo net cfg.sep shapes b R M)
    {vals vals' : List ℝ} (hv : (net.kfac cfg shapes batches).HasEigenvalues vals)
    (hv' : HasSpectrum (shapes.map List.prod).sum (net.blockDiagonal cfg.sep shapes R) vals') (hd' : Decreasing vals') :
    ∑ i ∈ Finset.range (shapes.map List.prod).sum, (vals.getD i 0 - vals'.getD i 0) ^ 2 ≤ b := by
  obtain ⟨M, hM, hc⟩ := h
  obtain ⟨M', hM', h1, h2⟩ := hv
  exact hc.eigenvalues (h1.congr fun r hr c hc => represents_unique _ M' M hM' hM r c hr hc) h2 hv' hd'

/-- **C120** (type-2): the eigenvalues of KFAC and of the block-diagonal of the GGN, both in decreasing order, differ at most by the error
bound of C114, as sum of squares. -/
theorem kfac_eigenvalues_type2 {cfg : KfacCfg} {shapes : List (List Nat)} {net : SeqNet D T C} (batches : List (List (NetInput D T C k)))
    (hs : net.Setting cfg shapes batches.flatten.length) (hnet : net.stages ≠ []) (hf : cfg.fisher = .type2) (hmc : cfg.mcSamples = 1)
    (hk : k = .ce → C ≠ 1) {θ : Nat → ℝ} (hd : ∀ x ∈ batches.flatten, net.DiffAt shapes θ x.h)
    (hsh : ∀ x ∈ batches.flatten, ∀ st ∈ net.stages, SharedAfter cfg st.name st.dout st.S (x.datum shapes net θ))
    (hx : ∀ x ∈ batches.flatten, x.SqrtOk shapes net θ cfg.mean) {vals vals' : List ℝ}
    (hv : (net.kfac cfg shapes (batches.map (·.map (NetInput.datum shapes net θ)))).HasEigenvalues vals)
    (hv' : HasSpectrum (shapes.map List.prod).sum (net.blockDiagonal cfg.sep shapes (riskMatrix (redOf cfg.mean)
      (datumMatrix cfg.mean T lossHessian) (batches.flatten.map (NetInput.terms shapes net θ)))) vals') (hd' : Decreasing vals') :
    ∑ i ∈ Finset.range (shapes.map List.prod).sum, (vals.getD i 0 - vals'.getD i 0) ^ 2 ≤
      net.errorBound lossHessian cfg shapes θ batches.flatten :=
  kfac_eigenvalues (kfac_distance_type2 batches hs hnet hf hmc hk hd hsh hx).1 hv hv' hd'

/-- **C120** (empirical): the same with the empirical Fisher. -/
theorem kfac_eigenvalues_empirical {cfg : KfacCfg} {shapes : List (List Nat)} {net : SeqNet D T C} (batches : List (List (NetInput D T C k)))
    (hs : net.Setting cfg shapes batches.flatten.length) (hnet : net.stages ≠ []) (hf : cfg.fisher = .empirical) (hmc : cfg.mcSamples = 1)
    (hloss : cfg.loss = k) {θ : Nat → ℝ} (hd : ∀ x ∈ batches.flatten, net.DiffAt shapes θ x.h)
    (hsh : ∀ x ∈ batches.flatten, ∀ st ∈ net.stages, SharedAfter cfg st.name st.dout st.S (x.datum shapes net θ))
    (hx : ∀ x ∈ batches.flatten, x.GradOk shapes net θ) {vals vals' : List ℝ}
    (hv : (net.kfac cfg shapes (batches.map (·.map (NetInput.datum shapes net θ)))).HasEigenvalues vals)
    (hv' : HasSpectrum (shapes.map List.prod).sum (net.blockDiagonal cfg.sep shapes (riskMatrix (redOf cfg.mean)
      (datumMatrix cfg.mean T lossGradOuter) (batches.flatten.map (NetInput.terms shapes net θ)))) vals') (hd' : Decreasing vals') :
    ∑ i ∈ Finset.range (shapes.map List.prod).sum, (vals.getD i 0 - vals'.getD i 0) ^ 2 ≤
      net.errorBound lossGradOuter cfg shapes θ batches.flatten :=
  kfac_eigenvalues (kfac_distance_empirical batches hs hnet hf hmc hloss hd hsh hx).1 hv hv' hd'

end kfac

/-! ## The operators have eigenvalues, and examples -/

/-- GGN and empirical Fisher. -/
theorem lossOps_hasEigenvalues {k : LossKind} {C : Nat} (shapes : List (List Nat)) (hshapes : shapes ≠ []) (mean : Bool) (T : Nat)
    (batches : List (List (List (Term k C)))) (hb : ∀ b ∈ batches, b ≠ []) (hT : ∀ b ∈ batches, ∀ d ∈ b, d.length = T) :
    (∃ vals, (curvatureOp shapes (redOf mean) (inferNData List.length batches none) List.length
      (fun b => ggnLossBatch shapes mean b.flatten) batches).HasEigenvalues vals) ∧
    ∃ vals, (curvatureOp shapes (redOf mean) (inferNData List.length batches none) List.length
      (fun b => efBatch shapes mean b.flatten) batches).HasEigenvalues vals :=
  ⟨hasEigenvalues_exists (ggnLossOp_represents shapes hshapes mean T batches hb hT) fun r _ c _ => (ggnLoss_symm_psd mean T 0 _).1 r c,
    hasEigenvalues_exists (efOp_represents shapes hshapes mean T batches hb hT) fun r _ c _ => (ef_symm_psd mean T 0 _).1 r c⟩

/-- Monte-Carlo Fisher. -/
theorem mc_hasEigenvalues {k : LossKind} {C : Nat} (rng : Rng k C) (cfg : McConfig k C) (hS : cfg.mcSamples ≠ 0)
    (hshapes : cfg.shapes ≠ []) (T : Nat) (hne : ∀ b ∈ cfg.data, b ≠ []) (hT : ∀ b ∈ cfg.data, ∀ d ∈ b, d.length = T)
    (hbin : ∀ b ∈ cfg.data, BinaryTargets k b.flatten) (hN : cfg.nData ≠ 0 ∨ cfg.data = []) (st : McState rng) :
    ∃ vals, (mcOp rng cfg st).HasEigenvalues vals :=
  hasEigenvalues_exists (mcOp_draws rng cfg hS hshapes T hne hT hbin hN st) fun r _ c _ => (mcMatrix_symm_psd _ _ _ 0 _).1 r c

/-- Hessian. -/
theorem hessian_hasEigenvalues {P O : Nat} (shapes : List (List Nat)) (hP : total shapes = P) (hshapes : shapes ≠ []) (red : Reduction)
    (hred : red = .mean ∨ red = .sum) (θ : Fin P → ℝ) (batches : List (List (NetDatum P O))) (hne : ∀ b ∈ batches, b ≠ [])
    (hdiff : ∀ d ∈ batches.flatten, ContDiffAt ℝ 2 (fun θ => d.loss (d.f θ)) θ) :
    ∃ vals, (curvatureOp shapes red (inferNData List.length batches none) List.length
      (netHessianBatch shapes [(shapes.length : Int)] red θ) batches).HasEigenvalues vals :=
  hasEigenvalues_exists (netHessianOp_represents shapes hP hshapes red hred θ batches hne hdiff).1
    fun r _ c _ => netHessian_symm red θ batches.flatten hdiff r c

/-- KFAC. -/
theorem kfac_hasEigenvalues {cfg : KfacCfg} {shapes : List (List Nat)} {layers : List PLayer} (hnet : PNet shapes layers)
    (batches : List (List KDatum)) (hne : batches ≠ []) (hT : cfg.T ≠ 0) (hC : cfg.C ≠ 0) (hmc : cfg.mcSamples ≠ 0) :
    ∃ vals, (pKfac cfg shapes layers batches).HasEigenvalues vals := by
  have hkl := pnet_kfacLayers hnet batches hne hT hC hmc
  obtain ⟨⟨M, hM⟩, -⟩ := kfac_matrix_exists _ _ _ _ _ _ hkl
  exact hasEigenvalues_exists (kfac_represents _ _ _ _ _ _ hkl M hM) (kfac_psd _ _ _ _ _ _ hkl M hM).1

theorem hasSpectrum_one (M : Mat ℝ) : HasSpectrum 1 M [M 0 0] := by
  refine ⟨fun _ => M 0 0, fun _ _ => 1, fun p p' => ?_, fun p r => ?_, by simp⟩
  · simp [Subsingleton.elim p p']
  · simp

/-- The distance of the eigenvalues of KFAC may be as large as the bound, for all data `x`, `x'`. -/
theorem kfac_eigenvalues_sharp (θ : Nat → ℝ) (x x' y y' : ℝ) :
    ∃ v v', (squareNet.kfac squareCfg [[1, 1]] [[(squareInput x y).datum [[1, 1]] squareNet θ],
        [(squareInput x' y').datum [[1, 1]] squareNet θ]]).HasEigenvalues [v] ∧
      HasSpectrum 1 (riskMatrix .sum (datumMatrix false 1 lossHessian) [(squareInput x y).terms [[1, 1]] squareNet θ,
        (squareInput x' y').terms [[1, 1]] squareNet θ]) [v'] ∧
      (v' - v) ^ 2 = squareNet.errorBound lossHessian squareCfg [[1, 1]] θ [squareInput x y, squareInput x' y'] := by
  obtain ⟨M, hM, h⟩ := kfac_distance_sharp θ x x' y y'
  exact ⟨M 0 0, _, ⟨M, hM, hasSpectrum_one M, List.pairwise_singleton _ _⟩, hasSpectrum_one _, h⟩

/-- An entry on the diagonal lies between the eigenvalues: `-25 ≤ 7 ≤ 25`. -/
example : ∃ (s : SubState ℝ) (B : Matrix (Fin 1) (Fin 1) ℝ) (vals vals' : List ℝ),
    mkSubmatrix ⟨denseSci reflection, denseSci reflectionᵀ⟩ (idxList ![(1 : Fin 2)]) (idxList ![(1 : Fin 2)]) = .ok s ∧
      VecRep s.toSci B ∧ Bᵀ = B ∧ Matrix.HasEigs reflection vals ∧ Decreasing vals ∧ Matrix.HasEigs B vals' ∧ Decreasing vals' ∧
      Interlaces 2 1 vals vals' :=
  submatrix_interlaces ⟨denseSci reflection, denseSci reflectionᵀ⟩ reflection (denseSci_vecRep reflection)
    (by ext i j; fin_cases i <;> fin_cases j <;> rfl) ![(1 : Fin 2)] (fun _ _ _ => Subsingleton.elim _ _)

example : Interlaces 2 1 [25, -25] [7] ∧ ¬ Interlaces 2 1 [25, -25] [26] ∧ Interlaces 3 2 [3, 2, 1] [2, 1] ∧
    ¬ Interlaces 3 2 [3, 2, 1] [3, 3] := by
  refine ⟨?_, ?_, ?_, ?_⟩
  · intro i hi
    interval_cases i
    norm_num
  · intro h
    have := (h 0 (by norm_num)).2
    norm_num at this
  · intro i hi
    interval_cases i <;> norm_num
  · intro h
    have := (h 1 (by norm_num)).2
    norm_num at this

/-- Three data instead of two, reduction `mean`: all eigenvalues of the GGN are at least two thirds of the former ones. -/
example : ∃ vals vals',
    (curvatureOp [[2], [1, 1]] (redOf true) (inferNData List.length (ceData.take 1) none) List.length
      (fun b => ggnLossBatch [[2], [1, 1]] true b.flatten) (ceData.take 1)).HasEigenvalues vals ∧
    (curvatureOp [[2], [1, 1]] (redOf true) (inferNData List.length ceData none) List.length
      (fun b => ggnLossBatch [[2], [1, 1]] true b.flatten) ceData).HasEigenvalues vals' ∧
    ∀ i < 3, 2 / 3 * vals.getD i 0 ≤ vals'.getD i 0 := by
  obtain ⟨vals, h⟩ := (lossOps_hasEigenvalues [[2], [1, 1]] (by simp) true 1 (ceData.take 1) (by simp [ceData]) (by simp [ceData])).1
  obtain ⟨vals', h'⟩ := (lossOps_hasEigenvalues [[2], [1, 1]] (by simp) true 1 ceData (by simp [ceData]) (by simp [ceData])).1
  refine ⟨vals, vals', h, h', ?_⟩
  rw [← List.take_append_drop 1 ceData] at h'
  have := ggn_eigenvalues_added [[2], [1, 1]] (by simp) true 1 (ceData.take 1) (ceData.drop 1) (by simp [ceData]) (by simp [ceData]) h
    (by simpa only [List.take_append_drop] using h')
  have e : (if true = true then ((ceData.take 1).flatten.length : ℝ) / (ceData.take 1 ++ ceData.drop 1).flatten.length else 1) = 2 / 3 := by
    rw [List.take_append_drop]
    simp [ceData]
  rw [e] at this
  exact this

end Curvlinops
