import Verif.Model.Blocks
import Verif.Props.Export
import Verif.Props.EigenOrder
import Verif.Props.Functorch

/-!
# C122: blocks of curvature matrices

The comparisons of `docs/examples/basic_usage/example_submatrices.py`.
-/

namespace Curvlinops

open _root_.Matrix

variable {α : Type _}

/-! ### The blocks -/

/-- Where the entries of parameter `i` start. -/
def dimOffset (dims : List Nat) (i : Nat) : Nat := (dims.take i).sum

theorem dimOffset_succ (dims : List Nat) (i : Fin dims.length) : dimOffset dims (i + 1) = dimOffset dims i + dims[i] := by
  unfold dimOffset
  rw [List.take_add_one, List.sum_append]
  simp

theorem dimOffset_le (dims : List Nat) (i : Nat) : dimOffset dims i ≤ dims.sum := by
  unfold dimOffset
  conv_rhs => rw [← List.take_append_drop i dims, List.sum_append]
  omega

theorem dimOffset_lt {n : Nat} {dims : List Nat} (hd : dims.sum = n) (i : Fin dims.length) (r : Fin dims[i]) :
    dimOffset dims i + r < n := by
  have h1 := dimOffset_succ dims i
  have h2 := dimOffset_le dims (i + 1)
  have := r.2
  omega

/-- Entry `r` of parameter `i` in the concatenation of all parameters. -/
def blockPos {n : Nat} {dims : List Nat} (hd : dims.sum = n) (i : Fin dims.length) (r : Fin dims[i]) : Fin n :=
  ⟨dimOffset dims i + r, dimOffset_lt hd i r⟩

/-- Specification: block `(i, j)` of a matrix. -/
def Matrix.paramBlock {n : Nat} (A : Matrix (Fin n) (Fin n) α) {dims : List Nat} (hd : dims.sum = n) (i j : Fin dims.length) :
    Matrix (Fin dims[i]) (Fin dims[j]) α :=
  A.submatrix (blockPos hd i) (blockPos hd j)

theorem blockPos_injective {n : Nat} {dims : List Nat} (hd : dims.sum = n) (i : Fin dims.length) : Function.Injective (blockPos hd i) := by
  intro r r' h
  have := congrArg Fin.val h
  simp only [blockPos] at this
  exact Fin.ext (by omega)

theorem pySliceIdx_nat (n a : Nat) : pySliceIdx n (a : Int) = min a n := by
  unfold pySliceIdx
  rw [if_neg (by omega)]
  simp

theorem pySlice_take (l : List Nat) (i : Nat) : pySlice l 0 (i : Int) = l.take i := by
  unfold pySlice
  rw [pySliceIdx_nat, show pySliceIdx l.length 0 = 0 from by simp [pySliceIdx]]
  simp

theorem blockBounds_nat (dims : List Nat) (i : Nat) : blockBounds dims (i : Int) = (dimOffset dims i, dimOffset dims (i + 1)) := by
  unfold blockBounds
  rw [pySlice_take, show ((i : Int) + 1) = ((i + 1 : Nat) : Int) by push_cast; rfl, pySlice_take]
  rfl

theorem pySlice_ofFn {β : Type _} {n a d : Nat} (h : a + d ≤ n) (f : Fin n → β) :
    pySlice (List.ofFn f) (a : Int) ((a + d : Nat) : Int) = List.ofFn fun r : Fin d => f ⟨a + r, by omega⟩ := by
  unfold pySlice
  rw [pySliceIdx_nat, pySliceIdx_nat, List.length_ofFn, min_eq_left (by omega), min_eq_left (by omega)]
  apply List.ext_getElem
  · simp
    omega
  · intro r h1 h2
    simp

/-- **C122** (`extract_block`): the slices are the block, for all positions of the two parameters. -/
theorem extractBlock_eq {n : Nat} (A : Matrix (Fin n) (Fin n) α) {dims : List Nat} (hd : dims.sum = n) (i j : Fin dims.length) :
    extractBlock (matVal A) dims i j = .ok (matVal (Matrix.paramBlock A hd i j)) := by
  unfold extractBlock matVal
  have hi := dimOffset_le dims (i + 1)
  have hj := dimOffset_le dims (j + 1)
  have e : ∀ i : Fin dims.length, blockBounds dims (i : Nat) = (dimOffset dims i, dimOffset dims i + dims[i]) :=
    fun i => by rw [blockBounds_nat, dimOffset_succ]
  rw [dimOffset_succ] at hi hj
  simp only [e i, e j, pySliceIdx_nat, List.map_ofFn, Function.comp_def]
  rw [hd] at hi hj
  rw [min_eq_left hi, min_eq_left (by omega), Nat.add_sub_cancel_left, pySlice_ofFn hj]
  simp only [pySlice_ofFn hi]
  rfl

/-- Negative positions other than `-1` count from the end, as for lists. -/
theorem blockBounds_negative (dims : List Nat) (i : Nat) (hi : i + 1 < dims.length) :
    blockBounds dims ((i : Int) - dims.length) = blockBounds dims i := by
  have h : ∀ p : Nat, p < dims.length → pySliceIdx dims.length ((p : Int) - dims.length) = pySliceIdx dims.length p := by
    intro p hp
    rw [pySliceIdx_nat]
    unfold pySliceIdx
    rw [if_pos (by omega)]
    simp
  unfold blockBounds pySlice
  rw [h i (by omega), show (i : Int) - dims.length + 1 = ((i + 1 : Nat) : Int) - dims.length by push_cast; ring, h (i + 1) hi,
    show ((i : Int) + 1) = ((i + 1 : Nat) : Int) by push_cast; rfl]

/-- **C122** (the last parameter as position `-1`): `extract_block` returns an array without rows, for all matrices. -/
theorem extractBlock_last (r : Nat) (cs : List (List α)) (dims : List Nat) (j : Int) :
    ∃ cs', extractBlock (.mat r cs) dims (-1) j = .ok (.mat 0 cs') := by
  unfold extractBlock blockBounds
  have h : (pySlice dims 0 (-1 + 1)).sum = 0 := by simp [pySlice, pySliceIdx]
  simp only [h]
  refine ⟨_, congrArg Except.ok (congrArg₂ NpVal.mat ?_ rfl)⟩
  simp [pySliceIdx]

/-- The same for the columns. -/
theorem extractBlock_last_column (r : Nat) (cs : List (List α)) (dims : List Nat) (i : Int) :
    ∃ r', extractBlock (.mat r cs) dims i (-1) = .ok (.mat r' []) := by
  unfold extractBlock blockBounds
  have h : (pySlice dims 0 (-1 + 1)).sum = 0 := by simp [pySlice, pySliceIdx]
  simp only [h]
  refine ⟨_, congrArg Except.ok (congrArg₂ NpVal.mat rfl ?_)⟩
  simp [pySlice, pySliceIdx]

/-! ### `SubmatrixLinearOperator` on ranges of indices -/

theorem npEye_eq [Zero α] [One α] (n : Nat) : npEye n = matVal (1 : Matrix (Fin n) (Fin n) α) := by
  unfold npEye matVal
  congr 1
  apply List.ext_getElem
  · simp
  · intro k h1 h2
    simp only [List.getElem_map, List.getElem_range, List.getElem_ofFn]
    apply List.ext_getElem
    · simp
    · intro i h3 h4
      simp [Matrix.one_apply, Fin.ext_iff]

theorem rangeIdxs_eq {n : Nat} {dims : List Nat} (hd : dims.sum = n) (i : Fin dims.length) :
    rangeIdxs (blockBounds dims (i : Nat)) = idxList (blockPos hd i) := by
  rw [blockBounds_nat, dimOffset_succ]
  unfold rangeIdxs idxList
  apply List.ext_getElem
  · simp
  · intro r h1 h2
    simp [blockPos]

/-- A sub-matrix operator with one column also multiplies with matrices with one column. -/
theorem submatrix_one_column [NonUnitalNonAssocSemiring α] {m n k l : Nat} (P : SciPair α) (A : Matrix (Fin m) (Fin n) α)
    (hA : VecRep P.op A) (rowIdx : Fin k → Fin m) (colIdx : Fin l → Fin n) (hcol : Function.Injective colIdx) (hl : l = 1) :
    MatRepAt (SubState.toSci ⟨P, (k, l), idxList rowIdx, idxList colIdx⟩) (A.submatrix rowIdx colIdx) 1 := by
  subst hl
  intro X
  have h := submatrix_matvecImpl ⟨P, (k, 1), idxList rowIdx, idxList colIdx⟩ A hA rowIdx colIdx hcol rfl rfl fun i => X i 0
  have e : SubState.matvecImpl ⟨P, (k, 1), idxList rowIdx, idxList colIdx⟩ (.mat 1 [List.ofFn fun i : Fin 1 => X i 0]) =
      SubState.matvecImpl ⟨P, (k, 1), idxList rowIdx, idxList colIdx⟩ (.vec (List.ofFn fun i : Fin 1 => X i 0)) := by
    unfold SubState.matvecImpl
    have : npAssign (List.replicate P.op.cols 0) (idxList colIdx) (.mat 1 [List.ofFn fun i : Fin 1 => X i 0]) =
        npAssign (List.replicate P.op.cols 0) (idxList colIdx) (.vec (List.ofFn fun i : Fin 1 => X i 0)) := by
      unfold npAssign
      rw [npIndex_idxList]
      simp [isMask_idxList]
    simp only [this]
  have e1 : (List.ofFn fun k : Fin 1 => List.ofFn fun i : Fin 1 => X i k) = [List.ofFn fun i : Fin 1 => X i 0] := by simp
  rw [e1]
  simp only [SciOp.dot, SciOp.matvec, SubState.toSci, if_true, e, h, NpVal.reshapeCol, NpVal.ravel, List.length_ofFn]
  congr 2

/-- **C122** (`SubmatrixLinearOperator` of a block): for an operator with matrix `A` and two parameters, the sub-matrix operator on the index
ranges can be constructed. If the second parameter has entries, its product with the identity is what `extract_block` takes from the dense
matrix; if it has none, the product raises `ValueError`. -/
theorem blockOp_eye [NonAssocSemiring α] {n : Nat} (P : SciPair α) (A : Matrix (Fin n) (Fin n) α) (hA : VecRep P.op A)
    {dims : List Nat} (hd : dims.sum = n) (i j : Fin dims.length) :
    ∃ s, blockOp P dims i j = .ok s ∧ VecRep s.toSci (Matrix.paramBlock A hd i j) ∧
      s.toSci.dot (npEye dims[j]) = if dims[j] = 0 then .error .valueError else extractBlock (matVal A) dims i j := by
  obtain ⟨s, h1, h2, h3⟩ := submatrix_dense_partial P A hA (blockPos hd i) (blockPos hd j) (blockPos_injective hd i)
    (blockPos_injective hd j)
  have hs := mkSubmatrix_ok P hA.1 hA.2.1 (blockPos hd i) (blockPos hd j) (blockPos_injective hd i) (blockPos_injective hd j)
  refine ⟨s, by rw [blockOp, rangeIdxs_eq hd, rangeIdxs_eq hd, h1], h2, ?_⟩
  rw [hs] at h1
  obtain rfl := Except.ok.inj h1
  by_cases hj : dims[j] = 0
  · have e : npEye (α := α) dims[j] = .mat dims[j] [] := by
      unfold npEye
      rw [hj]
      rfl
    rw [if_pos hj, e]
    exact submatrix_no_columns (α := α) ⟨P, (dims[i], dims[j]), idxList (blockPos hd i), idxList (blockPos hd j)⟩
  · rw [if_neg hj, extractBlock_eq A hd, npEye_eq]
    have key : MatRepAt (SubState.toSci ⟨P, (dims[i], dims[j]), idxList (blockPos hd i), idxList (blockPos hd j)⟩)
        (A.submatrix (blockPos hd i) (blockPos hd j)) dims[j] := by
      by_cases h1 : dims[j] = 1
      · have := submatrix_one_column P A hA (blockPos hd i) (blockPos hd j) (blockPos_injective hd j) h1
        rwa [← h1] at this
      · exact h3 _ (by omega)
    have := key 1
    rw [Matrix.mul_one] at this
    exact this

/-! ### The Hessian -/

section hessian

variable {O : Nat} {shapes : List (List Nat)} {sel : List Nat} {red : Reduction} {θ : Fin (total shapes) → ℝ}
  {batches : List (List (NetDatum (total shapes) O))}

/-- The setting for a selection of the parameters. -/
theorem HessianSetting.select (h : HessianSetting shapes red θ batches) (hs : Selects shapes sel) (hne : sel ≠ []) :
    HessianSetting (selShapes shapes sel) red (fun r => θ (selFin hs r)) (batches.map (List.map (NetDatum.select (selFin hs) θ))) where
  dim := rfl
  params := selShapes_ne hne
  reduction := h.reduction
  nonempty := by
    intro b hb'
    obtain ⟨b', h', rfl⟩ := List.mem_map.mp hb'
    simpa using h.nonempty b' h'
  smooth := by
    intro d hd
    rw [flatten_map_map] at hd
    obtain ⟨d', hd', rfl⟩ := List.mem_map.mp hd
    have h := h.smooth d' hd'
    rw [← embedParams_self (selFin_injective hs) θ] at h
    exact h.comp _ (contDiff_embed θ).contDiffAt

theorem matVal_congr {m m' K K' : Nat} (hm : m = m') (hK : K = K') (A : Matrix (Fin m) (Fin K) α) (B : Matrix (Fin m') (Fin K') α)
    (h : ∀ r c (hr : r < m) (hc : c < K), A ⟨r, hr⟩ ⟨c, hc⟩ = B ⟨r, hm ▸ hr⟩ ⟨c, hK ▸ hc⟩) : matVal A = matVal B := by
  subst hm hK
  exact congrArg matVal (by ext r c; exact h r c r.2 c.2)

theorem dot_eye {n : Nat} {L : SciOp ℝ} {A : Matrix (Fin n) (Fin n) ℝ} (h : MatRepAt L A n) : L.dot (npEye n) = .ok (matVal A) := by
  have := h 1
  rw [Matrix.mul_one] at this
  rw [npEye_eq]
  exact this

/-- Specification: the mixed second partial derivatives of the empirical risk in two parameters. -/
noncomputable def mixedDerivatives (red : Reduction) (θ : Fin (total shapes) → ℝ) (ds : List (NetDatum (total shapes) O))
    (i j : Fin (shapes.map List.prod).length) : Matrix (Fin (shapes.map List.prod)[i]) (Fin (shapes.map List.prod)[j]) ℝ :=
  Matrix.of fun r c => hess (empiricalRisk red ds) θ (blockPos rfl i r) (blockPos rfl j c)

theorem riskHessian_block (red : Reduction) (θ : Fin (total shapes) → ℝ) (ds : List (NetDatum (total shapes) O))
    (i j : Fin (shapes.map List.prod).length) :
    Matrix.paramBlock (riskHessian red θ ds) rfl i j = mixedDerivatives red θ ds i j := rfl

theorem total_single (i : Fin (shapes.map List.prod).length) : total (selShapes shapes [i.1]) = (shapes.map List.prod)[i] := by
  have hi : i.1 < shapes.length := by simpa using i.2
  simp [selShapes, total, hi]

theorem selects_single (i : Fin (shapes.map List.prod).length) : Selects shapes [i.1] := ⟨by simp, by simpa using i.2⟩

/-- **C122** (Hessian): let the parameters have entries. The product of the exported Hessian with the identity is the dense Hessian, from
which `extract_block` takes the second derivatives in two parameters. These are also the products with identity matrices of the sub-matrix
operator on the index ranges, and, for equal parameters, of the Hessian constructed on this parameter only. -/
theorem hessian_blocks (h : HessianSetting shapes red θ batches) (hpos : ∀ d ∈ shapes.map List.prod, d ≠ 0) (dt : DType)
    (dtype : Option DType) (i j : Fin (shapes.map List.prod).length) :
    ∃ L s dense, (hessianObj shapes red θ batches).toScipy dt dtype = .ok L ∧
      L.toPair.op.dot (npEye (total shapes)) = .ok dense ∧
      extractBlock dense (shapes.map List.prod) i j = .ok (matVal (mixedDerivatives red θ batches.flatten i j)) ∧
      blockOp L.toPair (shapes.map List.prod) i j = .ok s ∧
      s.toSci.dot (npEye (shapes.map List.prod)[j]) = .ok (matVal (mixedDerivatives red θ batches.flatten i j)) ∧
      ∃ L', (hessianObj (selShapes shapes [i.1]) red (fun r => θ (selFin (selects_single i) r))
          (batches.map (List.map (NetDatum.select (selFin (selects_single i)) θ)))).toScipy dt dtype = .ok L' ∧
        L'.toPair.op.dot (npEye (shapes.map List.prod)[i]) = .ok (matVal (mixedDerivatives red θ batches.flatten i i)) := by
  have hi : (shapes.map List.prod)[i] ≠ 0 := hpos _ (List.getElem_mem i.2)
  have hj : (shapes.map List.prod)[j] ≠ 0 := hpos _ (List.getElem_mem j.2)
  have ht : 1 ≤ total shapes := by
    have := dimOffset_lt (n := total shapes) (dims := shapes.map List.prod) rfl i ⟨0, Nat.pos_of_ne_zero hi⟩
    omega
  obtain ⟨L, hL, hv, -, hm⟩ := hessian_export h dt dtype
  obtain ⟨s, s1, -, s3⟩ := blockOp_eye L.toPair _ hv (dims := shapes.map List.prod) rfl i j
  have hx : extractBlock (matVal (riskHessian red θ batches.flatten)) (shapes.map List.prod) i j
      = .ok (matVal (mixedDerivatives red θ batches.flatten i j)) :=
    extractBlock_eq (n := total shapes) (dims := shapes.map List.prod) (riskHessian red θ batches.flatten) rfl i j
  rw [if_neg hj, hx] at s3
  refine ⟨L, s, _, hL, dot_eye (hm _ ht).1, hx, s1, s3, ?_⟩
  have hs := selects_single i
  obtain ⟨L', hL', -, -, hm'⟩ := hessian_export (h.select hs (by simp)) dt dtype
  refine ⟨L', hL', ?_⟩
  have e := total_single i
  rw [show (npEye (shapes.map List.prod)[i] : NpVal ℝ) = npEye (total (selShapes shapes [i.1])) by rw [e],
    dot_eye (hm' _ (by rw [e]; exact Nat.pos_of_ne_zero hi)).1]
  refine congrArg Except.ok (matVal_congr e e _ _ fun r c hr hc => ?_)
  have hent := (hessianOp_selection hs (by simp) red h.reduction θ batches h.nonempty h.smooth).entries hs rfl rfl rfl rfl
    (netHessianOp_represents shapes rfl h.params red h.reduction θ batches h.nonempty h.smooth).1
    (netHessianOp_represents _ rfl (h.select hs (by simp)).params red h.reduction _ _ (h.select hs (by simp)).nonempty
      (h.select hs (by simp)).smooth).1 r hr c hc
  have hidx : ∀ r, r < total (selShapes shapes [i.1]) → selIndex shapes [i.1] r = dimOffset (shapes.map List.prod) i + r := by
    intro r hr
    rw [selIndex, if_pos (by rw [e] at hr; simpa [List.getD_eq_getElem, show i.1 < shapes.length by simpa using i.2] using hr)]
    simp [offset, dimOffset, List.map_take]
  rw [subMatrix, hidx r hr, hidx c hc] at hent
  have h1 := dimOffset_lt (n := total shapes) (dims := shapes.map List.prod) rfl i ⟨r, e ▸ hr⟩
  have h2 := dimOffset_lt (n := total shapes) (dims := shapes.map List.prod) rfl i ⟨c, e ▸ hc⟩
  dsimp only at h1 h2
  simp only [natMat, hr, hc, h1, h2] at hent
  exact hent

/-- The blocks `(i, j)` and `(j, i)` of the Hessian are transposes of each other. -/
theorem mixedDerivatives_transpose (h : HessianSetting shapes red θ batches) (i j : Fin (shapes.map List.prod).length) :
    (mixedDerivatives red θ batches.flatten i j)ᵀ = mixedDerivatives red θ batches.flatten j i := by
  ext r c
  have := netHessian_symm red θ batches.flatten h.smooth (blockPos (n := total shapes) (dims := shapes.map List.prod) rfl i c)
    (blockPos (n := total shapes) (dims := shapes.map List.prod) rfl j r)
  simpa [natMat, mixedDerivatives] using this

theorem tensorToNumpy_rowMajor {M N : Nat} (A : Matrix (Fin M) (Fin N) ℝ) (f : Nat → Nat → ℝ) (hf : ∀ (r : Fin M) (c : Fin N), f r c = A r c) :
    tensorToNumpy (rowMajor M N f) = matVal A := by
  unfold tensorToNumpy matVal
  simp only [rowMajor, List.getD_cons_zero, List.getD_cons_succ]
  congr 1
  apply List.ext_getElem
  · simp
  · intro c h1 h2
    simp only [List.getElem_map, List.getElem_range, List.getElem_ofFn]
    apply List.ext_getElem
    · simp
    · intro r h3 h4
      simp only [List.length_map, List.length_range] at h1 h3
      have := rowMajor_entry M N f r c h3 h1
      simp only [rowMajor] at this
      simp only [List.getElem_map, List.getElem_range, List.getElem_ofFn]
      rw [this, ← hf ⟨r, h3⟩ ⟨c, h1⟩]

/-- **C122** (`functorch_hessian`): the blocks that `extract_block` takes from its matrix are the same second derivatives. -/
theorem functorch_blocks {named : List (String × Nat)} {ids : List Nat} (hmod : ModelParams named ids shapes)
    (h : HessianSetting shapes red θ batches) (hpos : ∀ d ∈ shapes.map List.prod, d ≠ 0) (i j : Fin (shapes.map List.prod).length) :
    ∃ T, functorchMatrix named ids shapes (functorchHessian red θ batches.flatten) = .ok T ∧
      extractBlock (tensorToNumpy T) (shapes.map List.prod) i j = .ok (matVal (mixedDerivatives red θ batches.flatten i j)) := by
  refine ⟨_, functorchMatrix_eq hmod h.params (fun s hs => hpos _ (List.mem_map_of_mem hs)) _, ?_⟩
  rw [tensorToNumpy_rowMajor (riskHessian red θ batches.flatten)]
  · exact extractBlock_eq (n := total shapes) (dims := shapes.map List.prod) (riskHessian red θ batches.flatten) rfl i j
  · intro r c
    rw [(netHessianOp_represents shapes rfl h.params red h.reduction θ batches h.nonempty h.smooth).2]
    simp [natMat, riskHessian]

/-! ### Operators with `block_sizes` -/

theorem blockIndex_group : ∀ (parts : List (List (List Nat))) (i r : Nat) (hi : i < (parts.flatten.map List.prod).length),
    r < (parts.flatten.map List.prod)[i] →
    blockIndex (parts.map total) (dimOffset (parts.flatten.map List.prod) i + r) = blockIndex (parts.map List.length) i
  | [], i, r, hi, _ => by simp at hi
  | p :: ps, i, r, hi, hr => by
    simp only [List.map_cons, blockIndex, List.flatten_cons, List.map_append]
    simp only [List.flatten_cons, List.map_append] at hi hr
    by_cases h : i < p.length
    · rw [if_pos h, if_pos]
      rw [List.getElem_append_left (by simpa using h)] at hr
      have h1 := dimOffset_lt (n := total p) (dims := p.map List.prod) rfl ⟨i, by simpa using h⟩ ⟨r, hr⟩
      rw [dimOffset, List.take_append_of_le_length (by simp; omega)]
      exact h1
    · rw [if_neg h]
      have hl : (p.map List.prod).length = p.length := by simp
      rw [List.getElem_append_right (by omega)] at hr
      have e : dimOffset (p.map List.prod ++ ps.flatten.map List.prod) i
          = total p + dimOffset (ps.flatten.map List.prod) (i - p.length) := by
        rw [dimOffset, List.take_append, List.take_of_length_le (by omega), List.sum_append, hl]
        rfl
      rw [if_neg (by omega), e, Nat.add_assoc, Nat.add_sub_cancel_left]
      have hi' : i - p.length < (ps.flatten.map List.prod).length := by
        rw [List.length_append, hl] at hi
        omega
      rw [blockIndex_group ps (i - p.length) r hi' (by simpa [hl] using hr)]

theorem sum_lengths {β : Type _} (parts : List (List β)) :
    (parts.map fun p => (p.length : Int)).sum = ((parts.map List.length).sum : Nat) := by
  induction parts with
  | nil => rfl
  | cons p ps ih => simp only [List.map_cons, List.sum_cons, ih]; push_cast; rfl

/-- **C122** (`block_sizes`): let `block_sizes` divide the parameters into the groups `parts`. In the dense matrix of the exported Hessian,
block `(i, j)` contains the second derivatives if the two parameters are in the same group, and zeros otherwise. -/
theorem hessian_group_blocks (h : HessianSetting shapes red θ batches) (parts : List (List (List Nat)))
    (hparts : parts.flatten = shapes) (hne : ∀ p ∈ parts, p ≠ []) (ht : total shapes ≠ 0) (dt : DType) (dtype : Option DType)
    (i j : Fin (shapes.map List.prod).length) :
    ∃ L dense, (OpObj.plain true (curvatureOp shapes red (inferNData List.length batches none) List.length
          (netHessianBatch shapes (parts.map fun p => (p.length : Int)) red θ) batches)).toScipy dt dtype = .ok L ∧
      L.toPair.op.dot (npEye (total shapes)) = .ok dense ∧
      extractBlock dense (shapes.map List.prod) i j =
        .ok (matVal (if blockIndex (parts.map List.length) i = blockIndex (parts.map List.length) j
          then mixedDerivatives red θ batches.flatten i j else 0)) := by
  have hrep := netHessianOp_blocks shapes rfl h.params (parts.map fun p => (p.length : Int))
    (fun s hs => by
      obtain ⟨p, hp, rfl⟩ := List.mem_map.mp hs
      have := List.length_pos_of_ne_nil (hne p hp)
      omega)
    (by
      rw [← hparts, List.length_flatten, sum_lengths])
    parts ⟨rfl, hparts⟩ red h.reduction θ batches h.nonempty h.smooth
  obtain ⟨L, hL, -, -, hm⟩ := export_symmetric _ _ hrep (n := total shapes)
    (by rw [LinOp.nrows, LinOp.outFlat, curvatureOp_outShape]; rfl)
    (by rw [LinOp.ncols, LinOp.inFlat, curvatureOp_inShape]; rfl) (by rw [curvatureOp_outShape]; exact h.params)
    (fun r _ c _ => by
      unfold blockDiagonal
      rw [netHessian_symm red θ batches.flatten h.smooth r c]
      simp only [eq_comm (a := blockIndex _ r)]) dt dtype
  refine ⟨L, _, hL, dot_eye (hm _ (Nat.pos_of_ne_zero ht)).1, ?_⟩
  refine (extractBlock_eq (n := total shapes) (dims := shapes.map List.prod) _ rfl i j).trans ?_
  refine congrArg (fun A => Except.ok (matVal A)) ?_
  have hb : ∀ (i : Fin (shapes.map List.prod).length) (r : Fin (shapes.map List.prod)[i]),
      blockIndex (parts.map total) (blockPos (n := total shapes) (dims := shapes.map List.prod) rfl i r)
        = blockIndex (parts.map List.length) i := by
    subst hparts
    exact fun i r => blockIndex_group parts i r i.2 r.2
  ext r c
  simp only [Matrix.paramBlock, Matrix.submatrix_apply, Mat.part, blockDiagonal]
  rw [hb, hb]
  split <;> simp [mixedDerivatives, natMat]

end hessian

/-- Two parameters with two entries and one entry: the mixed block, the last block, the last block as position `-1` (no rows), and the index
ranges of the sub-matrix operator. -/
example :
    extractBlock (.mat 3 [[1, 2, 3], [4, 5, 6], [7, 8, 9]] : NpVal Int) [2, 1] 0 1 = .ok (.mat 2 [[7, 8]]) ∧
    extractBlock (.mat 3 [[1, 2, 3], [4, 5, 6], [7, 8, 9]] : NpVal Int) [2, 1] 1 0 = .ok (.mat 1 [[3], [6]]) ∧
    extractBlock (.mat 3 [[1, 2, 3], [4, 5, 6], [7, 8, 9]] : NpVal Int) [2, 1] 1 1 = .ok (.mat 1 [[9]]) ∧
    extractBlock (.mat 3 [[1, 2, 3], [4, 5, 6], [7, 8, 9]] : NpVal Int) [2, 1] (-1) 0 = .ok (.mat 0 [[], []]) ∧
    extractBlock (.mat 3 [[1, 2, 3], [4, 5, 6], [7, 8, 9]] : NpVal Int) [2, 1] (-2) 1 = .ok (.mat 2 [[7, 8]]) ∧
    rangeIdxs (blockBounds [2, 1] 0) = [.int 0, .int 1] ∧ rangeIdxs (blockBounds [2, 1] 1) = [.int 2] := by
  decide

/-- The two parameters of the model of C11's example: the mixed derivative `∂²L/∂θ₀∂θ₁` at all parameters, and `block_sizes=[1, 1]` sets it
to zero. -/
example (θ : Fin 2 → ℝ) :
    ∃ L s dense L' dense', (hessianObj [[1], [1]] .mean θ [[sinDatum 1 2, sinDatum 3 1], [sinDatum 0 1]]).toScipy .float64 none = .ok L ∧
      L.toPair.op.dot (npEye 2) = .ok dense ∧ blockOp L.toPair [1, 1] 0 1 = .ok s ∧
      s.toSci.dot (npEye 1) = extractBlock dense [1, 1] 0 1 ∧
      (OpObj.plain true (curvatureOp [[1], [1]] .mean (inferNData List.length [[sinDatum 1 2, sinDatum 3 1], [sinDatum 0 1]] none) List.length
        (netHessianBatch [[1], [1]] [1, 1] .mean θ) [[sinDatum 1 2, sinDatum 3 1], [sinDatum 0 1]])).toScipy .float64 none = .ok L' ∧
      L'.toPair.op.dot (npEye 2) = .ok dense' ∧ extractBlock dense' [1, 1] 0 1 = .ok (.mat 1 [[0]]) := by
  have h : HessianSetting [[1], [1]] .mean θ [[sinDatum 1 2, sinDatum 3 1], [sinDatum 0 1]] :=
    ⟨rfl, by simp, Or.inl rfl, by simp, by
      have key : ∀ x y, ContDiffAt ℝ 2 (fun θ => (sinDatum x y).loss ((sinDatum x y).f θ)) θ := by
        intro x y
        unfold sinDatum
        fun_prop
      simp [key]⟩
  obtain ⟨L, s, dense, h1, h2, h3, h4, h5, -⟩ := hessian_blocks h (by decide) .float64 none ⟨0, by decide⟩ ⟨1, by decide⟩
  obtain ⟨L', dense', g1, g2, g3⟩ := hessian_group_blocks h [[[1]], [[1]]] rfl (by simp) (by decide) .float64 none ⟨0, by decide⟩ ⟨1, by decide⟩
  refine ⟨L, s, dense, L', dense', h1, h2, h4, h5.trans h3.symm, g1, g2, g3.trans ?_⟩
  rw [if_neg (by decide)]
  rfl

end Curvlinops
