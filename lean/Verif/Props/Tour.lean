import Verif.Model.Tour
import Verif.Props.Blocks
import Verif.Props.BlockSpectrum
import Verif.Props.KfacProduct

/-!
# C130: layers in the pictures of curvature matrices

The matrices of `docs/examples/basic_usage/example_visual_tour.py` and the boundaries that it draws.
-/

namespace Curvlinops

variable {α : Type _}

/-! ### Boundaries -/

theorem cumsumFrom_getD : ∀ (ds : List Nat) (s l : Nat), l < ds.length → (cumsumFrom s ds).getD l 0 = s + (ds.take (l + 1)).sum
  | [], _, _, h => by simp at h
  | d :: ds, s, 0, _ => by simp [cumsumFrom]
  | d :: ds, s, l + 1, h => by
    have := cumsumFrom_getD ds (s + d) l (by simpa using h)
    simp only [cumsumFrom, List.getD_cons_succ, this, List.take_succ_cons, List.sum_cons]
    omega

theorem cumsumFrom_length : ∀ (ds : List Nat) (s : Nat), (cumsumFrom s ds).length = ds.length
  | [], _ => rfl
  | d :: ds, s => by simp [cumsumFrom, cumsumFrom_length ds]

theorem boundaries_getD (children : List Child) (l : Nat) (hl : l ≤ children.length) :
    (tourBoundaries children).getD l 0 = dimOffset (numParamsLayer children) l := by
  rcases l with _ | l
  · simp [tourBoundaries, dimOffset]
  · have := cumsumFrom_getD (numParamsLayer children) 0 l (by simpa [numParamsLayer] using hl)
    simp only [tourBoundaries, List.getD_cons_succ, this, dimOffset, Nat.zero_add]

/-- Specification: two coordinates lie between the same two consecutive boundaries. -/
def BetweenBounds (children : List Child) (r c : Nat) : Prop :=
  ∃ l < children.length, ((tourBoundaries children).getD l 0 ≤ r ∧ r < (tourBoundaries children).getD (l + 1) 0) ∧
    (tourBoundaries children).getD l 0 ≤ c ∧ c < (tourBoundaries children).getD (l + 1) 0

theorem blockIndex_iff : ∀ (ds : List Nat) (r l : Nat), r < ds.sum → l < ds.length →
    (blockIndex ds r = l ↔ dimOffset ds l ≤ r ∧ r < dimOffset ds (l + 1))
  | [], _, _, h, _ => by simp at h
  | d :: ds, r, 0, h, _ => by
    simp only [blockIndex, dimOffset, List.take_zero, List.sum_nil, Nat.zero_le, true_and, List.take_succ_cons, List.sum_cons, Nat.add_zero]
    split <;> simp_all
  | d :: ds, r, l + 1, h, hl => by
    simp only [blockIndex, dimOffset, List.take_succ_cons, List.sum_cons]
    split
    · rename_i hr
      constructor
      · intro e
        omega
      · rintro ⟨h1, -⟩
        omega
    · rename_i hr
      rw [List.sum_cons] at h
      have := blockIndex_iff ds (r - d) l (by omega) (by simpa using hl)
      unfold dimOffset at this
      constructor
      · intro e
        have := this.mp (by omega)
        omega
      · rintro ⟨h1, h2⟩
        have := this.mpr (by omega)
        omega

theorem betweenBounds_iff (children : List Child) {r c : Nat} (hr : r < (numParamsLayer children).sum)
    (hc : c < (numParamsLayer children).sum) :
    BetweenBounds children r c ↔ blockIndex (numParamsLayer children) r = blockIndex (numParamsLayer children) c := by
  have hlen : (numParamsLayer children).length = children.length := by simp [numParamsLayer]
  constructor
  · rintro ⟨l, hl, h1, h2⟩
    rw [boundaries_getD children l hl.le, boundaries_getD children (l + 1) hl] at h1 h2
    rw [(blockIndex_iff _ r l hr (by omega)).mpr h1, (blockIndex_iff _ c l hc (by omega)).mpr h2]
  · intro h
    have hlt := blockIndex_lt (numParamsLayer children) r hr
    refine ⟨blockIndex (numParamsLayer children) r, by omega, ?_, ?_⟩
    · rw [boundaries_getD children _ (by omega), boundaries_getD children _ (by omega)]
      exact (blockIndex_iff _ r _ hr hlt).mp rfl
    · rw [boundaries_getD children _ (by omega), boundaries_getD children _ (by omega)]
      exact (blockIndex_iff _ c _ hc hlt).mp h.symm

/-! ### The block sizes -/

/-- All parameters require gradients. -/
def AllTrained (children : List Child) : Prop := ∀ c ∈ children, ∀ p ∈ c, p.2 = true

/-- The parameters of the children that have parameters. -/
def layerParts (children : List Child) : List (List (List Nat)) :=
  (children.filter fun c => c ≠ []).map fun c => c.map fun p => p.1

theorem tourParams_trained {children : List Child} (h : AllTrained children) : tourParams children = children.flatten.map fun p => p.1 := by
  unfold tourParams
  rw [List.filter_eq_self.mpr]
  intro p hp
  obtain ⟨c, hc, hpc⟩ := List.mem_flatten.mp hp
  exact h c hc p hpc

theorem layerParts_flatten {children : List Child} (h : AllTrained children) : (layerParts children).flatten = tourParams children := by
  rw [tourParams_trained h]
  clear h
  induction children with
  | nil => rfl
  | cons c cs ih =>
    by_cases hc : c = []
    · subst hc
      simpa [layerParts] using ih
    · have : layerParts (c :: cs) = (c.map fun p => p.1) :: layerParts cs := by simp [layerParts, hc]
      rw [this, List.flatten_cons, ih]
      simp

theorem layerParts_ne (children : List Child) : ∀ p ∈ layerParts children, p ≠ [] := by
  intro p hp
  obtain ⟨c, hc, rfl⟩ := List.mem_map.mp hp
  have := (List.mem_filter.mp hc).2
  simp only [decide_not, Bool.not_eq_eq_eq_not, Bool.not_true, decide_eq_false_iff_not] at this
  simpa using this

theorem layerParts_sizes (children : List Child) : ((layerParts children).map fun p => (p.length : Int)) = tourBlockSizes children := by
  induction children with
  | nil => rfl
  | cons c cs ih =>
    by_cases hc : c = []
    · subst hc
      simpa [layerParts, tourBlockSizes, numTensorsLayer] using ih
    · have h1 : layerParts (c :: cs) = (c.map fun p => p.1) :: layerParts cs := by simp [layerParts, hc]
      have h2 : tourBlockSizes (c :: cs) = (c.length : Int) :: tourBlockSizes cs := by simp [tourBlockSizes, numTensorsLayer, hc]
      rw [h1, h2, List.map_cons, ih, List.length_map]

theorem tourSizes_sum (children : List Child) : (tourBlockSizes children).sum = (children.flatten.length : Int) := by
  induction children with
  | nil => rfl
  | cons c cs ih =>
    by_cases hc : c = []
    · subst hc
      simpa [tourBlockSizes, numTensorsLayer] using ih
    · have h2 : tourBlockSizes (c :: cs) = (c.length : Int) :: tourBlockSizes cs := by simp [tourBlockSizes, numTensorsLayer, hc]
      rw [h2, List.sum_cons, ih]
      simp

/-- **C130** (`block_sizes`): for data that are tensors, the constructor of the Hessian accepts the block sizes of the example exactly if all
parameters require gradients. Otherwise it raises `ValueError`. -/
theorem tour_accepted (children : List Child) (fn : Bool) :
    initBlockSizes .nonMapping fn true (some (tourBlockSizes children)) (tourParams children).length =
      open Classical in if AllTrained children then .ok (tourBlockSizes children) else .error .valueError := by
  have hpos : (tourBlockSizes children).any (fun s => decide (s ≤ 0)) = false := by
    rw [List.any_eq_false]
    intro s hs
    obtain ⟨n, hn, rfl⟩ := List.mem_map.mp hs
    have := (List.mem_filter.mp hn).2
    simp only [ne_eq, decide_not, Bool.not_eq_eq_eq_not, Bool.not_true, decide_eq_false_iff_not] at this
    simp only [decide_eq_true_eq, not_le]
    omega
  unfold initBlockSizes
  simp only [reduceCtorEq, false_and, if_false, Bool.true_eq_false, hpos, Bool.false_eq_true]
  by_cases h : AllTrained children
  · rw [if_pos h, if_neg]
    rw [not_not, tourSizes_sum, tourParams_trained h, List.length_map]
  · rw [if_neg h, if_pos]
    rw [tourSizes_sum]
    unfold tourParams
    rw [List.length_map]
    intro e
    apply h
    intro c hc p hp
    have e' : (children.flatten.filter fun p => p.2).length = children.flatten.length := by omega
    exact List.length_filter_eq_length_iff.mp e' p (List.mem_flatten.mpr ⟨c, hc, hp⟩)

theorem numParams_sum {children : List Child} (h : AllTrained children) : (numParamsLayer children).sum = total (tourParams children) := by
  rw [tourParams_trained h]
  clear h
  induction children with
  | nil => rfl
  | cons c cs ih =>
    rw [List.flatten_cons, List.map_append, total_append, ← ih]
    simp [numParamsLayer, total, Function.comp_def]

/-- Children without parameters do not change which coordinates are in the same block. -/
theorem layerParts_blockIndex : ∀ (children : List Child) (r c : Nat),
    blockIndex ((layerParts children).map total) r = blockIndex ((layerParts children).map total) c ↔
      blockIndex (numParamsLayer children) r = blockIndex (numParamsLayer children) c
  | [], _, _ => Iff.rfl
  | ch :: cs, r, c => by
    by_cases hc : ch = []
    · subst hc
      have h1 : layerParts ([] :: cs) = layerParts cs := by simp [layerParts]
      have h2 : numParamsLayer ([] :: cs) = 0 :: numParamsLayer cs := by simp [numParamsLayer]
      rw [h1, h2]
      simp only [blockIndex, Nat.not_lt_zero, if_false, Nat.sub_zero, Nat.add_right_cancel_iff]
      exact layerParts_blockIndex cs r c
    · have h1 : (layerParts (ch :: cs)).map total = (ch.map fun p => p.1.prod).sum :: (layerParts cs).map total := by
        simp [layerParts, hc, total, Function.comp_def]
      have h2 : numParamsLayer (ch :: cs) = (ch.map fun p => p.1.prod).sum :: numParamsLayer cs := by simp [numParamsLayer]
      rw [h1, h2]
      have := layerParts_blockIndex cs (r - (ch.map fun p => p.1.prod).sum) (c - (ch.map fun p => p.1.prod).sum)
      simp only [blockIndex]
      split <;> split <;> simp_all

/-! ### The matrices -/

/-- The dense matrix of an exported operator that is declared self-adjoint. -/
theorem export_eye (op : LinOp ℝ) (M : Mat ℝ) (hM : Represents op M) {n : Nat} (hr : op.nrows = n) (hc : op.ncols = n)
    (ho : op.outShape ≠ []) (hn : n ≠ 0) (dt : DType) (dtype : Option DType) :
    ∃ L, (OpObj.plain true op).toScipy dt dtype = .ok L ∧ L.toPair.op.dot (npEye n) = .ok (matVal (M.part n n)) := by
  refine ⟨_, rfl, dot_eye ?_⟩
  exact (exported_rep op M (fun K _ => hM K) ho dt hr hc
    (ScipyOp.toSci ⟨op.nrows, op.ncols, scipyCompatible op dt, scipyCompatible op dt, scipyCompatible op dt,
      scipyCompatible op dt, match dtype with | none => .float64 | some d => d⟩) hr hc rfl fun _ _ => rfl).2 n
    (Nat.one_le_iff_ne_zero.mpr hn)

section hessian

variable {O : Nat} {children : List Child} {red : Reduction} {θ : Fin (total (tourParams children)) → ℝ}
  {batches : List (List (NetDatum (total (tourParams children)) O))}

/-- `HessianLinearOperator(…, block_sizes=[s for s in num_tensors_layer if s != 0])` (`example_visual_tour.py:93-99`,
`curvlinops/hessian.py:44-83`). -/
noncomputable def tourBlockedHessian (children : List Child) (red : Reduction) (θ : Fin (total (tourParams children)) → ℝ)
    (batches : List (List (NetDatum (total (tourParams children)) O))) : OpObj ℝ :=
  .plain true (curvatureOp (tourParams children) red (inferNData List.length batches none) List.length
    (netHessianBatch (tourParams children) (tourBlockSizes children) red θ) batches)

/-- **C130** (Hessian and blocked Hessian): if all parameters require gradients, the matrix of the Hessian has the second partial derivatives
of the empirical risk as entries. The matrix of the blocked Hessian has the same entries between the boundaries of each layer, and zeros
elsewhere. -/
theorem tour_hessian (h : HessianSetting (tourParams children) red θ batches) (htr : AllTrained children)
    (hP : total (tourParams children) ≠ 0) (dt : DType) (dtype : Option DType) :
    ∃ L L' B, (hessianObj (tourParams children) red θ batches).toScipy dt dtype = .ok L ∧
      (tourBlockedHessian children red θ batches).toScipy dt dtype = .ok L' ∧
      L.toPair.op.dot (npEye (total (tourParams children))) = .ok (matVal (riskHessian red θ batches.flatten)) ∧
      L'.toPair.op.dot (npEye (total (tourParams children))) = .ok (matVal B) ∧
      ∀ r c : Fin (total (tourParams children)), (BetweenBounds children r c → B r c = hess (empiricalRisk red batches.flatten) θ r c) ∧ (¬ BetweenBounds children r c → B r c = 0) := by
  obtain ⟨L, hL, -, -, hm⟩ := hessian_export h dt dtype
  have hrep := groupHessian_represents h (layerParts_flatten htr) (layerParts_ne children)
  have hop : groupHessianOp (tourParams children) (layerParts children) red θ batches =
      curvatureOp (tourParams children) red (inferNData List.length batches none) List.length
        (netHessianBatch (tourParams children) (tourBlockSizes children) red θ) batches := by
    unfold groupHessianOp
    rw [layerParts_sizes]
  rw [hop] at hrep
  have hr := groupHessian_nrows (shapes := tourParams children) (red := red) (θ := θ) (batches := batches) (layerParts children)
  have hc := groupHessian_ncols (shapes := tourParams children) (red := red) (θ := θ) (batches := batches) (layerParts children)
  rw [hop] at hr hc
  obtain ⟨L', hL', hd⟩ := export_eye _ _ hrep hr hc (by rw [curvatureOp_outShape]; exact h.params) hP dt dtype
  refine ⟨L, L', _, hL, hL', dot_eye (hm _ (Nat.one_le_iff_ne_zero.mpr hP)).1, hd, fun r c => ?_⟩
  have hs := betweenBounds_iff children (r := r) (c := c) (by rw [numParams_sum htr]; exact r.2) (by rw [numParams_sum htr]; exact c.2)
  rw [hs, ← layerParts_blockIndex]
  simp only [Mat.part, blockDiagonal]
  constructor
  · intro e
    rw [if_pos e]
    simp [natMat]
  · intro e
    rw [if_neg e]

end hessian

theorem offset_blockIndex : ∀ (children : List Child) (p q : Nat), p < children.flatten.length →
    q < ((children.flatten.map fun x => x.1).getD p []).prod →
      blockIndex (numParamsLayer children) (offset (children.flatten.map fun x => x.1) p + q) = blockIndex (numTensorsLayer children) p
  | [], _, _, h, _ => by simp at h
  | c :: cs, p, q, hp, hq => by
    have h1 : numParamsLayer (c :: cs) = (c.map fun p => p.1.prod).sum :: numParamsLayer cs := by simp [numParamsLayer]
    have h2 : numTensorsLayer (c :: cs) = c.length :: numTensorsLayer cs := by simp [numTensorsLayer]
    rw [List.flatten_cons, List.map_append] at hq ⊢
    rw [h1, h2]
    simp only [blockIndex]
    by_cases h : p < c.length
    · have hoff : offset ((c.map fun x => x.1) ++ cs.flatten.map fun x => x.1) p = offset (c.map fun x => x.1) p := by
        unfold offset
        rw [List.take_append_of_le_length (by simpa using h.le)]
      have hget : ((c.map fun x => x.1) ++ cs.flatten.map fun x => x.1).getD p [] = (c.map fun x => x.1).getD p [] := by
        rw [getD_append_ite, if_pos (by simpa using h)]
      have hlt : offset (c.map fun x => x.1) p + q < (c.map fun p => p.1.prod).sum := by
        have := dimOffset_lt (n := (c.map fun p => p.1.prod).sum) (dims := c.map fun p => p.1.prod) rfl ⟨p, by simpa using h⟩
          ⟨q, by rw [hget] at hq; simpa [h] using hq⟩
        simpa [offset, dimOffset, List.map_take, Function.comp_def] using this
      rw [if_pos h, hoff, if_pos hlt]
    · have hoff : offset ((c.map fun x => x.1) ++ cs.flatten.map fun x => x.1) p =
          (c.map fun p => p.1.prod).sum + offset (cs.flatten.map fun x => x.1) (p - c.length) := by
        unfold offset
        rw [List.take_append, List.take_of_length_le (by simpa using not_lt.mp h), List.map_append, List.sum_append]
        simp [Function.comp_def]
      have hget : ((c.map fun x => x.1) ++ cs.flatten.map fun x => x.1).getD p [] = (cs.flatten.map fun x => x.1).getD (p - c.length) [] := by
        rw [getD_append_ite, if_neg (by simpa using h), List.length_map]
      rw [hget] at hq
      rw [List.flatten_cons, List.length_append] at hp
      have ih := offset_blockIndex cs (p - c.length) q (by omega) hq
      rw [if_neg h, hoff, if_neg (by omega), Nat.add_assoc, Nat.add_sub_cancel_left, ih]

/-- The parameters of every layer that KFAC knows belong to one child of the model. -/
def LayersInChildren (children : List Child) (layers : List (Layer α)) : Prop :=
  ∀ l ∈ layers, ∀ p ∈ l.pos.positions, ∀ p' ∈ l.pos.positions, blockIndex (numTensorsLayer children) p = blockIndex (numTensorsLayer children) p'

/-- **C130** (KFAC): if all parameters require gradients and the layers lie in the children, the matrix of KFAC has zeros outside of the
boundaries of the layers, for both treatments of the bias and all factors. -/
theorem tour_kfac {children : List Child} (htr : AllTrained children) {sep : Bool} {mapping : Dict (Dict Nat)}
    {inCov gradCov : Dict (Factor ℝ)} {layers : List (Layer ℝ)}
    (h : KfacLayers sep (tourParams children) mapping inCov gradCov layers) (hch : LayersInChildren children layers)
    (hP : total (tourParams children) ≠ 0) (dt : DType) (dtype : Option DType) :
    ∃ L B, (OpObj.plain true (kfacOp (tourParams children) sep mapping inCov gradCov)).toScipy dt dtype = .ok L ∧
      L.toPair.op.dot (npEye (total (tourParams children))) = .ok (matVal B) ∧
      ∀ r c : Fin (total (tourParams children)), ¬ BetweenBounds children r c → B r c = 0 := by
  obtain ⟨M, hM⟩ := (kfac_matrix_exists sep _ mapping inCov gradCov layers h).1
  have hne : tourParams children ≠ [] := by
    rintro e
    rw [e] at hP
    exact hP rfl
  obtain ⟨L, hL, hd⟩ := export_eye _ M (kfac_represents sep _ mapping inCov gradCov layers h M hM) (n := total (tourParams children)) rfl rfl hne
    hP dt dtype
  refine ⟨L, _, hL, hd, fun r c hrc => ?_⟩
  have hs := betweenBounds_iff children (r := r) (c := c) (by rw [numParams_sum htr]; exact r.2) (by rw [numParams_sum htr]; exact c.2)
  rw [hs] at hrc
  have ht := kfac_tiles sep _ mapping inCov gradCov layers h
  obtain ⟨x, hx, -⟩ := ht.2 r r.2
  obtain ⟨y, hy, -⟩ := ht.2 c c.2
  have hM' := hM x y
  rw [hx, hy] at hM'
  simp only [Mat.part]
  rw [hM', KIdx.entry, if_neg]
  intro e
  apply hrc
  obtain ⟨l, hl, hb⟩ := List.mem_flatMap.mp (List.getElem_mem x.1.2 : (kfacBlocks sep (tourParams children) layers)[x.1] ∈ _)
  have hcoord : ∀ r : Nat, r ∈ ((kfacBlocks sep (tourParams children) layers)[x.1]).coords → ∃ p ∈ l.pos.positions,
      blockIndex (numParamsLayer children) r = blockIndex (numTensorsLayer children) p := by
    intro r hr
    have := (Layer.blocks_coords sep (tourParams children) l (h.fits l hl)).mem_iff.mp (List.mem_flatMap.mpr ⟨_, hb, hr⟩)
    obtain ⟨p, hp, hrp⟩ := List.mem_flatMap.mp this
    obtain ⟨q, hq, rfl⟩ := List.mem_map.mp hrp
    have hlt : p < (tourParams children).length :=
      List.mem_range.mp (h.perm.mem_iff.mp (List.mem_flatMap.mpr ⟨l, hl, hp⟩))
    rw [List.mem_range] at hq
    refine ⟨p, hp, ?_⟩
    rw [tourParams_trained htr] at hq hlt ⊢
    exact offset_blockIndex children p q (by rwa [List.length_map] at hlt) hq
  obtain ⟨p, hp, e1⟩ := hcoord r (by rw [← hx]; exact KBlock.mem_coords.mpr ⟨x.2.1, x.2.1.2, x.2.2, x.2.2.2, rfl⟩)
  obtain ⟨p', hp', e2⟩ := hcoord c (by
    rw [← hy]
    obtain ⟨k, i, j⟩ := x
    obtain ⟨k', i', j'⟩ := y
    simp only at e
    subst e
    exact KBlock.mem_coords.mpr ⟨i', i'.2, j', j'.2, rfl⟩)
  rw [e1, e2]
  exact hch l hl p hp p' hp'

/-! ### Lines and labels -/

theorem dimOffset_mono (ds : List Nat) {l l' : Nat} (h : l ≤ l') : dimOffset ds l ≤ dimOffset ds l' := by
  unfold dimOffset
  conv_rhs => rw [← Nat.add_sub_cancel' h, List.take_add, List.sum_append]
  omega

theorem mem_boundaries (children : List Child) (x : Nat) :
    x ∈ tourBoundaries children ↔ ∃ l ≤ children.length, x = dimOffset (numParamsLayer children) l := by
  have hlen : (tourBoundaries children).length = children.length + 1 := by
    simp [tourBoundaries, cumsumFrom_length, numParamsLayer]
  constructor
  · intro h
    obtain ⟨l, hl, rfl⟩ := List.mem_iff_getElem.mp h
    refine ⟨l, by omega, ?_⟩
    rw [← boundaries_getD children l (by omega), List.getD_eq_getElem _ _ hl]
  · rintro ⟨l, hl, rfl⟩
    rw [← boundaries_getD children l hl, List.getD_eq_getElem _ _ (by omega)]
    exact List.getElem_mem _

/-- **C130** (lines): if all parameters require gradients, the example draws lines exactly after the coordinates whose successor belongs to
another layer. -/
theorem tour_lines {children : List Child} (htr : AllTrained children) (r : Nat) :
    r ∈ tourLines children ↔ r + 1 < total (tourParams children) ∧ ¬ BetweenBounds children r (r + 1) := by
  have hsum := numParams_sum htr
  have hlen : (numParamsLayer children).length = children.length := by simp [numParamsLayer]
  have hnum : tourNumParams children = total (tourParams children) := rfl
  constructor
  · intro h
    obtain ⟨x, hx, rfl⟩ := List.mem_map.mp h
    obtain ⟨h1, h2⟩ := List.mem_filter.mp hx
    simp only [decide_eq_true_eq] at h2
    obtain ⟨l, hl, rfl⟩ := (mem_boundaries children x).mp h1
    have hle := dimOffset_le (numParamsLayer children) l
    rw [hsum] at hle
    refine ⟨by omega, ?_⟩
    rintro ⟨l', hl', h3, h4⟩
    rw [boundaries_getD children l' hl'.le, boundaries_getD children (l' + 1) hl'] at h3 h4
    rcases Nat.lt_or_ge l' l with hll | hll
    · have := dimOffset_mono (numParamsLayer children) (show l' + 1 ≤ l from hll)
      omega
    · have := dimOffset_mono (numParamsLayer children) hll
      omega
  · rintro ⟨h1, h2⟩
    rw [betweenBounds_iff children (by omega) (by omega)] at h2
    have hlt := blockIndex_lt (numParamsLayer children) (r + 1) (by omega)
    have hb := (blockIndex_iff (numParamsLayer children) (r + 1) _ (by omega) hlt).mp rfl
    have hr : dimOffset (numParamsLayer children) (blockIndex (numParamsLayer children) (r + 1)) = r + 1 := by
      by_contra hne
      exact h2 ((blockIndex_iff (numParamsLayer children) r _ (by omega) hlt).mpr (by omega))
    refine List.mem_map.mpr ⟨r + 1, List.mem_filter.mpr ⟨?_, ?_⟩, by omega⟩
    · exact (mem_boundaries children (r + 1)).mpr ⟨_, by omega, hr.symm⟩
    · simp only [decide_eq_true_eq]
      omega

/-- **C130** (labels): the labels come in increasing order, one in the middle between the boundaries of each child that has entries. -/
theorem tour_labels (children : List Child) :
    (tourLabels children).Pairwise (· < ·) ∧
      ∀ x : ℚ, x ∈ tourLabels children ↔ ∃ l < children.length, (numParamsLayer children).getD l 0 ≠ 0 ∧
        x = ((tourBoundaries children).getD l 0 : ℚ) + ((numParamsLayer children).getD l 0 : ℚ) / 2 := by
  have hlen : (tourBoundaries children).length - 1 = children.length := by
    simp [tourBoundaries, cumsumFrom_length, numParamsLayer]
  have hstep : ∀ l < children.length, (tourBoundaries children).getD (l + 1) 0 =
      (tourBoundaries children).getD l 0 + (numParamsLayer children).getD l 0 := by
    intro l hl
    have hl' : l < (numParamsLayer children).length := by simpa [numParamsLayer] using hl
    rw [boundaries_getD children l hl.le, boundaries_getD children (l + 1) hl, dimOffset_succ _ ⟨l, hl'⟩, List.getD_eq_getElem _ _ hl']
    rfl
  constructor
  · unfold tourLabels
    rw [List.pairwise_filterMap]
    refine List.Pairwise.imp_of_mem ?_ (List.pairwise_lt_range (n := (tourBoundaries children).length - 1))
    intro i j hi hj hij x hx y hy
    rw [List.mem_range, hlen] at hi hj
    simp only [Option.ite_none_right_eq_some, Option.some.injEq] at hx hy
    have hmono := dimOffset_mono (numParamsLayer children) (show i + 1 ≤ j from hij)
    rw [← boundaries_getD children (i + 1) hi, ← boundaries_getD children j hj.le] at hmono
    have e1 := hstep i hi
    have e2 := hstep j hj
    have h1 : ((tourBoundaries children).getD i 0 : ℚ) < (tourBoundaries children).getD (i + 1) 0 := by
      have := hx.1
      exact_mod_cast (by omega : (tourBoundaries children).getD i 0 < (tourBoundaries children).getD (i + 1) 0)
    have h2 : ((tourBoundaries children).getD j 0 : ℚ) < (tourBoundaries children).getD (j + 1) 0 := by
      have := hy.1
      exact_mod_cast (by omega : (tourBoundaries children).getD j 0 < (tourBoundaries children).getD (j + 1) 0)
    have h3 : ((tourBoundaries children).getD (i + 1) 0 : ℚ) ≤ (tourBoundaries children).getD j 0 := by exact_mod_cast hmono
    rw [← hx.2, ← hy.2]
    linarith
  · intro x
    unfold tourLabels
    rw [List.mem_filterMap]
    simp only [List.mem_range, hlen, Option.ite_none_right_eq_some, Option.some.injEq]
    refine exists_congr fun l => ⟨?_, ?_⟩
    · rintro ⟨hl, h1, h2⟩
      rw [hstep l hl] at h1 h2
      refine ⟨hl, by omega, ?_⟩
      rw [← h2]
      push_cast
      ring
    · rintro ⟨hl, h1, h2⟩
      rw [hstep l hl]
      refine ⟨hl, by omega, ?_⟩
      rw [h2]
      push_cast
      ring

/-- The model of the example: convolutions, activations without parameters, and a linear layer. -/
def tourModel : List Child :=
  [[([4, 3, 3, 3], true), ([4], true)], [], [([1, 4, 3, 3], true), ([1], true)], [], [([2, 25], true), ([2], true)]]

example : AllTrained tourModel ∧ tourBlockSizes tourModel = [2, 2, 2] ∧ tourBoundaries tourModel = [0, 112, 112, 149, 149, 201] ∧
    tourLines tourModel = [111, 111, 148, 148] ∧ tourLabels tourModel = [56, 261 / 2, 175] ∧
    BetweenBounds tourModel 110 111 ∧ ¬ BetweenBounds tourModel 111 112 := by
  refine ⟨?_, rfl, rfl, rfl, ?_, ⟨0, by simp [tourModel], by simp [tourModel, tourBoundaries, cumsumFrom, numParamsLayer]⟩, ?_⟩
  · unfold AllTrained tourModel
    simp
  · decide +kernel
  · rintro ⟨l, hl, h1, h2⟩
    have : l < 5 := hl
    interval_cases l <;> simp [tourModel, tourBoundaries, cumsumFrom, numParamsLayer] at h1 h2

/-- Layers of KFAC on this model, weight and bias treated jointly. -/
def tourLayers : List (Layer ℝ) :=
  [⟨"0", .both 0 1, ⟨28, fun i j => i + j⟩, ⟨4, fun i j => i * j⟩⟩, ⟨"2", .both 2 3, ⟨37, fun i j => i * j⟩, ⟨1, fun _ _ => 3⟩⟩,
    ⟨"4", .both 4 5, ⟨26, fun i j => i + j⟩, ⟨2, fun i j => i + j⟩⟩]

theorem tourLayers_kfac : KfacLayers false (tourParams tourModel) (tourLayers.map fun l => (l.name, l.pos.dict))
    (tourLayers.map fun l => (l.name, l.A)) (tourLayers.map fun l => (l.name, l.B)) tourLayers where
  mapping_eq := rfl
  perm := by decide
  inCov_get := by
    intro l hl _
    simp only [tourLayers, List.mem_cons, List.not_mem_nil, or_false] at hl
    rcases hl with rfl | rfl | rfl <;> rfl
  gradCov_get := by
    intro l hl
    simp only [tourLayers, List.mem_cons, List.not_mem_nil, or_false] at hl
    rcases hl with rfl | rfl | rfl <;> rfl
  fits := by
    intro l hl
    simp only [tourLayers, List.mem_cons, List.not_mem_nil, or_false] at hl
    rcases hl with rfl | rfl | rfl <;> simp [Layer.Fits, wCols, tourParams, tourModel]

example (dt : DType) : ∃ L B, (OpObj.plain true (kfacOp (tourParams tourModel) false (tourLayers.map fun l => (l.name, l.pos.dict))
    (tourLayers.map fun l => (l.name, l.A)) (tourLayers.map fun l => (l.name, l.B)))).toScipy dt none = .ok L ∧
      L.toPair.op.dot (npEye (total (tourParams tourModel))) = .ok (matVal B) ∧
      ∀ r c : Fin (total (tourParams tourModel)), ¬ BetweenBounds tourModel r c → B r c = 0 :=
  tour_kfac (by unfold AllTrained tourModel; simp) tourLayers_kfac (by
    intro l hl
    simp only [tourLayers, List.mem_cons, List.not_mem_nil, or_false] at hl
    rcases hl with rfl | rfl | rfl <;> simp [LayerPos.positions, numTensorsLayer, tourModel, blockIndex]) (by decide) dt none

/-- A frozen bias in the first layer: the constructor refuses the block sizes. -/
example : initBlockSizes .nonMapping false true (some (tourBlockSizes [[([2, 1], true), ([2], false)], [([1, 2], true)]]))
    (tourParams [[([2, 1], true), ([2], false)], [([1, 2], true)]]).length = .error .valueError := by
  rw [tour_accepted, if_neg (by simp [AllTrained])]

end Curvlinops
