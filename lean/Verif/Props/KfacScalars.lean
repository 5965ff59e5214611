import Verif.Props.KfacProduct
import Verif.Model.KfacScalars
import Mathlib.LinearAlgebra.Matrix.Kronecker
import Mathlib.LinearAlgebra.Matrix.Block

/-!
# C31: trace, determinant, log-determinant and Frobenius norm of KFAC
-/

namespace Curvlinops

open Matrix
open scoped Kronecker

/-! ## Dense quantities in terms of blocks -/

/-- Coordinates of the blocks and coordinates of the parameter vector correspond. -/
noncomputable def Tiles.equiv {bs : List (KBlock ℝ)} {N : Nat} (h : Tiles bs N) : KIdx bs ≃ Fin N :=
  Equiv.ofBijective (fun x => (⟨x.pos, h.1 x⟩ : Fin N))
    ⟨fun x y he => h.pos_inj (Fin.mk.inj_iff.mp he), fun r => by
      obtain ⟨x, hx, -⟩ := h.2 r r.2
      exact ⟨x, Fin.ext hx⟩⟩

theorem sum_kidx {β : Type _} [AddCommMonoid β] (bs : List (KBlock ℝ)) (f : KIdx bs → β) :
    ∑ x : KIdx bs, f x = ∑ l : Fin bs.length, ∑ i : Fin (bs[l]).rows, ∑ j : Fin (bs[l]).cols, f ⟨l, i, j⟩ := by
  rw [Fintype.sum_sigma]
  exact Finset.sum_congr rfl fun l _ => Fintype.sum_prod_type _

theorem kron_trace (bs : List (KBlock ℝ)) (N : Nat) (h : Tiles bs N) (M : Mat ℝ) (hM : IsKron bs M) :
    matTrace N M = (bs.map fun b => matTrace b.cols b.A * matTrace b.rows b.B).sum := by
  rw [matTrace, h.sum_eq, sum_kidx, ← List.sum_ofFn]
  congr 1
  refine List.ext_getElem (by simp) fun l h1 h2 => ?_
  simp only [List.getElem_ofFn, List.getElem_map]
  simp only [hM _ _, KIdx.entry, if_true]
  simp only [matTrace, Finset.sum_range, Finset.sum_mul_sum]
  rw [Finset.sum_comm]
  exact Finset.sum_congr rfl fun j _ => Finset.sum_congr rfl fun i _ => mul_comm _ _

theorem kron_squares (bs : List (KBlock ℝ)) (N : Nat) (h : Tiles bs N) (M : Mat ℝ) (hM : IsKron bs M) :
    matSquares N M = (bs.map fun b => matSquares b.cols b.A * matSquares b.rows b.B).sum := by
  have h1 : matSquares N M = ∑ x : KIdx bs, ∑ y : KIdx bs, x.entry y ^ 2 := by
    rw [matSquares, h.sum_eq]
    refine Finset.sum_congr rfl fun x _ => ?_
    rw [h.sum_eq]
    exact Finset.sum_congr rfl fun y _ => by rw [hM]
  have h2 : ∀ x : KIdx bs, ∑ y : KIdx bs, x.entry y ^ 2 =
      ∑ i' : Fin (bs[x.1]).rows, ∑ j' : Fin (bs[x.1]).cols,
        (bs[x.1]).B x.2.1 i' ^ 2 * (bs[x.1]).A j' x.2.2 ^ 2 := by
    intro x
    rw [sum_kidx, Finset.sum_eq_single x.1]
    · refine Finset.sum_congr rfl fun i _ => Finset.sum_congr rfl fun j _ => ?_
      simp [KIdx.entry, mul_pow]
    · intro l _ hl
      refine Finset.sum_eq_zero fun i _ => Finset.sum_eq_zero fun j _ => ?_
      simp [KIdx.entry, Ne.symm hl]
    · simp
  rw [h1, Finset.sum_congr rfl fun x _ => h2 x, sum_kidx, ← List.sum_ofFn]
  congr 1
  refine List.ext_getElem (by simp) fun l hl hl' => ?_
  simp only [List.getElem_ofFn, List.getElem_map]
  simp only [matSquares, Finset.sum_range]
  have hl'' : l < bs.length := by simpa using hl'
  show (∑ i : Fin (bs[l]).rows, ∑ j : Fin (bs[l]).cols, ∑ i' : Fin (bs[l]).rows, ∑ j' : Fin (bs[l]).cols,
      (bs[l]).B i i' ^ 2 * (bs[l]).A j' j ^ 2) = _
  generalize bs[l] = b
  calc (∑ i : Fin b.rows, ∑ j : Fin b.cols, ∑ i' : Fin b.rows, ∑ j' : Fin b.cols, b.B i i' ^ 2 * b.A j' j ^ 2)
      = ∑ i : Fin b.rows, ∑ i' : Fin b.rows, ∑ j : Fin b.cols, ∑ j' : Fin b.cols, b.B i i' ^ 2 * b.A j' j ^ 2 :=
        Finset.sum_congr rfl fun i _ => Finset.sum_comm
    _ = ∑ i : Fin b.rows, ∑ i' : Fin b.rows, b.B i i' ^ 2 * ∑ j : Fin b.cols, ∑ j' : Fin b.cols, b.A j' j ^ 2 := by
        simp only [Finset.mul_sum]
    _ = (∑ i : Fin b.rows, ∑ i' : Fin b.rows, b.B i i' ^ 2) * ∑ j : Fin b.cols, ∑ j' : Fin b.cols, b.A j' j ^ 2 := by
        simp only [Finset.sum_mul]
    _ = _ := by rw [mul_comm, Finset.sum_comm]

theorem matDet_one (M : Mat ℝ) : matDet 1 M = M 0 0 := by
  rw [matDet, Matrix.det_fin_one]
  rfl

theorem det_blockDiagonal'_fin {L : Nat} {m : Fin L → Type} [∀ l, Fintype (m l)] [∀ l, DecidableEq (m l)]
    (D : ∀ l, Matrix (m l) (m l) ℝ) : (Matrix.blockDiagonal' D).det = ∏ l, (D l).det := by
  rw [(Matrix.blockTriangular_blockDiagonal' D).det_fintype]
  refine Finset.prod_congr rfl fun l _ => ?_
  rw [← Matrix.det_submatrix_equiv_self (Equiv.sigmaSubtype l).symm]
  congr 1
  ext i j
  exact Matrix.blockDiagonal'_apply_eq D l i j

theorem kron_det (bs : List (KBlock ℝ)) (N : Nat) (h : Tiles bs N) (M : Mat ℝ) (hM : IsKron bs M) :
    matDet N M = (bs.map fun b => matDet b.cols b.A ^ b.rows * matDet b.rows b.B ^ b.cols).prod := by
  have h1 : (Matrix.of fun i j : Fin N => M i j).submatrix h.equiv h.equiv =
      Matrix.blockDiagonal' fun l : Fin bs.length =>
        (Matrix.of fun i j : Fin (bs[l]).rows => (bs[l]).B i j) ⊗ₖ
          (Matrix.of fun i j : Fin (bs[l]).cols => (bs[l]).A i j)ᵀ := by
    ext x y
    show M x.pos y.pos = _
    rw [hM x y]
    obtain ⟨l, i, j⟩ := x
    obtain ⟨l', i', j'⟩ := y
    by_cases hl : l = l'
    · subst hl
      rw [Matrix.blockDiagonal'_apply_eq]
      simp [KIdx.entry]
    · rw [Matrix.blockDiagonal'_apply_ne _ _ _ hl]
      simp [KIdx.entry, hl]
  rw [matDet, ← Matrix.det_submatrix_equiv_self h.equiv, h1, det_blockDiagonal'_fin, ← List.prod_ofFn]
  congr 1
  refine List.ext_getElem (by simp) fun l hl hl' => ?_
  simp only [List.getElem_ofFn, List.getElem_map]
  rw [Matrix.det_kronecker, Matrix.det_transpose, Fintype.card_fin, Fintype.card_fin, mul_comm]
  rfl

/-! ## The loops -/

/-- The shared loop visits the blocks in order, if the updates are those of the blocks. -/
theorem accLoop_eq {γ : Type _} (sep : Bool) (shapes : List (List Nat)) (inCov gradCov : Dict (Factor ℝ))
    (joint weight : Factor ℝ → Factor ℝ → γ → γ) (other : Factor ℝ → γ → γ) (f : KBlock ℝ → γ → γ)
    (layers : List (Layer ℝ)) (hfit : ∀ l ∈ layers, l.Fits sep shapes)
    (hin : ∀ l ∈ layers, l.pos.hasWeight = true → inCov.get l.name = some l.A)
    (hgrad : ∀ l ∈ layers, gradCov.get l.name = some l.B)
    (hj : ∀ (l : Layer ℝ) w b acc, l ∈ layers → l.A.dim = wCols shapes w + 1 →
      joint l.A l.B acc = f (l.jBlock shapes w b) acc)
    (hw : ∀ (l : Layer ℝ) w acc, l ∈ layers → l.A.dim = wCols shapes w →
      weight l.A l.B acc = f (l.wBlock shapes w) acc)
    (ho : ∀ (l : Layer ℝ) b acc, l ∈ layers → other l.B acc = f (l.bBlock shapes b) acc) (acc : γ) :
    accLoop sep inCov gradCov joint weight other (layers.map fun l => (l.name, l.pos.dict)) acc =
      .ok ((kfacBlocks sep shapes layers).foldl (fun acc b => f b acc) acc) := by
  induction layers generalizing acc with
  | nil => rfl
  | cons l ls ih =>
    have ih := ih (fun m hm => hfit m (by simp [hm])) (fun m hm => hin m (by simp [hm]))
      (fun m hm => hgrad m (by simp [hm])) (fun m w b acc hm => hj m w b acc (by simp [hm]))
      (fun m w acc hm => hw m w acc (by simp [hm])) (fun m b acc hm => ho m b acc (by simp [hm]))
    have hl : l ∈ l :: ls := by simp
    have hgE : gradCov.getE l.name = .ok l.B := by simp [Dict.getE, hgrad l hl]
    have hiE : l.pos.hasWeight = true → inCov.getE l.name = .ok l.A := fun hh => by simp [Dict.getE, hin l hl hh]
    have hfit := hfit l hl
    unfold Layer.Fits at hfit
    simp only [kfacBlocks, List.flatMap_cons, List.foldl_append, List.map_cons] at ih ⊢
    unfold accLoop
    simp only [hgE]
    cases hp : l.pos with
    | both w b =>
      simp only [hp] at hfit hiE
      have hiE := hiE rfl
      have hd : LayerPos.dict (.both w b) = [("weight", w), ("bias", b)] := rfl
      rw [hd]
      cases sep with
      | true =>
        have hb : l.blocks true shapes = [l.wBlock shapes w, l.bBlock shapes b] := by simp [Layer.blocks, hp]
        have := hw l w acc hl (by simpa using hfit.2.2)
        simp [accLoop.paramsLoop, hiE, hb, ih, ho l b _ hl, this]
      | false =>
        have hb : l.blocks false shapes = [l.jBlock shapes w b] := by simp [Layer.blocks, hp]
        have := hj l w b acc hl (by simpa using hfit.2.2)
        simp [Dict.has, hiE, hb, ih, this]
    | weight w =>
      simp only [hp] at hfit hiE
      have hiE := hiE rfl
      have hd : LayerPos.dict (.weight w) = [("weight", w)] := rfl
      have hb : l.blocks sep shapes = [l.wBlock shapes w] := by simp [Layer.blocks, hp]
      have := hw l w acc hl hfit.2
      rw [hd]
      simp [Dict.has, accLoop.paramsLoop, hiE, hb, ih, this]
    | bias b =>
      have hd : LayerPos.dict (.bias b) = [("bias", b)] := rfl
      have hb : l.blocks sep shapes = [l.bBlock shapes b] := by simp [Layer.blocks, hp]
      rw [hd]
      simp [Dict.has, accLoop.paramsLoop, hb, ih, ho l b _ hl]

theorem foldl_add_blocks (bs : List (KBlock ℝ)) (g : KBlock ℝ → ℝ) (acc : ℝ) :
    bs.foldl (fun acc b => acc + g b) acc = acc + (bs.map g).sum := by
  induction bs generalizing acc with
  | nil => simp
  | cons b bs ih => rw [List.foldl_cons, ih, List.map_cons, List.sum_cons, add_assoc]

theorem foldl_mul_blocks (bs : List (KBlock ℝ)) (g : KBlock ℝ → ℝ) (acc : ℝ) :
    bs.foldl (fun acc b => acc * g b) acc = acc * (bs.map g).prod := by
  induction bs generalizing acc with
  | nil => simp
  | cons b bs ih => rw [List.foldl_cons, ih, List.map_cons, List.prod_cons, mul_assoc]

variable {sep : Bool} {shapes : List (List Nat)} {mapping : Dict (Dict Nat)} {inCov gradCov : Dict (Factor ℝ)}
  {layers : List (Layer ℝ)}

/-- **C31** (trace): the `trace` property is the trace of the matrix that products use. -/
theorem kfacTrace_eq (h : KfacLayers sep shapes mapping inCov gradCov layers) (M : Mat ℝ)
    (hM : IsKron (kfacBlocks sep shapes layers) M) :
    kfacTrace sep mapping inCov gradCov = .ok (matTrace (shapes.map List.prod).sum M) := by
  rw [kron_trace _ _ (kfac_tiles sep shapes mapping inCov gradCov layers h) M hM, kfacTrace, h.mapping_eq,
    accLoop_eq sep shapes inCov gradCov _ _ _ (fun b acc => acc + matTrace b.cols b.A * matTrace b.rows b.B) layers
      h.fits h.inCov_get h.gradCov_get, foldl_add_blocks, zero_add]
  · intro l w b acc _ hA
    simp only [Factor.trace, Layer.jBlock, hA]
  · intro l w acc _ hA
    simp only [Factor.trace, Layer.wBlock, hA, mul_comm]
  · intro l b acc _
    simp [Factor.trace, Layer.bBlock, matTrace]

/-- **C31** (determinant). -/
theorem kfacDet_eq (h : KfacLayers sep shapes mapping inCov gradCov layers) (M : Mat ℝ)
    (hM : IsKron (kfacBlocks sep shapes layers) M) :
    kfacDet sep mapping inCov gradCov = .ok (matDet (shapes.map List.prod).sum M) := by
  rw [kron_det _ _ (kfac_tiles sep shapes mapping inCov gradCov layers h) M hM, kfacDet, h.mapping_eq,
    accLoop_eq sep shapes inCov gradCov _ _ _
      (fun b acc => acc * (matDet b.cols b.A ^ b.rows * matDet b.rows b.B ^ b.cols)) layers
      h.fits h.inCov_get h.gradCov_get, foldl_mul_blocks, one_mul]
  · intro l w b acc _ hA
    simp only [Factor.det, Layer.jBlock, hA]
  · intro l w acc _ hA
    simp only [Factor.det, Layer.wBlock, hA, mul_comm]
  · intro l b acc _
    simp [Factor.det, Layer.bBlock, matDet_one]

/-- **C31** (Frobenius norm), for at least one layer. -/
theorem kfacFrobenius_eq (h : KfacLayers sep shapes mapping inCov gradCov layers) (M : Mat ℝ)
    (hM : IsKron (kfacBlocks sep shapes layers) M) (hne : layers ≠ []) :
    kfacFrobenius sep mapping inCov gradCov = .ok (Real.sqrt (matSquares (shapes.map List.prod).sum M)) := by
  rw [kron_squares _ _ (kfac_tiles sep shapes mapping inCov gradCov layers h) M hM, kfacFrobenius, h.mapping_eq,
    accLoop_eq sep shapes inCov gradCov _ _ _ (fun b acc => acc + matSquares b.cols b.A * matSquares b.rows b.B) layers
      h.fits h.inCov_get h.gradCov_get, foldl_add_blocks, zero_add]
  · simp [hne]
  · intro l w b acc _ hA
    simp only [Factor.squares, Layer.jBlock, hA]
  · intro l w acc _ hA
    simp only [Factor.squares, Layer.wBlock, hA, mul_comm]
  · intro l b acc _
    simp [Factor.squares, Layer.bBlock, matSquares]

/-! ## Log-determinant -/

theorem FLog.ofReal_mul {x y : ℝ} (hx : 0 ≤ x) (hy : 0 ≤ y) :
    (FLog.ofReal x).add (FLog.ofReal y) = FLog.ofReal (x * y) := by
  rcases hx.eq_or_lt with rfl | hx'
  · rcases hy.eq_or_lt with rfl | hy'
    · simp [FLog.ofReal, FLog.add]
    · simp [FLog.ofReal, FLog.add, hy']
  · rcases hy.eq_or_lt with rfl | hy'
    · simp [FLog.ofReal, FLog.add, hx']
    · simp [FLog.ofReal, FLog.add, hx', hy', Real.log_mul hx'.ne' hy'.ne']

theorem FLog.ofReal_pow {x : ℝ} (hx : 0 ≤ x) {n : Nat} (hn : n ≠ 0) :
    (FLog.ofReal x).smul n = FLog.ofReal (x ^ n) := by
  rcases hx.eq_or_lt with rfl | hx'
  · simp [FLog.ofReal, FLog.smul, hn]
  · simp [FLog.ofReal, FLog.smul, hx', pow_pos hx' n, Real.log_pow]

/-- **C31** (log-determinant): for factors with non-negative determinant (as positive semi-definite factors have) the
`logdet` property is the logarithm of the determinant of the matrix that products use, `-inf` if it is singular. -/
theorem kfacLogdet_eq (h : KfacLayers sep shapes mapping inCov gradCov layers) (M : Mat ℝ)
    (hM : IsKron (kfacBlocks sep shapes layers) M)
    (hdim : ∀ l ∈ layers, 0 < l.B.dim ∧ (l.pos.hasWeight = true → 0 < l.A.dim))
    (hdet : ∀ l ∈ layers, 0 ≤ l.B.det ∧ (l.pos.hasWeight = true → 0 ≤ l.A.det)) :
    kfacLogdet sep mapping inCov gradCov = .ok (FLog.ofReal (matDet (shapes.map List.prod).sum M)) := by
  rw [kron_det _ _ (kfac_tiles sep shapes mapping inCov gradCov layers h) M hM, kfacLogdet, h.mapping_eq,
    accLoop_eq sep shapes inCov gradCov _ _ _
      (fun b acc => acc.add (((FLog.ofReal (matDet b.cols b.A)).smul b.rows).add
        ((FLog.ofReal (matDet b.rows b.B)).smul b.cols))) layers h.fits h.inCov_get h.gradCov_get]
  · have hb : ∀ b ∈ kfacBlocks sep shapes layers, (0 < b.rows ∧ 0 < b.cols) ∧ 0 ≤ matDet b.cols b.A ∧
        0 ≤ matDet b.rows b.B := by
      intro b hb
      obtain ⟨l, hl, hb⟩ := List.mem_flatMap.mp hb
      have h1 := hdim l hl
      have h2 := hdet l hl
      have h3 := h.fits l hl
      have hone : ∀ p, 0 < (l.bBlock shapes p).rows ∧ 0 < (l.bBlock shapes p).cols ∧
          0 ≤ matDet (l.bBlock shapes p).cols (l.bBlock shapes p).A ∧
          0 ≤ matDet (l.bBlock shapes p).rows (l.bBlock shapes p).B := fun p =>
        ⟨h1.1, Nat.one_pos, by simp [Layer.bBlock, matDet_one], h2.1⟩
      unfold Layer.Fits at h3
      unfold Layer.blocks at hb
      cases hp : l.pos with
      | both w b' =>
        simp only [hp, LayerPos.hasWeight, forall_const] at h1 h2 h3 hb
        cases sep with
        | true =>
          simp only [if_true, add_zero] at h3 hb
          simp only [List.mem_cons, List.not_mem_nil, or_false] at hb
          rcases hb with rfl | rfl
          · simp only [Layer.wBlock, ← h3.2.2]
            exact ⟨⟨h1.1, h1.2⟩, h2.2, h2.1⟩
          · exact ⟨⟨(hone b').1, (hone b').2.1⟩, (hone b').2.2⟩
        | false =>
          simp only [Bool.false_eq_true, if_false] at h3 hb
          simp only [List.mem_singleton] at hb
          subst hb
          simp only [Layer.jBlock, ← h3.2.2]
          exact ⟨⟨h1.1, h1.2⟩, h2.2, h2.1⟩
      | weight w =>
        simp only [hp, LayerPos.hasWeight, forall_const] at h1 h2 h3 hb
        simp only [List.mem_singleton] at hb
        subst hb
        simp only [Layer.wBlock, ← h3.2]
        exact ⟨⟨h1.1, h1.2⟩, h2.2, h2.1⟩
      | bias b' =>
        simp only [hp] at hb
        simp only [List.mem_singleton] at hb
        subst hb
        exact ⟨⟨(hone b').1, (hone b').2.1⟩, (hone b').2.2⟩
    have hfold : ∀ (bs : List (KBlock ℝ)) (x : ℝ), 0 ≤ x →
        (∀ b ∈ bs, (0 < b.rows ∧ 0 < b.cols) ∧ 0 ≤ matDet b.cols b.A ∧ 0 ≤ matDet b.rows b.B) →
        bs.foldl (fun acc b => acc.add (((FLog.ofReal (matDet b.cols b.A)).smul b.rows).add
          ((FLog.ofReal (matDet b.rows b.B)).smul b.cols))) (FLog.ofReal x) =
        FLog.ofReal (x * (bs.map fun b => matDet b.cols b.A ^ b.rows * matDet b.rows b.B ^ b.cols).prod) := by
      intro bs
      induction bs with
      | nil => simp
      | cons b bs ih =>
        intro x hx hbs
        obtain ⟨⟨hr, hc⟩, hA, hB⟩ := hbs b (by simp)
        rw [List.foldl_cons, FLog.ofReal_pow hA hr.ne', FLog.ofReal_pow hB hc.ne',
          FLog.ofReal_mul (pow_nonneg hA _) (pow_nonneg hB _),
          FLog.ofReal_mul hx (mul_nonneg (pow_nonneg hA _) (pow_nonneg hB _)),
          ih _ (mul_nonneg hx (mul_nonneg (pow_nonneg hA _) (pow_nonneg hB _))) fun c hc => hbs c (by simp [hc]),
          List.map_cons, List.prod_cons, mul_assoc]
    have h0 : (FLog.fin 0) = FLog.ofReal 1 := by simp [FLog.ofReal]
    rw [h0, hfold _ 1 zero_le_one hb, one_mul]
  · intro l w b acc _ hA
    simp only [Factor.logdet, Factor.det, Layer.jBlock, hA]
  · intro l w acc hl hA
    have hc : ∀ x y : FLog, x.add y = y.add x := by
      intro x y
      cases x <;> cases y <;> simp [FLog.add, add_comm]
    rw [hc (FLog.smul _ _)]
    simp only [Factor.logdet, Factor.det, Layer.wBlock, hA]
  · intro l b acc hl
    have hc : ∀ x : FLog, x.add (.fin 0) = (FLog.fin 0).add x := by
      intro x
      cases x <;> simp [FLog.add]
    rw [hc]
    have h1 : FLog.smul l.B.dim (FLog.ofReal 1) = .fin 0 := by simp [FLog.ofReal, FLog.smul]
    simp [Factor.logdet, Factor.det, Layer.bBlock, matDet_one, h1]

/-- Negative result for C31: without layers `frobenius_norm` raises instead of returning zero. -/
theorem kfacFrobenius_empty (sep : Bool) (inCov gradCov : Dict (Factor ℝ)) :
    kfacFrobenius sep [] inCov gradCov = .error .attributeError := by
  simp [kfacFrobenius, accLoop]

/-- Negative result for C31: with negative determinants (impossible for covariances) `logdet` is `nan` although the
determinant of the represented matrix is positive. -/
theorem kfacLogdet_nan :
    kfacLogdet true [("a", [("weight", 0)])] [("a", ⟨1, fun _ _ => -1⟩)] [("a", ⟨1, fun _ _ => -1⟩)] = .ok .nan ∧
    kfacDet true [("a", [("weight", 0)])] [("a", ⟨1, fun _ _ => -1⟩)] [("a", ⟨1, fun _ _ => -1⟩)] = .ok 1 := by
  constructor
  · simp [kfacLogdet, accLoop, accLoop.paramsLoop, Dict.getE, Dict.get, Dict.has, Factor.logdet, Factor.det,
      matDet, FLog.ofReal, FLog.smul, FLog.add]
    norm_num
  · simp [kfacDet, accLoop, accLoop.paramsLoop, Dict.getE, Dict.get, Dict.has, Factor.det, matDet]

example : kfacDet true [("a", [("weight", 0), ("bias", 1)])] [("a", ⟨2, fun i j => if i = j then 3 else 0⟩)]
    [("a", ⟨1, fun _ _ => 5⟩)] = .ok 1125 := by
  simp [kfacDet, accLoop, accLoop.paramsLoop, Dict.getE, Dict.get, Dict.has, Factor.det, matDet, Matrix.det_fin_two]
  norm_num

end Curvlinops
