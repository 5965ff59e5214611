import Verif.Lemmas.Curvature
import Verif.Props.Matmul
import Verif.Model.CurvatureInit
import Mathlib.Algebra.CharZero.Defs
import Mathlib.Tactic.FieldSimp
import Mathlib.Data.Rat.Cast.CharZero
import Mathlib.Tactic.Positivity

/-!
# C07 – C10, C12, C13: products of curvature operators
-/

namespace Curvlinops

variable {α : Type _}

/-! ## C07: constructor checks -/

/-- C07: the constructor's argument checks raise exactly in the documented cases and store the given block
sizes, or one block with all parameters. -/
theorem initBlockSizes_spec (first : FirstInput) (hasFn supports : Bool) (bs : Option (List Int))
    (n : Nat) (hfirst : first ≠ .noBatch) :
    (initBlockSizes first hasFn supports bs n = .error .valueError ↔
      (first = .mapping ∧ hasFn = false) ∨
      (∃ l, bs = some l ∧ (supports = false ∨ l.sum ≠ n ∨ ∃ s ∈ l, s ≤ 0))) ∧
    (∀ e, initBlockSizes first hasFn supports bs n = .error e → e = .valueError) ∧
    (∀ l, initBlockSizes first hasFn supports bs n = .ok l →
      l = bs.getD [(n : Int)] ∧ l.sum = n ∧ (bs ≠ none → ∀ s ∈ l, 0 < s)) := by
  unfold initBlockSizes
  cases first with
  | noBatch => exact absurd rfl hfirst
  | mapping =>
    cases hasFn <;> cases bs with
    | none => simp
    | some l =>
      by_cases h1 : l.sum = n <;> by_cases h2 : ∃ s ∈ l, s ≤ 0 <;> cases supports <;>
        simp [h1, h2]
      all_goals
        push Not at h2
        exact fun s hs => h2 s hs
  | nonMapping =>
    cases bs with
    | none => simp
    | some l =>
      by_cases h1 : l.sum = n <;> by_cases h2 : ∃ s ∈ l, s ≤ 0 <;> cases supports <;>
        simp [h1, h2]
      all_goals
        push Not at h2
        exact fun s hs => h2 s hs

example : initBlockSizes .nonMapping false true (some [2, 1]) 3 = .ok [2, 1] := by decide
example : initBlockSizes .nonMapping false true (some [4, -1]) 3 = .error .valueError := by decide
example : initBlockSizes .mapping false true none 3 = .error .valueError := by decide

/-! ## Operators with the same dense matrix are interchangeable -/

theorem isProduct_unique [NonUnitalNonAssocSemiring α] {A : Mat α} {M N K : Nat} {x y z : List α}
    (hy : IsProduct A M N K x y) (hz : IsProduct A M N K x z) : y = z := by
  apply List.ext_getElem
  · rw [hy.1, hz.1]
  · intro i h1 h2
    have hK : 0 < K := by
      rcases Nat.eq_zero_or_pos K with h | h
      · rw [hy.1, h] at h1; simp at h1
      · exact h
    have hr : i / K < M := by
      rw [Nat.div_lt_iff_lt_mul hK, ← hy.1]; exact h1
    have hk := Nat.mod_lt i hK
    have e1 := hy.2 _ hr _ hk
    have e2 := hz.2 _ hr _ hk
    have hi : i / K * K + i % K = i := by rw [Nat.mul_comm]; exact Nat.div_add_mod i K
    rw [hi] at e1 e2
    have := e1.trans e2.symm
    simpa [List.getD_eq_getElem?_getD, h1, h2] using this

theorem hasShapes_ext {T U : List (Tensor α)} {shapes : List (List Nat)} {K : Nat}
    (hT : HasShapes T shapes K) (hU : HasShapes U shapes K) (h : flatData T = flatData U) : T = U := by
  induction T generalizing U shapes with
  | nil =>
    have hs : shapes = [] := List.length_eq_zero_iff.mp hT.length.symm
    have := hU.length
    rw [hs] at this
    exact (List.length_eq_zero_iff.mp this).symm
  | cons t ts ih =>
    rcases shapes with _ | ⟨s, ss⟩
    · have := hT.length; simp at this
    rcases U with _ | ⟨u, us⟩
    · have := hU.length; simp at this
    rw [hasShapes_cons] at hT hU
    rw [flatData_cons, flatData_cons] at h
    have hl : t.data.length = u.data.length := by rw [hT.1.2, hU.1.2, hT.1.1, hU.1.1]
    obtain ⟨h1, h2⟩ := List.append_inj h hl
    rw [ih hT.2 hU.2 h2]
    have : t = u := by
      cases t; cases u; simp_all
    rw [this]

/-- Operators on the same spaces that represent the same matrix return identical products for every
argument (accepted or not). -/
theorem matmul_congr [NonUnitalNonAssocSemiring α] (op op' : LinOp α) (A A' : Mat α)
    (hin : op.inShape = op'.inShape) (hout : op.outShape = op'.outShape)
    (hA : Represents op A) (hA' : Represents op' A')
    (hAA : ∀ r < op.nrows, ∀ c < op.ncols, A r c = A' r c) (X : PyVal α) (hX : X.WF) :
    (op.matmul X).1 = (op'.matmul X).1 := by
  have hpre : op.pre X = op'.pre X := by
    unfold LinOp.pre LinOp.preTensor LinOp.preList LinOp.ncols LinOp.inFlat
    rw [hin]
  by_cases h : Accepted op X
  · obtain ⟨K, Xs, lf, iv, h1, h2, h3⟩ := matmul_accepts op X hX h
    obtain ⟨Y, y1, y2, y3⟩ := hA K Xs h2
    obtain ⟨Y', z1, z2, z3⟩ := hA' K Xs (hin ▸ h2)
    have hYY : Y = Y' := by
      refine hasShapes_ext y2 (hout ▸ z2) (isProduct_unique y3 ?_)
      have hn : op'.nrows = op.nrows := by simp only [LinOp.nrows, LinOp.outFlat, hout]
      have hc : op'.ncols = op.ncols := by simp only [LinOp.ncols, LinOp.inFlat, hin]
      rw [hn, hc] at z3
      refine ⟨z3.1, fun r hr k hk => ?_⟩
      rw [z3.2 r hr k hk]
      exact Finset.sum_congr rfl fun c hc => by rw [hAA r hr c (Finset.mem_range.mp hc)]
    have hpost : op.post Y lf iv K = op'.post Y' lf iv K := by
      rw [hYY]; unfold LinOp.post LinOp.outFlat; rw [hout]
    unfold LinOp.matmul
    simp only [h1, hpre ▸ h1, y1, z1, hpost]
  · have h' : ¬ Accepted op' X := by unfold Accepted at h ⊢; rwa [← hin]
    rw [matmul_rejects op X h, matmul_rejects op' X h']

/-! ## C08: independence of the mini-batching -/

/-- The matrix of one mini-batch: the sum or the mean of the per-datum matrices. -/
def batchMatrix [DivisionRing α] {D : Type _} (red : Reduction) (a : D → Mat α) (b : List D) : Mat α :=
  fun r c => (if red = .mean then (b.length : α)⁻¹ else 1) * (b.map fun d => a d r c).sum

/-- Specification: the matrix of the empirical risk over the whole data set. -/
def riskMatrix [DivisionRing α] {D : Type _} (red : Reduction) (a : D → Mat α) (ds : List D) : Mat α :=
  fun r c => (if red = .mean then (ds.length : α)⁻¹ else 1) * (ds.map fun d => a d r c).sum

theorem sum_map_flatten {D : Type _} [AddMonoid α] (g : D → α) :
    ∀ batches : List (List D), (batches.flatten.map g).sum = (batches.map fun b => (b.map g).sum).sum
  | [] => rfl
  | b :: bs => by
    rw [List.flatten_cons, List.map_append, List.sum_append, sum_map_flatten g bs, List.map_cons,
      List.sum_cons]

/-- C08: for reductions 'sum' and 'mean', whatever the partition of the data into non-empty mini-batches, the
operator multiplies with the (scaled) sum over all data. The number of data is inferred, or given
correctly. -/
theorem curvatureOp_batching [Field α] [CharZero α] {D : Type _} (shapes : List (List Nat))
    (red : Reduction) (hred : red = .mean ∨ red = .sum) (a : D → Mat α)
    (f : List D → List (Tensor α) → Py (List (Tensor α))) (batches : List (List D))
    (hf : ∀ b ∈ batches, BatchRepresents shapes (f b) (batchMatrix red a b))
    (hne : ∀ b ∈ batches, b ≠ []) (numData : Option Nat)
    (hnum : numData = none ∨ numData = some batches.flatten.length) :
    Represents (curvatureOp shapes red (inferNData List.length batches numData) List.length f batches)
      (riskMatrix red a batches.flatten) := by
  have hN : inferNData List.length batches numData = batches.flatten.length := by
    rcases hnum with rfl | rfl
    · simp [inferNData, List.length_flatten]
    · rfl
  rw [hN]
  have hpos : ∀ b ∈ batches, 0 < b.length ∧ b.length ≤ batches.flatten.length := by
    intro b hb
    refine ⟨List.length_pos_of_ne_nil (hne b hb), ?_⟩
    rw [List.length_flatten]
    exact List.le_sum_of_mem (List.mem_map_of_mem hb)
  have key := curvatureOp_represents red batches.flatten.length List.length f
    (batchMatrix red a) shapes
    (fun b => if red = .mean then (b.length : α) / (batches.flatten.length : α) else 1) batches hf (by
      intro b hb
      have := hpos b hb
      unfold normalizationFactor
      rw [if_neg (by omega)]
      rcases hred with rfl | rfl <;> simp)
  intro K Xs hXs
  obtain ⟨Y, y1, y2, y3⟩ := key K Xs hXs
  refine ⟨Y, y1, y2, y3.1, fun r hr k hk => ?_⟩
  rw [y3.2 r hr k hk]
  refine Finset.sum_congr rfl fun j _ => ?_
  congr 1
  unfold riskMatrix batchMatrix
  rw [sum_map_flatten (fun d => a d r j) batches, ← List.sum_map_mul_left]
  refine congrArg List.sum (List.map_congr_left fun b hb => ?_)
  have h1 : (b.length : α) ≠ 0 := by
    have := (hpos b hb).1; exact_mod_cast this.ne'
  rcases hred with rfl | rfl
  · simp only [if_true]
    field_simp
  · simp

/-- C08: two partitions of the same data give identical products, for every argument. -/
theorem matmul_batching [Field α] [CharZero α] {D : Type _} (shapes : List (List Nat))
    (red : Reduction) (hred : red = .mean ∨ red = .sum) (a : D → Mat α)
    (f : List D → List (Tensor α) → Py (List (Tensor α)))
    (hf : ∀ b, BatchRepresents shapes (f b) (batchMatrix red a b))
    (batches batches' : List (List D)) (hne : ∀ b ∈ batches, b ≠ []) (hne' : ∀ b ∈ batches', b ≠ [])
    (hsame : batches.flatten.Perm batches'.flatten) (X : PyVal α) (hX : X.WF) :
    ((curvatureOp shapes red (inferNData List.length batches none) List.length f batches).matmul X).1 =
    ((curvatureOp shapes red (inferNData List.length batches' none) List.length f batches').matmul X).1 := by
  refine matmul_congr _ _ _ _ (by rfl) (by rfl)
    (curvatureOp_batching shapes red hred a f batches (fun b _ => hf b) hne none (Or.inl rfl))
    (curvatureOp_batching shapes red hred a f batches' (fun b _ => hf b) hne' none (Or.inl rfl))
    (fun r _ c _ => ?_) X hX
  unfold riskMatrix
  rw [hsame.length_eq, (hsame.map fun d => a d r c).sum_eq]

/-! ## C09: order of the mini-batches -/

/-- C09: presenting the mini-batches in another order gives identical products, for every argument, also if
the mini-batch matrices are not sums over data (and whatever number of data was passed). -/
theorem matmul_batch_order [Field α] {B : Type _} (shapes : List (List Nat)) (red : Reduction)
    (hred : red = .mean ∨ red = .sum) (nData : Nat) (hn : nData ≠ 0) (size : B → Nat)
    (f : B → List (Tensor α) → Py (List (Tensor α))) (A : B → Mat α)
    (hf : ∀ b, BatchRepresents shapes (f b) (A b)) (data data' : List B) (hp : data.Perm data')
    (X : PyVal α) (hX : X.WF) :
    ((curvatureOp shapes red nData size f data).matmul X).1 =
      ((curvatureOp shapes red nData size f data').matmul X).1 := by
  have hc : ∀ b : B, normalizationFactor red (size b) nData =
      .ok (if red = .mean then (size b : α) / (nData : α) else 1) := by
    intro b
    unfold normalizationFactor
    rw [if_neg hn]
    rcases hred with rfl | rfl <;> simp
  refine matmul_congr _ _ _ _ (by rfl) (by rfl)
    (curvatureOp_represents red nData size f A shapes _ data (fun b _ => hf b) (fun b _ => hc b))
    (curvatureOp_represents red nData size f A shapes _ data' (fun b _ => hf b) (fun b _ => hc b))
    (fun r _ c _ => ?_) X hX
  exact (hp.map _).sum_eq

/-! ## C10: linearity -/

/-- C10: if `Z = a X + b Y` entry-wise (all in one format), then `A @ Z = a (A @ X) + b (A @ Y)`. -/
theorem matmul_linear [CommSemiring α] (op : LinOp α) (A : Mat α) (f : Fmt)
    (hA : RepresentsAt op A f.cols) (hi : op.inShape ≠ []) (ho : op.outShape ≠ []) (X Y Z : PyVal α)
    (hX : X.WF) (hY : Y.WF) (hZ : Z.WF) (fX : InSpace op.inShape f X) (fY : InSpace op.inShape f Y)
    (fZ : InSpace op.inShape f Z) (a b : α)
    (h : ∀ i < op.ncols * f.cols,
      Z.entries.getD i 0 = a * X.entries.getD i 0 + b * Y.entries.getD i 0) :
    ∃ AX AY AZ, (op.matmul X).1 = .ok AX ∧ (op.matmul Y).1 = .ok AY ∧ (op.matmul Z).1 = .ok AZ ∧
      ∀ i < op.nrows * f.cols,
        AZ.entries.getD i 0 = a * AX.entries.getD i 0 + b * AY.entries.getD i 0 := by
  obtain ⟨AX, x1, -, -, -, x2⟩ := matmul_correct op A X f hA hX fX (Or.inl hi) (Or.inl ho)
  obtain ⟨AY, y1, -, -, -, y2⟩ := matmul_correct op A Y f hA hY fY (Or.inl hi) (Or.inl ho)
  obtain ⟨AZ, z1, -, -, -, z2⟩ := matmul_correct op A Z f hA hZ fZ (Or.inl hi) (Or.inl ho)
  refine ⟨AX, AY, AZ, x1, y1, z1, ?_⟩
  intro i hiK
  have hK : 0 < f.cols := by
    rcases Nat.eq_zero_or_pos f.cols with h | h
    · rw [h] at hiK; simp at hiK
    · exact h
  have hr : i / f.cols < op.nrows := by rwa [Nat.div_lt_iff_lt_mul hK]
  have hk := Nat.mod_lt i hK
  have hidx : i / f.cols * f.cols + i % f.cols = i := by
    rw [Nat.mul_comm]; exact Nat.div_add_mod i f.cols
  have e1 := x2.2 _ hr _ hk
  have e2 := y2.2 _ hr _ hk
  have e3 := z2.2 _ hr _ hk
  rw [hidx] at e1 e2 e3
  rw [e1, e2, e3, Finset.mul_sum, Finset.mul_sum, ← Finset.sum_add_distrib]
  refine Finset.sum_congr rfl fun c hc => ?_
  rw [h _ (flat_index_lt (Finset.mem_range.mp hc) hk)]
  ring

/-! ## C12: blocks of the Hessian -/

/-- The block products of a mini-batch. -/
theorem hessianBatch_blocks [Field α] {D : Type _} (shapes : List (List Nat))
    (hshapes : shapes ≠ []) (blockSizes : List Int) (hpos : ∀ s ∈ blockSizes, 0 < s)
    (hsum : blockSizes.sum = shapes.length) (parts : List (List (List Nat)))
    (hparts : IsSplit shapes blockSizes parts) (red : Reduction) (H : D → Mat α) (b : List D) :
    BatchRepresents shapes (hessianMatmatBatch shapes blockSizes (batchMatrix red H b))
      (batchMatrix red (fun d => blockDiagonal (parts.map total) (H d)) b) := by
  obtain ⟨ns, rfl⟩ : ∃ ns : List Nat, blockSizes = ns.map Int.ofNat := by
    refine ⟨blockSizes.map Int.toNat, ?_⟩
    rw [List.map_map]
    conv_lhs => rw [← List.map_id blockSizes]
    refine List.map_congr_left fun s hs => ?_
    have := hpos s hs
    simp only [id, Function.comp]
    exact (Int.toNat_of_nonneg this.le).symm
  have hns : ns.sum = shapes.length := by
    have e : (ns.map Int.ofNat).sum = (ns.sum : Int) := by
      clear * -
      induction ns with
      | nil => rfl
      | cons n ns ih => simp only [List.map_cons, List.sum_cons, ih]; simp
    rw [e] at hsum; exact_mod_cast hsum
  have hch : parts = Tensor.chunks ns shapes := by
    refine isSplit_unique hparts ⟨?_, Tensor.chunks_flatten ns shapes hns⟩
    have := congrArg (List.map Int.ofNat) (Tensor.chunks_lengths ns shapes hns)
    rw [← this, List.map_map]
    rfl
  have h := hessianMatmatBatch_represents shapes hshapes ns hns (batchMatrix red H b)
  rw [← hch] at h
  intro K M hM
  obtain ⟨Y, y1, y2, y3⟩ := h K M hM
  refine ⟨Y, y1, y2, y3.1, fun r hr k hk => ?_⟩
  rw [y3.2 r hr k hk]
  refine Finset.sum_congr rfl fun c _ => ?_
  unfold blockDiagonal batchMatrix
  by_cases hb : blockIndex (parts.map total) r = blockIndex (parts.map total) c <;> simp [hb]

/-- C12: with valid block sizes, the Hessian operator multiplies with the matrix that equals the (risk)
Hessian inside the blocks of consecutive parameters and is zero elsewhere. `parts` are the parameter shapes
split according to the block sizes. -/
theorem hessianOp_blocks [Field α] [CharZero α] {D : Type _} (shapes : List (List Nat))
    (hshapes : shapes ≠ []) (blockSizes : List Int) (hpos : ∀ s ∈ blockSizes, 0 < s)
    (hsum : blockSizes.sum = shapes.length) (parts : List (List (List Nat)))
    (hparts : IsSplit shapes blockSizes parts) (red : Reduction) (hred : red = .mean ∨ red = .sum)
    (H : D → Mat α) (batches : List (List D)) (hne : ∀ b ∈ batches, b ≠ []) :
    Represents (curvatureOp shapes red (inferNData List.length batches none) List.length
        (fun b => hessianMatmatBatch shapes blockSizes (batchMatrix red H b)) batches)
      (blockDiagonal (parts.map total) (riskMatrix red H batches.flatten)) := by
  have key := curvatureOp_batching shapes red hred
    (fun d => blockDiagonal (parts.map total) (H d))
    (fun b => hessianMatmatBatch shapes blockSizes (batchMatrix red H b)) batches
    (fun b _ => hessianBatch_blocks shapes hshapes blockSizes hpos hsum parts hparts red H b) hne none (Or.inl rfl)
  intro K Xs hXs
  obtain ⟨Y, y1, y2, y3⟩ := key K Xs hXs
  refine ⟨Y, y1, y2, y3.1, fun r hr k hk => ?_⟩
  rw [y3.2 r hr k hk]
  refine Finset.sum_congr rfl fun c _ => ?_
  generalize batches.flatten = ds
  unfold blockDiagonal riskMatrix
  by_cases hb : blockIndex (parts.map total) r = blockIndex (parts.map total) c <;> simp [hb]

/-- C12: the default, one block with all parameters, is the full Hessian. -/
theorem blockDiagonal_single [Zero α] (n : Nat) (H : Mat α) (r c : Nat) (hr : r < n) (hc : c < n) :
    blockDiagonal [n] H r c = H r c := by
  simp [blockDiagonal, blockIndex, hr, hc]

example : Represents (curvatureOp (α := ℚ) [[2], [1, 1]] .mean (inferNData List.length [[1, 2], [3]] none)
      List.length (fun b => hessianMatmatBatch [[2], [1, 1]] [1, 1]
        (batchMatrix .mean (fun (d : Nat) r c => (d : ℚ) * (r + c)) b)) [[1, 2], [3]])
    (blockDiagonal [2, 1] (riskMatrix .mean (fun (d : Nat) r c => (d : ℚ) * (r + c)) [1, 2, 3])) :=
  hessianOp_blocks [[2], [1, 1]] (by decide) [1, 1] (by decide) (by decide) [[[2]], [[1, 1]]]
    (by unfold IsSplit; decide) .mean (Or.inl rfl) _ [[1, 2], [3]] (by decide)

/-! ## C13: the GGN -/

/-- What matters of one datum for the GGN: the Jacobian of its `C` outputs in the parameters, and the Hessian
of its loss in the outputs. -/
structure GGNDatum (α : Type _) where
  J : Mat α
  HL : Mat α

/-- Jacobian of the flattened mini-batch output, if outputs of shape `[n, C]` are computed per datum. -/
def batchJ [Zero α] (C : Nat) (b : List (GGNDatum α)) : Mat α := fun s p =>
  match b[s / C]? with
  | some d => d.J (s % C) p
  | none => 0

/-- Hessian of the mini-batch loss (sum or mean of the per-datum losses) in the flattened output. -/
def batchHL [DivisionRing α] (red : Reduction) (C : Nat) (b : List (GGNDatum α)) : Mat α := fun s s' =>
  match b[s / C]? with
  | some d => if s / C = s' / C then
      (if red = .mean then (b.length : α)⁻¹ else 1) * d.HL (s % C) (s' % C) else 0
  | none => 0

/-- Specification: the GGN matrix of one datum, `J_nᵀ H_n J_n`. -/
def datumGGN [NonUnitalNonAssocSemiring α] (C : Nat) (d : GGNDatum α) : Mat α := fun r c =>
  ∑ i ∈ Finset.range C, ∑ j ∈ Finset.range C, d.J i r * d.HL i j * d.J j c

theorem sum_range_mul [AddCommMonoid α] (n C : Nat) (g : Nat → α) :
    ∑ s ∈ Finset.range (n * C), g s = ∑ k ∈ Finset.range n, ∑ i ∈ Finset.range C, g (k * C + i) := by
  induction n with
  | zero => simp
  | succ n ih =>
    rw [Nat.succ_mul, Finset.sum_range_add, ih, Finset.sum_range_succ]

theorem sum_map_eq_range {D : Type _} [AddCommMonoid α] (l : List D) (g : D → α) (z : α) :
    (l.map g).sum = ∑ k ∈ Finset.range l.length, (l[k]?.map g).getD z := by
  induction l with
  | nil => simp
  | cons d l ih =>
    rw [List.map_cons, List.sum_cons, List.length_cons, Finset.sum_range_succ', ih]
    simp [add_comm]

theorem ggn_batch_matrix [Field α] (red : Reduction) (C : Nat) (b : List (GGNDatum α)) (r c : Nat) :
    ∑ s ∈ Finset.range (b.length * C), ∑ s' ∈ Finset.range (b.length * C),
        batchJ C b s r * batchHL red C b s s' * batchJ C b s' c =
      batchMatrix red (datumGGN C) b r c := by
  unfold batchMatrix
  rw [sum_map_eq_range b (fun d => datumGGN C d r c) 0, sum_range_mul, Finset.mul_sum]
  refine Finset.sum_congr rfl fun k hk => ?_
  have hk := Finset.mem_range.mp hk
  rcases Nat.eq_zero_or_pos C with rfl | hC
  · simp [datumGGN, hk]
  have hdiv : ∀ k i, i < C → (k * C + i) / C = k := by
    intro k i hi
    rw [Nat.mul_comm, Nat.mul_add_div hC, Nat.div_eq_of_lt hi, Nat.add_zero]
  have hmod : ∀ k i, i < C → (k * C + i) % C = i := by
    intro k i hi
    rw [Nat.mul_comm, Nat.mul_add_mod, Nat.mod_eq_of_lt hi]
  simp only [List.getElem?_eq_getElem hk, Option.map_some, Option.getD_some, datumGGN, Finset.mul_sum]
  refine Finset.sum_congr rfl fun i hi => ?_
  have hi := Finset.mem_range.mp hi
  rw [sum_range_mul, Finset.sum_eq_single k]
  · refine Finset.sum_congr rfl fun j hj => ?_
    have hj := Finset.mem_range.mp hj
    simp only [batchJ, batchHL, hdiv _ _ hi, hmod _ _ hi, hdiv _ _ hj, hmod _ _ hj,
      List.getElem?_eq_getElem hk, if_true]
    ring
  · intro k' _ hne
    refine Finset.sum_eq_zero fun j hj => ?_
    have hj := Finset.mem_range.mp hj
    simp only [batchHL, hdiv _ _ hi, hdiv _ _ hj, List.getElem?_eq_getElem hk]
    simp [Ne.symm hne]
  · intro h; exact absurd (Finset.mem_range.mpr hk) h

/-- C13: the GGN operator multiplies with `c Σ_n J_nᵀ H_n J_n` (`c = 1` or `1/N`), for every partition into
non-empty mini-batches. -/
theorem ggnOp_represents [Field α] [CharZero α] (shapes : List (List Nat)) (hshapes : shapes ≠ [])
    (C : Nat) (red : Reduction) (hred : red = .mean ∨ red = .sum) (batches : List (List (GGNDatum α)))
    (hne : ∀ b ∈ batches, b ≠ []) :
    Represents (curvatureOp shapes red (inferNData List.length batches none) List.length
        (fun b => ggnMatmatBatch shapes (batchJ C b) (batchHL red C b) [b.length, C]) batches)
      (riskMatrix red (datumGGN C) batches.flatten) := by
  refine curvatureOp_batching shapes red hred (datumGGN C) _ batches ?_ hne none (Or.inl rfl)
  intro b _ K M hM
  obtain ⟨Y, y1, y2, y3⟩ := ggnMatmatBatch_represents shapes hshapes (batchJ C b) (batchHL red C b)
    [b.length, C] K M hM
  refine ⟨Y, y1, y2, y3.1, fun r hr k hk => ?_⟩
  rw [y3.2 r hr k hk]
  refine Finset.sum_congr rfl fun c _ => ?_
  rw [← ggn_batch_matrix red C b r c]
  simp

example : Represents (curvatureOp (α := ℚ) [[2], [1, 1]] .mean 3 List.length
      (fun b => ggnMatmatBatch [[2], [1, 1]] (batchJ 2 b) (batchHL .mean 2 b) [b.length, 2])
      [[⟨fun i r => i + r, fun i j => if i = j then 2 else 1⟩, ⟨fun i r => i * r, fun _ _ => 1⟩],
       [⟨fun _ r => r, fun i j => i + j⟩]])
    (riskMatrix .mean (datumGGN 2)
      [⟨fun i r => i + r, fun i j => if i = j then 2 else 1⟩, ⟨fun i r => i * r, fun _ _ => 1⟩,
       ⟨fun _ r => r, fun i j => i + j⟩]) :=
  ggnOp_represents (α := ℚ) [[2], [1, 1]] (by decide) 2 .mean (Or.inl rfl)
    [[⟨fun i r => i + r, fun i j => if i = j then 2 else 1⟩, ⟨fun i r => i * r, fun _ _ => 1⟩],
      [⟨fun _ r => r, fun i j => i + j⟩]] (by simp)

/-- C13: the GGN matrix is symmetric if the loss Hessians are. -/
theorem ggnMatrix_symmetric [Field α] (C : Nat) (red : Reduction) (ds : List (GGNDatum α))
    (h : ∀ d ∈ ds, ∀ i < C, ∀ j < C, d.HL i j = d.HL j i) (r c : Nat) :
    riskMatrix red (datumGGN C) ds r c = riskMatrix red (datumGGN C) ds c r := by
  unfold riskMatrix
  congr 2
  refine List.map_congr_left fun d hd => ?_
  unfold datumGGN
  rw [Finset.sum_comm]
  refine Finset.sum_congr rfl fun i hi => Finset.sum_congr rfl fun j hj => ?_
  rw [h d hd j (Finset.mem_range.mp hj) i (Finset.mem_range.mp hi)]
  ring

/-- Specification: the quadratic form of a matrix is non-negative on `N`-vectors. -/
def QuadNonneg [NonUnitalNonAssocSemiring α] [LE α] (N : Nat) (A : Mat α) : Prop :=
  ∀ v : Nat → α, 0 ≤ ∑ r ∈ Finset.range N, ∑ c ∈ Finset.range N, v r * A r c * v c

theorem sum4_comm {β : Type _} [AddCommMonoid β] (s t u w : Finset Nat) (g : Nat → Nat → Nat → Nat → β) :
    ∑ r ∈ s, ∑ c ∈ t, ∑ i ∈ u, ∑ j ∈ w, g r c i j = ∑ i ∈ u, ∑ j ∈ w, ∑ r ∈ s, ∑ c ∈ t, g r c i j := by
  have h1 := Finset.sum_product' s t fun r c => ∑ i ∈ u, ∑ j ∈ w, g r c i j
  have h2 := Finset.sum_product' u w fun i j => ∑ r ∈ s, ∑ c ∈ t, g r c i j
  rw [← h1, ← h2]
  have h3 : ∀ r c, ∑ i ∈ u, ∑ j ∈ w, g r c i j = ∑ p ∈ u ×ˢ w, g r c p.1 p.2 := fun r c =>
    (Finset.sum_product' u w fun i j => g r c i j).symm
  have h4 : ∀ i j, ∑ r ∈ s, ∑ c ∈ t, g r c i j = ∑ p ∈ s ×ˢ t, g p.1 p.2 i j := fun i j =>
    (Finset.sum_product' s t fun r c => g r c i j).symm
  simp only [h3, h4]
  exact Finset.sum_comm

theorem quad_datumGGN [CommRing α] (C N : Nat) (d : GGNDatum α) (v : Nat → α) :
    ∑ r ∈ Finset.range N, ∑ c ∈ Finset.range N, v r * datumGGN C d r c * v c =
      ∑ i ∈ Finset.range C, ∑ j ∈ Finset.range C,
        (∑ r ∈ Finset.range N, d.J i r * v r) * d.HL i j * ∑ c ∈ Finset.range N, d.J j c * v c := by
  unfold datumGGN
  simp only [Finset.mul_sum, Finset.sum_mul]
  rw [sum4_comm]
  refine Finset.sum_congr rfl fun i _ => Finset.sum_congr rfl fun j _ => ?_
  rw [Finset.sum_comm]
  exact Finset.sum_congr rfl fun r _ => Finset.sum_congr rfl fun c _ => by ring

theorem quad_riskMatrix [Field α] {D : Type _} (N : Nat) (red : Reduction) (a : D → Mat α)
    (ds : List D) (v : Nat → α) :
    ∑ r ∈ Finset.range N, ∑ c ∈ Finset.range N, v r * riskMatrix red a ds r c * v c =
      (if red = .mean then (ds.length : α)⁻¹ else 1) *
        (ds.map fun d => ∑ r ∈ Finset.range N, ∑ c ∈ Finset.range N, v r * a d r c * v c).sum := by
  unfold riskMatrix
  generalize (if red = .mean then (ds.length : α)⁻¹ else 1) = k
  induction ds with
  | nil => simp
  | cons d ds ih =>
    simp only [List.map_cons, List.sum_cons, mul_add, add_mul, Finset.sum_add_distrib, ih]
    congr 1
    simp only [Finset.mul_sum]
    exact Finset.sum_congr rfl fun r _ => Finset.sum_congr rfl fun c _ => by ring

/-- A scaled sum of positive semi-definite per-datum matrices is positive semi-definite. -/
theorem riskMatrix_psd [Field α] [LinearOrder α] [IsStrictOrderedRing α] {D : Type _} (N : Nat)
    (red : Reduction) (a : D → Mat α) (ds : List D) (h : ∀ d ∈ ds, QuadNonneg N (a d)) :
    QuadNonneg N (riskMatrix red a ds) := by
  intro v
  rw [quad_riskMatrix]
  refine mul_nonneg (by split <;> positivity) (List.sum_nonneg ?_)
  intro x hx
  obtain ⟨d, hd, rfl⟩ := List.mem_map.mp hx
  exact h d hd v

/-- C13: the GGN matrix is positive semi-definite if the loss Hessians are. -/
theorem ggnMatrix_psd [Field α] [LinearOrder α] [IsStrictOrderedRing α] (C N : Nat) (red : Reduction)
    (ds : List (GGNDatum α)) (h : ∀ d ∈ ds, QuadNonneg C d.HL) :
    QuadNonneg N (riskMatrix red (datumGGN C) ds) := by
  refine riskMatrix_psd N red _ ds fun d hd v => ?_
  rw [quad_datumGGN]
  exact h d hd fun i => ∑ r ∈ Finset.range N, d.J i r * v r

end Curvlinops
