import Verif.Lemmas.Jacobian
import Verif.Props.Curvature
import Verif.Model.Adjoint

/-!
# C20 – C23: Jacobians, adjoints and the SciPy export
-/

namespace Curvlinops

variable {α : Type _}

/-! ## C20, C21: per-datum rows in data order -/

/-- A mini-batch of data with per-datum Jacobians `Js` and per-datum output shape `S`. -/
def jacBatch [Zero α] (S : List Nat) (Js : List (Mat α)) : JacBatch α :=
  ⟨Js.length :: S, rowsOf S.prod Js⟩

theorem rowsOf_append [Zero α] (C : Nat) (xs ys : List (Mat α)) (r c : Nat)
    (hr : r < (xs ++ ys).length * C) :
    rowsOf C (xs ++ ys) r c =
      if r < xs.length * C then rowsOf C xs r c else rowsOf C ys (r - xs.length * C) c := by
  have hC : 0 < C := by
    rcases Nat.eq_zero_or_pos C with rfl | h
    · simp at hr
    · exact h
  unfold rowsOf
  by_cases h : r < xs.length * C
  · rw [if_pos h]
    have : r / C < xs.length := by rwa [Nat.div_lt_iff_lt_mul hC]
    rw [List.getElem?_append_left this]
  · rw [if_neg h]
    have hle : xs.length * C ≤ r := not_lt.mp h
    have h1 : (r - xs.length * C) / C = r / C - xs.length := by
      have : r = (r - xs.length * C) + xs.length * C := by omega
      conv_rhs => rw [this, Nat.add_mul_div_right _ _ hC, Nat.add_sub_cancel]
    have h2 : (r - xs.length * C) % C = r % C := by
      have : r = (r - xs.length * C) + xs.length * C := by omega
      conv_rhs => rw [this, Nat.add_mul_mod_self_right]
    have h3 : xs.length ≤ r / C := by rwa [Nat.le_div_iff_mul_le hC]
    rw [List.getElem?_append_right h3, h1, h2]

theorem stackRows_data [Zero α] (S : List Nat) :
    ∀ (batches : List (List (Mat α))) (r c : Nat), r < batches.flatten.length * S.prod →
      stackRows (batches.map fun b => ((jacBatch S b).predShape.prod, (jacBatch S b).J)) r c =
        rowsOf S.prod batches.flatten r c
  | [], r, c, hr => by simp at hr
  | b :: bs, r, c, hr => by
    rw [List.flatten_cons] at hr ⊢
    rw [rowsOf_append _ _ _ _ _ hr]
    simp only [List.map_cons, stackRows, jacBatch, List.prod_cons]
    by_cases h : r < b.length * S.prod
    · rw [if_pos h, if_pos h]
    · rw [if_neg h, if_neg h]
      have hr' : r - b.length * S.prod < bs.flatten.length * S.prod := by
        rw [List.length_append, add_mul] at hr; omega
      exact stackRows_data S bs _ c hr'

theorem heads_sum [Zero α] (S : List Nat) (batches : List (List (Mat α))) :
    ((batches.map (jacBatch S)).map fun b => b.predShape.headD 0).sum = batches.flatten.length := by
  rw [List.map_map, List.length_flatten]
  rfl

/-- C20: `JacobianLinearOperator` on any batching of the data multiplies (matrices with at least one column)
with the matrix whose row `n * C + c` is the gradient of output `c` of datum `n`, in data order. -/
theorem jacobianOp_rows [NonUnitalNonAssocSemiring α] (shapes : List (List Nat)) (hshapes : shapes ≠ [])
    (S : List Nat) (b : List (Mat α)) (bs : List (List (Mat α))) (K : Nat) (hK : 1 ≤ K) :
    RepresentsAt (jacobianOp shapes (b :: bs).flatten.length (jacBatch S b) (bs.map (jacBatch S)))
      (rowsOf S.prod (b :: bs).flatten) K := by
  have key := jacobianOp_representsAt shapes hshapes S (jacBatch S b) (bs.map (jacBatch S)) (by
    intro b' hb'
    rw [← List.map_cons (f := jacBatch S)] at hb'
    obtain ⟨x, _, rfl⟩ := List.mem_map.mp hb'
    exact ⟨_, rfl⟩) K hK
  rw [← List.map_cons (f := jacBatch S), heads_sum] at key
  intro M hM
  obtain ⟨Y, y1, y2, y3⟩ := key M hM
  refine ⟨Y, y1, y2, y3.1, fun r hr k hk => ?_⟩
  rw [y3.2 r hr k hk]
  refine Finset.sum_congr rfl fun c _ => ?_
  rw [List.map_map]
  have := stackRows_data S (b :: bs) r c (by
    simpa [LinOp.nrows, LinOp.outFlat, jacobianOp, jacBatch] using hr)
  exact congrArg (· * _) this

/-- C21: `TransposedJacobianLinearOperator` on any batching multiplies with the transposed matrix. -/
theorem transposedJacobianOp_rows [NonUnitalNonAssocSemiring α] (shapes : List (List Nat))
    (S : List Nat) (b : List (Mat α)) (bs : List (List (Mat α))) :
    Represents (transposedJacobianOp shapes (b :: bs).flatten.length (jacBatch S b)
      (bs.map (jacBatch S))) (fun r c => rowsOf S.prod (b :: bs).flatten c r) := by
  have key := transposedJacobianOp_represents shapes S (jacBatch S b) (bs.map (jacBatch S)) (by
    intro b' hb'
    rw [← List.map_cons (f := jacBatch S)] at hb'
    obtain ⟨x, _, rfl⟩ := List.mem_map.mp hb'
    exact ⟨_, rfl⟩)
  rw [← List.map_cons (f := jacBatch S), heads_sum] at key
  intro K M hM
  obtain ⟨Y, y1, y2, y3⟩ := key K M hM
  refine ⟨Y, y1, y2, y3.1, fun r hr k hk => ?_⟩
  rw [y3.2 r hr k hk]
  refine Finset.sum_congr rfl fun c hc => ?_
  have hc := Finset.mem_range.mp hc
  rw [List.map_map]
  have := stackRows_data S (b :: bs) c r (by
    simpa [LinOp.ncols, LinOp.inFlat, transposedJacobianOp, jacBatch] using hc)
  exact congrArg (· * _) this

/-- Inner product of the flattened entries. -/
def PyVal.dot [NonUnitalNonAssocSemiring α] (n : Nat) (x y : PyVal α) : α :=
  ∑ i ∈ Finset.range n, x.entries.getD i 0 * y.entries.getD i 0

/-- C21: `⟨J v, u⟩ = ⟨v, Jᵀ u⟩`, each `J` with its own batching of the same data. -/
theorem jacobian_adjoint [CommSemiring α] (shapes : List (List Nat)) (hshapes : shapes ≠ [])
    (S : List Nat) (b b' : List (Mat α)) (bs bs' : List (List (Mat α)))
    (hsame : (b :: bs).flatten = (b' :: bs').flatten) (u v : PyVal α) (hu : u.WF) (hv : v.WF)
    (hv' : InSpace shapes .vec v) (hu' : InSpace [(b :: bs).flatten.length :: S] .vec u) :
    ∃ Jv Ju,
      ((jacobianOp shapes (b :: bs).flatten.length (jacBatch S b) (bs.map (jacBatch S))).matmul v).1 =
        .ok Jv ∧
      ((transposedJacobianOp shapes (b' :: bs').flatten.length (jacBatch S b')
        (bs'.map (jacBatch S))).matmul u).1 = .ok Ju ∧
      Jv.dot ((b :: bs).flatten.length * S.prod) u = v.dot (total shapes) Ju := by
  obtain ⟨Jv, j1, -, -, -, j2⟩ := matmul_correct _ _ v .vec
    (jacobianOp_rows shapes hshapes S b bs 1 le_rfl) hv hv' (Or.inl hshapes) (Or.inl (by simp [jacobianOp]))
  obtain ⟨Ju, t1, -, -, -, t2⟩ := matmul_correct _ _ u .vec
    (transposedJacobianOp_rows shapes S b' bs' 1) hu (hsame ▸ hu')
    (Or.inl (by simp [transposedJacobianOp])) (Or.inl hshapes)
  refine ⟨Jv, Ju, j1, t1, ?_⟩
  have e1 : (jacobianOp shapes (b :: bs).flatten.length (jacBatch S b) (bs.map (jacBatch S))).nrows =
      (b :: bs).flatten.length * S.prod := by simp [LinOp.nrows, LinOp.outFlat, jacobianOp, jacBatch]
  have e2 : (transposedJacobianOp shapes (b' :: bs').flatten.length (jacBatch S b')
      (bs'.map (jacBatch S))).ncols = (b :: bs).flatten.length * S.prod := by
    rw [hsame]; simp [LinOp.ncols, LinOp.inFlat, transposedJacobianOp, jacBatch]
  have e3 : (jacobianOp shapes (b :: bs).flatten.length (jacBatch S b) (bs.map (jacBatch S))).ncols =
      total shapes := rfl
  have e4 : (transposedJacobianOp shapes (b' :: bs').flatten.length (jacBatch S b')
      (bs'.map (jacBatch S))).nrows = total shapes := rfl
  rw [e1, e3] at j2
  rw [e2, e4, ← hsame] at t2
  unfold PyVal.dot
  have h1 : ∀ r ∈ Finset.range ((b :: bs).flatten.length * S.prod),
      Jv.entries.getD r 0 * u.entries.getD r 0 = ∑ c ∈ Finset.range (total shapes),
        rowsOf S.prod (b :: bs).flatten r c * v.entries.getD c 0 * u.entries.getD r 0 := by
    intro r hr
    have := j2.2 r (Finset.mem_range.mp hr) 0 (by simp [Fmt.cols])
    simp only [Fmt.cols, Nat.mul_one, Nat.add_zero] at this
    rw [this, Finset.sum_mul]
  have h2 : ∀ c ∈ Finset.range (total shapes),
      v.entries.getD c 0 * Ju.entries.getD c 0 =
        ∑ r ∈ Finset.range ((b :: bs).flatten.length * S.prod),
        rowsOf S.prod (b :: bs).flatten r c * v.entries.getD c 0 * u.entries.getD r 0 := by
    intro c hc
    have := t2.2 c (Finset.mem_range.mp hc) 0 (by simp [Fmt.cols])
    simp only [Fmt.cols, Nat.mul_one, Nat.add_zero] at this
    rw [this, Finset.mul_sum]
    exact Finset.sum_congr rfl fun r _ => by ring
  rw [Finset.sum_congr rfl h1, Finset.sum_congr rfl h2, Finset.sum_comm]

/-- Non-vacuity of the hypotheses of `jacobian_adjoint`: three data with two outputs, batched 2+1 and 1+2,
parameters of shapes `(2,)` and `(1, 1)`. -/
example (J1 J2 J3 : Mat ℚ) :
    InSpace [[2], [1, 1]] .vec (.list [⟨[2], [1, 2]⟩, ⟨[1, 1], [3]⟩] : PyVal ℚ) ∧
    InSpace [([J1, J2] :: [[J3]]).flatten.length :: [2]] .vec
      (.tensor ⟨[6], [1, 2, 3, 4, 5, 6]⟩ : PyVal ℚ) ∧
    ([J1, J2] :: [[J3]]).flatten = ([J1] :: [[J2, J3]]).flatten := by
  refine ⟨rfl, rfl, rfl⟩

/-- With zero columns the Jacobian product raises (`torch.stack` of an empty list): the only matrices that the
Jacobian does not accept although `@` documents them. -/
theorem jacobian_zero_columns [NonUnitalNonAssocSemiring α] (shapes : List (List Nat))
    (hshapes : shapes ≠ []) (n : Nat) (b : JacBatch α) (bs : List (JacBatch α)) (M : List (Tensor α))
    (hM : HasShapes M shapes 0) :
    ((jacobianOp shapes n b bs).matmat M).1 = .error .runtimeError := by
  change jacobianMatmat shapes (b :: bs) M = _
  unfold jacobianMatmat
  simp only [numVecs_ok hM hshapes, List.range_zero, List.map_nil, pyMapM, stackLast]

/-! ## C22: adjoints -/

/-- The operator represents a matrix on all matrices with at least one column. -/
def RepresentsPos [NonUnitalNonAssocSemiring α] (op : LinOp α) (A : Mat α) : Prop :=
  ∀ K ≥ 1, RepresentsAt op A K

/-- C22: `adjoint()` of a self-adjoint operator is the operator, and of every other class without `_adjoint`
raises `NotImplementedError`. -/
theorem adjoint_plain (sa : Bool) (op : LinOp α) :
    (OpObj.plain sa op).adjoint = if sa then .ok (.plain sa op) else .error .notImplementedError := by
  cases sa <;> rfl

/-- C22: for both Jacobian classes, on every batching: `adjoint()` succeeds and represents the transpose, and
`adjoint()` twice is the original operator. -/
theorem adjoint_jacobian [NonUnitalNonAssocSemiring α] (shapes : List (List Nat)) (hshapes : shapes ≠ [])
    (S : List Nat) (b : List (Mat α)) (bs : List (List (Mat α))) (A : OpObj α) (M : Mat α)
    (hA : A = .jacobian shapes (b :: bs).flatten.length (jacBatch S b) (bs.map (jacBatch S)) ∧
        M = rowsOf S.prod (b :: bs).flatten ∨
      A = .transposedJacobian shapes (b :: bs).flatten.length (jacBatch S b) (bs.map (jacBatch S)) ∧
        M = fun r c => rowsOf S.prod (b :: bs).flatten c r) :
    RepresentsPos A.op M ∧ ∃ At, A.adjoint = .ok At ∧ RepresentsPos At.op (fun r c => M c r) ∧
      At.op.nrows = A.op.ncols ∧ At.op.ncols = A.op.nrows ∧ At.adjoint = .ok A := by
  rcases hA with ⟨rfl, rfl⟩ | ⟨rfl, rfl⟩
  · exact ⟨jacobianOp_rows shapes hshapes S b bs, _, rfl,
      fun K _ => transposedJacobianOp_rows shapes S b bs K, rfl, rfl, rfl⟩
  · exact ⟨fun K _ => transposedJacobianOp_rows shapes S b bs K, _, rfl,
      jacobianOp_rows shapes hshapes S b bs, rfl, rfl, rfl⟩

/-- C22: for an operator declared self-adjoint whose matrix is symmetric, the adjoint represents the
transpose. -/
theorem adjoint_selfAdjoint [NonUnitalNonAssocSemiring α] (op : LinOp α) (A : Mat α)
    (hA : Represents op A) (hsym : ∀ r < op.nrows, ∀ c < op.ncols, A r c = A c r) :
    ∃ At, (OpObj.plain true op).adjoint = .ok At ∧ Represents At.op (fun r c => A c r) := by
  refine ⟨_, rfl, ?_⟩
  intro K Xs hXs
  obtain ⟨Y, y1, y2, y3⟩ := hA K Xs hXs
  refine ⟨Y, y1, y2, y3.1, fun r hr k hk => ?_⟩
  rw [y3.2 r hr k hk]
  exact Finset.sum_congr rfl fun c hc => by rw [hsym r hr c (Finset.mem_range.mp hc)]

/-- C22 for the GGN: declared self-adjoint, and its matrix equals its transpose. -/
theorem adjoint_ggn [Field α] [CharZero α] (shapes : List (List Nat)) (hshapes : shapes ≠ []) (C : Nat)
    (red : Reduction) (hred : red = .mean ∨ red = .sum) (batches : List (List (GGNDatum α)))
    (hne : ∀ b ∈ batches, b ≠ [])
    (hsym : ∀ d ∈ batches.flatten, ∀ i < C, ∀ j < C, d.HL i j = d.HL j i) :
    ∃ At, (OpObj.plain true (curvatureOp shapes red (inferNData List.length batches none) List.length
        (fun b => ggnMatmatBatch shapes (batchJ C b) (batchHL red C b) [b.length, C]) batches)).adjoint =
          .ok At ∧
      Represents At.op (fun r c => riskMatrix red (datumGGN C) batches.flatten c r) :=
  adjoint_selfAdjoint _ _ (ggnOp_represents shapes hshapes C red hred batches hne)
    fun r _ c _ => ggnMatrix_symmetric C red _ hsym r c

/-! ## C23: the SciPy export -/

theorem scipyCompatible_spec [NonUnitalNonAssocSemiring α] (op : LinOp α) (A : Mat α) (f : Fmt)
    (hA : RepresentsAt op A f.cols) (ho : op.outShape ≠ []) (dt : DType) (X : NpArray α) (hX : X.arr.WF)
    (hs : X.arr.shape = op.ncols :: f.dims) :
    ∃ Y, scipyCompatible op dt X = .ok Y ∧ Y.dtype = X.dtype ∧ Y.arr.shape = op.nrows :: f.dims ∧
      Y.arr.WF ∧ IsProduct A op.nrows op.ncols f.cols X.arr.data Y.arr.data := by
  obtain ⟨Y, y1, y2, y3, y4, y5⟩ := matmul_correct op A (.tensor X.arr) f hA hX hs
    (Or.inr (Or.inr ⟨_, rfl⟩)) (Or.inl ho)
  rcases Y with t | ts | _
  · refine ⟨⟨X.dtype, t⟩, ?_, rfl, y3, y4, y5⟩
    unfold scipyCompatible
    simp only [y1, toNumpy]
    cases dt <;> rfl
  · exact absurd y2 (by simp [SameKind])
  · exact absurd y2 (by simp [SameKind])

theorem scipyVec_spec [NonUnitalNonAssocSemiring α] (op : LinOp α) (A : Mat α)
    (hA : RepresentsPos op A) (ho : op.outShape ≠ []) (dt : DType) (x : NpArray α) (hx : x.arr.WF)
    (hs : x.arr.shape = [op.ncols] ∨ x.arr.shape = [op.ncols, 1]) :
    ∃ y, scipyVec (scipyCompatible op dt) op.nrows op.ncols x = .ok y ∧ y.dtype = x.dtype ∧
      y.arr.shape = op.nrows :: x.arr.shape.tail ∧ y.arr.WF ∧
      IsProduct A op.nrows op.ncols 1 x.arr.data y.arr.data := by
  have : ∃ f : Fmt, x.arr.shape = op.ncols :: f.dims ∧ f.cols = 1 := by
    rcases hs with h | h
    · exact ⟨.vec, h, rfl⟩
    · exact ⟨.mat 1, h, rfl⟩
  obtain ⟨f, hf, hc⟩ := this
  obtain ⟨Y, y1, y2, y3, y4, y5⟩ := scipyCompatible_spec op A f (hA _ (by omega)) ho dt x hx hf
  have ht : x.arr.shape.tail = f.dims := by rw [hf]; rfl
  refine ⟨⟨Y.dtype, ⟨op.nrows :: x.arr.shape.tail, Y.arr.data⟩⟩, ?_, y2, rfl, ?_, hc ▸ y5⟩
  · unfold scipyVec
    rw [if_pos hs]
    simp only [y1, Tensor.reshape, ht, y3, if_true]
  · rw [ht, ← y3]; exact y4

theorem scipyMat_spec [NonUnitalNonAssocSemiring α] (op : LinOp α) (A : Mat α) (K : Nat)
    (hA : RepresentsAt op A K) (ho : op.outShape ≠ []) (dt : DType) (X : NpArray α) (hX : X.arr.WF)
    (hs : X.arr.shape = [op.ncols, K]) :
    ∃ Y, scipyMat (scipyCompatible op dt) op.ncols X = .ok Y ∧ Y.dtype = X.dtype ∧
      Y.arr.shape = [op.nrows, K] ∧ Y.arr.WF ∧
      IsProduct A op.nrows op.ncols K X.arr.data Y.arr.data := by
  obtain ⟨Y, y1, y2, y3, y4, y5⟩ := scipyCompatible_spec op A (.mat K) hA ho dt X hX hs
  refine ⟨Y, ?_, y2, y3, y4, y5⟩
  unfold scipyMat
  simp only [hs, if_true, y1]

/-- C23: the SciPy export of an operator that represents `M`, and whose adjoint represents `Mᵀ`, has the same
shape and the requested dtype (default `float64`); `matvec`/`matmat` multiply with `M`, `rmatvec`/`rmatmat`
with `Mᵀ`, and results have the argument's dtype. This includes operators with `bfloat16` parameters. -/
theorem toScipy_spec [NonUnitalNonAssocSemiring α] (A At : OpObj α) (M : Mat α)
    (hAt : A.adjoint = .ok At) (hM : RepresentsPos A.op M) (hMt : RepresentsPos At.op (fun r c => M c r))
    (hr : At.op.nrows = A.op.ncols) (hc : At.op.ncols = A.op.nrows) (hi : At.op.outShape ≠ [])
    (ho : A.op.outShape ≠ []) (dt : DType) (dtype : Option DType) :
    ∃ L, A.toScipy dt dtype = .ok L ∧ L.rows = A.op.nrows ∧ L.cols = A.op.ncols ∧
      L.dtype = dtype.getD .float64 ∧
      (∀ x : NpArray α, x.arr.WF → (x.arr.shape = [L.cols] ∨ x.arr.shape = [L.cols, 1]) →
        ∃ y, L.matvec x = .ok y ∧ y.dtype = x.dtype ∧ y.arr.shape = L.rows :: x.arr.shape.tail ∧
          IsProduct M L.rows L.cols 1 x.arr.data y.arr.data) ∧
      (∀ x : NpArray α, x.arr.WF → (x.arr.shape = [L.rows] ∨ x.arr.shape = [L.rows, 1]) →
        ∃ y, L.rmatvec x = .ok y ∧ y.dtype = x.dtype ∧ y.arr.shape = L.cols :: x.arr.shape.tail ∧
          IsProduct (fun r c => M c r) L.cols L.rows 1 x.arr.data y.arr.data) ∧
      (∀ K ≥ 1, ∀ x : NpArray α, x.arr.WF → x.arr.shape = [L.cols, K] →
        ∃ y, L.matmat x = .ok y ∧ y.dtype = x.dtype ∧ y.arr.shape = [L.rows, K] ∧
          IsProduct M L.rows L.cols K x.arr.data y.arr.data) ∧
      (∀ K ≥ 1, ∀ x : NpArray α, x.arr.WF → x.arr.shape = [L.rows, K] →
        ∃ y, L.rmatmat x = .ok y ∧ y.dtype = x.dtype ∧ y.arr.shape = [L.cols, K] ∧
          IsProduct (fun r c => M c r) L.cols L.rows K x.arr.data y.arr.data) := by
  refine ⟨_, by unfold OpObj.toScipy; rw [hAt], rfl, rfl, by cases dtype <;> rfl, ?_, ?_, ?_, ?_⟩
  · intro x hx hs
    obtain ⟨y, y1, y2, y3, -, y5⟩ := scipyVec_spec A.op M hM ho dt x hx hs
    exact ⟨y, y1, y2, y3, y5⟩
  · intro x hx hs
    obtain ⟨y, y1, y2, y3, -, y5⟩ := scipyVec_spec At.op _ hMt hi dt x hx (hc ▸ hs)
    rw [hr, hc] at y1 y5
    rw [hr] at y3
    exact ⟨y, y1, y2, y3, y5⟩
  · intro K hK x hx hs
    obtain ⟨y, y1, y2, y3, -, y5⟩ := scipyMat_spec A.op M K (hM K hK) ho dt x hx hs
    exact ⟨y, y1, y2, y3, y5⟩
  · intro K hK x hx hs
    obtain ⟨y, y1, y2, y3, -, y5⟩ := scipyMat_spec At.op _ K (hMt K hK) hi dt x hx (hc ▸ hs)
    rw [hc] at y1
    rw [hr, hc] at y5
    rw [hr] at y3
    exact ⟨y, y1, y2, y3, y5⟩

/-- C23 applies to the Jacobian on every batching. -/
theorem toScipy_jacobian [NonUnitalNonAssocSemiring α] (shapes : List (List Nat)) (hshapes : shapes ≠ [])
    (S : List Nat) (b : List (Mat α)) (bs : List (List (Mat α))) (dt : DType) (x : NpArray α)
    (hx : x.arr.WF) (hs : x.arr.shape = [(b :: bs).flatten.length * S.prod]) :
    ∃ L y, (OpObj.jacobian shapes (b :: bs).flatten.length (jacBatch S b)
        (bs.map (jacBatch S))).toScipy dt none = .ok L ∧ L.rmatvec x = .ok y ∧ y.dtype = x.dtype ∧
      IsProduct (fun r c => rowsOf S.prod (b :: bs).flatten c r) (total shapes)
        ((b :: bs).flatten.length * S.prod) 1 x.arr.data y.arr.data := by
  obtain ⟨h1, At, h2, h3, h4, h5, -⟩ := adjoint_jacobian shapes hshapes S b bs _ _ (Or.inl ⟨rfl, rfl⟩)
  obtain ⟨L, l1, l2, l3, -, -, l4, -⟩ := toScipy_spec _ At _ h2 h1 h3 h4 h5
    (by cases h2; exact hshapes) (by simp [OpObj.op, jacobianOp]) dt none
  have e : L.rows = (b :: bs).flatten.length * S.prod := by
    rw [l2]; simp [OpObj.op, LinOp.nrows, LinOp.outFlat, jacobianOp, jacBatch]
  have e' : L.cols = total shapes := l3
  obtain ⟨y, y1, y2, -, y3⟩ := l4 x hx (Or.inl (by rw [e]; exact hs))
  rw [e, e'] at y3
  exact ⟨L, y, l1, y1, y2, y3⟩

end Curvlinops
