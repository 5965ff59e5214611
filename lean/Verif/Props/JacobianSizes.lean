import Verif.Props.Jacobian
import Verif.Props.Examples

/-!
# C129: Jacobians when `num_data` or the shapes of the outputs do not fit
-/

namespace Curvlinops

variable {α : Type _}

/-! ### Concatenation of tensors of different shapes -/

/-- Dimensions after the first one. A tensor without dimensions fits to no other. -/
def SameTail (s s' : List Nat) : Prop := s ≠ [] ∧ s' ≠ [] ∧ s.tail = s'.tail

theorem cat0_differ {ts : List (Tensor α)} {t t' : Tensor α} (ht : t ∈ ts) (ht' : t' ∈ ts) (h : ¬ SameTail t.shape t'.shape) :
    Tensor.cat0 ts = .error .runtimeError := by
  unfold Tensor.cat0
  rcases ts with _ | ⟨u, us⟩
  · rfl
  rcases hu : u.shape with _ | ⟨n, rest⟩
  · simp only [hu]
  simp only [hu]
  rw [if_neg]
  intro hall
  rw [List.all_eq_true] at hall
  have key : ∀ v ∈ u :: us, v.shape ≠ [] ∧ v.shape.tail = rest := by
    intro v hv
    have := hall v hv
    simp only [decide_eq_true_eq] at this
    exact ⟨fun e => by simp [e] at this, this.2⟩
  exact h ⟨(key t ht).1, (key t' ht').1, (key t ht).2.trans (key t' ht').2.symm⟩

/-- **C129** (reference implementations): mini-batches of labels whose shapes differ after the first dimension cannot be concatenated. -/
theorem concatenateBatches_differ {β : Type _} (data : List (XVal α × Tensor β)) (key : Option String) {b b' : XVal α × Tensor β}
    (hb : b ∈ data) (hb' : b' ∈ data) (h : ¬ SameTail b.2.shape b'.2.shape) :
    concatenateBatches data key = .error .runtimeError := by
  unfold concatenateBatches
  rcases data with _ | ⟨⟨x, y⟩, rest⟩
  · simp at hb
  simp only
  rw [cat0_differ (List.mem_map_of_mem hb) (List.mem_map_of_mem hb') h]
  rfl

/-! ### The Jacobian -/

section

variable [NonUnitalNonAssocSemiring α] {shapes : List (List Nat)}

omit [NonUnitalNonAssocSemiring α] in
/-- An error of the product in tensor list format is the error of `@`. -/
theorem matmul_error (op : LinOp α) (X : PyVal α) (f : Fmt) (hX : X.WF) (hf : InSpace op.inShape f X)
    (hne : op.inShape ≠ [] ∨ f = .vec ∨ ∃ t, X = .tensor t) {e : PyErr}
    (hA : ∀ Xs, HasShapes Xs op.inShape f.cols → (op.matmat Xs).1 = .error e) : (op.matmul X).1 = .error e := by
  obtain ⟨Xs, h1, h2, h3⟩ := pre_of_inSpace op X f hX hf hne
  unfold LinOp.matmul
  simp only [h1, hA Xs h2]

/-- The products of the mini-batches before their concatenation. -/
theorem jacobianMatmat_cat (hs : shapes ≠ []) (data : List (JacBatch α)) {K : Nat} (hK : 1 ≤ K) {M : List (Tensor α)}
    (hM : HasShapes M shapes K) :
    ∃ JM : List (Tensor α), JM.map (·.shape) = data.map (fun b => b.predShape ++ [K]) ∧
      jacobianMatmat shapes data M = match Tensor.cat0 JM with | .error e => .error e | .ok t => .ok [t] := by
  obtain ⟨JM, h1, h2, h3⟩ := pyMapM_exists
    (fun b : JacBatch α => stackLast ((List.range K).map fun n =>
        jvp b.J b.predShape (prefs 0 shapes) (M.map (Tensor.col n))))
    (fun b t => t.shape = b.predShape ++ [K]) data (by
      intro b' _
      obtain ⟨t, t1, t2, -, -⟩ := stackLast_spec b'.predShape K hK
        (fun n => jvp b'.J b'.predShape (prefs 0 shapes) (M.map (Tensor.col n)))
        (fun n hn => rfl)
      exact ⟨t, t1, t2⟩)
  refine ⟨JM, ?_, ?_⟩
  · apply List.ext_getElem
    · simp [h2]
    · intro i hi hi'
      simp only [List.length_map] at hi hi'
      simp only [List.getElem_map]
      exact h3 i hi' hi
  · unfold jacobianMatmat
    simp only [numVecs_ok hM hs, h1]
    cases Tensor.cat0 JM <;> rfl

/-- **C129** (outputs of different shapes): if the model's outputs on two mini-batches differ in their dimensions after the first one, all
products of the Jacobian with vectors and with matrices that have columns raise `RuntimeError`, whatever `num_data` is. -/
theorem jacobian_outputs_differ (hs : shapes ≠ []) (n : Nat) (b : JacBatch α) (bs : List (JacBatch α)) {c c' : JacBatch α}
    (hc : c ∈ b :: bs) (hc' : c' ∈ b :: bs) (h0 : c.predShape ≠ []) (h : c.predShape.tail ≠ c'.predShape.tail) (X : PyVal α) (f : Fmt)
    (hX : X.WF) (hf : InSpace shapes f X) (hK : 1 ≤ f.cols) : ((jacobianOp shapes n b bs).matmul X).1 = .error .runtimeError := by
  refine matmul_error _ X f hX hf (.inl hs) fun M hM => ?_
  obtain ⟨JM, h1, h2⟩ := jacobianMatmat_cat hs (b :: bs) hK hM
  have hmem : ∀ c ∈ b :: bs, ∃ t ∈ JM, t.shape = c.predShape ++ [f.cols] := by
    intro c hc
    have : c.predShape ++ [f.cols] ∈ JM.map (·.shape) := by
      rw [h1]
      exact List.mem_map_of_mem (f := fun b : JacBatch α => b.predShape ++ [f.cols]) hc
    obtain ⟨t, ht, e⟩ := List.mem_map.mp this
    exact ⟨t, ht, e⟩
  obtain ⟨t, ht, e⟩ := hmem c hc
  obtain ⟨t', ht', e'⟩ := hmem c' hc'
  change jacobianMatmat shapes (b :: bs) M = _
  rw [h2, cat0_differ ht ht']
  rintro ⟨-, -, hh⟩
  rw [e, e'] at hh
  rcases hp : c.predShape with _ | ⟨m, S⟩
  · exact h0 hp
  rcases hp' : c'.predShape with _ | ⟨m', S'⟩
  · rw [hp, hp'] at hh
    simp at hh
  · rw [hp, hp'] at hh h
    simp only [List.cons_append, List.tail_cons] at hh h
    exact h (List.append_cancel_right hh)

/-- **C129** (`num_data` of the Jacobian): let the outputs have a common shape per datum. If `num_data` is not the number of data, all
products with vectors and with matrices that have columns raise `ValueError`. -/
theorem jacobian_num_data (hs : shapes ≠ []) (S : List Nat) (b : List (Mat α)) (bs : List (List (Mat α))) {n : Nat}
    (hn : n ≠ (b :: bs).flatten.length) (X : PyVal α) (f : Fmt) (hX : X.WF) (hf : InSpace shapes f X) (hK : 1 ≤ f.cols) :
    ((jacobianOp shapes n (jacBatch S b) (bs.map (jacBatch S))).matmul X).1 = .error .valueError := by
  obtain ⟨Xs, h1, h2, h3⟩ := pre_of_inSpace (jacobianOp shapes n (jacBatch S b) (bs.map (jacBatch S))) X f hX hf (.inl hs)
  obtain ⟨Y, y1, y2, -⟩ := jacobianOp_rows shapes hs S b bs f.cols hK Xs h2
  have y1' : ((jacobianOp shapes n (jacBatch S b) (bs.map (jacBatch S))).matmat Xs).1 = .ok Y := y1
  unfold LinOp.matmul
  simp only [h1, y1']
  have hpost : ∀ l v, (jacobianOp shapes n (jacBatch S b) (bs.map (jacBatch S))).post Y l v f.cols = .error .valueError := by
    intro l v
    have hlen := y2.length
    simp only [jacobianOp, List.length_singleton] at hlen
    obtain ⟨y, rfl⟩ := List.length_eq_one_iff.mp hlen
    have hy := ((hasShapes_cons (s := (b :: bs).flatten.length :: S) (ss := [])).mp y2).1.1
    unfold LinOp.post
    rw [if_neg (by simp [jacobianOp]), if_pos]
    simp only [jacobianOp, jacBatch, List.zip_cons_cons, List.zip_nil_right, List.any_cons, List.any_nil, Bool.or_false, bne_iff_ne, ne_eq, hy]
    intro e
    simp only [List.tail_cons, List.cons_append, List.cons.injEq] at e
    exact hn e.1.symm
  simp only [hpost]

/-! ### The transposed Jacobian -/

theorem sliceCol_shape {m : Tensor α} {N K : Nat} {S : List Nat} (hm : m.shape = (N :: S) ++ [K]) (start stop k : Nat) :
    (sliceCol start stop k m).shape = (min stop N - min start N) :: S := by
  have e2 : m.shape.dropLast.tail = S := by rw [hm, List.dropLast_concat]; rfl
  have e3 : m.shape.headD 0 = N := by rw [hm]; simp
  unfold sliceCol
  simp only [e2, e3]

/-- What the loop does if some mini-batch does not fit to the rows of the argument. -/
theorem transposedLoop_raises {m : Tensor α} {N K : Nat} {S : List Nat} (hm : m.shape = (N :: S) ++ [K]) (hK : 1 ≤ K) :
    ∀ (bs : List (JacBatch α)) (processed : Nat) (T : List (Tensor α)), processed ≤ N → HasShapes T shapes K →
      ((∃ b ∈ bs, b.predShape = [] ∨ b.predShape.tail ≠ S) ∨ N < processed + (bs.map fun b => b.predShape.headD 0).sum) →
      transposedLoop (prefs 0 shapes) K [m] bs processed T = .error .runtimeError
  | [], processed, T, hp, _, h => by
    rcases h with ⟨b, hb, -⟩ | h
    · simp at hb
    · simp at h
      omega
  | b :: bs, processed, T, hp, hT, h => by
    rw [transposedLoop]
    by_cases hfit : ∃ n, b.predShape = n :: S ∧ processed + n ≤ N
    · obtain ⟨n, hn, hle⟩ := hfit
      obtain ⟨T1, t1, t2, -⟩ := vjpLoop_spec (shapes := shapes) hm b processed n hn hle (List.range K) T
        List.nodup_range (fun k hk => List.mem_range.mp hk) hT
      have hh : b.predShape.headD 0 = n := by simp [hn]
      simp only [t1, hh]
      refine transposedLoop_raises hm hK bs (processed + n) T1 hle t2 ?_
      rcases h with ⟨c, hc, hcs⟩ | h
      · rcases List.mem_cons.mp hc with rfl | hc
        · rw [hn] at hcs
          simp at hcs
        · exact .inl ⟨c, hc, hcs⟩
      · rw [List.map_cons, List.sum_cons, hh] at h
        exact .inr (by omega)
    · obtain ⟨K', rfl⟩ : ∃ K', K = K' + 1 := ⟨K - 1, by omega⟩
      rw [List.range_succ_eq_map, vjpLoop]
      simp only [List.map_cons, List.map_nil]
      rw [if_neg]
      rw [sliceCol_shape hm]
      intro e
      refine hfit ⟨b.predShape.headD 0, ?_, ?_⟩
      · rw [← e]
        simp
      · have := congrArg (List.headD · 0) e
        simp only [List.headD_cons] at this
        omega

theorem zeros_hasShapes (shapes : List (List Nat)) (K : Nat) :
    HasShapes (shapes.map fun s => (⟨s ++ [K], List.replicate (s.prod * K) 0⟩ : Tensor α)) shapes K := by
  constructor
  · rw [List.map_map]; rfl
  · intro t ht
    obtain ⟨s, _, rfl⟩ := List.mem_map.mp ht
    simp [Tensor.WF]

/-- **C129** (transposed Jacobian): if the model's output on a mini-batch differs from that on the first one in the dimensions after the
first one, or if `num_data` is less than the number of data, all products of the transposed Jacobian with vectors and with matrices that
have columns raise `RuntimeError`. -/
theorem transposed_raises (n : Nat) (b : JacBatch α) (bs : List (JacBatch α))
    (h : (∃ c ∈ b :: bs, c.predShape = [] ∨ c.predShape.tail ≠ b.predShape.tail) ∨ n < ((b :: bs).map fun c => c.predShape.headD 0).sum)
    (X : PyVal α) (f : Fmt) (hX : X.WF) (hf : InSpace [n :: b.predShape.tail] f X) (hK : 1 ≤ f.cols) :
    ((transposedJacobianOp shapes n b bs).matmul X).1 = .error .runtimeError := by
  refine matmul_error _ X f hX hf (.inl (by simp [transposedJacobianOp])) fun M hM => ?_
  have hM' : HasShapes M [n :: b.predShape.tail] f.cols := hM
  obtain ⟨m, rfl⟩ := List.length_eq_one_iff.mp hM'.length
  have hm := (hasShapes_cons.mp hM').1
  change transposedJacobianMatmat shapes (b :: bs) [m] = _
  unfold transposedJacobianMatmat
  simp only [numVecs_ok hM' (by simp)]
  refine transposedLoop_raises hm.1 hK (b :: bs) 0 _ (Nat.zero_le _) (zeros_hasShapes shapes f.cols) ?_
  rw [Nat.zero_add]
  exact h

theorem flatData_zeros (shapes : List (List Nat)) (K i : Nat) :
    (flatData (shapes.map fun s => (⟨s ++ [K], List.replicate (s.prod * K) 0⟩ : Tensor α))).getD i 0 = 0 := by
  have : ∀ x ∈ flatData (shapes.map fun s => (⟨s ++ [K], List.replicate (s.prod * K) 0⟩ : Tensor α)), x = 0 := by
    intro x hx
    simp only [flatData, List.mem_flatten, List.mem_map] at hx
    obtain ⟨l, ⟨t, ⟨s, _, rfl⟩, rfl⟩, hx⟩ := hx
    exact (List.mem_replicate.mp hx).2
  rw [List.getD_eq_getElem?_getD]
  rcases h : (flatData (shapes.map fun s => (⟨s ++ [K], List.replicate (s.prod * K) 0⟩ : Tensor α)))[i]? with _ | x
  · rfl
  · exact this x (List.mem_of_getElem? h)

/-- **C129** (the code does not refuse it): if `num_data` is larger than the number of data, the transposed Jacobian multiplies without an
exception. The entries of the argument after those of the data are ignored: its matrix is the transposed Jacobian of the data with
zeros in the other columns. -/
theorem transposed_num_data_large (S : List Nat) (b : List (Mat α)) (bs : List (List (Mat α))) {n : Nat}
    (hn : (b :: bs).flatten.length ≤ n) :
    Represents (transposedJacobianOp shapes n (jacBatch S b) (bs.map (jacBatch S)))
      (fun r c => if c < (b :: bs).flatten.length * S.prod then rowsOf S.prod (b :: bs).flatten c r else 0) := by
  intro K M hM
  have hM' : HasShapes M [n :: S] K := hM
  obtain ⟨m, rfl⟩ := List.length_eq_one_iff.mp hM'.length
  have hm := (hasShapes_cons.mp hM').1
  have hS : ∀ c ∈ (b :: bs).map (jacBatch S), ∃ n, c.predShape = n :: S := by
    intro c hc
    obtain ⟨x, _, rfl⟩ := List.mem_map.mp hc
    exact ⟨_, rfl⟩
  have hsum := heads_sum S (b :: bs)
  obtain ⟨T', g1, g2, g3⟩ := transposedLoop_spec (shapes := shapes) hm.1 ((b :: bs).map (jacBatch S)) 0 _ hS
    (by rw [hsum, Nat.zero_add]; exact hn) (zeros_hasShapes shapes K)
  refine ⟨T', ?_, g2, g2.flatData_length, fun r hr k hk => ?_⟩
  · change transposedJacobianMatmat shapes ((b :: bs).map (jacBatch S)) [m] = _
    unfold transposedJacobianMatmat
    simp only [numVecs_ok hM' (by simp), g1]
  · have hcols : (transposedJacobianOp shapes n (jacBatch S b) (bs.map (jacBatch S))).ncols = n * S.prod := by
      simp [LinOp.ncols, LinOp.inFlat, transposedJacobianOp, jacBatch]
    rw [g3 r hr k hk, flatData_zeros, zero_add, hcols, hsum]
    obtain ⟨d, rfl⟩ := Nat.exists_eq_add_of_le hn
    rw [add_mul (b :: bs).flatten.length, Finset.sum_range_add, Finset.sum_eq_zero (s := Finset.range (d * S.prod)), add_zero]
    · refine Finset.sum_congr rfl fun c hc => ?_
      have hc := Finset.mem_range.mp hc
      dsimp only
      rw [if_pos hc, List.map_map]
      have e : flatData [m] = m.data := by simp [flatData]
      rw [e, Nat.zero_mul, Nat.zero_add]
      exact congrArg (· * _) (stackRows_data S (b :: bs) c r hc)
    · intro c _
      dsimp only
      rw [if_neg (by omega), zero_mul]

/-- **C129** (all values of `num_data`): let the outputs have a common shape per datum and take a vector, or a matrix that has columns.
The product of the transposed Jacobian succeeds exactly if `num_data` is at least the number of data, and raises `RuntimeError` otherwise. -/
theorem transposed_num_data_partial (hs : shapes ≠ []) (S : List Nat) (b : List (Mat α)) (bs : List (List (Mat α))) (n : Nat) (X : PyVal α)
    (f : Fmt) (hX : X.WF) (hf : InSpace [n :: S] f X) (hK : 1 ≤ f.cols) :
    ((∃ Y, ((transposedJacobianOp shapes n (jacBatch S b) (bs.map (jacBatch S))).matmul X).1 = .ok Y) ↔ (b :: bs).flatten.length ≤ n) ∧
      (n < (b :: bs).flatten.length →
        ((transposedJacobianOp shapes n (jacBatch S b) (bs.map (jacBatch S))).matmul X).1 = .error .runtimeError) := by
  have herr : n < (b :: bs).flatten.length →
      ((transposedJacobianOp shapes n (jacBatch S b) (bs.map (jacBatch S))).matmul X).1 = .error .runtimeError := by
    intro hlt
    refine transposed_raises n _ _ (.inr ?_) X f hX hf hK
    rw [← List.map_cons (f := jacBatch S), heads_sum]
    exact hlt
  refine ⟨⟨fun ⟨Y, hY⟩ => ?_, fun hn => ?_⟩, herr⟩
  · by_contra hlt
    rw [herr (by omega)] at hY
    cases hY
  · obtain ⟨Y, h, -⟩ := matmul_correct _ _ X f (transposed_num_data_large (shapes := shapes) S b bs hn f.cols) hX hf
      (.inl (by simp [transposedJacobianOp])) (.inl hs)
    exact ⟨Y, h⟩

end

/-- One datum, two parameters, and the output `2 a + 3 b`. -/
def planeRow : Mat ℚ := fun _ c => if c = 0 then 2 else 3

/-- **C129** (witness): one datum and `num_data=2`. The Jacobian raises `ValueError`. Its transpose maps `(5, 7)` to `(10, 15)`: it multiplies
with the first entry and ignores the second one. -/
theorem num_data_witness :
    ((jacobianOp [[2]] 2 (jacBatch [1] [planeRow]) []).matmul (.tensor ⟨[2], [1, 1]⟩)).1 = .error .valueError ∧
      ((transposedJacobianOp [[2]] 2 (jacBatch [1] [planeRow]) []).matmul (.tensor ⟨[2], [5, 7]⟩)).1 = .ok (.tensor ⟨[2], [10, 15]⟩) ∧
      ((transposedJacobianOp [[2]] 1 (jacBatch [1] [planeRow]) []).matmul (.tensor ⟨[1], [5]⟩)).1 = .ok (.tensor ⟨[2], [10, 15]⟩) := by
  refine ⟨jacobian_num_data (by simp) [1] [planeRow] [] (by simp) _ .vec rfl rfl le_rfl, ?_, ?_⟩ <;> decide +kernel

/-- Two mini-batches with one and two outputs per datum: products raise `RuntimeError` for all vectors of parameters. -/
example (J J' : Mat ℚ) (x y : ℚ) :
    ((jacobianOp [[2]] 2 (jacBatch [1] [J]) [jacBatch [2] [J']]).matmul (.tensor ⟨[2], [x, y]⟩)).1 = .error .runtimeError ∧
      ((transposedJacobianOp [[2]] 2 (jacBatch [1] [J]) [jacBatch [2] [J']]).matmul (.tensor ⟨[2], [x, y]⟩)).1 = .error .runtimeError :=
  ⟨jacobian_outputs_differ (by simp) 2 _ _ (c := jacBatch [1] [J]) (c' := jacBatch [2] [J']) (by simp) (by simp) (by simp [jacBatch])
      (by simp [jacBatch]) _ .vec rfl rfl le_rfl,
    transposed_raises 2 _ _ (.inl ⟨jacBatch [2] [J'], by simp, .inr (by simp [jacBatch])⟩) _ .vec rfl rfl le_rfl⟩

/-- Labels with one and with two entries per datum. -/
example : concatenateBatches [(XVal.tensor (⟨[1], [1]⟩ : Tensor ℚ), (⟨[1, 1], [1]⟩ : Tensor ℚ)), (.tensor ⟨[1], [2]⟩, ⟨[1, 2], [3, 4]⟩)] none =
    .error .runtimeError :=
  concatenateBatches_differ _ none (b := (.tensor ⟨[1], [1]⟩, ⟨[1, 1], [1]⟩)) (b' := (.tensor ⟨[1], [2]⟩, ⟨[1, 2], [3, 4]⟩)) (by simp) (by simp)
    (by simp [SameTail])

end Curvlinops
