import Verif.Props.GaussNewton
import Verif.Props.Jacobian
import Verif.Props.LossCurvature
import Verif.Props.Determinism
import Mathlib.Tactic.IntervalCases

/-!
# C83: curvature products and gradients through the Jacobian operators
-/

namespace Curvlinops

variable {k : LossKind} {C : Nat}

/-! ## Specification: position of the loss terms' outputs in the prediction of a datum -/

/-- Loss term and output belonging to position `q` of the flattened prediction of one datum: the classes come first in
the prediction for `CrossEntropyLoss` ("c ..."), otherwise the outputs of a term are its last dimension ("... c"). -/
def outPos (k : LossKind) (T C q : Nat) : Nat × Nat := if k = .ce then (q % T, q / T) else (q / C, q % C)

/-- Position of output `i` of loss term `t`. -/
def posOut (k : LossKind) (T C t i : Nat) : Nat := if k = .ce then i * T + t else t * C + i

/-- Jacobian of the flattened prediction of one datum. -/
def datumJac (T : Nat) (d : List (Term k C)) : Mat ℝ := fun q p =>
  match d[(outPos k T C q).1]? with
  | some t => t.J (outPos k T C q).2 p
  | none => 0

/-- Loss term at a position of the stacked predictions. -/
def termAt (T : Nat) (ds : List (List (Term k C))) (s : Nat) : Option (Term k C) :=
  ds[s / (T * C)]?.bind fun d => d[(outPos k T C (s % (T * C))).1]?

/-- A matrix on the outputs in terms of natural numbers. -/
noncomputable def blockEntry (H : Fin C → Fin C → ℝ) : Mat ℝ := fun i j => if h : i < C ∧ j < C then H ⟨i, h.1⟩ ⟨j, h.2⟩ else 0

/-- The matrix on the stacked predictions with one block `c • H t` per loss term `t`. -/
noncomputable def outMatrix (T : Nat) (c : ℝ) (H : Term k C → Fin C → Fin C → ℝ) (ds : List (List (Term k C))) : Mat ℝ :=
  fun s s' =>
    if s / (T * C) = s' / (T * C) ∧ (outPos k T C (s % (T * C))).1 = (outPos k T C (s' % (T * C))).1 then
      match termAt T ds s with
      | some t => c * blockEntry (H t) (outPos k T C (s % (T * C))).2 (outPos k T C (s' % (T * C))).2
      | none => 0
    else 0

/-- The factor of every loss term in the empirical risk of `N` data with `T` terms each. -/
noncomputable def riskWeight (k : LossKind) (mean : Bool) (N T C : Nat) : ℝ :=
  (if mean then (N : ℝ)⁻¹ else 1) * termWeight k mean T C

/-! ## Sums over the stacked predictions -/

theorem mul_add_mod_lt {a n b : Nat} (h : b < n) : (a * n + b) % n = b := by
  rw [Nat.mul_comm, Nat.mul_add_mod, Nat.mod_eq_of_lt h]

theorem outPos_posOut (k : LossKind) {T C t i : Nat} (ht : t < T) (hi : i < C) :
    outPos k T C (posOut k T C t i) = (t, i) := by
  unfold outPos posOut
  split
  · rw [mul_add_mod_lt ht, Nat.mul_comm, Nat.mul_add_div (by omega), Nat.div_eq_of_lt ht]; simp
  · rw [mul_add_mod_lt hi, Nat.mul_comm, Nat.mul_add_div (by omega), Nat.div_eq_of_lt hi]; simp

theorem posOut_lt (k : LossKind) {T C t i : Nat} (ht : t < T) (hi : i < C) : posOut k T C t i < T * C := by
  unfold posOut
  split
  · calc i * T + t < (i + 1) * T := by rw [Nat.succ_mul]; omega
      _ ≤ C * T := Nat.mul_le_mul_right _ hi
      _ = T * C := Nat.mul_comm _ _
  · calc t * C + i < (t + 1) * C := by rw [Nat.succ_mul]; omega
      _ ≤ T * C := Nat.mul_le_mul_right _ ht

theorem sum_posOut (k : LossKind) (T C : Nat) (g : Nat → ℝ) :
    ∑ q ∈ Finset.range (T * C), g q = ∑ t ∈ Finset.range T, ∑ i ∈ Finset.range C, g (posOut k T C t i) := by
  unfold posOut
  split
  · rw [Nat.mul_comm, sum_range_mul, Finset.sum_comm]
  · rw [sum_range_mul]

theorem sum_outputs (k : LossKind) (N T C : Nat) (g : Nat → ℝ) :
    ∑ s ∈ Finset.range (N * (T * C)), g s =
      ∑ n ∈ Finset.range N, ∑ t ∈ Finset.range T, ∑ i ∈ Finset.range C, g (n * (T * C) + posOut k T C t i) := by
  rw [sum_range_mul]
  exact Finset.sum_congr rfl fun n _ => sum_posOut k T C fun q => g (n * (T * C) + q)

theorem stacked_div (k : LossKind) {T C t i : Nat} (n : Nat) (ht : t < T) (hi : i < C) :
    (n * (T * C) + posOut k T C t i) / (T * C) = n := by
  have h := posOut_lt k ht hi
  rw [Nat.mul_comm, Nat.mul_add_div (by omega), Nat.div_eq_of_lt h]; simp

theorem stacked_mod (k : LossKind) {T C t i : Nat} (n : Nat) (ht : t < T) (hi : i < C) :
    (n * (T * C) + posOut k T C t i) % (T * C) = posOut k T C t i :=
  mul_add_mod_lt (posOut_lt k ht hi)

theorem rowsOf_datumJac (T : Nat) (ds : List (List (Term k C))) {n t i : Nat} (p : Nat) (ht : t < T) (hi : i < C) :
    rowsOf (T * C) (ds.map (datumJac T)) (n * (T * C) + posOut k T C t i) p =
      match ds[n]?.bind fun d => d[t]? with
      | some tm => tm.J i p
      | none => 0 := by
  unfold rowsOf
  rw [stacked_div k n ht hi, stacked_mod k n ht hi, List.getElem?_map]
  cases ds[n]? with
  | none => rfl
  | some d => simp only [Option.map_some, Option.bind_some, datumJac, outPos_posOut k ht hi]

theorem outMatrix_apply (T : Nat) (c : ℝ) (H : Term k C → Fin C → Fin C → ℝ) (ds : List (List (Term k C)))
    {n t i n' t' j : Nat} (ht : t < T) (hi : i < C) (ht' : t' < T) (hj : j < C) :
    outMatrix T c H ds (n * (T * C) + posOut k T C t i) (n' * (T * C) + posOut k T C t' j) =
      if n = n' ∧ t = t' then
        match ds[n]?.bind fun d => d[t]? with
        | some tm => c * blockEntry (H tm) i j
        | none => 0
      else 0 := by
  unfold outMatrix termAt
  rw [stacked_div k n ht hi, stacked_mod k n ht hi, stacked_div k n' ht' hj, stacked_mod k n' ht' hj,
    outPos_posOut k ht hi, outPos_posOut k ht' hj]

/-- `Jᵀ W J` of the stacked predictions is the curvature matrix. -/
theorem sandwich_outputs (mean : Bool) (T : Nat) (H : Term k C → Fin C → Fin C → ℝ) (ds : List (List (Term k C)))
    (hT : ∀ d ∈ ds, d.length = T) (r c : Nat) :
    ∑ s ∈ Finset.range (ds.length * (T * C)), rowsOf (T * C) (ds.map (datumJac T)) s r *
        ∑ s' ∈ Finset.range (ds.length * (T * C)), outMatrix T (riskWeight k mean ds.length T C) H ds s s' *
          rowsOf (T * C) (ds.map (datumJac T)) s' c =
      riskMatrix (redOf mean) (datumMatrix mean T H) ds r c := by
  have hred : (if redOf mean = .mean then (ds.length : ℝ)⁻¹ else 1) * termWeight k mean T C =
      riskWeight k mean ds.length T C := by
    cases mean <;> simp [redOf, riskWeight]
  unfold riskMatrix datumMatrix
  rw [List.sum_map_mul_left]
  generalize hX : (ds.map fun d => (d.map fun t => termSandwich t (H t) r c).sum).sum = X
  rw [← mul_assoc _ _ X, hred, ← hX]
  generalize riskWeight k mean ds.length T C = w
  rw [sum_map_eq_range ds (fun d => (d.map fun t => termSandwich t (H t) r c).sum) 0, Finset.mul_sum,
    sum_outputs k ds.length T C]
  refine Finset.sum_congr rfl fun n hn => ?_
  have hn := Finset.mem_range.mp hn
  have hd : ds[n]? = some ds[n] := List.getElem?_eq_getElem hn
  have hlen := hT ds[n] (List.getElem_mem hn)
  rw [hd, Option.map_some, Option.getD_some, sum_map_eq_range ds[n] (fun t => termSandwich t (H t) r c) 0, hlen,
    Finset.mul_sum]
  refine Finset.sum_congr rfl fun t ht => ?_
  have ht := Finset.mem_range.mp ht
  have htm : ds[n][t]? = some (ds[n][t]'(by omega)) := List.getElem?_eq_getElem (by omega)
  generalize ds[n][t]'(by omega) = tm at htm
  rw [htm, Option.map_some, Option.getD_some]
  unfold termSandwich
  rw [Finset.sum_range, Finset.mul_sum]
  refine Finset.sum_congr rfl fun i _ => ?_
  rw [rowsOf_datumJac T ds r ht i.2, hd, Option.bind_some, htm]
  simp only
  rw [sum_outputs k ds.length T C, Finset.sum_eq_single n]
  · rw [Finset.sum_eq_single t]
    · rw [Finset.sum_range, Finset.mul_sum, Finset.mul_sum]
      refine Finset.sum_congr rfl fun j _ => ?_
      rw [outMatrix_apply T w H ds ht i.2 ht j.2, rowsOf_datumJac T ds c ht j.2, hd, Option.bind_some, htm]
      simp [blockEntry]
      ring
    · intro t' ht' hne
      refine Finset.sum_eq_zero fun j hj => ?_
      rw [outMatrix_apply T w H ds ht i.2 (Finset.mem_range.mp ht') (Finset.mem_range.mp hj),
        if_neg fun h => hne h.2.symm, zero_mul]
    · exact fun h => absurd (Finset.mem_range.mpr ht) h
  · intro n' _ hne
    refine Finset.sum_eq_zero fun t' ht' => Finset.sum_eq_zero fun j hj => ?_
    rw [outMatrix_apply T w H ds ht i.2 (Finset.mem_range.mp ht') (Finset.mem_range.mp hj),
      if_neg fun h => hne h.1.symm, zero_mul]
  · exact fun h => absurd (Finset.mem_range.mpr hn) h

/-! ## Products through the Jacobian operators -/

/-- The data of the Jacobian operators: predictions of shape `n :: S` for a mini-batch of `n` data. -/
noncomputable def jacData (T : Nat) (S : List Nat) (b : List (List (Term k C))) : JacBatch ℝ :=
  jacBatch S (b.map (datumJac T))

/-- `JacobianLinearOperator` on data given by their loss terms. -/
noncomputable def termsJacobianOp (shapes : List (List Nat)) (T : Nat) (S : List Nat) (b : List (List (Term k C)))
    (bs : List (List (List (Term k C)))) : LinOp ℝ :=
  jacobianOp shapes (b :: bs).flatten.length (jacData T S b) (bs.map (jacData T S))

/-- `TransposedJacobianLinearOperator` on data given by their loss terms. -/
noncomputable def termsTransposedJacobianOp (shapes : List (List Nat)) (T : Nat) (S : List Nat)
    (b : List (List (Term k C))) (bs : List (List (List (Term k C)))) : LinOp ℝ :=
  transposedJacobianOp shapes (b :: bs).flatten.length (jacData T S b) (bs.map (jacData T S))

theorem flatten_jac (T : Nat) (b : List (List (Term k C))) (bs : List (List (List (Term k C)))) :
    (b.map (datumJac T) :: bs.map (List.map (datumJac T))).flatten = (b :: bs).flatten.map (datumJac T) := by
  rw [List.map_flatten, List.map_cons]

theorem termsJacobianOp_representsAt (shapes : List (List Nat)) (hshapes : shapes ≠ []) (T : Nat) (S : List Nat)
    (b : List (List (Term k C))) (bs : List (List (List (Term k C)))) (K : Nat) (hK : 1 ≤ K) :
    RepresentsAt (termsJacobianOp shapes T S b bs) (rowsOf S.prod ((b :: bs).flatten.map (datumJac T))) K := by
  have h := jacobianOp_rows shapes hshapes S (b.map (datumJac T)) (bs.map (List.map (datumJac T))) K hK
  rw [flatten_jac, List.length_map, List.map_map] at h
  exact h

theorem termsTransposedJacobianOp_represents (shapes : List (List Nat)) (T : Nat) (S : List Nat)
    (b : List (List (Term k C))) (bs : List (List (List (Term k C)))) :
    Represents (termsTransposedJacobianOp shapes T S b bs)
      fun r c => rowsOf S.prod ((b :: bs).flatten.map (datumJac T)) c r := by
  have h := transposedJacobianOp_rows shapes S (b.map (datumJac T)) (bs.map (List.map (datumJac T)))
  rw [flatten_jac, List.length_map, List.map_map] at h
  exact h

/-- C83: let an operator multiply with the curvature matrix of the empirical risk, and let a Jacobian and a transposed
Jacobian operator be given on the same data, in any other partitions into mini-batches. Multiplying with the Jacobian,
then with the block-diagonal matrix with one block `weight • H t` per loss term, then with the transposed Jacobian
yields the same tensors as multiplying with the operator. -/
theorem curvature_jacobian_form (shapes : List (List Nat)) (hshapes : shapes ≠ []) (mean : Bool) (T : Nat) (S : List Nat)
    (hS : S.prod = T * C) (H : Term k C → Fin C → Fin C → ℝ) (ds : List (List (Term k C)))
    (hT : ∀ d ∈ ds, d.length = T) (op : LinOp ℝ) (hin : op.inShape = shapes) (hout : op.outShape = shapes)
    (hop : Represents op (riskMatrix (redOf mean) (datumMatrix mean T H) ds))
    (b b' : List (List (Term k C))) (bs bs' : List (List (List (Term k C)))) (hb : (b :: bs).flatten = ds)
    (hb' : (b' :: bs').flatten = ds) {K : Nat} (hK : 1 ≤ K) {V : List (Tensor ℝ)} (hV : HasShapes V shapes K) :
    ∃ JV, ((termsJacobianOp shapes T S b bs).matmat V).1 = .ok JV ∧ HasShapes JV [ds.length :: S] K ∧
      ∀ U : List (Tensor ℝ), HasShapes U [ds.length :: S] K →
        (∀ s < ds.length * (T * C), ∀ l < K, (flatData U).getD (s * K + l) 0 =
          ∑ s' ∈ Finset.range (ds.length * (T * C)),
            outMatrix T (riskWeight k mean ds.length T C) H ds s s' * (flatData JV).getD (s' * K + l) 0) →
        ((termsTransposedJacobianOp shapes T S b' bs').matmat U).1 = (op.matmat V).1 := by
  obtain ⟨JV, j1, j2, j3⟩ := termsJacobianOp_representsAt shapes hshapes T S b bs K hK V hV
  have hsh : (termsJacobianOp shapes T S b bs).outShape = [ds.length :: S] := by
    rw [← hb]; rfl
  rw [hsh] at j2
  refine ⟨JV, j1, j2, fun U hU hUJ => ?_⟩
  have hrows : (termsJacobianOp shapes T S b bs).nrows = ds.length * (T * C) := by
    simp [LinOp.nrows, LinOp.outFlat, hsh, hS]
  have hcols : (termsJacobianOp shapes T S b bs).ncols = total shapes := rfl
  rw [hrows, hcols, hb, hS] at j3
  have hrep := termsTransposedJacobianOp_represents shapes T S b' bs' K
  have hsh' : (termsTransposedJacobianOp shapes T S b' bs').inShape = [ds.length :: S] := by
    rw [← hb']; rfl
  obtain ⟨Y, y1, y2, y3⟩ := hrep U (hsh' ▸ hU)
  obtain ⟨Z, z1, z2, z3⟩ := hop K V (hin ▸ hV)
  have hrows' : (termsTransposedJacobianOp shapes T S b' bs').nrows = total shapes := rfl
  have hcols' : (termsTransposedJacobianOp shapes T S b' bs').ncols = ds.length * (T * C) := by
    simp [LinOp.ncols, LinOp.inFlat, hsh', hS]
  have hrows'' : op.nrows = total shapes := by simp only [LinOp.nrows, LinOp.outFlat, hout, total]
  have hcols'' : op.ncols = total shapes := by simp only [LinOp.ncols, LinOp.inFlat, hin, total]
  rw [hrows', hcols', hb', hS] at y3
  rw [hrows'', hcols''] at z3
  rw [y1, z1, Except.ok.injEq]
  refine hasShapes_ext y2 (hout ▸ z2 : HasShapes Z shapes K) (isProduct_unique ⟨y3.1, fun r hr l hl => ?_⟩ z3)
  rw [y3.2 r hr l hl]
  have e1 : ∀ s ∈ Finset.range (ds.length * (T * C)),
      rowsOf (T * C) (ds.map (datumJac T)) s r * (flatData U).getD (s * K + l) 0 =
      ∑ c ∈ Finset.range (total shapes), rowsOf (T * C) (ds.map (datumJac T)) s r *
        (∑ s' ∈ Finset.range (ds.length * (T * C)), outMatrix T (riskWeight k mean ds.length T C) H ds s s' *
          rowsOf (T * C) (ds.map (datumJac T)) s' c) * (flatData V).getD (c * K + l) 0 := by
    intro s hs
    rw [hUJ s (Finset.mem_range.mp hs) l hl]
    have e2 : ∀ s' ∈ Finset.range (ds.length * (T * C)),
        outMatrix T (riskWeight k mean ds.length T C) H ds s s' * (flatData JV).getD (s' * K + l) 0 =
        ∑ c ∈ Finset.range (total shapes), outMatrix T (riskWeight k mean ds.length T C) H ds s s' *
          rowsOf (T * C) (ds.map (datumJac T)) s' c * (flatData V).getD (c * K + l) 0 := by
      intro s' hs'
      rw [j3.2 s' (Finset.mem_range.mp hs') l hl, Finset.mul_sum]
      exact Finset.sum_congr rfl fun c _ => by ring
    rw [Finset.sum_congr rfl e2, Finset.sum_comm, Finset.mul_sum]
    refine Finset.sum_congr rfl fun c _ => ?_
    rw [← Finset.sum_mul]; ring
  rw [Finset.sum_congr rfl e1, Finset.sum_comm]
  refine Finset.sum_congr rfl fun c _ => ?_
  rw [← sandwich_outputs mean T H ds hT r c, Finset.sum_mul]

/-- C83 for the GGN: `G V = Jᵀ (weight • ∇²ℓ) J V`. -/
theorem ggn_jacobian_form (shapes : List (List Nat)) (hshapes : shapes ≠ []) (mean : Bool) (T : Nat) (S : List Nat)
    (hS : S.prod = T * C) (batches : List (List (List (Term k C)))) (hne : ∀ b ∈ batches, b ≠ [])
    (hT : ∀ b ∈ batches, ∀ d ∈ b, d.length = T) (b b' : List (List (Term k C))) (bs bs' : List (List (List (Term k C))))
    (hb : (b :: bs).flatten = batches.flatten) (hb' : (b' :: bs').flatten = batches.flatten) {K : Nat} (hK : 1 ≤ K)
    {V : List (Tensor ℝ)} (hV : HasShapes V shapes K) :
    ∃ JV, ((termsJacobianOp shapes T S b bs).matmat V).1 = .ok JV ∧ HasShapes JV [batches.flatten.length :: S] K ∧
      ∀ U : List (Tensor ℝ), HasShapes U [batches.flatten.length :: S] K →
        (∀ s < batches.flatten.length * (T * C), ∀ l < K, (flatData U).getD (s * K + l) 0 =
          ∑ s' ∈ Finset.range (batches.flatten.length * (T * C)),
            outMatrix T (riskWeight k mean batches.flatten.length T C) lossHessian batches.flatten s s' *
              (flatData JV).getD (s' * K + l) 0) →
        ((termsTransposedJacobianOp shapes T S b' bs').matmat U).1 =
          ((curvatureOp shapes (redOf mean) (inferNData List.length batches none) List.length
            (fun b => ggnLossBatch shapes mean b.flatten) batches).matmat V).1 :=
  curvature_jacobian_form shapes hshapes mean T S hS lossHessian batches.flatten
    (fun d hd => by obtain ⟨b, h1, h2⟩ := List.mem_flatten.mp hd; exact hT b h1 d h2) _ rfl rfl
    (ggnLossOp_represents shapes hshapes mean T batches hne hT) b b' bs bs' hb hb' hK hV

/-- C83 for the empirical Fisher: `E V = Jᵀ (weight • ∇ℓ ∇ℓᵀ) J V`. -/
theorem ef_jacobian_form (shapes : List (List Nat)) (hshapes : shapes ≠ []) (mean : Bool) (T : Nat) (S : List Nat)
    (hS : S.prod = T * C) (batches : List (List (List (Term k C)))) (hne : ∀ b ∈ batches, b ≠ [])
    (hT : ∀ b ∈ batches, ∀ d ∈ b, d.length = T) (b b' : List (List (Term k C))) (bs bs' : List (List (List (Term k C))))
    (hb : (b :: bs).flatten = batches.flatten) (hb' : (b' :: bs').flatten = batches.flatten) {K : Nat} (hK : 1 ≤ K)
    {V : List (Tensor ℝ)} (hV : HasShapes V shapes K) :
    ∃ JV, ((termsJacobianOp shapes T S b bs).matmat V).1 = .ok JV ∧ HasShapes JV [batches.flatten.length :: S] K ∧
      ∀ U : List (Tensor ℝ), HasShapes U [batches.flatten.length :: S] K →
        (∀ s < batches.flatten.length * (T * C), ∀ l < K, (flatData U).getD (s * K + l) 0 =
          ∑ s' ∈ Finset.range (batches.flatten.length * (T * C)),
            outMatrix T (riskWeight k mean batches.flatten.length T C) lossGradOuter batches.flatten s s' *
              (flatData JV).getD (s' * K + l) 0) →
        ((termsTransposedJacobianOp shapes T S b' bs').matmat U).1 =
          ((curvatureOp shapes (redOf mean) (inferNData List.length batches none) List.length
            (fun b => efBatch shapes mean b.flatten) batches).matmat V).1 :=
  curvature_jacobian_form shapes hshapes mean T S hS lossGradOuter batches.flatten
    (fun d hd => by obtain ⟨b, h1, h2⟩ := List.mem_flatten.mp hd; exact hT b h1 d h2) _ rfl rfl
    (efOp_represents shapes hshapes mean T batches hne hT) b b' bs bs' hb hb' hK hV

/-! ## `MSELoss` -/

theorem posOut_outPos (k : LossKind) {T C q : Nat} (hq : q < T * C) :
    (outPos k T C q).1 < T ∧ (outPos k T C q).2 < C ∧ posOut k T C (outPos k T C q).1 (outPos k T C q).2 = q := by
  have hT : 0 < T := Nat.pos_of_ne_zero fun h => by subst h; simp at hq
  have hC : 0 < C := Nat.pos_of_ne_zero fun h => by subst h; simp at hq
  unfold outPos posOut
  split
  · exact ⟨Nat.mod_lt _ hT, Nat.div_lt_of_lt_mul hq, by rw [Nat.mul_comm]; exact Nat.div_add_mod q T⟩
  · exact ⟨Nat.div_lt_of_lt_mul (by rwa [Nat.mul_comm]), Nat.mod_lt _ hC, by
      rw [Nat.mul_comm]; exact Nat.div_add_mod q C⟩

theorem stacked_cases (k : LossKind) {N T C s : Nat} (hs : s < N * (T * C)) :
    ∃ n t i, n < N ∧ t < T ∧ i < C ∧ s = n * (T * C) + posOut k T C t i := by
  have hpos : 0 < T * C := Nat.pos_of_ne_zero fun h => by rw [h, Nat.mul_zero] at hs; omega
  obtain ⟨h1, h2, h3⟩ := posOut_outPos k (Nat.mod_lt s hpos)
  refine ⟨s / (T * C), _, _, Nat.div_lt_of_lt_mul (by rwa [Nat.mul_comm]), h1, h2, ?_⟩
  rw [h3, Nat.mul_comm]
  exact (Nat.div_add_mod s (T * C)).symm

/-- Multiples of the identity as blocks. -/
theorem outMatrix_scalar (T : Nat) (c a : ℝ) (H : Term k C → Fin C → Fin C → ℝ) (ds : List (List (Term k C)))
    (hT : ∀ d ∈ ds, d.length = T) (hH : ∀ t i j, H t i j = if i = j then a else 0) (x : Nat → ℝ) {s : Nat}
    (hs : s < ds.length * (T * C)) :
    ∑ s' ∈ Finset.range (ds.length * (T * C)), outMatrix T c H ds s s' * x s' = c * a * x s := by
  obtain ⟨n, t, i, hn, ht, hi, rfl⟩ := stacked_cases k hs
  have hd : ds[n]? = some ds[n] := List.getElem?_eq_getElem hn
  have hlen := hT ds[n] (List.getElem_mem hn)
  have htm : ds[n][t]? = some (ds[n][t]'(by omega)) := List.getElem?_eq_getElem (by omega)
  generalize ds[n][t]'(by omega) = tm at htm
  rw [sum_outputs k ds.length T C, Finset.sum_eq_single n, Finset.sum_eq_single t, Finset.sum_eq_single i]
  · rw [outMatrix_apply T c H ds ht hi ht hi, hd, Option.bind_some, htm]
    simp [blockEntry, hi, hH]
  · intro j hj hne
    have hj := Finset.mem_range.mp hj
    rw [outMatrix_apply T c H ds ht hi ht hj, hd, Option.bind_some, htm]
    simp [blockEntry, hi, hj, hH, Ne.symm hne]
  · exact fun h => absurd (Finset.mem_range.mpr hi) h
  · intro t' ht' hne
    refine Finset.sum_eq_zero fun j hj => ?_
    rw [outMatrix_apply T c H ds ht hi (Finset.mem_range.mp ht') (Finset.mem_range.mp hj),
      if_neg fun h => hne h.2.symm, zero_mul]
  · exact fun h => absurd (Finset.mem_range.mpr ht) h
  · intro n' _ hne
    refine Finset.sum_eq_zero fun t' ht' => Finset.sum_eq_zero fun j hj => ?_
    rw [outMatrix_apply T c H ds ht hi (Finset.mem_range.mp ht') (Finset.mem_range.mp hj),
      if_neg fun h => hne h.1.symm, zero_mul]
  · exact fun h => absurd (Finset.mem_range.mpr hn) h

/-- C83: with `MSELoss` the GGN is a multiple of `JᵀJ`, the factor being `2` for reduction 'sum' and `2` divided by the
number of all entries of the predictions for 'mean': multiplying with the Jacobian operator, scaling, and multiplying
with the transposed Jacobian operator yields the same tensors as the GGN operator. -/
theorem ggn_mse_jacobian (shapes : List (List Nat)) (hshapes : shapes ≠ []) (mean : Bool) (T : Nat) (S : List Nat)
    (hS : S.prod = T * C) (batches : List (List (List (Term .mse C)))) (hne : ∀ b ∈ batches, b ≠ [])
    (hT : ∀ b ∈ batches, ∀ d ∈ b, d.length = T) (b b' : List (List (Term .mse C)))
    (bs bs' : List (List (List (Term .mse C)))) (hb : (b :: bs).flatten = batches.flatten)
    (hb' : (b' :: bs').flatten = batches.flatten) {K : Nat} (hK : 1 ≤ K) {V : List (Tensor ℝ)}
    (hV : HasShapes V shapes K) :
    ∃ JV, ((termsJacobianOp shapes T S b bs).matmat V).1 = .ok JV ∧
      ((termsTransposedJacobianOp shapes T S b' bs').matmat (JV.map (Tensor.scale
        (if mean then 2 / ((batches.flatten.length : ℝ) * T * C) else 2)))).1 =
        ((curvatureOp shapes (redOf mean) (inferNData List.length batches none) List.length
          (fun b => ggnLossBatch shapes mean b.flatten) batches).matmat V).1 := by
  obtain ⟨JV, h1, h2, h3⟩ := ggn_jacobian_form shapes hshapes mean T S hS batches hne hT b b' bs bs' hb hb' hK hV
  refine ⟨JV, h1, h3 _ ?_ fun s hs l _ => ?_⟩
  · constructor
    · rw [List.map_map]; exact h2.1
    · intro t ht
      obtain ⟨u, hu, rfl⟩ := List.mem_map.mp ht
      simpa [Tensor.WF, Tensor.scale] using h2.2 u hu
  · have hT' : ∀ d ∈ batches.flatten, d.length = T := fun d hd => by
      obtain ⟨b, h1, h2⟩ := List.mem_flatten.mp hd; exact hT b h1 d h2
    rw [flat_scale, outMatrix_scalar T _ 2 lossHessian batches.flatten hT'
      (fun t i j => hess_mse t.y t.f i j) (fun s' => (flatData JV).getD (s' * K + l) 0) hs]
    congr 1
    unfold riskWeight termWeight
    cases mean
    · simp
    · simp
      ring

/-- Class index first for `CrossEntropyLoss`, last otherwise: position 4 of a prediction with 2 terms of 3 outputs. -/
example : outPos .ce 2 3 4 = (0, 2) ∧ outPos .mse 2 3 4 = (1, 1) := ⟨rfl, rfl⟩

/-- A datum with one loss term `(p₀ - y)² + (a p₁ - y)²` at `p = 0`. -/
noncomputable def formDatum (a y : ℝ) : List (Term .mse 2) :=
  [⟨fun i p => if i = p then (if i = 0 then 1 else a) else 0, fun _ => 0, fun _ => y⟩]

/-- Non-vacuity: GGN on one mini-batch of three data, Jacobian and transposed Jacobian on other partitions; the factor is
`2 / 6`. -/
example : ∃ JV, ((termsJacobianOp [[2]] 1 [2] [formDatum 1 2] [[formDatum 3 4, formDatum 5 6]]).matmat [⟨[2, 1], [7, 8]⟩]).1 =
      .ok JV ∧
    ((termsTransposedJacobianOp [[2]] 1 [2] [formDatum 1 2, formDatum 3 4] [[formDatum 5 6]]).matmat
        (JV.map (Tensor.scale (2 / ((3 : ℝ) * 1 * 2))))).1 =
      ((curvatureOp [[2]] .mean 3 List.length (fun b => ggnLossBatch [[2]] true b.flatten)
        [[formDatum 1 2, formDatum 3 4, formDatum 5 6]]).matmat [⟨[2, 1], [7, 8]⟩]).1 := by
  have h := ggn_mse_jacobian [[2]] (by simp) true 1 [2] rfl [[formDatum 1 2, formDatum 3 4, formDatum 5 6]] (by simp)
    (by simp [formDatum]) [formDatum 1 2] [formDatum 1 2, formDatum 3 4] [[formDatum 3 4, formDatum 5 6]]
    [[formDatum 5 6]] rfl rfl (K := 1) le_rfl (V := [⟨[2, 1], [7, 8]⟩]) ⟨rfl, by simp [Tensor.WF]⟩
  simpa [redOf, inferNData] using h

/-! ## The gradient -/

/-- The vector on the stacked predictions with entries `c • g t` for every loss term `t`. -/
noncomputable def outVector (T : Nat) (c : ℝ) (g : Term k C → Fin C → ℝ) (ds : List (List (Term k C))) (s : Nat) : ℝ :=
  match termAt T ds s with
  | some t => if h : (outPos k T C (s % (T * C))).2 < C then c * g t ⟨_, h⟩ else 0
  | none => 0

theorem outVector_apply (T : Nat) (c : ℝ) (g : Term k C → Fin C → ℝ) (ds : List (List (Term k C))) {n t i : Nat}
    (ht : t < T) (hi : i < C) :
    outVector T c g ds (n * (T * C) + posOut k T C t i) =
      match ds[n]?.bind fun d => d[t]? with
      | some tm => c * g tm ⟨i, hi⟩
      | none => 0 := by
  unfold outVector termAt
  rw [stacked_div k n ht hi, stacked_mod k n ht hi]
  simp only [outPos_posOut k ht hi, hi, dif_pos]

theorem riskWeight_eq (k : LossKind) (mean : Bool) (N T C : Nat) :
    (reductionFactor k mean (N * T) C)⁻¹ = riskWeight k mean N T C := by
  rw [reductionFactor_batch]
  cases mean <;> simp [redOf, riskWeight]

theorem lossGradBatch_spec (shapes : List (List Nat)) (mean : Bool) (T : Nat) (b : List (List (Term k C)))
    (hT : ∀ d ∈ b, d.length = T) :
    (lossGradBatch shapes mean b.flatten).1 = riskValue (redOf mean)
        (fun d => termWeight k mean T C * (d.map fun t => termLoss k t.y t.f).sum) b ∧
      HasVec (lossGradBatch shapes mean b.flatten).2 shapes ∧
      ∀ r < total shapes, (flatData (lossGradBatch shapes mean b.flatten).2).getD r 0 = riskValue (redOf mean)
        (fun d => termWeight k mean T C * (d.map fun t => termGrad t r).sum) b := by
  have hw : ∀ X : ℝ, (if redOf mean = .mean then (b.length : ℝ)⁻¹ else 1) * (termWeight k mean T C * X) =
      X / reductionFactor k mean b.flatten.length C := by
    intro X
    rw [length_flatten_const hT, div_eq_mul_inv, reductionFactor_batch]; ring
  have hv := vjp_spec (termsJ b.flatten) shapes ⟨[b.flatten.length, C], (List.range (b.flatten.length * C)).map
      (flat1 fun x => pderiv (batchLoss k mean (targets b.flatten)) x (outs b.flatten))⟩
  refine ⟨?_, hv.1, fun r hr => ?_⟩
  · unfold riskValue
    rw [List.sum_map_mul_left, hw, ← sum_map_flatten (fun t => termLoss k t.y t.f) b]
    refine congrArg (· / reductionFactor k mean b.flatten.length C) ?_
    exact Fin.sum_univ_fun_getElem b.flatten fun t => termLoss k t.y t.f
  · rw [lossGradBatch, hv.2 r hr]
    unfold riskValue
    rw [List.sum_map_mul_left, hw, ← sum_map_flatten (fun t => termGrad t r) b,
      ← Fin.sum_univ_fun_getElem b.flatten fun t => termGrad t r]
    generalize b.flatten = ts
    have hp : [ts.length, C].prod = ts.length * C := by simp
    simp only [hp]
    rw [Finset.sum_range, ← Equiv.sum_comp finProdFinEquiv, Fintype.sum_prod_type, Finset.sum_div]
    refine Finset.sum_congr rfl fun m _ => ?_
    unfold termGrad
    rw [Finset.sum_div]
    refine Finset.sum_congr rfl fun i _ => ?_
    have hlt := (finProdFinEquiv (m, i)).2
    have e : (List.range (ts.length * C))[(finProdFinEquiv (m, i) : Nat)]? = some (finProdFinEquiv (m, i) : Nat) := by
      rw [List.getElem?_range hlt]
    rw [List.getD_eq_getElem?_getD, List.getElem?_map, e]
    simp only [Option.map_some, Option.getD_some, flat1, termsJ, hlt, dif_pos, Fin.eta, Equiv.symm_apply_apply]
    rw [pderiv_batchLoss]
    simp only [Fin.getElem_fin]
    ring

/-- C83: the gradient of `gradient_and_loss` is the product of the transposed Jacobian operator with the gradient of
the empirical risk in the stacked predictions, and its loss is the weighted sum of the losses of all terms. -/
theorem gradient_jacobian_form (shapes : List (List Nat)) (mean : Bool) (T : Nat) (S : List Nat) (hS : S.prod = T * C)
    (batches : List (List (List (Term k C)))) (hne : ∀ b ∈ batches, b ≠ [])
    (hT : ∀ b ∈ batches, ∀ d ∈ b, d.length = T) (b' : List (List (Term k C))) (bs' : List (List (List (Term k C))))
    (hb' : (b' :: bs').flatten = batches.flatten) :
    ∃ G, gradientAndLoss shapes (redOf mean) (inferNData List.length batches none) List.length
        (some fun b => lossGradBatch shapes mean b.flatten) batches =
        .ok (G, riskWeight k mean batches.flatten.length T C *
          (batches.flatten.map fun d => (d.map fun t => termLoss k t.y t.f).sum).sum) ∧ HasVec G shapes ∧
      ∀ U : List (Tensor ℝ), HasShapes U [batches.flatten.length :: S] 1 →
        (∀ s < batches.flatten.length * (T * C), (flatData U).getD s 0 =
          outVector T (riskWeight k mean batches.flatten.length T C) (fun t i => pderiv (termLoss k t.y) i t.f)
            batches.flatten s) →
        ∃ Y, ((termsTransposedJacobianOp shapes T S b' bs').matmat U).1 = .ok Y ∧ HasShapes Y shapes 1 ∧
          flatData Y = flatData G := by
  have hT' : ∀ d ∈ batches.flatten, d.length = T := fun d hd => by
    obtain ⟨b, h1, h2⟩ := List.mem_flatten.mp hd; exact hT b h1 d h2
  obtain ⟨G, g1, g2, g3⟩ := gradientAndLoss_spec shapes (redOf mean) (redOf_cases mean)
    (fun d => termWeight k mean T C * (d.map fun t => termLoss k t.y t.f).sum)
    (fun d r => termWeight k mean T C * (d.map fun t => termGrad t r).sum)
    (fun b => lossGradBatch shapes mean b.flatten) batches hne
    (fun b hb => (lossGradBatch_spec shapes mean T b (hT b hb)).1)
    (fun b hb => (lossGradBatch_spec shapes mean T b (hT b hb)).2.1)
    (fun b hb => (lossGradBatch_spec shapes mean T b (hT b hb)).2.2)
  have hw : ∀ X : ℝ, (if redOf mean = .mean then (batches.flatten.length : ℝ)⁻¹ else 1) * (termWeight k mean T C * X) =
      riskWeight k mean batches.flatten.length T C * X := by
    intro X
    cases mean <;> simp [redOf, riskWeight]
    ring
  refine ⟨G, ?_, g2, fun U hU hUs => ?_⟩
  · rw [g1]
    unfold riskValue
    rw [List.sum_map_mul_left, hw]
  · generalize batches.flatten = ds at *
    have hsh' : (termsTransposedJacobianOp shapes T S b' bs').inShape = [ds.length :: S] := by
      rw [← hb']; rfl
    obtain ⟨Y, y1, y2, y3⟩ := termsTransposedJacobianOp_represents shapes T S b' bs' 1 U (hsh' ▸ hU)
    have hrows' : (termsTransposedJacobianOp shapes T S b' bs').nrows = total shapes := rfl
    have hcols' : (termsTransposedJacobianOp shapes T S b' bs').ncols = ds.length * (T * C) := by
      simp [LinOp.ncols, LinOp.inFlat, hsh', hS]
    rw [hrows', hcols', hb', hS] at y3
    refine ⟨Y, y1, y2, ?_⟩
    have hl : (flatData Y).length = (flatData G).length := by rw [y3.1, g2.flatData_length, Nat.mul_one]; rfl
    refine List.ext_getElem hl fun r hr hr' => ?_
    have hrt : r < total shapes := by
      have := g2.flatData_length ▸ hr'
      exact this
    have hg : ∀ (l : List ℝ) (h : r < l.length), l.getD r 0 = l[r] := fun l h => by simp [h]
    rw [← hg _ hr, ← hg _ hr', g3 r hrt]
    have hy := y3.2 r hrt 0 (by omega)
    simp only [Nat.mul_one, Nat.add_zero] at hy
    rw [hy]
    unfold riskValue
    rw [List.sum_map_mul_left, hw, sum_map_eq_range ds (fun d => (d.map fun t => termGrad t r).sum) 0, Finset.mul_sum,
      sum_outputs k ds.length T C]
    refine Finset.sum_congr rfl fun n hn => ?_
    have hn' := Finset.mem_range.mp hn
    have hd : ds[n]? = some ds[n] := List.getElem?_eq_getElem hn'
    have hlen := hT' ds[n] (List.getElem_mem hn')
    rw [hd, Option.map_some, Option.getD_some, sum_map_eq_range ds[n] (fun t => termGrad t r) 0, hlen, Finset.mul_sum]
    refine Finset.sum_congr rfl fun t ht => ?_
    have ht := Finset.mem_range.mp ht
    have htm : ds[n][t]? = some (ds[n][t]'(by omega)) := List.getElem?_eq_getElem (by omega)
    generalize ds[n][t]'(by omega) = tm at htm
    rw [htm, Option.map_some, Option.getD_some]
    unfold termGrad
    rw [Finset.sum_range, Finset.mul_sum]
    refine Finset.sum_congr rfl fun i _ => ?_
    have hlt : n * (T * C) + posOut k T C t i < ds.length * (T * C) := by
      have := posOut_lt k ht i.2
      calc n * (T * C) + posOut k T C t i < (n + 1) * (T * C) := by rw [Nat.succ_mul]; omega
        _ ≤ ds.length * (T * C) := Nat.mul_le_mul_right _ hn'
    rw [rowsOf_datumJac T ds r ht i.2, hUs _ hlt, outVector_apply T _ _ ds ht i.2, hd, Option.bind_some, htm]
    simp only [Fin.eta]
    ring

/-- Non-vacuity: gradient over two mini-batches and the transposed Jacobian on one, reduction 'sum'; the gradient in the
predictions is `2 (f - y)`. -/
example : ∃ G, gradientAndLoss [[2]] .sum 2 List.length (some fun b => lossGradBatch [[2]] false b.flatten)
      [[formDatum 1 2], [formDatum 3 4]] = .ok (G, 40) ∧ HasVec G [[2]] ∧
    ∃ Y, ((termsTransposedJacobianOp [[2]] 1 [2] [formDatum 1 2, formDatum 3 4] []).matmat
        [⟨[2, 2, 1], [-4, -4, -8, -8]⟩]).1 = .ok Y ∧ HasShapes Y [[2]] 1 ∧ flatData Y = flatData G := by
  obtain ⟨G, h1, h2, h3⟩ := gradient_jacobian_form [[2]] false 1 [2] rfl [[formDatum 1 2], [formDatum 3 4]] (by simp)
    (by simp [formDatum]) [formDatum 1 2, formDatum 3 4] [] rfl
  refine ⟨G, ?_, h2, h3 [⟨[2, 2, 1], [-4, -4, -8, -8]⟩] ⟨rfl, by simp [Tensor.WF]⟩ ?_⟩
  · have e : riskWeight .mse false [[formDatum 1 2], [formDatum 3 4]].flatten.length 1 2 *
        ([[formDatum 1 2], [formDatum 3 4]].flatten.map fun d => (d.map fun t => termLoss .mse t.y t.f).sum).sum = 40 := by
      simp [riskWeight, termWeight, formDatum, termLoss]; norm_num
    rw [e] at h1
    simpa [redOf, inferNData] using h1
  · intro s hs
    have hs : s < 4 := hs
    interval_cases s <;>
      simp [outVector, termAt, outPos, formDatum, flatData, riskWeight, termWeight, pderiv_mse] <;> norm_num

end Curvlinops
