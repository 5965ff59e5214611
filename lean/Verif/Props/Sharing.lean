import Verif.Model.Sharing
import Verif.Props.Submatrix
import Verif.Props.KfacState

/-!
# C103: what the caller does with arguments and results
-/

namespace Curvlinops

open Matrix

variable {α : Type _}

/-! ## Index lists of sub-matrices -/

/-- Specification: a move that neither changes a list at the references nor re-indexes the operator. -/
def SubMove.Foreign (i : Nat) (r c : Nat) : SubMove α → Prop
  | .change ref _ => ref ≠ r ∧ ref ≠ c
  | .set j _ _ => j ≠ i
  | _ => True

theorem SubSys.step_foreign (s : SubSys α) (i : Nat) (o : SubObj α) (h : s.objs[i]? = some o) (m : SubMove α)
    (hm : m.Foreign i o.rowRef o.colRef) : (s.step m).objs[i]? = some o ∧ o.value (s.step m).heap = o.value s.heap := by
  have happ : ∀ o', (s.objs ++ [o'])[i]? = some o := fun o' => by
    rw [List.getElem?_append_left (List.getElem?_eq_some_iff.mp h).1, h]
  cases m with
  | change ref l =>
    refine ⟨h, ?_⟩
    obtain ⟨h1, h2⟩ := hm
    simp only [SubSys.step, SubObj.value, Function.update_of_ne h1.symm, Function.update_of_ne h2.symm]
  | create A r c =>
    simp only [SubSys.step]
    split
    · exact ⟨h, rfl⟩
    · exact ⟨happ _, rfl⟩
  | set j r c =>
    simp only [SubSys.step]
    split
    · exact ⟨h, rfl⟩
    · refine ⟨?_, rfl⟩
      rw [List.getElem?_set_ne (show j ≠ i from hm), h]
  | adjoint j =>
    simp only [SubSys.step]
    split
    · exact ⟨h, rfl⟩
    · split
      · exact ⟨h, rfl⟩
      · exact ⟨happ _, rfl⟩

/-- C103, the part that holds for sub-matrices: whatever a program does with other lists and other operators, including
operators that share the lists (like adjoints), an operator created from distinct in-bounds indices keeps multiplying with the dense sub-matrix.
Missing for the full claim: changes of the lists the operator was created from, see `submatrix_follows_lists`. -/
theorem submatrix_stable_partial [NonUnitalNonAssocSemiring α] {m n k l : Nat} (s : SubSys α) (P : SciPair α)
    (A : Matrix (Fin m) (Fin n) α) (hA : VecRep P.op A) (rowIdx : Fin k → Fin m) (colIdx : Fin l → Fin n)
    (hrow : Function.Injective rowIdx) (hcol : Function.Injective colIdx) (r c : Nat) (hr : s.heap r = idxList rowIdx)
    (hc : s.heap c = idxList colIdx) (ms : List (SubMove α)) (hms : ∀ m ∈ ms, m.Foreign s.objs.length r c) :
    ∃ o, ((s.step (.create P r c)).run ms).objs[s.objs.length]? = some o ∧
      VecRep (o.value ((s.step (.create P r c)).run ms).heap).toSci (A.submatrix rowIdx colIdx) := by
  have h0 : s.step (.create P r c) = { s with objs := s.objs ++ [⟨P, (k, l), r, c⟩] } := by
    have : (SubObj.value s.heap ⟨P, (0, 0), r, c⟩).setSubmatrix (s.heap r) (s.heap c) =
        (.ok (), ⟨P, (k, l), idxList rowIdx, idxList colIdx⟩) := by
      rw [hr, hc]
      simp [SubObj.value, SubState.setSubmatrix, hA.1, hA.2.1, checkIdxs_idxList _ hrow, checkIdxs_idxList _ hcol]
    simp only [SubSys.step, SubObj.set, this]
  have h1 : (s.step (.create P r c)).objs[s.objs.length]? = some ⟨P, (k, l), r, c⟩ := by
    rw [h0]; simp
  have h2 : (SubObj.value (s.step (.create P r c)).heap ⟨P, (k, l), r, c⟩) = ⟨P, (k, l), idxList rowIdx, idxList colIdx⟩ := by
    rw [h0]; simp [SubObj.value, hr, hc]
  refine ⟨⟨P, (k, l), r, c⟩, ?_⟩
  generalize s.step (.create P r c) = s' at h1 h2
  suffices (s'.run ms).objs[s.objs.length]? = some ⟨P, (k, l), r, c⟩ ∧
      SubObj.value (s'.run ms).heap ⟨P, (k, l), r, c⟩ = ⟨P, (k, l), idxList rowIdx, idxList colIdx⟩ by
    refine ⟨this.1, ?_⟩
    rw [this.2]
    exact submatrix_vecRep P A hA rowIdx colIdx hcol
  clear h0 hr hc
  induction ms generalizing s' with
  | nil => exact ⟨h1, h2⟩
  | cons m ms ih =>
    obtain ⟨a1, a2⟩ := SubSys.step_foreign s' _ _ h1 m (hms m (by simp))
    exact ih (fun m hm => hms m (by simp [hm])) _ a1 (a2.trans h2)

/-- **C103** (rejected lists): `set_submatrix` with lists that are not distinct in-bounds integers raises, and all operators keep the lists
they had. -/
theorem submatrix_rejected (s : SubSys α) (i r c : Nat) (o : SubObj α) (ho : s.objs[i]? = some o)
    (h : ¬ (ValidIdx o.A.op.rows (s.heap r) ∧ ValidIdx o.A.op.cols (s.heap c))) :
    (o.set s.heap r c).1 = .error .valueError ∧ s.step (.set i r c) = s := by
  have h1 := (setSubmatrix_raises_iff (o.value s.heap) (s.heap r) (s.heap c)).1.mpr h
  have h2 : o.set s.heap r c = (.error .valueError, o) := by
    unfold SubObj.set
    rcases hx : (o.value s.heap).setSubmatrix (s.heap r) (s.heap c) with ⟨e | u, s'⟩
    · rw [hx] at h1
      simp only at h1 ⊢
      rw [h1]
    · rw [hx] at h1
      simp at h1
  refine ⟨by rw [h2], ?_⟩
  obtain ⟨hi, he⟩ := List.getElem?_eq_some_iff.mp ho
  simp only [SubSys.step, ho, h2]
  have : s.objs.set i o = s.objs := by rw [← he, List.set_getElem_self]
  rw [this]

/-- C103 is violated: an operator follows changes of the lists it was created from. If the caller overwrites them with
other in-bounds indices of the same number, also with duplicate rows, the operator multiplies with the new sub-matrix;
nothing is validated. -/
theorem submatrix_follows_lists [NonUnitalNonAssocSemiring α] {m n k l : Nat} (s : SubSys α) (P : SciPair α)
    (A : Matrix (Fin m) (Fin n) α) (hA : VecRep P.op A) (rowIdx : Fin k → Fin m) (colIdx : Fin l → Fin n)
    (hrow : Function.Injective rowIdx) (hcol : Function.Injective colIdx) (r c : Nat) (hrc : r ≠ c)
    (hr : s.heap r = idxList rowIdx) (hc : s.heap c = idxList colIdx) (rowIdx' : Fin k → Fin m) (colIdx' : Fin l → Fin n)
    (hcol' : Function.Injective colIdx') :
    ∃ o, (s.run [.create P r c, .change r (idxList rowIdx'), .change c (idxList colIdx')]).objs[s.objs.length]? = some o ∧
      VecRep (o.value (s.run [.create P r c, .change r (idxList rowIdx'), .change c (idxList colIdx')]).heap).toSci
        (A.submatrix rowIdx' colIdx') := by
  have h0 : s.step (.create P r c) = { s with objs := s.objs ++ [⟨P, (k, l), r, c⟩] } := by
    have : (SubObj.value s.heap ⟨P, (0, 0), r, c⟩).setSubmatrix (s.heap r) (s.heap c) =
        (.ok (), ⟨P, (k, l), idxList rowIdx, idxList colIdx⟩) := by
      rw [hr, hc]
      simp [SubObj.value, SubState.setSubmatrix, hA.1, hA.2.1, checkIdxs_idxList _ hrow, checkIdxs_idxList _ hcol]
    simp only [SubSys.step, SubObj.set, this]
  refine ⟨⟨P, (k, l), r, c⟩, ?_⟩
  simp only [SubSys.run, List.foldl_cons, List.foldl_nil]
  rw [h0]
  simp only [SubSys.step]
  refine ⟨by simp, ?_⟩
  have : SubObj.value (Function.update (Function.update s.heap r (idxList rowIdx')) c (idxList colIdx')) ⟨P, (k, l), r, c⟩ =
      (⟨P, (k, l), idxList rowIdx', idxList colIdx'⟩ : SubState α) := by
    simp [SubObj.value, Function.update_of_ne hrc]
  rw [this]
  exact submatrix_vecRep P A hA rowIdx' colIdx' hcol'

/-- A list of integers. -/
def intList {k : Nat} (f : Fin k → Int) : List PyIdx := List.ofFn fun i => PyIdx.int (f i)

theorem isMask_intList {k : Nat} (f : Fin k → Int) : isMask (intList f) = false := by
  cases k with
  | zero => rfl
  | succ k => simp [isMask, intList, List.ofFn_succ]

theorem position_cases (n : Nat) (i : Int) : (PyIdx.int i).position n = if 0 ≤ i ∧ i < n then .ok i.toNat
    else if -(n : Int) ≤ i ∧ i < 0 then .ok (i + n).toNat else .error .indexError := rfl

theorem position_wrap {n : Nat} {i : Int} {p : Fin n} (h : i = p ∨ i = (p : Int) - n) :
    (PyIdx.int i).position n = (PyIdx.int ((p : Nat) : Int)).position n := by
  have hp := p.2
  rw [position_int hp]
  rcases h with rfl | rfl
  · exact position_int hp
  · have h2 : ¬(0 ≤ ((p : Nat) : Int) - n ∧ ((p : Nat) : Int) - n < n) := by omega
    have h3 : -(n : Int) ≤ ((p : Nat) : Int) - n ∧ ((p : Nat) : Int) - n < 0 := by omega
    rw [position_cases, if_neg h2, if_pos h3]
    congr 1
    omega

theorem pyMapM_congr {β γ δ : Type _} {f : β → Py δ} {g : γ → Py δ} {k : Nat} {a : Fin k → β} {b : Fin k → γ}
    (h : ∀ i, f (a i) = g (b i)) : pyMapM f (List.ofFn a) = pyMapM g (List.ofFn b) := by
  induction k with
  | zero => rfl
  | succ k ih =>
    rw [List.ofFn_succ, List.ofFn_succ, pyMapM, pyMapM, h 0, ih fun i => h i.succ]

theorem npGather_wrap {k n : Nat} {f : Fin k → Int} {p : Fin k → Fin n} (h : ∀ i, f i = p i ∨ f i = (p i : Int) - n) (y : Fin n → α) :
    npGather (List.ofFn y) (intList f) = npGather (List.ofFn y) (idxList p) := by
  unfold npGather
  rw [npIndex_idxList, npIndex, isMask_intList]
  simp only [Bool.false_eq_true, if_false]
  refine pyMapM_congr fun i => ?_
  rw [List.length_ofFn, position_wrap (h i)]

theorem npScatter_wrap {k n : Nat} {f : Fin k → Int} {p : Fin k → Fin n} (h : ∀ i, f i = p i ∨ f i = (p i : Int) - n) (a : List α)
    (ha : a.length = n) (x : List α) : npScatter a (intList f) x = npScatter a (idxList p) x := by
  induction k generalizing a x with
  | zero => rfl
  | succ k ih =>
    unfold intList idxList at ih ⊢
    rw [List.ofFn_succ, List.ofFn_succ]
    rcases x with _ | ⟨x, xs⟩
    · rfl
    · rw [npScatter, npScatter, ha, position_wrap (h 0), position_int (p 0).2]
      exact ih (fun i => h i.succ) _ (by simpa using ha) xs

/-- C103 is violated: negative numbers, which the constructor rejects, count from the end if the caller writes them to the lists
afterwards. -/
theorem submatrix_follows_negative [NonUnitalNonAssocSemiring α] {m n k l : Nat} (P : SciPair α) (A : Matrix (Fin m) (Fin n) α)
    (hA : VecRep P.op A) (rows : Fin k → Int) (rowIdx : Fin k → Fin m) (hrow : ∀ i, rows i = rowIdx i ∨ rows i = (rowIdx i : Int) - m)
    (cols : Fin l → Int) (colIdx : Fin l → Fin n) (hcol : ∀ j, cols j = colIdx j ∨ cols j = (colIdx j : Int) - n)
    (hinj : Function.Injective colIdx) (h : IdxHeap) (r c : Nat) (hr : h r = intList rows) (hc : h c = intList cols) :
    VecRep (SubObj.value h ⟨P, (k, l), r, c⟩).toSci (A.submatrix rowIdx colIdx) := by
  have hv : SubObj.value h ⟨P, (k, l), r, c⟩ = ⟨P, (k, l), intList rows, intList cols⟩ := by
    simp [SubObj.value, hr, hc]
  rw [hv]
  refine ⟨rfl, rfl, fun x => dot_vec_of_impl (by simp [SubState.toSci]) (by simp [SubState.toSci]) ?_⟩
  have hi := submatrix_matvecImpl ⟨P, (k, l), idxList rowIdx, idxList colIdx⟩ A hA rowIdx colIdx hinj rfl rfl x
  rw [← hi]
  show SubState.matvecImpl _ _ = _
  have ha : npAssign (List.replicate P.op.cols (0 : α)) (intList cols) (.vec (List.ofFn x)) =
      npAssign (List.replicate P.op.cols (0 : α)) (idxList colIdx) (.vec (List.ofFn x)) := by
    rw [npAssign_idxList, ← npScatter_wrap hcol _ (by simp [hA.2.1])]
    unfold npAssign
    rw [npIndex, isMask_intList]
    rcases List.ofFn x with _ | ⟨x, _ | ⟨y, xs⟩⟩ <;> simp
  obtain ⟨v, h1, -, -⟩ := npScatter_spec colIdx hinj x (List.replicate P.op.cols (0 : α)) (by simp [hA.2.1])
  unfold SubState.matvecImpl
  rw [ha, npAssign_idxList, h1]
  simp only [hA.mulVec, npGather_wrap hrow]

/-- C103 is violated: a number outside of the matrix, which the constructor rejects, raises `IndexError` in products if the caller writes it
to the list of rows afterwards. -/
theorem submatrix_rows_outside [NonUnitalNonAssocSemiring α] {m n k l : Nat} (P : SciPair α) (A : Matrix (Fin m) (Fin n) α)
    (hA : VecRep P.op A) (rows : Fin k → Int) (hrow : ∃ i, (m : Int) ≤ rows i ∨ rows i < -(m : Int)) (colIdx : Fin l → Fin n)
    (hinj : Function.Injective colIdx) (h : IdxHeap) (r c : Nat) (hr : h r = intList rows) (hc : h c = idxList colIdx) (x : Fin l → α) :
    (SubObj.value h ⟨P, (k, l), r, c⟩).toSci.dot (.vec (List.ofFn x)) = .error .indexError := by
  have hv : SubObj.value h ⟨P, (k, l), r, c⟩ = ⟨P, (k, l), intList rows, idxList colIdx⟩ := by
    simp [SubObj.value, hr, hc]
  have hg : ∀ y : Fin m → α, npGather (List.ofFn y) (intList rows) = .error .indexError := by
    intro y
    unfold npGather
    rw [npIndex, isMask_intList]
    simp only [Bool.false_eq_true, if_false, List.length_ofFn]
    unfold intList
    clear hv hr
    induction k with
    | zero => exact hrow.choose.elim0
    | succ k ih =>
      rw [List.ofFn_succ, pyMapM]
      by_cases h0 : (m : Int) ≤ rows 0 ∨ rows 0 < -(m : Int)
      · have hp : (PyIdx.int (rows 0)).position m = .error .indexError := by
          have h2 : ¬(0 ≤ rows 0 ∧ rows 0 < m) := by omega
          have h3 : ¬(-(m : Int) ≤ rows 0 ∧ rows 0 < 0) := by omega
          rw [position_cases, if_neg h2, if_neg h3]
        rw [hp]
      · obtain ⟨i, hi⟩ := hrow
        obtain ⟨j, rfl⟩ := Fin.exists_succ_eq.mpr (show i ≠ 0 by rintro rfl; exact h0 hi)
        rw [ih (fun i => rows i.succ) ⟨j, hi⟩]
        obtain ⟨p, hp⟩ : ∃ p : Fin m, rows 0 = p ∨ rows 0 = (p : Int) - m := by
          by_cases hs : 0 ≤ rows 0
          · exact ⟨⟨(rows 0).toNat, by omega⟩, Or.inl (by simp; omega)⟩
          · exact ⟨⟨(rows 0 + m).toNat, by omega⟩, Or.inr (by simp; omega)⟩
        rw [position_wrap hp, position_int p.2]
        simp
  obtain ⟨v, h1, -, -⟩ := npScatter_spec colIdx hinj x (List.replicate P.op.cols (0 : α)) (by simp [hA.2.1])
  have hi : SubState.matvecImpl ⟨P, (k, l), intList rows, idxList colIdx⟩ (.vec (List.ofFn x)) = .error .indexError := by
    unfold SubState.matvecImpl
    rw [npAssign_idxList, h1]
    simp only [hA.mulVec, hg]
  rw [hv]
  simp only [SciOp.dot, SciOp.matvec, SubState.toSci, List.length_ofFn, if_true, hi]

/-- C103 is violated: if the caller changes the number of row indices, in bounds, products with vectors raise
`ValueError`. -/
theorem submatrix_rows_changed [NonUnitalNonAssocSemiring α] {m n k k' l : Nat} (P : SciPair α)
    (A : Matrix (Fin m) (Fin n) α) (hA : VecRep P.op A) (rowIdx' : Fin k' → Fin m) (colIdx : Fin l → Fin n)
    (hcol : Function.Injective colIdx) (hk : k' ≠ k) (h : IdxHeap) (r c : Nat) (hr : h r = idxList rowIdx')
    (hc : h c = idxList colIdx) (x : Fin l → α) :
    (SubObj.value h ⟨P, (k, l), r, c⟩).toSci.dot (.vec (List.ofFn x)) = .error .valueError := by
  have hv : SubObj.value h ⟨P, (k, l), r, c⟩ = ⟨P, (k, l), idxList rowIdx', idxList colIdx⟩ := by
    simp [SubObj.value, hr, hc]
  have hi := submatrix_matvecImpl ⟨P, (k', l), idxList rowIdx', idxList colIdx⟩ A hA rowIdx' colIdx hcol rfl rfl x
  have hi' : SubState.matvecImpl ⟨P, (k, l), idxList rowIdx', idxList colIdx⟩ (.vec (List.ofFn x)) =
      .ok (.vec (List.ofFn (A.submatrix rowIdx' colIdx *ᵥ x))) := hi
  rw [hv]
  simp only [SciOp.dot, SciOp.matvec, SubState.toSci, List.length_ofFn, if_true, hi', NpVal.reshapeVec, NpVal.ravel,
    if_neg hk]

/-- C103 is violated, with numbers: the caller of a sub-matrix with rows `2, 0` of a 3 x 2 matrix overwrites the list of
rows with `1, 1`, which the constructor rejects. Products change; with three rows they raise `ValueError`; the numbers `-1, -3`
count from the end, and the number `3` raises `IndexError`. Only a call of `set_submatrix` rejects the lists. -/
theorem submatrix_lists_witness :
    let P : SciPair ℤ := ⟨denseSci !![1, 2; 3, 4; 5, 6], denseSci !![1, 3, 5; 2, 4, 6]⟩
    let s : SubSys ℤ := ⟨fun r => if r = 0 then [.int 2, .int 0] else [.int 1, .int 0], []⟩
    let product := fun ms => (s.run ms).objs[0]?.map fun o => (o.value (s.run ms).heap).toSci.dot (.vec [10, 1])
    product [.create P 0 1] = some (.ok (.vec [65, 21])) ∧
    product [.create P 0 1, .change 0 [.int 1, .int 1]] = some (.ok (.vec [43, 43])) ∧
    product [.create P 0 1, .change 0 [.int 1, .int 2, .int 0]] = some (.error .valueError) ∧
    product [.create P 0 1, .change 0 [.int (-1), .int (-3)]] = some (.ok (.vec [65, 21])) ∧
    product [.create P 0 1, .change 0 [.int 0, .int 3]] = some (.error .indexError) ∧
    product [.change 0 [.int 1, .int 1], .create P 0 1] = none := by
  refine ⟨?_, ?_, ?_, ?_, ?_, ?_⟩ <;> decide

/-- Non-vacuity of the part that holds: adjoint, another sub-matrix and a list of somebody else do not matter. -/
example :
    let P : SciPair ℤ := ⟨denseSci !![1, 2; 3, 4; 5, 6], denseSci !![1, 3, 5; 2, 4, 6]⟩
    let s : SubSys ℤ := ⟨fun r => if r = 0 then [.int 2, .int 0] else [.int 1, .int 0], []⟩
    let s' := s.run [.create P 0 1, .adjoint 0, .set 1 1 1, .change 2 [.int 0], .create P 2 2, .set 2 0 2]
    (s'.objs[0]?.map fun o => (o.value s'.heap).toSci.dot (.vec [10, 1])) = some (.ok (.vec [65, 21])) ∧
    (s'.objs[1]?.map fun o => (o.value s'.heap).toSci.dot (.vec [10, 1])) = some (.ok (.vec [42, 31])) ∧
    (s'.objs[2]?.map fun o => (o.value s'.heap).toSci.dot (.vec [10])) = some (.ok (.vec [50, 10])) := by
  refine ⟨?_, ?_, ?_⟩ <;> decide

/-- Duplicate indices are rejected, and the operator keeps its lists, also for later products. -/
example :
    let P : SciPair ℤ := ⟨denseSci !![1, 2; 3, 4; 5, 6], denseSci !![1, 3, 5; 2, 4, 6]⟩
    let s : SubSys ℤ := ⟨fun r => if r = 0 then [.int 2, .int 0] else if r = 1 then [.int 1, .int 0] else [.int 1, .int 1], []⟩
    let s' := s.run [.create P 0 1, .set 0 2 1, .change 2 [.int 0, .int 1]]
    (s'.objs[0]?.map fun o => (o.value s'.heap).toSci.dot (.vec [10, 1])) = some (.ok (.vec [65, 21])) := by
  decide

/-! ## Cached properties of KFAC -/

variable {Θ B G : Type}

theorem mapping_nonempty {w : KWorld Θ B G} {cfg : KfacCfg} (hg : w.Good cfg) : w.mapping.isEmpty = false := by
  unfold KWorld.mapping
  cases hl : w.layers with
  | nil => exact absurd hl hg.layers
  | cons => rfl

/-- The states that are reached from a new operator when the tensors that properties returned may have been changed:
`T`, `D`, `L`, `F` say which. -/
structure Loose (T D L F : Prop) (w : KWorld Θ B G) (s₀ s : KState Θ) : Prop where
  cfg : s.cfg = s₀.cfg
  inCov : s.inCov = (w.factors s₀).1
  gradCov : s.gradCov = (w.factors s₀).2
  hooks : s.hooks = 0
  trace : T ∨ s.trace = none ∨ s.trace = some (KState.traceLoop w (s₀.computed w)).1
  det : D ∨ s.det = none ∨ s.det = some (KState.detLoop w (s₀.computed w)).1
  logdet : L ∨ s.logdet = none ∨ s.logdet = some (KState.logdetLoop w (s₀.computed w)).1
  frob : F ∨ s.frob = none ∨ s.frob = some (KState.frobLoop w (s₀.computed w)).1

theorem Settled.loose {w : KWorld Θ B G} {s₀ s : KState Θ} (h : Settled w s₀ s) (T D L F : Prop) :
    Loose T D L F w s₀ s :=
  ⟨h.cfg, h.inCov, h.gradCov, h.hooks, .inr h.trace, .inr h.det, .inr h.logdet, .inr h.frob⟩

theorem Loose.ensure {T D L F : Prop} {w : KWorld Θ B G} {s₀ s : KState Θ} (hg : w.Good s₀.cfg)
    (h : Loose T D L F w s₀ s) (f : Fault) : ensureKfac w f s = (.ok (), s) := by
  unfold ensureKfac
  rw [h.gradCov, factors_nonempty w s₀ hg]
  simp

/-- Reading a property whose tensor may have been changed. -/
theorem readProperty_loose {γ : Type _} {T D L F : Prop} {w : KWorld Θ B G} {s₀ s : KState Θ} (hf : s₀.IsFresh)
    (hg : w.Good s₀.cfg) (h : Loose T D L F w s₀ s) (get : KState Θ → Option γ) (set : KState Θ → γ → KState Θ)
    (loop : KState Θ → γ × Option PyErr) (h0 : get s₀ = none) (hc : (loop (s₀.computed w)).2 = none)
    (hloop : loop s = loop (s₀.computed w)) :
    ((get s = none ∨ get s = some (loop (s₀.computed w)).1) →
      (readProperty w get set loop none s).1 = (readProperty w get set loop none s₀).1) ∧
    ((readProperty w get set loop none s).2 = s ∨
      (readProperty w get set loop none s).2 = set s (loop (s₀.computed w)).1) := by
  have e0 : readProperty w get set loop none s₀ = (.ok (loop (s₀.computed w)).1,
      set (s₀.computed w) (loop (s₀.computed w)).1) := by
    unfold readProperty
    rw [h0]
    simp only [ensureKfac_fresh w s₀ hf]
    rcases hl : loop (s₀.computed w) with ⟨v, _ | e⟩
    · rfl
    · rw [hl] at hc
      cases hc
  rw [e0]
  unfold readProperty
  rcases hget : get s with _ | v
  · simp only [h.ensure hg, hloop]
    rcases hl : loop (s₀.computed w) with ⟨v, _ | e⟩
    · simp
    · rw [hl] at hc
      cases hc
  · refine ⟨fun h => ?_, Or.inl rfl⟩
    rcases h with h | h
    · cases h
    · rw [Option.some.inj h]

/-- Specification: the call whose result does not depend on a changed tensor. -/
def KCall.Untouched (T D L F : Prop) : KCall → Prop
  | .trace => ¬ T
  | .det => ¬ D
  | .logdet => ¬ L
  | .frobenius => ¬ F
  | _ => True

theorem kStep_loose {T D L F : Prop} {w : KWorld Θ B G} {s₀ s : KState Θ} (hf : s₀.IsFresh) (hg : w.Good s₀.cfg)
    (h : s = s₀ ∨ Loose T D L F w s₀ s) (c : KCall) :
    (c.Untouched T D L F → (kStep w s none c).1 = (kStep w s₀ none c).1) ∧
    ((kStep w s none c).2 = s₀ ∨ Loose T D L F w s₀ (kStep w s none c).2) := by
  obtain ⟨c1, c2, c3, c4⟩ := loops_complete w s₀ hg
  rcases h with rfl | h
  · refine ⟨fun _ => rfl, ?_⟩
    rcases (kStep_settled hf hg (Or.inl rfl) c).2 with h | h
    · exact Or.inl h
    · exact Or.inr (h.loose T D L F)
  · cases c with
    | matmat M =>
      simp only [kStep, wrap, KState.matmat, ensureKfac_fresh w s₀ hf, h.ensure hg]
      refine ⟨fun _ => ?_, Or.inr h⟩
      rw [h.cfg, h.inCov, h.gradCov]
      rfl
    | trace =>
      have hl : KState.traceLoop w s = KState.traceLoop w (s₀.computed w) := by
        unfold KState.traceLoop; rw [h.cfg, h.inCov, h.gradCov]; rfl
      obtain ⟨e1, e2⟩ := readProperty_loose hf hg h KState.trace (fun s v => { s with trace := some v }) _
        hf.trace c1 hl
      simp only [kStep, wrap, KState.readTrace]
      refine ⟨fun u => by rw [e1 (h.trace.resolve_left u)], Or.inr ?_⟩
      rcases e2 with e2 | e2 <;> rw [e2]
      · exact h
      · exact { h with trace := Or.inr (Or.inr rfl) }
    | det =>
      have hl : KState.detLoop w s = KState.detLoop w (s₀.computed w) := by
        unfold KState.detLoop; rw [h.cfg, h.inCov, h.gradCov]; rfl
      obtain ⟨e1, e2⟩ := readProperty_loose hf hg h KState.det (fun s v => { s with det := some v }) _
        hf.det c2 hl
      simp only [kStep, wrap, KState.readDet]
      refine ⟨fun u => by rw [e1 (h.det.resolve_left u)], Or.inr ?_⟩
      rcases e2 with e2 | e2 <;> rw [e2]
      · exact h
      · exact { h with det := Or.inr (Or.inr rfl) }
    | logdet =>
      have hl : KState.logdetLoop w s = KState.logdetLoop w (s₀.computed w) := by
        unfold KState.logdetLoop; rw [h.cfg, h.inCov, h.gradCov]; rfl
      obtain ⟨e1, e2⟩ := readProperty_loose hf hg h KState.logdet (fun s v => { s with logdet := some v }) _
        hf.logdet c3 hl
      simp only [kStep, wrap, KState.readLogdet]
      refine ⟨fun u => by rw [e1 (h.logdet.resolve_left u)], Or.inr ?_⟩
      rcases e2 with e2 | e2 <;> rw [e2]
      · exact h
      · exact { h with logdet := Or.inr (Or.inr rfl) }
    | frobenius =>
      have hl : KState.frobLoop w s = KState.frobLoop w (s₀.computed w) := by
        unfold KState.frobLoop; rw [h.cfg, h.inCov, h.gradCov]; rfl
      obtain ⟨e1, e2⟩ := readProperty_loose hf hg h KState.frob (fun s v => { s with frob := some v }) _
        hf.frob c4 hl
      simp only [kStep, wrap, KState.readFrob]
      refine ⟨fun u => by rw [e1 (h.frob.resolve_left u)], Or.inr ?_⟩
      rcases e2 with e2 | e2 <;> rw [e2]
      · exact h
      · exact { h with frob := Or.inr (Or.inr rfl) }
    | userForward b =>
      refine ⟨fun _ => rfl, Or.inr ?_⟩
      show Loose T D L F w s₀ (userForward w b s)
      rw [userForward_none w b s h.hooks]
      exact h

theorem overwrite_loose {T D L F : Prop} {w : KWorld Θ B G} {s₀ s : KState Θ} (hf : s₀.IsFresh)
    (h : s = s₀ ∨ Loose T D L F w s₀ s) (m : ShareMove) (hT : ∀ x, m = .overwriteTrace x → T)
    (hD : ∀ x, m = .overwriteDet x → D) (hL : ∀ x, m = .overwriteLogdet x → L) (hF : ∀ x, m = .overwriteFrob x → F) :
    s.overwrite w m = s₀ ∨ Loose T D L F w s₀ (s.overwrite w m) := by
  rcases h with rfl | h
  · left
    have h1 := hf.trace
    have h2 := hf.det
    have h3 := hf.logdet
    have h4 := hf.frob
    obtain ⟨model, cfg, seed, shape, progressbar, inCov, gradCov, trace, det, logdet, frob, hooks, traversals⟩ := s
    simp only at h1 h2 h3 h4
    subst h1 h2 h3 h4
    cases m <;> simp [KState.overwrite]
  · right
    cases m with
    | call c => exact h
    | overwriteTrace x =>
      simp only [KState.overwrite]
      split
      · exact h
      · exact { h with trace := Or.inl (hT x rfl) }
    | overwriteDet x =>
      simp only [KState.overwrite]
      split
      · exact h
      · exact { h with det := Or.inl (hD x rfl) }
    | overwriteLogdet x =>
      simp only [KState.overwrite]
      split
      · exact h
      · exact { h with logdet := Or.inl (hL x rfl) }
    | overwriteFrob x =>
      simp only [KState.overwrite]
      split
      · exact h
      · exact { h with frob := Or.inl (hF x rfl) }

/-- C103, the part that holds for KFAC: after any program that also changes returned traces, determinants and norms in
place, products (and uses of the model) return what they return on a new operator, and so do the properties whose
returned tensors were not changed. Missing for the full claim: the properties whose tensors were changed, see
`kfac_trace_shared`, `kfac_det_shared`, `kfac_logdet_shared`, `kfac_frobenius_shared`. -/
theorem kfac_shared_partial (w : KWorld Θ B G) (s₀ : KState Θ) (hf : s₀.IsFresh) (hg : w.Good s₀.cfg)
    (ms : List ShareMove) (c : KCall)
    (hc : c.Untouched (∃ x, .overwriteTrace x ∈ ms) (∃ x, .overwriteDet x ∈ ms) (∃ x, .overwriteLogdet x ∈ ms)
      (∃ x, .overwriteFrob x ∈ ms)) :
    (kStep w (shareRun w ms s₀).2 none c).1 = (kStep w s₀ none c).1 := by
  set T := ∃ x, ShareMove.overwriteTrace x ∈ ms with hT
  set D := ∃ x, ShareMove.overwriteDet x ∈ ms with hD
  set L := ∃ x, ShareMove.overwriteLogdet x ∈ ms with hL
  set F := ∃ x, ShareMove.overwriteFrob x ∈ ms with hF
  refine (kStep_loose hf hg ?_ c).1 hc
  have key : ∀ (ms' : List ShareMove), (∀ m ∈ ms', m ∈ ms) → ∀ s, (s = s₀ ∨ Loose T D L F w s₀ s) →
      ((shareRun w ms' s).2 = s₀ ∨ Loose T D L F w s₀ (shareRun w ms' s).2) := by
    intro ms'
    induction ms' with
    | nil => exact fun _ s hs => hs
    | cons m ms' ih =>
      intro hsub s hs
      have hm := hsub m (by simp)
      have ih' := ih fun m h => hsub m (by simp [h])
      have ho := overwrite_loose hf hs m (fun x h => ⟨x, h ▸ hm⟩) (fun x h => ⟨x, h ▸ hm⟩) (fun x h => ⟨x, h ▸ hm⟩)
        (fun x h => ⟨x, h ▸ hm⟩)
      cases m with
      | call c => exact ih' _ (kStep_loose hf hg hs c).2
      | overwriteTrace x => exact ih' _ ho
      | overwriteDet x => exact ih' _ ho
      | overwriteLogdet x => exact ih' _ ho
      | overwriteFrob x => exact ih' _ ho
  exact key ms (fun _ h => h) s₀ (Or.inl rfl)

theorem readProperty_ok {γ : Type _} (w : KWorld Θ B G) (get : KState Θ → Option γ) (set : KState Θ → γ → KState Θ)
    (hset : ∀ s v, get (set s v) = some v) (loop : KState Θ → γ × Option PyErr) (s : KState Θ) (v : γ)
    (h : (readProperty w get set loop none s).1 = .ok v) : get (readProperty w get set loop none s).2 = some v := by
  rcases hg : get s with _ | u
  · rcases he : ensureKfac w none s with ⟨_ | _, s'⟩
    · simp only [readProperty, hg, he] at h
      cases h
    · rcases hl : loop s' with ⟨u, _ | e⟩
      · simp only [readProperty, hg, he, hl] at h ⊢
        rw [← Except.ok.inj h]
        exact hset _ _
      · simp only [readProperty, hg, he, hl] at h
        cases h
  · simp only [readProperty, hg] at h ⊢
    rw [← Except.ok.inj h]

theorem wrap_ok {γ : Type _} (f : γ → KValue) (hf : Function.Injective f) (r : Py γ × KState Θ) (v : γ)
    (h : (wrap f r).1 = .ok (f v)) : r.1 = .ok v := by
  obtain ⟨_ | u, s⟩ := r
  · cases h
  · exact congrArg _ (hf (Except.ok.inj h))

/-- C103 is violated: changing the returned trace in place changes what `trace` returns afterwards, to anything. -/
theorem kfac_trace_shared (w : KWorld Θ B G) (hw : w.mapping.isEmpty = false) (s : KState Θ) (v x : ℝ)
    (h : (kStep w s none .trace).1 = .ok (.number v)) :
    (shareRun w [.call .trace, .overwriteTrace x, .call .trace] s).1 = [.ok (.number v), .ok (.number x)] := by
  have h1 : (KState.readTrace w none s).1 = .ok v := wrap_ok KValue.number (fun _ _ h => by injection h) _ v h
  have h2 : (KState.readTrace w none s).2.trace = some v :=
    readProperty_ok w KState.trace (fun s v => { s with trace := some v }) (fun _ _ => rfl) _ _ _ h1
  simp only [shareRun, kStep, KState.overwrite, hw]
  generalize KState.readTrace w none s = r at h1 h2 ⊢
  simp [wrap, h1, h2, KState.readTrace, readProperty]

/-- C103 is violated: changing the returned determinant in place changes what `det` returns afterwards, to anything. -/
theorem kfac_det_shared (w : KWorld Θ B G) (hw : w.mapping.isEmpty = false) (s : KState Θ) (v x : ℝ)
    (h : (kStep w s none .det).1 = .ok (.number v)) :
    (shareRun w [.call .det, .overwriteDet x, .call .det] s).1 = [.ok (.number v), .ok (.number x)] := by
  have h1 : (KState.readDet w none s).1 = .ok v := wrap_ok KValue.number (fun _ _ h => by injection h) _ v h
  have h2 : (KState.readDet w none s).2.det = some v :=
    readProperty_ok w KState.det (fun s v => { s with det := some v }) (fun _ _ => rfl) _ _ _ h1
  simp only [shareRun, kStep, KState.overwrite, hw]
  generalize KState.readDet w none s = r at h1 h2 ⊢
  simp [wrap, h1, h2, KState.readDet, readProperty]

/-- C103 is violated: changing the returned log determinant in place changes what `logdet` returns afterwards, to anything. -/
theorem kfac_logdet_shared (w : KWorld Θ B G) (hw : w.mapping.isEmpty = false) (s : KState Θ) (v x : FLog)
    (h : (kStep w s none .logdet).1 = .ok (.log v)) :
    (shareRun w [.call .logdet, .overwriteLogdet x, .call .logdet] s).1 = [.ok (.log v), .ok (.log x)] := by
  have h1 : (KState.readLogdet w none s).1 = .ok v := wrap_ok KValue.log (fun _ _ h => by injection h) _ v h
  have h2 : (KState.readLogdet w none s).2.logdet = some v :=
    readProperty_ok w KState.logdet (fun s v => { s with logdet := some v }) (fun _ _ => rfl) _ _ _ h1
  simp only [shareRun, kStep, KState.overwrite, hw]
  generalize KState.readLogdet w none s = r at h1 h2 ⊢
  simp [wrap, h1, h2, KState.readLogdet, readProperty]

/-- C103 is violated: changing the returned Frobenius norm in place changes what `frobenius_norm` returns afterwards, to anything. -/
theorem kfac_frobenius_shared (w : KWorld Θ B G) (hw : w.mapping.isEmpty = false) (s : KState Θ) (v x : ℝ)
    (h : (kStep w s none .frobenius).1 = .ok (.number v)) :
    (shareRun w [.call .frobenius, .overwriteFrob x, .call .frobenius] s).1 = [.ok (.number v), .ok (.number x)] := by
  have h1 : (KState.readFrob w none s).1 = .ok v := wrap_ok KValue.number (fun _ _ h => by injection h) _ v h
  have h2 : (KState.readFrob w none s).2.frob = some v :=
    readProperty_ok w KState.frob (fun s v => { s with frob := some v }) (fun _ _ => rfl) _ _ _ h1
  simp only [shareRun, kStep, KState.overwrite, hw]
  generalize KState.readFrob w none s = r at h1 h2 ⊢
  simp [wrap, h1, h2, KState.readFrob, readProperty]

/-- C103 is violated, with numbers: the trace of the operator is `2`; after the caller halved the returned tensor in place,
the operator reports `1`. -/
theorem kfac_shared_witness :
    (shareRun unitWorld [.call .trace, .overwriteTrace 1, .call .trace] unitState).1 =
      [.ok (.number 2), .ok (.number 1)] :=
  kfac_trace_shared unitWorld rfl unitState 2 1 (kfac_interrupted_witness .valueError).1

/-- Non-vacuity of the part that holds: after changes of the returned trace, the products and the determinant are those of
a new operator. -/
example (M : List (Tensor ℝ)) (x : ℝ) :
    (kStep unitWorld (shareRun unitWorld [.call .trace, .overwriteTrace x, .call .det] unitState).2 none (.matmat M)).1 =
      (kStep unitWorld unitState none (.matmat M)).1 ∧
    (kStep unitWorld (shareRun unitWorld [.call .trace, .overwriteTrace x, .call .det] unitState).2 none .det).1 =
      (kStep unitWorld unitState none .det).1 :=
  ⟨kfac_shared_partial unitWorld unitState unitState_fresh unitWorld_good _ _ trivial,
    kfac_shared_partial unitWorld unitState unitState_fresh unitWorld_good _ _ (by simp [KCall.Untouched])⟩

end Curvlinops
