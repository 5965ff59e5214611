import Verif.Model.Submatrix
import Verif.Spec.SciRep
import Mathlib.Data.List.OfFn
import Mathlib.LinearAlgebra.Matrix.Notation
import Mathlib.Tactic.Ring
import Mathlib.Tactic.FinCases
import Mathlib.Tactic.NormNum
import Mathlib.Data.Rat.Lemmas
import Mathlib.Algebra.BigOperators.Fin

/-!
# C50 – C53: sub-matrices and outer products
-/

namespace Curvlinops

open Matrix

variable {α : Type _}

/-! ## Lemmas on NumPy indexing -/

/-- The index list that selects the rows `f 0, f 1, ...`. -/
def idxList {k n : Nat} (f : Fin k → Fin n) : List PyIdx := List.ofFn fun i => PyIdx.int ((f i : Nat) : Int)

theorem position_int {n p : Nat} (h : p < n) : (PyIdx.int (p : Int)).position n = .ok p := by
  simp [PyIdx.position, PyIdx.value, h]

theorem isMask_idxList {k n : Nat} (f : Fin k → Fin n) : isMask (idxList f) = false := by
  cases k with
  | zero => rfl
  | succ k => simp [isMask, idxList, List.ofFn_succ]

theorem npIndex_idxList {k n : Nat} (f : Fin k → Fin n) (m : Nat) : npIndex m (idxList f) = .ok (idxList f) := by
  simp [npIndex, isMask_idxList]

theorem npAssign_idxList {k n : Nat} (f : Fin k → Fin n) (v x : List α) :
    npAssign v (idxList f) (.vec x) = npScatter v (idxList f) x := by
  unfold npAssign
  rw [npIndex_idxList]
  rcases x with _ | ⟨x, _ | ⟨y, xs⟩⟩ <;> simp [isMask_idxList]

theorem pyMapM_ok {β γ : Type _} {f : β → Py γ} {g : β → γ} :
    ∀ l : List β, (∀ b ∈ l, f b = .ok (g b)) → pyMapM f l = .ok (l.map g)
  | [], _ => rfl
  | b :: l, h => by
    rw [pyMapM, h b (by simp), pyMapM_ok l fun c hc => h c (by simp [hc])]
    rfl

theorem npGather_ofFn {k n : Nat} (f : Fin k → Fin n) (y : Fin n → α) :
    npGather (List.ofFn y) (idxList f) = .ok (List.ofFn fun i => y (f i)) := by
  unfold npGather
  rw [npIndex_idxList]
  simp only
  unfold idxList
  induction k with
  | zero => rfl
  | succ k ih =>
    rw [List.ofFn_succ, pyMapM]
    have h := (f 0).isLt
    rw [ih fun i => f i.succ, List.length_ofFn, position_int h]
    simp only [List.getElem?_ofFn, h, dite_true]
    rw [List.ofFn_succ]

theorem npScatter_spec {k n : Nat} (f : Fin k → Fin n) (hf : Function.Injective f) (x : Fin k → α)
    (a : List α) (ha : a.length = n) :
    ∃ v : Fin n → α, npScatter a (idxList f) (List.ofFn x) = .ok (List.ofFn v) ∧
      (∀ i, v (f i) = x i) ∧ ∀ c : Fin n, (∀ i, f i ≠ c) → v c = a[c] := by
  induction k generalizing a with
  | zero =>
    refine ⟨fun c => a[c], ?_, fun i => i.elim0, fun c _ => rfl⟩
    subst ha
    simp only [idxList, List.ofFn_zero, npScatter]
    congr 1
    exact (List.ofFn_getElem (xs := a)).symm
  | succ k ih =>
    have h := (f 0).isLt
    obtain ⟨v, h1, h2, h3⟩ := ih (fun i => f i.succ) (fun i j hij => Fin.succ_injective _ (hf hij))
      (fun i => x i.succ) (a.set (f 0) (x 0)) (by simpa using ha)
    refine ⟨v, ?_, ?_, ?_⟩
    · unfold idxList at h1 ⊢
      rw [List.ofFn_succ, List.ofFn_succ (f := x), npScatter, ha, position_int h]
      exact h1
    · intro i
      refine Fin.cases ?_ (fun i => h2 i) i
      rw [h3 (f 0) fun i hi => Fin.succ_ne_zero i (hf hi)]
      simp
    · intro c hc
      rw [h3 c fun i => hc i.succ]
      have : (f 0 : Nat) ≠ c := fun hh => hc 0 (Fin.ext hh)
      simp [this]

/-! ## C50 -/

theorem dot_vec_of_impl {L : SciOp α} {x y : List α} (hx : x.length = L.cols) (hy : y.length = L.rows)
    (h : L.matvecImpl (.vec x) = .ok (.vec y)) : L.dot (.vec x) = .ok (.vec y) := by
  simp [SciOp.dot, SciOp.matvec, hx, h, NpVal.reshapeVec, NpVal.ravel, hy]

theorem VecRep.mulVec [NonUnitalNonAssocSemiring α] {m n : Nat} {L : SciOp α}
    {A : Matrix (Fin m) (Fin n) α} (h : VecRep L A) (x : Fin n → α) :
    L.mulVec (List.ofFn x) = .ok (List.ofFn (A *ᵥ x)) := by
  simp [SciOp.mulVec, h.2.2 x, NpVal.ravel]

theorem submatrix_matvecImpl [NonUnitalNonAssocSemiring α] {m n k l : Nat} (s : SubState α)
    (A : Matrix (Fin m) (Fin n) α) (hA : VecRep s.A.op A) (rowIdx : Fin k → Fin m) (colIdx : Fin l → Fin n)
    (hcol : Function.Injective colIdx) (hr : s.rowIdxs = idxList rowIdx) (hc : s.colIdxs = idxList colIdx)
    (x : Fin l → α) :
    s.matvecImpl (.vec (List.ofFn x)) = .ok (.vec (List.ofFn (A.submatrix rowIdx colIdx *ᵥ x))) := by
  obtain ⟨v, h1, h2, h3⟩ := npScatter_spec colIdx hcol x (List.replicate n (0 : α)) (by simp)
  have hv : ∀ c, (∀ i, colIdx i ≠ c) → v c = 0 := fun c hc => by rw [h3 c hc]; simp
  unfold SubState.matvecImpl
  rw [hA.2.1, hc, npAssign_idxList, h1]
  simp only [hA.mulVec, hr, npGather_ofFn]
  congr 4
  funext i
  simp only [Matrix.mulVec, dotProduct, Matrix.submatrix_apply]
  have : ∑ j, A (rowIdx i) (colIdx j) * x j =
      ∑ c ∈ Finset.univ.image colIdx, A (rowIdx i) c * v c := by
    rw [Finset.sum_image fun a _ b _ hab => hcol hab]
    simp [h2]
  rw [this]
  symm
  refine Finset.sum_subset (Finset.subset_univ _) fun c _ hcc => ?_
  rw [hv c fun j hj => hcc (Finset.mem_image.mpr ⟨j, Finset.mem_univ j, hj⟩), mul_zero]

/-- `checkIdxs` accepts exactly lists of distinct positions. -/
theorem checkIdxs_idxList {k n : Nat} (f : Fin k → Fin n) (hf : Function.Injective f) :
    checkIdxs n (idxList f) = .ok k := by
  have hnd : ((idxList f).map PyIdx.value).Nodup := by
    rw [idxList, List.map_ofFn, List.nodup_ofFn]
    intro i j hij
    simp only [Function.comp_apply, PyIdx.value, Nat.cast_inj] at hij
    exact hf (Fin.ext hij)
  unfold checkIdxs
  rw [if_neg, if_neg, if_neg]
  · simp [idxList]
  · simp only [idxList, List.any_eq_true, not_exists, List.mem_ofFn]
    rintro _ ⟨⟨i, rfl⟩, h⟩
    have := (f i).isLt
    have h' : ((f i : Nat) : Int) < 0 ∨ (n : Int) ≤ ((f i : Nat) : Int) := by
      rcases Bool.or_eq_true _ _ ▸ h with h | h
      · exact Or.inl (of_decide_eq_true h)
      · exact Or.inr (of_decide_eq_true h)
    omega
  · rw [hnd.dedup]; simp
  · simp only [idxList, List.any_eq_true, not_exists, List.mem_ofFn]
    rintro _ ⟨⟨i, rfl⟩, h⟩
    simp [PyIdx.isInt] at h

/-- Specification: the element stands for the index `p`, as integer or as Boolean. -/
def PyIdx.IsIndex (x : PyIdx) (p : Nat) : Prop :=
  x = .int p ∨ (x = .bool false ∧ p = 0) ∨ (x = .bool true ∧ p = 1)

/-- Specification: a list of distinct integers in `0, ..., n - 1`, where Booleans count as the integers 0 and 1. -/
def ValidIdx (n : Nat) (idxs : List PyIdx) : Prop :=
  ∃ f : Fin idxs.length → Fin n, Function.Injective f ∧ ∀ i : Fin idxs.length, PyIdx.IsIndex idxs[i] (f i)

theorem validIdx_idxList {k n : Nat} (f : Fin k → Fin n) (hf : Function.Injective f) : ValidIdx n (idxList f) := by
  have hl : (idxList f).length = k := by simp [idxList]
  refine ⟨fun i => f (Fin.cast hl i), fun i j h => Fin.cast_injective hl (hf h), fun i => Or.inl ?_⟩
  exact List.getElem_ofFn _

theorem mkSubmatrix_ok {m n k l : Nat} (P : SciPair α) (hm : P.op.rows = m) (hn : P.op.cols = n)
    (rowIdx : Fin k → Fin m) (colIdx : Fin l → Fin n) (hrow : Function.Injective rowIdx)
    (hcol : Function.Injective colIdx) :
    mkSubmatrix P (idxList rowIdx) (idxList colIdx) =
      .ok ⟨P, (k, l), idxList rowIdx, idxList colIdx⟩ := by
  simp [mkSubmatrix, SubState.setSubmatrix, hm, hn, checkIdxs_idxList _ hrow, checkIdxs_idxList _ hcol]

theorem columnStack_ofFn {k K : Nat} (hK : 0 < K) (y : Fin K → Fin k → α) :
    columnStack (List.ofFn fun j => List.ofFn (y j)) =
      .ok (.mat k (List.ofFn fun j => List.ofFn (y j))) := by
  obtain ⟨K, rfl⟩ : ∃ K', K = K' + 1 := ⟨K - 1, by omega⟩
  rw [List.ofFn_succ, columnStack, if_pos]
  · simp
  · rw [List.all_eq_true]
    intro l hl
    obtain ⟨i, rfl⟩ := List.mem_ofFn.mp hl
    simp

theorem submatrix_vecRep [NonUnitalNonAssocSemiring α] {m n k l : Nat} (P : SciPair α)
    (A : Matrix (Fin m) (Fin n) α) (hA : VecRep P.op A) (rowIdx : Fin k → Fin m) (colIdx : Fin l → Fin n)
    (hcol : Function.Injective colIdx) :
    VecRep (SubState.toSci ⟨P, (k, l), idxList rowIdx, idxList colIdx⟩) (A.submatrix rowIdx colIdx) := by
  refine ⟨rfl, rfl, fun x => dot_vec_of_impl (by simp [SubState.toSci]) (by simp [SubState.toSci]) ?_⟩
  exact submatrix_matvecImpl ⟨P, (k, l), idxList rowIdx, idxList colIdx⟩ A hA rowIdx colIdx hcol rfl rfl x

/-- C50, the part that holds: for all distinct in-bounds row and column indices in any order, the sub-matrix
operator can be constructed and multiplies with the dense sub-matrix on all vectors and on all matrices with at
least two columns. Missing for the full claim: matrices with a single column, see `submatrix_single_column`,
and without columns, see `submatrix_no_columns`. -/
theorem submatrix_dense_partial [NonUnitalNonAssocSemiring α] {m n k l : Nat} (P : SciPair α)
    (A : Matrix (Fin m) (Fin n) α) (hA : VecRep P.op A) (rowIdx : Fin k → Fin m) (colIdx : Fin l → Fin n)
    (hrow : Function.Injective rowIdx) (hcol : Function.Injective colIdx) :
    ∃ s, mkSubmatrix P (idxList rowIdx) (idxList colIdx) = .ok s ∧
      VecRep s.toSci (A.submatrix rowIdx colIdx) ∧
      ∀ K, 2 ≤ K → MatRepAt s.toSci (A.submatrix rowIdx colIdx) K := by
  refine ⟨_, mkSubmatrix_ok P hA.1 hA.2.1 rowIdx colIdx hrow hcol,
    submatrix_vecRep P A hA rowIdx colIdx hcol, ?_⟩
  intro K hK X
  have hv := submatrix_vecRep P A hA rowIdx colIdx hcol
  obtain ⟨K, rfl⟩ : ∃ K', K = K' + 2 := ⟨K - 2, by omega⟩
  rw [show (List.ofFn fun k => List.ofFn fun i => X i k) = (List.ofFn fun i => X i 0) ::
    (List.ofFn fun i => X i 1) :: List.ofFn fun k : Fin K => List.ofFn fun i => X i k.succ.succ by
      rw [List.ofFn_succ, List.ofFn_succ]; rfl]
  rw [SciOp.dot]
  · rw [show ((List.ofFn fun i => X i 0) :: (List.ofFn fun i => X i 1) ::
        List.ofFn fun k : Fin K => List.ofFn fun i => X i k.succ.succ) =
        (List.ofFn fun k => List.ofFn fun i => X i k) by rw [List.ofFn_succ, List.ofFn_succ]; rfl]
    simp only [SciOp.matmat, SubState.toSci, if_true]
    have hmap : pyMapM (SciOp.mulVec ⟨k, l,
        SubState.matvecImpl ⟨P, (k, l), idxList rowIdx, idxList colIdx⟩,
        fun _ _ => .error .notImplementedError⟩) (List.ofFn fun j => List.ofFn fun i => X i j) =
        .ok (List.ofFn fun j => List.ofFn (A.submatrix rowIdx colIdx *ᵥ fun i => X i j)) := by
      have aux : ∀ (K : Nat) (Y : Fin K → Fin l → α), pyMapM (SciOp.mulVec ⟨k, l,
          SubState.matvecImpl ⟨P, (k, l), idxList rowIdx, idxList colIdx⟩,
          fun _ _ => .error .notImplementedError⟩) (List.ofFn fun j => List.ofFn (Y j)) =
          .ok (List.ofFn fun j => List.ofFn (A.submatrix rowIdx colIdx *ᵥ Y j)) := by
        intro K
        induction K with
        | zero => intro Y; rfl
        | succ K ih =>
          intro Y
          rw [List.ofFn_succ, pyMapM, ih fun j => Y j.succ, List.ofFn_succ]
          have := hv.2.2 (Y 0)
          have h2 : SciOp.mulVec ⟨k, l,
              SubState.matvecImpl ⟨P, (k, l), idxList rowIdx, idxList colIdx⟩,
              fun _ _ => .error .notImplementedError⟩ (List.ofFn (Y 0)) =
              .ok (List.ofFn (A.submatrix rowIdx colIdx *ᵥ Y 0)) := by
            have h3 : SciOp.dot ⟨k, l,
              SubState.matvecImpl ⟨P, (k, l), idxList rowIdx, idxList colIdx⟩,
              fun _ _ => .error .notImplementedError⟩ (.vec (List.ofFn (Y 0))) =
              .ok (.vec (List.ofFn (A.submatrix rowIdx colIdx *ᵥ Y 0))) := this
            rw [SciOp.mulVec, h3]; rfl
          rw [h2]
      exact aux (K + 2) fun j i => X i j
    rw [hmap]
    exact columnStack_ofFn (by omega) fun j => A.submatrix rowIdx colIdx *ᵥ fun i => X i j
  · simp

/-- C50 is violated: a matrix with a single column and at least two rows raises `ValueError` (SciPy passes it
to `_matvec` with shape `(n, 1)`, which cannot be assigned to a 1d selection; lists of Booleans may raise `IndexError` instead). -/
theorem submatrix_single_column [NonUnitalNonAssocSemiring α] (s : SubState α) (c : List α)
    (hl : 2 ≤ s.shape.2) :
    (isMask s.colIdxs = false → s.toSci.dot (.mat s.shape.2 [c]) = .error .valueError) ∧
      ∃ e, s.toSci.dot (.mat s.shape.2 [c]) = .error e := by
  constructor
  · intro hm
    simp [SciOp.dot, SciOp.matvec, SubState.toSci, SubState.matvecImpl, npAssign, npIndex, hm,
      show s.shape.2 ≠ 1 by omega]
  · have : ∃ e, npAssign (List.replicate s.A.op.cols 0) s.colIdxs (.mat s.shape.2 [c]) = .error e := by
      unfold npAssign
      rcases npIndex _ s.colIdxs with e | js
      · exact ⟨e, rfl⟩
      · exact ⟨.valueError, if_neg (by omega)⟩
    obtain ⟨e, he⟩ := this
    exact ⟨e, by simp [SciOp.dot, SciOp.matvec, SubState.toSci, SubState.matvecImpl, he]⟩

/-- C50 is violated: a matrix without columns raises `ValueError`. -/
theorem submatrix_no_columns [NonUnitalNonAssocSemiring α] (s : SubState α) :
    s.toSci.dot (.mat s.shape.2 []) = .error .valueError := by
  simp [SciOp.dot, SciOp.matmat, SubState.toSci, pyMapM, columnStack]

/-- A dense matrix as SciPy operator, for the examples. -/
def denseSci [NonUnitalNonAssocSemiring α] {m n : Nat} (A : Matrix (Fin m) (Fin n) α) : SciOp α where
  rows := m
  cols := n
  matvecImpl
    | .vec v => .ok (.vec (List.ofFn (A *ᵥ fun i => v.getD i 0)))
    | .mat _ _ => .error .valueError
  matmatImpl _ _ := .error .valueError

theorem denseSci_vecRep [NonUnitalNonAssocSemiring α] {m n : Nat} (A : Matrix (Fin m) (Fin n) α) :
    VecRep (denseSci A) A := by
  refine ⟨rfl, rfl, fun x => dot_vec_of_impl (by simp [denseSci]) (by simp [denseSci]) ?_⟩
  simp [denseSci]

/-- Non-vacuity: rows 2, 0 and columns 1, 0 of a 3 x 2 matrix; the expected values are computed. -/
example : ∃ s, mkSubmatrix (⟨denseSci !![1, 2; 3, 4; 5, 6], denseSci !![1, 3, 5; 2, 4, 6]⟩ : SciPair ℤ)
      [.int 2, .int 0] [.int 1, .int 0] = .ok s ∧
    s.toSci.dot (.vec [10, 1]) = .ok (.vec [65, 21]) ∧
    s.toSci.dot (.mat 2 [[10, 1], [0, 1]]) = .ok (.mat 2 [[65, 21], [5, 1]]) ∧
    s.toSci.dot (.mat 2 [[10, 1]]) = .error .valueError := by
  refine ⟨_, rfl, ?_, ?_, ?_⟩ <;> decide

/-! ## C51 -/

theorem checkIdxs_ok_iff (n : Nat) (idxs : List PyIdx) :
    checkIdxs n idxs = .ok idxs.length ↔ ValidIdx n idxs := by
  constructor
  · intro h
    unfold checkIdxs at h
    split at h
    · cases h
    rename_i h1
    split at h
    · cases h
    rename_i h2
    split at h
    · cases h
    rename_i h3
    have hnd : (idxs.map PyIdx.value).Nodup := by
      have h2' : (idxs.map PyIdx.value).length = (idxs.map PyIdx.value).dedup.length := by rw [List.length_map]; exact not_not.mp h2
      exact List.dedup_eq_self.mp ((List.dedup_sublist _).eq_of_length h2'.symm)
    have hin : ∀ x ∈ idxs, ∃ p : Fin n, x.IsIndex p ∧ x.value = p := by
      intro x hx
      have h3' : x.outOfBounds n = false := by
        have := h3
        simp only [List.any_eq_true, not_exists, not_and, Bool.not_eq_true] at this
        exact this x hx
      simp only [PyIdx.outOfBounds, Bool.or_eq_false_iff, decide_eq_false_iff_not, not_lt, not_le] at h3'
      rcases x with i | k | b
      · simp only [PyIdx.value] at h3'
        exact ⟨⟨i.toNat, by omega⟩, Or.inl (by simp; omega), by simp [PyIdx.value]; omega⟩
      · simp only [List.any_eq_true, not_exists, not_and, Bool.not_eq_true] at h1
        simpa [PyIdx.isInt] using h1 _ hx
      · cases b
        · exact ⟨⟨0, by simp [PyIdx.value] at h3'; omega⟩, Or.inr (Or.inl ⟨rfl, rfl⟩), rfl⟩
        · exact ⟨⟨1, by simp [PyIdx.value] at h3'; omega⟩, Or.inr (Or.inr ⟨rfl, rfl⟩), rfl⟩
    choose p hp hp' using hin
    refine ⟨fun i => p idxs[i] (List.getElem_mem _), ?_, fun i => hp _ _⟩
    intro i j hij
    have e1 := hp' idxs[i] (List.getElem_mem _)
    have e2 := hp' idxs[j] (List.getElem_mem _)
    simp only at hij
    rw [hij, ← e2] at e1
    have e3 : (idxs.map PyIdx.value)[i.val]'(by simp) = (idxs.map PyIdx.value)[j.val]'(by simp) := by
      simpa using e1
    exact Fin.ext ((List.Nodup.getElem_inj_iff hnd).mp e3)
  · rintro ⟨f, hf, he⟩
    have hval : ∀ i : Fin idxs.length, (idxs[i]).value = f i := by
      intro i
      rcases he i with h | ⟨h, h'⟩ | ⟨h, h'⟩ <;> rw [h] <;> simp [PyIdx.value]
      · omega
      · omega
    have hmap : idxs.map PyIdx.value = List.ofFn fun i => ((f i : Nat) : Int) := by
      refine List.ext_getElem (by simp) fun i h1 h2 => ?_
      simp only [List.getElem_map, List.getElem_ofFn]
      exact hval ⟨i, by simpa using h1⟩
    have hnd : (idxs.map PyIdx.value).Nodup := by
      rw [hmap, List.nodup_ofFn]
      intro i j hij
      exact hf (Fin.ext (by simpa using hij))
    unfold checkIdxs
    rw [if_neg, if_neg, if_neg]
    · simp only [List.any_eq_true, not_exists]
      rintro x ⟨hx, h⟩
      obtain ⟨i, hi, rfl⟩ := List.getElem_of_mem hx
      have := hval ⟨i, hi⟩
      have := (f ⟨i, hi⟩).isLt
      simp [PyIdx.outOfBounds] at h
      simp at *
      omega
    · rw [hnd.dedup]; simp
    · simp only [List.any_eq_true, not_exists]
      rintro x ⟨hx, h⟩
      obtain ⟨i, hi, rfl⟩ := List.getElem_of_mem hx
      rcases he ⟨i, hi⟩ with h' | ⟨h', -⟩ | ⟨h', -⟩ <;> simp at h' <;> rw [h'] at h <;> simp [PyIdx.isInt] at h

theorem checkIdxs_ok {n k : Nat} {idxs : List PyIdx} (h : checkIdxs n idxs = .ok k) : k = idxs.length := by
  unfold checkIdxs at h
  split at h
  · cases h
  split at h
  · cases h
  split at h
  · cases h
  · cases h
    rfl

theorem checkIdxs_error {n : Nat} {idxs : List PyIdx} {e : PyErr} (h : checkIdxs n idxs = .error e) :
    e = .valueError := by
  unfold checkIdxs at h
  split at h
  · cases h; rfl
  split at h
  · cases h; rfl
  split at h
  · cases h; rfl
  · cases h

/-- C51: redefinition raises `ValueError` exactly if one of the lists is not a list of distinct integers within
bounds, and no other exception. -/
theorem setSubmatrix_raises_iff (s : SubState α) (rowIdxs colIdxs : List PyIdx) :
    ((s.setSubmatrix rowIdxs colIdxs).1 = .error .valueError ↔
      ¬ (ValidIdx s.A.op.rows rowIdxs ∧ ValidIdx s.A.op.cols colIdxs)) ∧
    ((s.setSubmatrix rowIdxs colIdxs).1 = .ok () ↔
      ValidIdx s.A.op.rows rowIdxs ∧ ValidIdx s.A.op.cols colIdxs) := by
  rw [← checkIdxs_ok_iff, ← checkIdxs_ok_iff]
  unfold SubState.setSubmatrix
  rcases h1 : checkIdxs s.A.op.rows rowIdxs with e | k
  · cases checkIdxs_error h1
    simp
  rcases h2 : checkIdxs s.A.op.cols colIdxs with e | l
  · cases checkIdxs_error h2
    simp
  simp [checkIdxs_ok h1, checkIdxs_ok h2]

/-- C51: creation raises `ValueError` exactly for invalid index lists. -/
theorem mkSubmatrix_raises_iff (P : SciPair α) (rowIdxs colIdxs : List PyIdx) :
    mkSubmatrix P rowIdxs colIdxs = .error .valueError ↔
      ¬ (ValidIdx P.op.rows rowIdxs ∧ ValidIdx P.op.cols colIdxs) := by
  have h := setSubmatrix_raises_iff (SubState.mk P (0, 0) [] []) rowIdxs colIdxs
  rw [← h.1]
  unfold mkSubmatrix
  rcases (SubState.mk P (0, 0) [] []).setSubmatrix rowIdxs colIdxs with ⟨_ | _, s⟩ <;> simp

/-- Any sequence of redefinitions; exceptions are caught by the caller. -/
def runSets (s : SubState α) (reqs : List (List PyIdx × List PyIdx)) : SubState α :=
  reqs.foldl (fun s r => (s.setSubmatrix r.1 r.2).2) s

open Classical in
/-- Specification: the last valid request, or the initial one. -/
noncomputable def lastValid (m n : Nat) (init : List PyIdx × List PyIdx)
    (reqs : List (List PyIdx × List PyIdx)) : List PyIdx × List PyIdx :=
  ((reqs.filter fun r => decide (ValidIdx m r.1 ∧ ValidIdx n r.2)).getLast?).getD init

theorem setSubmatrix_state (s : SubState α) (r c : List PyIdx) :
    ((ValidIdx s.A.op.rows r ∧ ValidIdx s.A.op.cols c) →
      (s.setSubmatrix r c).2 = ⟨s.A, (r.length, c.length), r, c⟩) ∧
    (¬ (ValidIdx s.A.op.rows r ∧ ValidIdx s.A.op.cols c) → (s.setSubmatrix r c).2 = s) := by
  constructor
  · rintro ⟨h1, h2⟩
    rw [← checkIdxs_ok_iff] at h1 h2
    simp only [SubState.setSubmatrix, h1, h2]
  · intro h
    rw [← checkIdxs_ok_iff, ← checkIdxs_ok_iff] at h
    unfold SubState.setSubmatrix
    rcases h1 : checkIdxs s.A.op.rows r with e | k
    · rfl
    rcases h2 : checkIdxs s.A.op.cols c with e | l
    · rfl
    exact absurd ⟨checkIdxs_ok h1 ▸ h1, checkIdxs_ok h2 ▸ h2⟩ h

/-- C51: after any sequence of redefinitions, some of which fail, the operator has exactly the indices and the
shape of the last valid one. -/
theorem runSets_lastValid (s : SubState α) (hs : s.shape = (s.rowIdxs.length, s.colIdxs.length))
    (reqs : List (List PyIdx × List PyIdx)) :
    ((runSets s reqs).rowIdxs, (runSets s reqs).colIdxs) =
      lastValid s.A.op.rows s.A.op.cols (s.rowIdxs, s.colIdxs) reqs ∧
    (runSets s reqs).shape = ((runSets s reqs).rowIdxs.length, (runSets s reqs).colIdxs.length) ∧
    (runSets s reqs).A = s.A := by
  induction reqs generalizing s with
  | nil => exact ⟨rfl, hs, rfl⟩
  | cons r reqs ih =>
    have hst := setSubmatrix_state s r.1 r.2
    rw [show runSets s (r :: reqs) = runSets (s.setSubmatrix r.1 r.2).2 reqs from rfl]
    by_cases hv : ValidIdx s.A.op.rows r.1 ∧ ValidIdx s.A.op.cols r.2
    · rw [hst.1 hv]
      obtain ⟨h1, h2, h3⟩ := ih ⟨s.A, (r.1.length, r.2.length), r.1, r.2⟩ rfl
      refine ⟨?_, h2, h3⟩
      rw [h1]
      unfold lastValid
      rw [List.filter_cons_of_pos (by simpa using hv), List.getLast?_cons]
      simp
    · rw [hst.2 hv]
      obtain ⟨h1, h2, h3⟩ := ih s hs
      refine ⟨?_, h2, h3⟩
      rw [h1]
      unfold lastValid
      rw [List.filter_cons_of_neg (by simpa using hv)]

/-- Non-vacuity: the second request fails (duplicate), the third too (out of bounds); the first counts. -/
example : (runSets (⟨⟨denseSci !![1, 2; 3, 4], denseSci !![1, 3; 2, 4]⟩, (0, 0), [], []⟩ : SubState ℤ)
    [([.int 1], [.int 1, .int 0]), ([.int 0, .int 0], [.int 1]), ([.int 0], [.int 2])]).shape = (1, 2) := by
  decide

/-! ## C52 -/

/-- C52: the adjoint of a sub-matrix exists, multiplies with the transposed dense sub-matrix on vectors, and its
adjoint is the original operator. -/
theorem submatrix_adjoint [NonUnitalNonAssocSemiring α] {m n k l : Nat} (P : SciPair α)
    (A : Matrix (Fin m) (Fin n) α) (hA : VecRep P.op A) (hAt : VecRep P.adj Aᵀ) (rowIdx : Fin k → Fin m)
    (colIdx : Fin l → Fin n) (hrow : Function.Injective rowIdx) (hcol : Function.Injective colIdx)
    (s : SubState α) (hs : mkSubmatrix P (idxList rowIdx) (idxList colIdx) = .ok s) :
    ∃ t, s.adjoint = .ok t ∧ VecRep t.toSci (A.submatrix rowIdx colIdx)ᵀ ∧ t.adjoint = .ok s := by
  rw [mkSubmatrix_ok P hA.1 hA.2.1 rowIdx colIdx hrow hcol] at hs
  cases hs
  refine ⟨_, mkSubmatrix_ok ⟨P.adj, P.op⟩ hAt.1 hAt.2.1 colIdx rowIdx hcol hrow, ?_, ?_⟩
  · rw [Matrix.transpose_submatrix]
    exact submatrix_vecRep ⟨P.adj, P.op⟩ Aᵀ hAt colIdx rowIdx hrow
  · exact mkSubmatrix_ok P hA.1 hA.2.1 rowIdx colIdx hrow hcol

/-- C52: a sub-matrix of a sub-matrix is the sub-matrix with composed indices. -/
theorem submatrix_nested [NonUnitalNonAssocSemiring α] {m n k l k' l' : Nat} (P : SciPair α)
    (A : Matrix (Fin m) (Fin n) α) (hA : VecRep P.op A) (hAt : VecRep P.adj Aᵀ) (r : Fin k → Fin m)
    (c : Fin l → Fin n) (r' : Fin k' → Fin k) (c' : Fin l' → Fin l) (hr : Function.Injective r)
    (hc : Function.Injective c) (hr' : Function.Injective r') (hc' : Function.Injective c') :
    ∃ s Q t, mkSubmatrix P (idxList r) (idxList c) = .ok s ∧ s.toPair = .ok Q ∧
      mkSubmatrix Q (idxList r') (idxList c') = .ok t ∧
      VecRep t.toSci (A.submatrix (r ∘ r') (c ∘ c')) ∧
      ∃ u, mkSubmatrix P (idxList (r ∘ r')) (idxList (c ∘ c')) = .ok u ∧
        VecRep u.toSci (A.submatrix (r ∘ r') (c ∘ c')) := by
  have h1 := mkSubmatrix_ok P hA.1 hA.2.1 r c hr hc
  have hv := submatrix_vecRep P A hA r c hc
  obtain ⟨t', ht', -, -⟩ := submatrix_adjoint P A hA hAt r c hr hc _ h1
  refine ⟨_, _, _, h1, by rw [SubState.toPair, ht'], mkSubmatrix_ok _ hv.1 hv.2.1 r' c' hr' hc', ?_, _,
    mkSubmatrix_ok P hA.1 hA.2.1 _ _ (hr.comp hr') (hc.comp hc'),
    submatrix_vecRep P A hA _ _ (hc.comp hc')⟩
  have := submatrix_vecRep ⟨SubState.toSci ⟨P, (k, l), idxList r, idxList c⟩, t'.toSci⟩
    (A.submatrix r c) hv r' c' hc'
  rwa [Matrix.submatrix_submatrix] at this

/-- Non-vacuity of the hypotheses of C52. -/
example : ∃ t, (SubState.adjoint (⟨⟨denseSci !![1, 2; 3, 4; 5, 6], denseSci !![1, 3, 5; 2, 4, 6]⟩, (2, 1),
    [.int 2, .int 0], [.int 1]⟩ : SubState ℤ)) = .ok t ∧
    t.toSci.dot (.vec [1, 10]) = .ok (.vec [26]) := by
  refine ⟨_, rfl, ?_⟩
  decide

/-! ## C53 -/

/-- Specification: `∑ⱼ cⱼ aⱼ aⱼᵀ` for the columns `aⱼ` of `A`. -/
def outerMatrix [CommSemiring α] {d k : Nat} (c : Fin k → α) (A : Matrix (Fin d) (Fin k) α) :
    Matrix (Fin d) (Fin d) α :=
  ∑ j, c j • Matrix.vecMulVec (fun i => A i j) (fun i => A i j)

theorem npDot_ofFn [NonUnitalNonAssocSemiring α] {n : Nat} (u v : Fin n → α) :
    npDot (List.ofFn u) (List.ofFn v) = u ⬝ᵥ v := by
  have : List.zipWith (· * ·) (List.ofFn u) (List.ofFn v) = List.ofFn fun i => u i * v i := by
    refine List.ext_getElem (by simp) fun i h1 h2 => ?_
    simp
  rw [npDot, this, List.sum_ofFn]
  rfl

/-- The operator object for coefficients `c` and matrix `A`. -/
def outerState {d k : Nat} (c : Fin k → α) (A : Matrix (Fin d) (Fin k) α) : OuterState α :=
  ⟨d, List.ofFn c, List.ofFn fun j => List.ofFn fun i => A i j⟩

theorem npStretch_length {β : Type _} (l : List β) : npStretch l.length l = l := by
  rcases l with _ | ⟨x, _ | ⟨y, l⟩⟩ <;> rfl

theorem npStretch_of_length {β : Type _} {k : Nat} {l : List β} (h : l.length = k) : npStretch k l = l := by
  subst h
  exact npStretch_length l

theorem npStretch_single {β : Type _} (k : Nat) (x : β) : npStretch k [x] = List.replicate k x := rfl

theorem outerState_stretch {d k : Nat} (c : Fin k → α) (A : Matrix (Fin d) (Fin k) α) :
    npStretch (outerState c A).rank (outerState c A).c = (outerState c A).c ∧
      npStretch (outerState c A).rank (outerState c A).cols = (outerState c A).cols := by
  have h1 : (outerState c A).rank = (outerState c A).c.length := by
    simp only [OuterState.rank, outerState, List.length_ofFn]
    split <;> simp_all
  have h2 : (outerState c A).rank = (outerState c A).cols.length := by
    rw [h1]
    simp [outerState]
  exact ⟨by rw [h1, npStretch_length], by rw [h2, npStretch_length]⟩

/-- C53: construction raises `ValueError` exactly if the numbers of coefficients and columns are different and none of them
is one. -/
theorem mkOuter_raises_iff {d k l : Nat} (c : Fin k → α) (A : Matrix (Fin d) (Fin l) α) :
    mkOuter d (List.ofFn c) (List.ofFn fun j => List.ofFn fun i => A i j) = .error .valueError ↔ k ≠ l ∧ k ≠ 1 ∧ l ≠ 1 := by
  unfold mkOuter
  simp only [List.length_ofFn]
  split <;> simp <;> tauto

/-- C53, the part that holds: `OuterProductLinearOperator(c, A)` multiplies vectors with `∑ cⱼ aⱼ aⱼᵀ`, and so does its adjoint, which
is right because the matrix is symmetric. Missing for the full claim: products with matrices, which raise, see
`outer_matrix_raises`. -/
theorem outer_vec_partial [CommSemiring α] {d k : Nat} (c : Fin k → α) (A : Matrix (Fin d) (Fin k) α) :
    VecRep (outerState c A).toSci (outerMatrix c A) ∧
    VecRep (outerState c A).adjoint.toSci (outerMatrix c A)ᵀ ∧ (outerMatrix c A)ᵀ = outerMatrix c A := by
  have hsym : (outerMatrix c A)ᵀ = outerMatrix c A := by
    ext i j
    simp only [outerMatrix, Matrix.transpose_apply, Matrix.sum_apply, Matrix.smul_apply,
      Matrix.vecMulVec_apply, smul_eq_mul]
    exact Finset.sum_congr rfl fun l _ => by ring
  have h : VecRep (outerState c A).toSci (outerMatrix c A) := by
    refine ⟨rfl, rfl, fun x => dot_vec_of_impl (by simp [OuterState.toSci, outerState])
      (by simp [OuterState.toSci, outerState]) ?_⟩
    simp only [OuterState.toSci, OuterState.matvecImpl, outerState_stretch]
    simp only [outerState]
    congr 2
    refine List.ext_getElem (by simp) fun i h1 h2 => ?_
    have hi : i < d := by simpa using h1
    simp only [List.getElem_map, List.getElem_range, List.getElem_ofFn]
    have : List.zipWith (fun cj a => a.getD i 0 * cj * npDot a (List.ofFn x)) (List.ofFn c)
        (List.ofFn fun j => List.ofFn fun i => A i j) =
        List.ofFn fun j => A ⟨i, hi⟩ j * c j * ((fun i => A i j) ⬝ᵥ x) := by
      refine List.ext_getElem (by simp) fun j h1 h2 => ?_
      simp [npDot_ofFn, hi]
    rw [this, List.sum_ofFn]
    simp only [outerMatrix, Matrix.mulVec, dotProduct, Matrix.sum_apply, Matrix.smul_apply,
      Matrix.vecMulVec_apply, smul_eq_mul, Finset.sum_mul, Finset.mul_sum]
    rw [Finset.sum_comm]
    exact Finset.sum_congr rfl fun _ _ => Finset.sum_congr rfl fun _ _ => by ring
  refine ⟨h, ?_, hsym⟩
  rw [hsym]
  exact h

/-- C53: a single coefficient is accepted for any number of columns and used for all of them; a single column is accepted for any
number of coefficients and used with all of them. -/
theorem outer_stretched [CommSemiring α] {d k : Nat} :
    (∀ (c : α) (A : Matrix (Fin d) (Fin k) α), ∃ s,
      mkOuter d [c] (List.ofFn fun j => List.ofFn fun i => A i j) = .ok s ∧ VecRep s.toSci (outerMatrix (fun _ => c) A)) ∧
    ∀ (c : Fin k → α) (a : Fin d → α), ∃ s,
      mkOuter d (List.ofFn c) [List.ofFn a] = .ok s ∧ VecRep s.toSci ((∑ j, c j) • Matrix.vecMulVec a a) := by
  constructor
  · intro c A
    refine ⟨_, if_pos (Or.inr (Or.inl rfl)), ?_⟩
    have h := (outer_vec_partial (fun _ => c) A).1
    convert h using 1
    have : OuterState.matvecImpl ⟨d, [c], List.ofFn fun j => List.ofFn fun i => A i j⟩ =
        (outerState (fun _ => c) A).matvecImpl := by
      funext x
      cases x with
      | mat => rfl
      | vec x =>
        simp only [OuterState.matvecImpl, outerState_stretch]
        have hr : OuterState.rank ⟨d, [c], List.ofFn fun j => List.ofFn fun i => A i j⟩ = k := by simp [OuterState.rank]
        rw [hr, npStretch_single, npStretch_of_length (by simp)]
        simp only [outerState, List.ofFn_const]
    simp only [OuterState.toSci, this]
    rfl
  · intro c a
    refine ⟨_, if_pos (Or.inr (Or.inr rfl)), ?_⟩
    have h := (outer_vec_partial c (Matrix.of fun i _ => a i)).1
    convert h using 1
    · have : OuterState.matvecImpl ⟨d, List.ofFn c, [List.ofFn a]⟩ =
          (outerState c (Matrix.of fun i _ => a i)).matvecImpl := by
        funext x
        cases x with
        | mat => rfl
        | vec x =>
          simp only [OuterState.matvecImpl, outerState_stretch]
          have hr : OuterState.rank ⟨d, List.ofFn c, [List.ofFn a]⟩ = k := by
            simp only [OuterState.rank, List.length_ofFn, List.length_cons, List.length_nil]
            split <;> omega
          rw [hr]
          rw [npStretch_single, npStretch_of_length (by simp)]
          simp only [outerState, Matrix.of_apply, List.ofFn_const]
      simp only [OuterState.toSci, this]
      rfl
    · ext i j
      simp [outerMatrix, Matrix.sum_apply, Matrix.vecMulVec_apply, Finset.sum_mul]

/-- Non-vacuity: three coefficients for two columns raise, one is used for both. -/
example : mkOuter 2 [(1 : ℤ), 2, 3] [[1, 0], [0, 1]] = .error .valueError ∧
    ((mkOuter 2 [(3 : ℤ)] [[1, 0], [0, 1]]).toOption.map fun s => s.toSci.dot (.vec [1, 2])) = some (.ok (.vec [3, 6])) ∧
    ((mkOuter 2 [(3 : ℤ), 4] [[1, 1]]).toOption.map fun s => s.toSci.dot (.vec [1, 2])) = some (.ok (.vec [21, 21])) := by
  refine ⟨?_, ?_, ?_⟩ <;> rfl

/-- `outerMatrix` in matrix notation. -/
theorem outerMatrix_one [CommSemiring α] {d k : Nat} (A : Matrix (Fin d) (Fin k) α) :
    outerMatrix (fun _ => 1) A = A * Aᵀ := by
  ext i j
  simp [outerMatrix, Matrix.sum_apply, Matrix.mul_apply, Matrix.vecMulVec_apply]

theorem mkProjector_eq [CommSemiring α] {d k : Nat} (A : Matrix (Fin d) (Fin k) α) :
    mkProjector d (List.ofFn fun j => List.ofFn fun i => A i j) = outerState (fun _ => 1) A := by
  simp [mkProjector, outerState, List.ofFn_const]

/-- C53: for orthonormal columns, `Projector(A)` multiplies with a matrix `P` that is idempotent, symmetric, fixes
the columns of `A` and annihilates vectors orthogonal to them. -/
theorem projector_spec [CommRing α] {d k : Nat} (A : Matrix (Fin d) (Fin k) α) (hA : Aᵀ * A = 1) :
    ∃ P : Matrix (Fin d) (Fin d) α,
      VecRep (mkProjector d (List.ofFn fun j => List.ofFn fun i => A i j)).toSci P ∧
      P * P = P ∧ Pᵀ = P ∧ (∀ j, P *ᵥ (fun i => A i j) = fun i => A i j) ∧
      ∀ x, (∀ j, (fun i => A i j) ⬝ᵥ x = 0) → P *ᵥ x = 0 := by
  refine ⟨outerMatrix (fun _ => 1) A, ?_, ?_, ?_, ?_, ?_⟩
  · rw [mkProjector_eq]; exact (outer_vec_partial _ A).1
  · rw [outerMatrix_one, Matrix.mul_assoc, ← Matrix.mul_assoc Aᵀ, hA, Matrix.one_mul]
  · exact (outer_vec_partial _ A).2.2
  · intro j
    have h : (A * Aᵀ) * A = A := by rw [Matrix.mul_assoc, hA, Matrix.mul_one]
    rw [outerMatrix_one]
    funext i
    exact congrFun (congrFun h i) j
  · intro x hx
    rw [outerMatrix_one, ← Matrix.mulVec_mulVec]
    have : Aᵀ *ᵥ x = 0 := funext fun j => hx j
    rw [this, Matrix.mulVec_zero]

/-- Products with matrices always raise `ValueError`: SciPy's default `_matmat` hands over columns of shape
`(d, 1)`, which do not fit the `einsum` equation. So C53 holds for vectors only. -/
theorem outer_matrix_raises [Semiring α] (s : OuterState α) (cs : List (List α)) :
    s.toSci.dot (.mat s.dim cs) = .error .valueError := by
  rcases cs with _ | ⟨c, _ | ⟨c', cs⟩⟩
  · simp [SciOp.dot, SciOp.matmat, OuterState.toSci, SciOp.defaultMatmat, pyMapM, columnStack]
  · simp [SciOp.dot, SciOp.matvec, OuterState.toSci, OuterState.matvecImpl]
  · simp [SciOp.dot, SciOp.matmat, OuterState.toSci, SciOp.defaultMatmat, pyMapM, SciOp.matvec,
      OuterState.matvecImpl]

/-- Non-vacuity: a rational orthonormal basis of a plane in three dimensions. -/
example : (!![3/5, 0; 4/5, 0; 0, 1] : Matrix (Fin 3) (Fin 2) ℚ)ᵀ *
    (!![3/5, 0; 4/5, 0; 0, 1] : Matrix (Fin 3) (Fin 2) ℚ) = 1 := by
  ext i j
  fin_cases i <;> fin_cases j <;> (simp [Matrix.mul_apply, Fin.sum_univ_three]; try norm_num)

/-- Row-major order of the entries of an array. -/
example : (NpVal.mat 2 [[(1 : Int), 2], [3, 4]]).ravel = [1, 3, 2, 4] := rfl

end Curvlinops
