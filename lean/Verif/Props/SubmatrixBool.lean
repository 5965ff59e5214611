import Verif.Props.Submatrix

/-!
# C50, C51: Booleans in the index lists of a sub-matrix

Booleans are instances of `int`, so `set_submatrix` accepts them. NumPy does not treat a list of Booleans as a list of integers.
-/

namespace Curvlinops

open _root_.Matrix

variable {α : Type _}

/-- Specification: the list has elements and all of them are Booleans. -/
def OnlyBools (idxs : List PyIdx) : Prop := idxs ≠ [] ∧ ∀ x ∈ idxs, ∃ b, x = .bool b

theorem isMask_iff (idxs : List PyIdx) : isMask idxs = true ↔ OnlyBools idxs := by
  unfold isMask OnlyBools
  rw [Bool.and_eq_true, Bool.not_eq_true', List.isEmpty_eq_false_iff, List.all_eq_true]
  refine and_congr_right fun _ => forall₂_congr fun x _ => ?_
  cases x <;> simp

theorem PyIdx.IsIndex.position {x : PyIdx} {p : Nat} (h : x.IsIndex p) (n : Nat) :
    x.position n = (PyIdx.int p).position n := by
  rcases h with rfl | ⟨rfl, rfl⟩ | ⟨rfl, rfl⟩ <;> rfl

/-- Two lists that select the same positions on every axis. -/
def SamePositions (r r' : List PyIdx) : Prop := List.Forall₂ (fun x y => ∀ n, x.position n = y.position n) r r'

theorem samePositions_idxList {n : Nat} {idxs : List PyIdx} (f : Fin idxs.length → Fin n)
    (hf : ∀ i : Fin idxs.length, PyIdx.IsIndex idxs[i] (f i)) : SamePositions idxs (idxList f) := by
  refine List.forall₂_iff_get.mpr ⟨by simp [idxList], fun i h1 h2 n => ?_⟩
  simp only [idxList, List.get_eq_getElem, List.getElem_ofFn]
  exact (hf ⟨i, h1⟩).position n

theorem npScatter_congr {r r' : List PyIdx} (h : SamePositions r r') :
    ∀ (v x : List α), npScatter v r x = npScatter v r' x := by
  induction h with
  | nil => exact fun v x => rfl
  | cons hx _ ih =>
    intro v x
    cases x with
    | nil => rfl
    | cons y ys =>
      rw [npScatter, npScatter, hx]
      split
      · rfl
      · exact ih _ _

theorem npGather_congr {r r' : List PyIdx} (h : SamePositions r r') (hr : isMask r = false) (hr' : isMask r' = false)
    (v : List α) : npGather v r = npGather v r' := by
  unfold npGather npIndex
  rw [hr, hr']
  simp only [Bool.false_eq_true, if_false]
  clear hr hr'
  induction h with
  | nil => rfl
  | cons hx _ ih => rw [pyMapM, pyMapM, hx, ih]

theorem npAssign_congr {r r' : List PyIdx} (h : SamePositions r r') (hr : isMask r = false) (hr' : isMask r' = false)
    (v : List α) (x : NpVal α) : npAssign v r x = npAssign v r' x := by
  unfold npAssign npIndex
  rw [hr, hr']
  simp only [Bool.false_eq_true, if_false]
  split <;> simp only [npScatter_congr h]

/-- C50, C51: Booleans beside at least one integer in the list are the integers 0 and 1. The operator is the same as for the
list of integers, on all arguments. -/
theorem submatrix_mixed [NonUnitalNonAssocSemiring α] {m n : Nat} (P : SciPair α) (hm : P.op.rows = m) (hn : P.op.cols = n)
    (r c : List PyIdx) (f : Fin r.length → Fin m) (g : Fin c.length → Fin n) (hf : Function.Injective f)
    (hg : Function.Injective g) (hrf : ∀ i : Fin r.length, PyIdx.IsIndex r[i] (f i))
    (hcg : ∀ i : Fin c.length, PyIdx.IsIndex c[i] (g i)) (hr : ¬ OnlyBools r) (hc : ¬ OnlyBools c) :
    ∃ s t, mkSubmatrix P r c = .ok s ∧ mkSubmatrix P (idxList f) (idxList g) = .ok t ∧ s.toSci = t.toSci := by
  subst hm hn
  have h1 := (checkIdxs_ok_iff _ _).mpr ⟨f, hf, hrf⟩
  have h2 := (checkIdxs_ok_iff _ _).mpr ⟨g, hg, hcg⟩
  have hr' : isMask r = false := by simpa using mt (isMask_iff r).mp hr
  have hc' : isMask c = false := by simpa using mt (isMask_iff c).mp hc
  refine ⟨⟨P, (r.length, c.length), r, c⟩, _, by simp [mkSubmatrix, SubState.setSubmatrix, h1, h2],
    mkSubmatrix_ok P rfl rfl f g hf hg, ?_⟩
  have : SubState.matvecImpl ⟨P, (r.length, c.length), r, c⟩ =
      SubState.matvecImpl ⟨P, (r.length, c.length), idxList f, idxList g⟩ := by
    funext x
    unfold SubState.matvecImpl
    simp only [npAssign_congr (samePositions_idxList g hcg) hc' (isMask_idxList g),
      npGather_congr (samePositions_idxList f hrf) hr' (isMask_idxList f)]
  unfold SubState.toSci
  simp only [this]

/-- C50 for index lists with Booleans, the part that holds: if the lists are empty or contain integers, the operator multiplies
with the dense sub-matrix. Missing for the full claim: lists of Booleans only, see `submatrix_false_column` and
`submatrix_bools_raise`. -/
theorem submatrix_bool_partial [NonUnitalNonAssocSemiring α] {m n : Nat} (P : SciPair α)
    (A : Matrix (Fin m) (Fin n) α) (hA : VecRep P.op A)
    (r c : List PyIdx) (f : Fin r.length → Fin m) (g : Fin c.length → Fin n) (hf : Function.Injective f)
    (hg : Function.Injective g) (hrf : ∀ i : Fin r.length, PyIdx.IsIndex r[i] (f i))
    (hcg : ∀ i : Fin c.length, PyIdx.IsIndex c[i] (g i)) (hr : ¬ OnlyBools r) (hc : ¬ OnlyBools c) :
    ∃ s, mkSubmatrix P r c = .ok s ∧ VecRep s.toSci (A.submatrix f g) ∧
      ∀ K, 2 ≤ K → MatRepAt s.toSci (A.submatrix f g) K := by
  obtain ⟨s, t, h1, h2, h3⟩ := submatrix_mixed P hA.1 hA.2.1 r c f g hf hg hrf hcg hr hc
  obtain ⟨t', h4, h5⟩ := submatrix_dense_partial P A hA f g hf hg
  rw [h2] at h4
  cases h4
  exact ⟨s, h1, h3 ▸ h5⟩

/-- The valid lists of Booleans. -/
theorem validIdx_onlyBools {n : Nat} {idxs : List PyIdx} (h : ValidIdx n idxs) (hb : OnlyBools idxs) :
    (idxs = [.bool false] ∧ 1 ≤ n) ∨
      (2 ≤ n ∧ (idxs = [.bool true] ∨ idxs = [.bool false, .bool true] ∨ idxs = [.bool true, .bool false])) := by
  obtain ⟨f, hf, hi⟩ := h
  have key : ∀ i : Fin idxs.length, (idxs[i] = .bool false ∧ (f i : Nat) = 0) ∨ (idxs[i] = .bool true ∧ (f i : Nat) = 1) := by
    intro i
    rcases hi i with h | h | h
    · obtain ⟨b, hb⟩ := hb.2 idxs[i] (List.getElem_mem _)
      rw [h] at hb
      cases hb
    · exact Or.inl h
    · exact Or.inr h
  rcases idxs with _ | ⟨x, _ | ⟨y, _ | ⟨z, idxs⟩⟩⟩
  · exact absurd rfl hb.1
  · have h0 := (f 0).isLt
    rcases key 0 with ⟨h, h'⟩ | ⟨h, h'⟩ <;> simp at h <;> subst h
    · exact Or.inl ⟨rfl, by omega⟩
    · exact Or.inr ⟨by omega, Or.inl rfl⟩
  · have h0 := (f 0).isLt
    have h1 := (f 1).isLt
    have hne : (f 0 : Nat) ≠ f 1 := fun h => absurd (hf (Fin.ext h)) (by simp)
    rcases key 0 with ⟨h, h'⟩ | ⟨h, h'⟩ <;> rcases key 1 with ⟨k, k'⟩ | ⟨k, k'⟩ <;>
      simp at h k <;> subst h k <;> first | omega | exact Or.inr ⟨by omega, by simp⟩
  · have h2 : 2 % (idxs.length + 1 + 1 + 1) = 2 := Nat.mod_eq_of_lt (by omega)
    have h01 : (f 0 : Nat) ≠ f 1 := fun h => absurd (hf (Fin.ext h)) (by simp)
    have h02 : (f 0 : Nat) ≠ f 2 := fun h => absurd (hf (Fin.ext h)) (by simp [Fin.ext_iff, h2])
    have h12 : (f 1 : Nat) ≠ f 2 := fun h => absurd (hf (Fin.ext h)) (by simp [Fin.ext_iff, h2])
    rcases key 0 with ⟨-, h⟩ | ⟨-, h⟩ <;> rcases key 1 with ⟨-, k⟩ | ⟨-, k⟩ <;>
      rcases key 2 with ⟨-, l⟩ | ⟨-, l⟩ <;> omega

theorem mkSubmatrix_valid (P : SciPair α) {r c : List PyIdx} (hr : ValidIdx P.op.rows r) (hc : ValidIdx P.op.cols c) :
    mkSubmatrix P r c = .ok ⟨P, (r.length, c.length), r, c⟩ := by
  simp [mkSubmatrix, SubState.setSubmatrix, (checkIdxs_ok_iff _ _).mpr hr, (checkIdxs_ok_iff _ _).mpr hc]

/-- SciPy reshapes every product with a vector to the number of rows. -/
theorem mulVec_length {L : SciOp α} {v y : List α} (h : L.mulVec v = .ok y) : y.length = L.rows := by
  unfold SciOp.mulVec SciOp.dot SciOp.matvec NpVal.reshapeVec at h
  simp only at h
  split at h
  · cases h
  rename_i z hz
  split at hz
  · split at hz
    · cases hz
    · split at hz
      · cases hz
        cases h
        assumption
      · cases hz
  · cases hz

/-- Reading with a valid list of Booleans fails, or the result has the wrong length. -/
theorem npGather_bools {v y : List α} {r : List PyIdx} (hr : ValidIdx v.length r) (hb : OnlyBools r)
    (h : npGather v r = .ok y) : y.length ≠ r.length := by
  have hm := (isMask_iff r).mpr hb
  unfold npGather npIndex at h
  rw [if_pos hm] at h
  by_cases hl : r.length = v.length
  · rw [if_pos hl] at h
    rcases validIdx_onlyBools hr hb with ⟨rfl, h1⟩ | ⟨h1, rfl | rfl | rfl⟩
    · rw [← hl] at h
      simp [List.range_succ, pyMapM] at h
      simp [h]
    · simp at hl
      omega
    all_goals
      obtain ⟨a, b, rfl⟩ : ∃ a b, v = [a, b] := by
        rcases v with _ | ⟨a, _ | ⟨b, _ | ⟨c, v⟩⟩⟩ <;> simp at hl
        exact ⟨a, b, rfl⟩
      simp [List.range_succ, pyMapM, PyIdx.position, PyIdx.value] at h
      simp [← h]
  · rw [if_neg hl] at h
    cases h

/-- C50 is violated: with a valid list of Booleans, the operator can be constructed, but the products with all vectors raise,
unless the column list is `[False]` and the operator has a single column. -/
theorem submatrix_bools_raise [Zero α] (P : SciPair α) (r c : List PyIdx) (hr : ValidIdx P.op.rows r)
    (hc : ValidIdx P.op.cols c) (hb : OnlyBools r ∨ OnlyBools c)
    (hne : ¬ (c = [.bool false] ∧ P.op.cols = 1 ∧ ¬ OnlyBools r)) :
    ∃ s, mkSubmatrix P r c = .ok s ∧ s.shape = (r.length, c.length) ∧
      ∀ x : List α, ∃ e, s.toSci.dot (.vec x) = .error e := by
  refine ⟨_, mkSubmatrix_valid P hr hc, rfl, fun x => ?_⟩
  by_cases hx : x.length = c.length
  swap
  · exact ⟨.valueError, by simp [SciOp.dot, SciOp.matvec, SubState.toSci, hx]⟩
  simp only [SciOp.dot, SciOp.matvec, SubState.toSci, hx, if_true, SubState.matvecImpl]
  rcases hv : npAssign (List.replicate P.op.cols 0) c (.vec x) with e | v
  · exact ⟨e, rfl⟩
  rcases hw : P.op.mulVec v with e | w
  · exact ⟨e, by simp only [hw]⟩
  rcases hy : npGather w r with e | y
  · exact ⟨e, by simp only [hw, hy]⟩
  simp only [hw, hy, NpVal.reshapeVec, NpVal.ravel]
  by_cases hrb : OnlyBools r
  · exact ⟨_, if_neg (npGather_bools ((mulVec_length hw).symm ▸ hr) hrb hy)⟩
  exfalso
  have hcb := hb.resolve_left hrb
  have hm := (isMask_iff c).mpr hcb
  unfold npAssign npIndex at hv
  simp only [hm, if_true, List.length_replicate] at hv
  by_cases hl : c.length = P.op.cols
  · rw [if_pos hl] at hv
    rcases validIdx_onlyBools hc hcb with ⟨rfl, h1⟩ | ⟨h1, rfl | rfl | rfl⟩
    · exact hne ⟨rfl, by simpa using hl.symm, hrb⟩
    · simp at hl
      omega
    all_goals
      obtain ⟨a, b, rfl⟩ : ∃ a b, x = [a, b] := by
        rcases x with _ | ⟨a, _ | ⟨b, _ | ⟨c, v⟩⟩⟩ <;> simp at hx
        exact ⟨a, b, rfl⟩
      rw [← hl] at hv
      simp [List.range_succ, npScatter, PyIdx.position, PyIdx.value] at hv
  · rw [if_neg hl] at hv
    cases hv

/-- C50 is violated: the column list `[False]` of an operator with a single column is accepted, but the products with all vectors
are silently zero. So they are wrong whenever the selected part of the column is not. -/
theorem submatrix_false_column [NonUnitalNonAssocSemiring α] {m : Nat} (P : SciPair α) (A : Matrix (Fin m) (Fin 1) α)
    (hA : VecRep P.op A) (r : List PyIdx) (f : Fin r.length → Fin m) (hf : Function.Injective f)
    (hrf : ∀ i : Fin r.length, PyIdx.IsIndex r[i] (f i)) (hr : ¬ OnlyBools r) :
    ∃ s, mkSubmatrix P r [.bool false] = .ok s ∧ s.shape = (r.length, 1) ∧
      (∀ x, s.toSci.dot (.vec [x]) = .ok (.vec (List.replicate r.length 0))) ∧
      ∀ i x, A (f i) 0 * x ≠ 0 → ¬ VecRep s.toSci (A.submatrix f fun _ : Fin 1 => 0) := by
  have hr' : isMask r = false := by simpa using mt (isMask_iff r).mp hr
  have hv1 : ValidIdx P.op.rows r := hA.1 ▸ ⟨f, hf, hrf⟩
  have hv2 : ValidIdx P.op.cols [.bool false] := by
    rw [hA.2.1]
    refine ⟨fun _ => 0, fun i j _ => Subsingleton.elim (α := Fin 1) i j, fun i => ?_⟩
    have : i = (0 : Fin 1) := Subsingleton.elim (α := Fin 1) i 0
    subst this
    exact Or.inr (Or.inl ⟨rfl, rfl⟩)
  have hz : ∀ x, SciOp.dot (SubState.toSci ⟨P, (r.length, 1), r, [.bool false]⟩) (.vec [x]) =
      .ok (.vec (List.replicate r.length 0)) := by
    intro x
    refine dot_vec_of_impl rfl (by simp [SubState.toSci]) ?_
    have h1 : npAssign (List.replicate P.op.cols (0 : α)) [.bool false] (.vec [x]) = .ok (List.ofFn fun _ : Fin 1 => 0) := by
      rw [hA.2.1]
      simp [npAssign, npIndex, isMask, List.range_succ, npScatter]
    simp only [SubState.toSci, SubState.matvecImpl, h1, hA.mulVec,
      npGather_congr (samePositions_idxList f hrf) hr' (isMask_idxList f), npGather_ofFn]
    congr 2
    refine List.ext_getElem (by simp) fun i h1 h2 => ?_
    simp [Matrix.mulVec, dotProduct]
  refine ⟨_, mkSubmatrix_valid P hv1 hv2, rfl, hz, fun i x hx hV => hx ?_⟩
  have h := hV.2.2 fun _ => x
  rw [show (List.ofFn fun _ : Fin 1 => x) = [x] from rfl] at h
  rw [show (⟨P, (r.length, [PyIdx.bool false].length), r, [.bool false]⟩ : SubState α) =
    ⟨P, (r.length, 1), r, [.bool false]⟩ from rfl, hz x] at h
  have h2 := Except.ok.inj h
  have h3 := congrArg (fun l => l[(i : Nat)]?) (NpVal.vec.inj h2)
  simpa [Matrix.mulVec, dotProduct] using h3.symm

/-- Non-vacuity: a list with a Boolean and an integer, and the products with the four valid lists of Booleans. -/
example :
    let A := denseSci (!![1, 2, 3; 4, 5, 6] : Matrix (Fin 2) (Fin 3) ℤ)
    let B := denseSci (!![7; 8] : Matrix (Fin 2) (Fin 1) ℤ)
    let Z := denseSci (0 : Matrix (Fin 1) (Fin 1) ℤ)
    (SubState.toSci ⟨⟨A, Z⟩, (2, 2), [.bool true, .int 0], [.int 2, .bool false]⟩).dot (.vec [10, 1]) = .ok (.vec [64, 31]) ∧
    (SubState.toSci ⟨⟨B, Z⟩, (2, 1), [.bool true, .int 0], [.int 0]⟩).dot (.vec [10]) = .ok (.vec [80, 70]) ∧
    (SubState.toSci ⟨⟨B, Z⟩, (2, 1), [.bool true, .int 0], [.bool false]⟩).dot (.vec [10]) = .ok (.vec [0, 0]) ∧
    (SubState.toSci ⟨⟨B, Z⟩, (2, 1), [.bool true, .bool false], [.int 0]⟩).dot (.vec [10]) = .error .valueError ∧
    (SubState.toSci ⟨⟨A, Z⟩, (1, 1), [.int 0], [.bool true]⟩).dot (.vec [10]) = .error .indexError := by
  refine ⟨?_, ?_, ?_, ?_, ?_⟩ <;> decide

end Curvlinops
