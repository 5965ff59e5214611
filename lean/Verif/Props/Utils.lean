import Verif.Model.Utils
import Mathlib.Tactic.Linarith
import Mathlib.Algebra.Order.BigOperators.Group.List

/-!
# C01: `split_list`
-/

namespace Curvlinops

/-- Specification of splitting: the parts have the requested lengths and concatenate to the list. -/
def IsSplit {α : Type _} (x : List α) (sizes : List Int) (parts : List (List α)) : Prop :=
  parts.map (fun p => (p.length : Int)) = sizes ∧ parts.flatten = x

/-- C01: `split_list` raises exactly if the sizes do not sum to the length, and only `ValueError`. -/
theorem splitList_raises_iff {α : Type _} (x : List α) (sizes : List Int) :
    ((∃ e, splitList x sizes = .error e) ↔ (x.length : Int) ≠ sizes.sum) ∧
    (∀ e, splitList x sizes = .error e → e = .valueError) := by
  unfold splitList
  constructor
  · constructor
    · rintro ⟨e, he⟩ h
      rw [if_neg (by simpa using h)] at he
      cases he
    · intro h
      exact ⟨_, if_pos h⟩
  · intro e he
    split at he
    · cases he; rfl
    · cases he

private theorem pySliceIdx_of_le {n : Nat} {a : Int} (h0 : 0 ≤ a) (hn : a ≤ n) :
    pySliceIdx n a = a.toNat := by
  unfold pySliceIdx
  simp only [not_lt.mpr h0, if_false]
  omega

private theorem slices_isSplit {α : Type _} (x : List α) :
    ∀ (sizes : List Int) (start : Int), 0 ≤ start → (∀ s ∈ sizes, 0 ≤ s) →
      start + sizes.sum = x.length →
      IsSplit (x.drop start.toNat) sizes
        ((boundaryPairs start sizes).map fun p => pySlice x p.1 p.2)
  | [], start, h0, _, hsum => by
    simp only [List.sum_nil, add_zero] at hsum
    simp [boundaryPairs, IsSplit, hsum]
  | s :: ss, start, h0, hpos, hsum => by
    have hs : 0 ≤ s := hpos s (by simp)
    have hss : ∀ t ∈ ss, 0 ≤ t := fun t ht => hpos t (by simp [ht])
    have hnn : 0 ≤ ss.sum := List.sum_nonneg hss
    rw [List.sum_cons] at hsum
    have ih := slices_isSplit x ss (start + s) (by omega) hss (by omega)
    obtain ⟨ih1, ih2⟩ := ih
    have e1 := pySliceIdx_of_le (n := x.length) h0 (by omega)
    have e2 := pySliceIdx_of_le (n := x.length) (a := start + s) (by omega) (by omega)
    have ht : (start + s).toNat = start.toNat + s.toNat := by omega
    constructor
    · simp only [boundaryPairs, List.map_cons, List.cons.injEq]
      refine ⟨?_, ih1⟩
      simp only [pySlice, e1, e2, List.length_take, List.length_drop]
      omega
    · simp only [boundaryPairs, List.map_cons, List.flatten_cons, ih2]
      simp only [pySlice, e1, e2, ht, Nat.add_sub_cancel_left]
      rw [← List.drop_drop, List.take_append_drop]

/-- C01: for non-negative sizes summing to the length the result is the (unique) split. -/
theorem splitList_isSplit {α : Type _} (x : List α) (sizes : List Int)
    (hpos : ∀ s ∈ sizes, 0 ≤ s) (hsum : (x.length : Int) = sizes.sum) :
    ∃ parts, splitList x sizes = .ok parts ∧ IsSplit x sizes parts := by
  refine ⟨_, if_neg (by simpa using hsum), ?_⟩
  have := slices_isSplit x sizes 0 le_rfl hpos (by omega)
  simpa using this

/-- The specification determines the parts. -/
theorem isSplit_unique {α : Type _} : ∀ {sizes : List Int} {x : List α} {p q : List (List α)},
    IsSplit x sizes p → IsSplit x sizes q → p = q
  | [], x, p, q, hp, hq => by
    rcases p with _ | ⟨a, p⟩ <;> rcases q with _ | ⟨b, q⟩ <;> simp_all [IsSplit]
  | s :: ss, x, p, q, hp, hq => by
    rcases p with _ | ⟨a, p⟩
    · simp [IsSplit] at hp
    rcases q with _ | ⟨b, q⟩
    · simp [IsSplit] at hq
    obtain ⟨hp1, hp2⟩ := hp
    obtain ⟨hq1, hq2⟩ := hq
    simp only [List.map_cons, List.cons.injEq] at hp1 hq1
    simp only [List.flatten_cons] at hp2 hq2
    have hl : a.length = b.length := by omega
    obtain ⟨hab, hpq⟩ := List.append_inj (hp2.trans hq2.symm) hl
    rw [hab, isSplit_unique (x := p.flatten) ⟨hp1.2, rfl⟩ ⟨hq1.2, hpq.symm⟩]

/-- Disagreement with the unrestricted reading of the docstring ("each sub-list has the size specified
in `sizes`"): with a negative size no error is raised and entries are duplicated. -/
theorem splitList_negative_sizes :
    ∃ (x : List Nat) (sizes : List Int) (parts : List (List Nat)),
      splitList x sizes = .ok parts ∧ ¬ IsSplit x sizes parts ∧ parts.flatten ≠ x := by
  refine ⟨[10, 11, 12], [2, -1, 2], [[10, 11], [], [11, 12]], by decide, ?_, by decide⟩
  rintro ⟨h, _⟩
  exact absurd h (by decide)

example : splitList [5, 6, 7, 8, 9] [2, 0, 3] = .ok [[5, 6], [], [7, 8, 9]] := by decide
example : splitList [5, 6, 7] [2, 2] = .error .valueError := by decide
example : splitList [10, 11, 12] [-1, 4] = .ok [[10, 11], [12]] := by decide
example : (∀ s ∈ ([2, 0, 3] : List Int), 0 ≤ s) ∧ (([5, 6, 7, 8, 9] : List Nat).length : Int) = [2, 0, 3].sum := by
  decide

end Curvlinops
