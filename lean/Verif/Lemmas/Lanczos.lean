import Mathlib.Analysis.InnerProductSpace.Orthonormal
import Mathlib.Analysis.InnerProductSpace.Symmetric
import Mathlib.Tactic.Ring
import Mathlib.Tactic.Linarith
import Mathlib.Tactic.LinearCombination

/-!
# The Lanczos recurrence

The recurrence for a symmetric linear map on a real inner product space.
-/

namespace Curvlinops

open scoped InnerProductSpace

variable {E : Type _} [NormedAddCommGroup E] [InnerProductSpace ℝ E]

/-- Vector, previous vector and norm that the vector was divided by. -/
noncomputable def lanczosSeq (A : E → E) (v0 : E) : Nat → E × E × ℝ
  | 0 => (v0, 0, 0)
  | m + 1 =>
    let s := lanczosSeq A v0 m
    let w := A s.1 - s.2.2 • s.2.1
    let r := w - ⟪w, s.1⟫_ℝ • s.1
    (‖r‖⁻¹ • r, s.1, ‖r‖)

/-- The Lanczos vectors. -/
noncomputable def lanczosVec (A : E → E) (v0 : E) (m : Nat) : E := (lanczosSeq A v0 m).1

/-- The off-diagonal entries; entry `m` couples the vectors `m - 1` and `m`. -/
noncomputable def lanczosBeta (A : E → E) (v0 : E) (m : Nat) : ℝ := (lanczosSeq A v0 m).2.2

/-- The product of which the components along the last two vectors are removed. -/
noncomputable def lanczosW (A : E → E) (v0 : E) (m : Nat) : E :=
  A (lanczosVec A v0 m) - lanczosBeta A v0 m • (lanczosSeq A v0 m).2.1

/-- The diagonal entries. -/
noncomputable def lanczosAlpha (A : E → E) (v0 : E) (m : Nat) : ℝ := ⟪lanczosW A v0 m, lanczosVec A v0 m⟫_ℝ

/-- The residual. -/
noncomputable def lanczosRes (A : E → E) (v0 : E) (m : Nat) : E :=
  lanczosW A v0 m - lanczosAlpha A v0 m • lanczosVec A v0 m

theorem lanczosBeta_zero (A : E → E) (v0 : E) : lanczosBeta A v0 0 = 0 := rfl
theorem lanczosVec_zero (A : E → E) (v0 : E) : lanczosVec A v0 0 = v0 := rfl
theorem lanczosPrev_succ (A : E → E) (v0 : E) (m : Nat) : (lanczosSeq A v0 (m + 1)).2.1 = lanczosVec A v0 m := rfl
theorem lanczosBeta_succ (A : E → E) (v0 : E) (m : Nat) : lanczosBeta A v0 (m + 1) = ‖lanczosRes A v0 m‖ := rfl
theorem lanczosVec_succ (A : E → E) (v0 : E) (m : Nat) :
    lanczosVec A v0 (m + 1) = (lanczosBeta A v0 (m + 1))⁻¹ • lanczosRes A v0 m := rfl

theorem lanczosRes_eq (A : E → E) (v0 : E) (m : Nat) :
    lanczosRes A v0 m = lanczosBeta A v0 (m + 1) • lanczosVec A v0 (m + 1) := by
  rw [lanczosVec_succ]
  by_cases h : lanczosBeta A v0 (m + 1) = 0
  · rw [h, zero_smul]
    exact norm_eq_zero.mp h
  · rw [smul_smul, mul_inv_cancel₀ h, one_smul]

/-- The recurrence for the first vector. -/
theorem lanczos_three_term_zero (A : E → E) (v0 : E) :
    A (lanczosVec A v0 0) = lanczosAlpha A v0 0 • lanczosVec A v0 0 + lanczosRes A v0 0 := by
  unfold lanczosRes
  rw [add_sub_cancel]
  unfold lanczosW
  rw [lanczosBeta_zero, zero_smul, sub_zero]

/-- The recurrence. -/
theorem lanczos_three_term (A : E → E) (v0 : E) (m : Nat) :
    A (lanczosVec A v0 (m + 1)) = lanczosBeta A v0 (m + 1) • lanczosVec A v0 m +
      lanczosAlpha A v0 (m + 1) • lanczosVec A v0 (m + 1) + lanczosRes A v0 (m + 1) := by
  unfold lanczosRes
  rw [add_assoc, add_sub_cancel]
  unfold lanczosW
  rw [lanczosPrev_succ, add_sub_cancel]

variable {A : E →ₗ[ℝ] E} {v0 : E}

/-- If the vectors up to `m` are orthonormal, the residual is orthogonal to them. -/
theorem lanczosRes_orthogonal (hA : A.IsSymmetric) (m : Nat)
    (ho : ∀ i ≤ m, ∀ j ≤ m, ⟪lanczosVec A v0 i, lanczosVec A v0 j⟫_ℝ = if i = j then 1 else 0) (j : Nat) (hj : j ≤ m) :
    ⟪lanczosVec A v0 j, lanczosRes A v0 m⟫_ℝ = 0 := by
  have hown : ∀ i ≤ m, ⟪lanczosVec A v0 i, lanczosVec A v0 i⟫_ℝ = 1 := fun i hi => by simpa using ho i hi i hi
  rcases Nat.eq_or_lt_of_le hj with rfl | hlt
  · unfold lanczosRes
    rw [inner_sub_right, inner_smul_right, hown j hj, mul_one, lanczosAlpha, real_inner_comm, sub_self]
  · -- `m` is a successor
    obtain ⟨k, rfl⟩ : ∃ k, m = k + 1 := ⟨m - 1, by omega⟩
    have hres : lanczosRes A v0 (k + 1) = A (lanczosVec A v0 (k + 1)) - lanczosBeta A v0 (k + 1) • lanczosVec A v0 k -
        lanczosAlpha A v0 (k + 1) • lanczosVec A v0 (k + 1) := rfl
    rw [hres, inner_sub_right, inner_sub_right, inner_smul_right, inner_smul_right, ho j hj (k + 1) le_rfl,
      if_neg (by omega), mul_zero, sub_zero, ho j hj k (by omega), ← hA]
    -- the product with the symmetric map
    have hprod : ⟪A (lanczosVec A v0 j), lanczosVec A v0 (k + 1)⟫_ℝ =
        ⟪lanczosRes A v0 j, lanczosVec A v0 (k + 1)⟫_ℝ := by
      cases j with
      | zero =>
        rw [lanczos_three_term_zero (A : E → E) v0, inner_add_left, inner_smul_left, ho 0 (by omega) (k + 1) le_rfl, if_neg (by omega)]
        simp
      | succ i =>
        rw [lanczos_three_term (A : E → E) v0, inner_add_left, inner_add_left, inner_smul_left, inner_smul_left,
          ho i (by omega) (k + 1) le_rfl, ho (i + 1) hj (k + 1) le_rfl, if_neg (by omega), if_neg (by omega)]
        simp
    rw [hprod, lanczosRes_eq, inner_smul_left, ho (j + 1) (by omega) (k + 1) le_rfl]
    by_cases hjk : j = k
    · subst hjk
      simp
    · rw [if_neg (by omega), if_neg hjk]
      simp

/-- C59: without breakdown the vectors are orthonormal. -/
theorem lanczosVec_orthonormal (hA : A.IsSymmetric) (hv : ‖v0‖ = 1) (m : Nat)
    (hb : ∀ i < m, lanczosBeta A v0 (i + 1) ≠ 0) :
    ∀ i ≤ m, ∀ j ≤ m, ⟪lanczosVec A v0 i, lanczosVec A v0 j⟫_ℝ = if i = j then 1 else 0 := by
  induction m with
  | zero =>
    intro i hi j hj
    obtain rfl : i = 0 := by omega
    obtain rfl : j = 0 := by omega
    rw [if_pos rfl, lanczosVec_zero, real_inner_self_eq_norm_sq, hv, one_pow]
  | succ m ih =>
    have ih := ih fun i hi => hb i (by omega)
    have hnew : ∀ j ≤ m, ⟪lanczosVec A v0 j, lanczosVec A v0 (m + 1)⟫_ℝ = 0 := by
      intro j hj
      rw [lanczosVec_succ, inner_smul_right, lanczosRes_orthogonal hA m ih j hj, mul_zero]
    have hself : ⟪lanczosVec A v0 (m + 1), lanczosVec A v0 (m + 1)⟫_ℝ = 1 := by
      rw [lanczosVec_succ, inner_smul_left, inner_smul_right, real_inner_self_eq_norm_sq, lanczosBeta_succ]
      have := hb m (by omega)
      rw [lanczosBeta_succ] at this
      simp only [conj_trivial]
      field_simp
    intro i hi j hj
    rcases Nat.lt_or_ge i (m + 1) with hi' | hi'
    · rcases Nat.lt_or_ge j (m + 1) with hj' | hj'
      · exact ih i (by omega) j (by omega)
      · obtain rfl : j = m + 1 := by omega
        rw [hnew i (by omega), if_neg (by omega)]
    · obtain rfl : i = m + 1 := by omega
      rcases Nat.lt_or_ge j (m + 1) with hj' | hj'
      · rw [real_inner_comm, hnew j (by omega), if_neg (by omega)]
      · obtain rfl : j = m + 1 := by omega
        rw [hself, if_pos rfl]

/-- C59: the matrix of `A` in the Lanczos vectors is tridiagonal. -/
theorem lanczosVec_tridiagonal (hA : A.IsSymmetric) (hv : ‖v0‖ = 1) (m : Nat)
    (hb : ∀ i < m, lanczosBeta A v0 (i + 1) ≠ 0) (i : Nat) (hi : i ≤ m) (j : Nat) (hj : j ≤ m) :
    ⟪lanczosVec A v0 i, A (lanczosVec A v0 j)⟫_ℝ =
      if i = j then lanczosAlpha A v0 i else if i = j + 1 then lanczosBeta A v0 i
      else if j = i + 1 then lanczosBeta A v0 j else 0 := by
  have ho := lanczosVec_orthonormal hA hv m hb
  have hres : ∀ i ≤ m, ∀ j ≤ m, ⟪lanczosVec A v0 i, lanczosRes A v0 j⟫_ℝ = if i = j + 1 then lanczosBeta A v0 i else 0 := by
    intro i hi j hj
    rcases Nat.lt_or_ge j m with hlt | hge
    · rw [lanczosRes_eq, inner_smul_right, ho i hi (j + 1) (by omega)]
      by_cases h : i = j + 1
      · subst h
        simp
      · rw [if_neg h, if_neg h, mul_zero]
    · obtain rfl : j = m := by omega
      rw [lanczosRes_orthogonal hA j ho i hi, if_neg (by omega)]
  cases j with
  | zero =>
    rw [lanczos_three_term_zero (A : E → E) v0, inner_add_right, inner_smul_right, ho i hi 0 hj, hres i hi 0 hj]
    by_cases h0 : i = 0
    · subst h0
      simp
    · rw [if_neg h0, if_neg h0, mul_zero, zero_add]
      by_cases h1 : i = 0 + 1
      · rw [if_pos h1, if_pos h1]
      · rw [if_neg h1, if_neg h1, if_neg (by omega)]
  | succ j =>
    rw [lanczos_three_term (A : E → E) v0, inner_add_right, inner_add_right, inner_smul_right, inner_smul_right,
      ho i hi j (by omega), ho i hi (j + 1) hj, hres i hi (j + 1) hj]
    by_cases h0 : i = j + 1
    · subst h0
      simp
    · rw [if_neg h0, if_neg h0, mul_zero, add_zero]
      by_cases h1 : i = j + 1 + 1
      · rw [if_pos h1, if_neg (by omega), if_pos h1, mul_zero, zero_add]
      · rw [if_neg h1, if_neg h1, add_zero]
        by_cases h2 : i = j
        · rw [if_pos h2, if_pos (by omega), mul_one]
        · rw [if_neg h2, if_neg (by omega), mul_zero]

end Curvlinops
