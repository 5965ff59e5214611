import Mathlib.Algebra.BigOperators.Field
import Mathlib.Algebra.BigOperators.Ring.Finset
import Mathlib.Algebra.Order.BigOperators.Group.Finset
import Mathlib.Algebra.Group.Fin.Basic
import Mathlib.Data.Fintype.Pi
import Mathlib.Data.Fintype.Perm
import Mathlib.Data.Fintype.CardEmbedding
import Mathlib.Data.Real.Basic
import Mathlib.Tactic.FieldSimp
import Mathlib.Tactic.Ring
import Mathlib.Tactic.Linarith
import Mathlib.Tactic.LinearCombination

/-!
# Randomly selected data

`S` is the finite set of outcomes, all equally likely; `pos s j` is the number of the `j`-th datum that is selected in outcome `s`.
-/

namespace Curvlinops

/-- No datum is preferred: renaming the data permutes the outcomes. -/
def Exchangeable {S : Type _} {m N : Nat} (pos : S → Fin m → Fin N) : Prop :=
  ∀ σ : Equiv.Perm (Fin N), ∃ e : S ≃ S, ∀ s j, pos (e s) j = σ (pos s j)

variable {S : Type _} [Fintype S] {m N : Nat}

theorem exchangeable_perm : Exchangeable (fun (σ : Equiv.Perm (Fin N)) (j : Fin N) => σ j) := fun τ =>
  ⟨Equiv.mulLeft τ, fun _ _ => rfl⟩

/-- Every datum is equally likely at each position. -/
theorem sum_selected (pos : S → Fin m → Fin N) (h : Exchangeable pos) (g : Fin N → ℝ) (j : Fin m) :
    N * ∑ s, g (pos s j) = Fintype.card S * ∑ n, g n := by
  rcases N with _ | N
  · simp
  have key : ∀ k : Fin (N + 1), ∑ s, g (pos s j + k) = ∑ s, g (pos s j) := by
    intro k
    obtain ⟨e, he⟩ := h (Equiv.addRight k)
    rw [← Equiv.sum_comp e fun s => g (pos s j)]
    exact Finset.sum_congr rfl fun s _ => by rw [he s j]; rfl
  calc ((N + 1 : Nat) : ℝ) * ∑ s, g (pos s j) = ∑ k : Fin (N + 1), ∑ s, g (pos s j + k) := by
        simp only [key, Finset.sum_const, Finset.card_univ, Fintype.card_fin, nsmul_eq_mul]
    _ = ∑ s, ∑ k : Fin (N + 1), g (pos s j + k) := Finset.sum_comm
    _ = ∑ _s : S, ∑ n, g n := Finset.sum_congr rfl fun s _ => Equiv.sum_comp (Equiv.addLeft (pos s j)) g
    _ = Fintype.card S * ∑ n, g n := by simp

theorem sum_perm_pair (g : Fin N → ℝ) {a b : Fin N} (hab : a ≠ b) :
    N * (N - 1) * ∑ σ : Equiv.Perm (Fin N), g (σ a) * g (σ b) =
      Fintype.card (Equiv.Perm (Fin N)) * ((∑ n, g n) ^ 2 - ∑ n, g n ^ 2) := by
  have h1 : ∀ b' ∈ Finset.univ.erase a, ∑ σ : Equiv.Perm (Fin N), g (σ a) * g (σ b') =
      ∑ σ : Equiv.Perm (Fin N), g (σ a) * g (σ b) := by
    intro b' hb'
    have hb' : b' ≠ a := Finset.ne_of_mem_erase hb'
    rw [← Equiv.sum_comp (Equiv.mulRight (Equiv.swap b b')) fun σ : Equiv.Perm (Fin N) => g (σ a) * g (σ b')]
    refine Finset.sum_congr rfl fun σ _ => ?_
    simp only [Equiv.coe_mulRight, Equiv.Perm.coe_mul, Function.comp_apply]
    rw [Equiv.swap_apply_of_ne_of_ne hab hb'.symm, Equiv.swap_apply_right]
  have h2 : ∑ b' ∈ Finset.univ.erase a, ∑ σ : Equiv.Perm (Fin N), g (σ a) * g (σ b') =
      (∑ n, g n) * ∑ σ : Equiv.Perm (Fin N), g (σ a) - ∑ σ : Equiv.Perm (Fin N), g (σ a) ^ 2 := by
    rw [Finset.sum_comm, Finset.mul_sum, ← Finset.sum_sub_distrib]
    refine Finset.sum_congr rfl fun σ _ => ?_
    have : ∑ b', g (σ b') = ∑ n, g n := Equiv.sum_comp σ g
    rw [← Finset.mul_sum, ← this, ← Finset.add_sum_erase _ (fun b' => g (σ b')) (Finset.mem_univ a)]
    ring
  rw [Finset.sum_congr rfl h1, Finset.sum_const, Finset.card_erase_of_mem (Finset.mem_univ a), Finset.card_univ, Fintype.card_fin,
    nsmul_eq_mul] at h2
  have hN : 1 ≤ N := by have := a.2; omega
  rw [Nat.cast_sub hN, Nat.cast_one] at h2
  have h3 := sum_selected _ (exchangeable_perm (N := N)) g a
  have h4 := sum_selected _ (exchangeable_perm (N := N)) (fun n => g n ^ 2) a
  linear_combination (N : ℝ) * h2 + (∑ n, g n) * h3 - h4

/-- Without repetition, every pair of different data is equally likely at two positions. -/
theorem sum_selected_pair (pos : S → Fin m → Fin N) (h : Exchangeable pos) (hinj : ∀ s, Function.Injective (pos s)) (g : Fin N → ℝ)
    {i j : Fin m} (hij : i ≠ j) :
    N * (N - 1) * ∑ s, g (pos s i) * g (pos s j) = Fintype.card S * ((∑ n, g n) ^ 2 - ∑ n, g n ^ 2) := by
  have key : ∀ σ : Equiv.Perm (Fin N), ∑ s, g (σ (pos s i)) * g (σ (pos s j)) = ∑ s, g (pos s i) * g (pos s j) := by
    intro σ
    obtain ⟨e, he⟩ := h σ
    rw [← Equiv.sum_comp e fun s => g (pos s i) * g (pos s j)]
    exact Finset.sum_congr rfl fun s _ => by rw [he s i, he s j]
  have hc : (Fintype.card (Equiv.Perm (Fin N)) : ℝ) ≠ 0 := by exact_mod_cast Fintype.card_ne_zero
  refine mul_left_cancel₀ hc ?_
  have e : (Fintype.card (Equiv.Perm (Fin N)) : ℝ) * ∑ s, g (pos s i) * g (pos s j) =
      ∑ s, ∑ σ : Equiv.Perm (Fin N), g (σ (pos s i)) * g (σ (pos s j)) := by
    rw [Finset.sum_comm, Finset.sum_congr rfl fun σ _ => key σ]
    simp
  calc (Fintype.card (Equiv.Perm (Fin N)) : ℝ) * (N * (N - 1) * ∑ s, g (pos s i) * g (pos s j))
      = N * (N - 1) * ∑ s, ∑ σ : Equiv.Perm (Fin N), g (σ (pos s i)) * g (σ (pos s j)) := by rw [← e]; ring
    _ = ∑ _s : S, Fintype.card (Equiv.Perm (Fin N)) * ((∑ n, g n) ^ 2 - ∑ n, g n ^ 2) := by
        rw [Finset.mul_sum]
        exact Finset.sum_congr rfl fun s _ => sum_perm_pair g fun h => hij (hinj s h)
    _ = _ := by simp only [Finset.sum_const, Finset.card_univ, nsmul_eq_mul]; ring

theorem exchangeable_replacement : Exchangeable (fun (s : Fin m → Fin N) (j : Fin m) => s j) := fun τ =>
  ⟨Equiv.arrowCongr (Equiv.refl _) τ, fun _ _ => rfl⟩

theorem exchangeable_subset : Exchangeable (fun (s : Fin m ↪ Fin N) (j : Fin m) => s j) := fun τ =>
  ⟨Equiv.embeddingCongr (Equiv.refl _) τ, fun _ _ => by simp [Equiv.embeddingCongr]⟩

theorem exchangeable_shuffled (p : Fin m → Fin N) : Exchangeable (fun (σ : Equiv.Perm (Fin N)) (j : Fin m) => σ (p j)) := fun τ =>
  ⟨Equiv.mulLeft τ, fun _ _ => rfl⟩

/-- With repetition, the data at two positions are independent. -/
theorem sum_replacement_pair (g : Fin N → ℝ) {i j : Fin m} (hij : i ≠ j) :
    (N : ℝ) ^ 2 * ∑ s : Fin m → Fin N, g (s i) * g (s j) = Fintype.card (Fin m → Fin N) * (∑ n, g n) ^ 2 := by
  rcases N with _ | N
  · simp
  have key : ∀ k : Fin (N + 1), ∑ s : Fin m → Fin (N + 1), g (s i + k) * g (s j) = ∑ s : Fin m → Fin (N + 1), g (s i) * g (s j) := by
    intro k
    let e : (Fin m → Fin (N + 1)) ≃ (Fin m → Fin (N + 1)) :=
      ⟨fun s => Function.update s i (s i + k), fun s => Function.update s i (s i - k), fun s => by simp, fun s => by simp⟩
    rw [← Equiv.sum_comp e fun s => g (s i) * g (s j)]
    refine Finset.sum_congr rfl fun s _ => ?_
    simp [e, Function.update_of_ne hij.symm]
  have h1 : ((N + 1 : Nat) : ℝ) * ∑ s : Fin m → Fin (N + 1), g (s i) * g (s j) =
      (∑ n, g n) * ∑ s : Fin m → Fin (N + 1), g (s j) := by
    calc ((N + 1 : Nat) : ℝ) * ∑ s : Fin m → Fin (N + 1), g (s i) * g (s j)
        = ∑ k : Fin (N + 1), ∑ s : Fin m → Fin (N + 1), g (s i + k) * g (s j) := by
          simp only [key, Finset.sum_const, Finset.card_univ, Fintype.card_fin, nsmul_eq_mul]
      _ = ∑ s : Fin m → Fin (N + 1), ∑ k : Fin (N + 1), g (s i + k) * g (s j) := Finset.sum_comm
      _ = ∑ s : Fin m → Fin (N + 1), (∑ n, g n) * g (s j) := Finset.sum_congr rfl fun s _ => by
          rw [← Finset.sum_mul]; exact congrArg (· * g (s j)) (Equiv.sum_comp (Equiv.addLeft (s i)) g)
      _ = _ := by rw [← Finset.mul_sum]
  have h2 := sum_selected _ (exchangeable_replacement (m := m) (N := N + 1)) g j
  linear_combination ((N + 1 : Nat) : ℝ) * h1 + (∑ n, g n) * h2

/-- The mean over the selected data. -/
noncomputable def selectedMean (pos : S → Fin m → Fin N) (g : Fin N → ℝ) (s : S) : ℝ := (∑ j, g (pos s j)) / m

/-- The mean over the outcomes. -/
noncomputable def outcomeMean (X : S → ℝ) : ℝ := (∑ s, X s) / Fintype.card S

/-- The mean of the selected data is unbiased. -/
theorem outcomeMean_selected [Nonempty S] (pos : S → Fin m → Fin N) (h : Exchangeable pos) (hm : m ≠ 0) (g : Fin N → ℝ) :
    outcomeMean (selectedMean pos g) = (∑ n, g n) / N := by
  have hm' : (m : ℝ) ≠ 0 := by exact_mod_cast hm
  have hS : (Fintype.card S : ℝ) ≠ 0 := by exact_mod_cast Fintype.card_ne_zero
  have hN : (N : ℝ) ≠ 0 := by
    have := (pos (Classical.arbitrary S) ⟨0, Nat.pos_of_ne_zero hm⟩).2
    exact_mod_cast (by omega : N ≠ 0)
  have h1 : (N : ℝ) * ∑ s, ∑ j, g (pos s j) = m * (Fintype.card S * ∑ n, g n) := by
    rw [Finset.sum_comm, Finset.mul_sum, Finset.sum_congr rfl fun j _ => sum_selected pos h g j]
    simp
  unfold outcomeMean selectedMean
  rw [← Finset.sum_div]
  field_simp
  linear_combination h1

theorem sum_sq_expand (x : Fin m → ℝ) : (∑ j, x j) ^ 2 = ∑ j, x j ^ 2 + ∑ i, ∑ j ∈ Finset.univ.erase i, x i * x j := by
  rw [sq, Finset.sum_mul_sum, ← Finset.sum_add_distrib]
  refine Finset.sum_congr rfl fun i _ => ?_
  rw [← Finset.add_sum_erase _ _ (Finset.mem_univ i), sq]

theorem variance_selected [Nonempty S] (pos : S → Fin m → Fin N) (h : Exchangeable pos) (hm : m ≠ 0) (g : Fin N → ℝ) (κ : ℝ)
    (hκ : ∀ i j, i ≠ j → ∑ s, g (pos s i) * g (pos s j) = Fintype.card S * κ) :
    outcomeMean (fun s => selectedMean pos g s ^ 2) = ((∑ n, g n ^ 2) / N + (m - 1) * κ) / m := by
  have hm' : (m : ℝ) ≠ 0 := by exact_mod_cast hm
  have hS : (Fintype.card S : ℝ) ≠ 0 := by exact_mod_cast Fintype.card_ne_zero
  have hN : (N : ℝ) ≠ 0 := by
    have := (pos (Classical.arbitrary S) ⟨0, Nat.pos_of_ne_zero hm⟩).2
    exact_mod_cast (by omega : N ≠ 0)
  have h1 : (N : ℝ) * ∑ s, ∑ j, g (pos s j) ^ 2 = m * (Fintype.card S * ∑ n, g n ^ 2) := by
    rw [Finset.sum_comm, Finset.mul_sum, Finset.sum_congr rfl fun j _ => sum_selected pos h (fun n => g n ^ 2) j]
    simp
  have h2 : ∑ s, ∑ i, ∑ j ∈ Finset.univ.erase i, g (pos s i) * g (pos s j) = m * (m - 1) * (Fintype.card S * κ) := by
    rw [Finset.sum_comm]
    have : ∀ i : Fin m, ∑ s, ∑ j ∈ Finset.univ.erase i, g (pos s i) * g (pos s j) = (m - 1) * (Fintype.card S * κ) := by
      intro i
      rw [Finset.sum_comm, Finset.sum_congr rfl fun j hj => hκ i j (Finset.ne_of_mem_erase hj).symm, Finset.sum_const,
        Finset.card_erase_of_mem (Finset.mem_univ i), Finset.card_univ, Fintype.card_fin, nsmul_eq_mul,
        Nat.cast_sub (by omega), Nat.cast_one]
    rw [Finset.sum_congr rfl fun i _ => this i]
    simp
    ring
  unfold outcomeMean selectedMean
  simp only [div_pow, sum_sq_expand]
  rw [← Finset.sum_div, Finset.sum_add_distrib, h2]
  field_simp
  linear_combination h1

/-- The variance of the mean of data that are selected with repetition. -/
theorem variance_replacement (hm : m ≠ 0) (hN : N ≠ 0) (g : Fin N → ℝ) (μ : ℝ) (hμ : μ = (∑ n, g n) / N) :
    outcomeMean (fun s : Fin m → Fin N => (selectedMean (fun s j => s j) g s - μ) ^ 2) = (∑ n, (g n - μ) ^ 2) / N / m := by
  have hm' : (m : ℝ) ≠ 0 := by exact_mod_cast hm
  have hN' : (N : ℝ) ≠ 0 := by exact_mod_cast hN
  have : Nonempty (Fin m → Fin N) := ⟨fun _ => ⟨0, Nat.pos_of_ne_zero hN⟩⟩
  have hg : ∑ n, (g n - μ) = 0 := by
    rw [Finset.sum_sub_distrib, hμ]
    simp
    field_simp
    ring
  have h := variance_selected (S := Fin m → Fin N) (fun s j => s j) exchangeable_replacement hm (fun n => g n - μ) 0 (by
    intro i j hij
    have := sum_replacement_pair (fun n => g n - μ) hij
    rw [hg] at this
    simpa [hN'] using this)
  rw [mul_zero, add_zero] at h
  rw [← h]
  unfold outcomeMean selectedMean
  congr 1
  refine Finset.sum_congr rfl fun s _ => ?_
  dsimp only
  rw [Finset.sum_sub_distrib]
  simp
  field_simp

/-- The variance of the mean of data that are selected without repetition. -/
theorem variance_subset [Nonempty S] (pos : S → Fin m → Fin N) (h : Exchangeable pos) (hinj : ∀ s, Function.Injective (pos s))
    (hm : m ≠ 0) (g : Fin N → ℝ) (μ : ℝ) (hμ : μ = (∑ n, g n) / N) :
    outcomeMean (fun s => (selectedMean pos g s - μ) ^ 2) = (N - m) / (N - 1) * ((∑ n, (g n - μ) ^ 2) / N / m) := by
  have hm' : (m : ℝ) ≠ 0 := by exact_mod_cast hm
  have hmN : m ≤ N := by simpa using Fintype.card_le_of_injective _ (hinj (Classical.arbitrary S))
  have hN' : (N : ℝ) ≠ 0 := by exact_mod_cast (by omega : N ≠ 0)
  have hg : ∑ n, (g n - μ) = 0 := by
    rw [Finset.sum_sub_distrib, hμ]
    simp
    field_simp
    ring
  have e : outcomeMean (fun s => (selectedMean pos g s - μ) ^ 2) = outcomeMean (fun s => selectedMean pos (fun n => g n - μ) s ^ 2) := by
    unfold outcomeMean selectedMean
    congr 1
    refine Finset.sum_congr rfl fun s _ => ?_
    dsimp only
    rw [Finset.sum_sub_distrib]
    simp
    field_simp
  rw [e]
  by_cases hN1 : N = 1
  · subst hN1
    obtain rfl : m = 1 := by omega
    have hz : ∀ n, g n - μ = 0 := by
      intro n
      rw [Fintype.sum_subsingleton _ n] at hg
      exact hg
    simp [outcomeMean, selectedMean, hz]
  have hN1' : (N : ℝ) - 1 ≠ 0 := by
    have : (N : ℝ) ≠ 1 := by exact_mod_cast hN1
    exact sub_ne_zero.mpr this
  rw [variance_selected pos h hm _ (-(∑ n, (g n - μ) ^ 2) / (N * (N - 1))) (by
    intro i j hij
    have := sum_selected_pair pos h hinj (fun n => g n - μ) hij
    rw [hg] at this
    field_simp
    linear_combination this)]
  field_simp
  ring

end Curvlinops
