import Verif.Model.Rounding
import Mathlib.Data.Int.Log
import Mathlib.Algebra.Order.Round
import Mathlib.Algebra.Order.Archimedean.Real.Basic
import Mathlib.Analysis.SpecialFunctions.Pow.Real

/-!
# Binary floating point numbers round with a relative error

So the standard model is satisfied by a rounding that is not the identity.
-/

namespace Curvlinops

/-- Round to the nearest number with `p + 1` binary digits (`p = 23` for `float32`, `p = 52` for `float64`), with
unbounded exponent. Ties are rounded up (IEEE 754 rounds them to even; nothing depends on it). -/
noncomputable def binaryRnd (p : Nat) (x : ℝ) : ℝ :=
  round (x / 2 ^ (Int.log 2 |x| - p)) * 2 ^ (Int.log 2 |x| - p)

theorem binary_scaled (p : Nat) {x : ℝ} (hx : x ≠ 0) :
    (2 : ℝ) ^ p ≤ |x / 2 ^ (Int.log 2 |x| - p)| ∧ |x / 2 ^ (Int.log 2 |x| - p)| < 2 ^ (p + 1) := by
  have ha : 0 < |x| := abs_pos.mpr hx
  have h1 : ((2 : ℕ) : ℝ) ^ Int.log 2 |x| ≤ |x| := Int.zpow_log_le_self (by norm_num) ha
  have h2 : |x| < ((2 : ℕ) : ℝ) ^ (Int.log 2 |x| + 1) := Int.lt_zpow_succ_log_self (by norm_num) _
  push_cast at h1 h2
  have hp : (0 : ℝ) < 2 ^ (Int.log 2 |x| - p) := by positivity
  rw [abs_div, abs_of_pos hp, le_div_iff₀ hp, div_lt_iff₀ hp]
  constructor
  · rw [← zpow_natCast, ← zpow_add₀ (by norm_num)]
    simpa using h1
  · rw [← zpow_natCast, ← zpow_add₀ (by norm_num)]
    have e : ((p + 1 : ℕ) : ℤ) + (Int.log 2 |x| - p) = Int.log 2 |x| + 1 := by push_cast; ring
    rw [e]; exact h2

theorem binary_close (p : Nat) (x : ℝ) : |binaryRnd p x - x| ≤ (2 : ℝ)⁻¹ ^ (p + 1) * |x| := by
  by_cases hx : x = 0
  · subst hx; simp [binaryRnd]
  have hp : (0 : ℝ) < 2 ^ (Int.log 2 |x| - p) := by positivity
  obtain ⟨h1, -⟩ := binary_scaled p hx
  set s := (2 : ℝ) ^ (Int.log 2 |x| - p)
  have e : binaryRnd p x - x = (round (x / s) - x / s) * s := by
    unfold binaryRnd
    rw [sub_mul, div_mul_cancel₀ _ hp.ne']
  have ex : |x| = |x / s| * s := by rw [abs_div, abs_of_pos hp, div_mul_cancel₀ _ hp.ne']
  rw [e, abs_mul, abs_of_pos hp, ex, ← mul_assoc]
  refine mul_le_mul_of_nonneg_right ?_ hp.le
  have h3 : |(round (x / s) : ℝ) - x / s| ≤ 1 / 2 := by rw [abs_sub_comm]; exact abs_sub_round _
  refine h3.trans ?_
  have h4 : (2 : ℝ)⁻¹ ^ (p + 1) * 2 ^ p = 1 / 2 := by
    rw [pow_succ, mul_right_comm, ← mul_pow]; norm_num
  rw [← h4]
  exact mul_le_mul_of_nonneg_left h1 (by positivity)

/-- Integer multiples of a power of two with at most `p + 1` digits are not rounded. -/
theorem binary_exact (p : Nat) (m : ℤ) (hm : |m| ≤ 2 ^ (p + 1)) (e : ℤ) : binaryRnd p (m * 2 ^ e) = m * 2 ^ e := by
  by_cases h0 : m = 0
  · subst h0; simp [binaryRnd]
  have hx : (m : ℝ) * 2 ^ e ≠ 0 := mul_ne_zero (by exact_mod_cast h0) (by positivity)
  have ha : 0 < |(m : ℝ) * 2 ^ e| := abs_pos.mpr hx
  set L := Int.log 2 |(m : ℝ) * 2 ^ e| with hL
  -- the quotient is an integer
  suffices hk : ∃ k : ℤ, (m : ℝ) * 2 ^ e = k * 2 ^ (L - p) by
    obtain ⟨k, hk⟩ := hk
    unfold binaryRnd
    rw [← hL, hk, mul_div_assoc, div_self (by positivity), mul_one, round_intCast]
  by_cases hle : L - p ≤ e
  · refine ⟨m * 2 ^ (e - (L - p)).toNat, ?_⟩
    push_cast
    rw [mul_assoc, ← zpow_natCast, ← zpow_add₀ (by norm_num), Int.toNat_of_nonneg (by omega)]
    congr 2; ring
  · have hlt : e < L - p := by omega
    -- then |m| = 2 ^ (p + 1)
    have h1 : ((2 : ℕ) : ℝ) ^ L ≤ |(m : ℝ) * 2 ^ e| := Int.zpow_log_le_self (by norm_num) ha
    push_cast at h1
    rw [abs_mul, abs_of_pos (by positivity : (0 : ℝ) < 2 ^ e)] at h1
    have h2 : (2 : ℝ) ^ (L - e) ≤ |(m : ℝ)| := by
      rw [zpow_sub₀ (by norm_num), div_le_iff₀ (by positivity)]; exact h1
    have h3 : |(m : ℝ)| ≤ 2 ^ (p + 1) := by exact_mod_cast hm
    have h4 : (2 : ℝ) ^ (p + 1) ≤ 2 ^ (L - e) := by
      rw [← zpow_natCast]
      exact zpow_le_zpow_right₀ (by norm_num) (by push_cast; omega)
    have h5 : |(m : ℝ)| = 2 ^ (p + 1) := le_antisymm h3 (h4.trans h2)
    have h6 : L - e = p + 1 := by
      have h7 : (2 : ℝ) ^ (L - e) ≤ 2 ^ ((p : ℤ) + 1) := by
        refine (h2.trans h3).trans (le_of_eq ?_)
        rw [← zpow_natCast]; push_cast; rfl
      have := (zpow_le_zpow_iff_right₀ (by norm_num : (1 : ℝ) < 2)).mp h7
      omega
    have hm2 : ∃ k : ℤ, m = k * 2 := by
      have h8 : |m| = 2 ^ (p + 1) := by exact_mod_cast h5
      rcases abs_choice m with h | h <;> rw [h] at h8
      · exact ⟨2 ^ p, by rw [h8, pow_succ]⟩
      · exact ⟨-2 ^ p, by rw [neg_mul, ← pow_succ, ← h8, neg_neg]⟩
    obtain ⟨k, rfl⟩ := hm2
    refine ⟨k, ?_⟩
    have : L - p = e + 1 := by omega
    rw [this, zpow_add_one₀ (by norm_num)]
    push_cast
    ring

theorem binary_digits (p : Nat) (x : ℝ) : ∃ m e : ℤ, |m| ≤ 2 ^ (p + 1) ∧ binaryRnd p x = m * 2 ^ e := by
  by_cases hx : x = 0
  · subst hx; exact ⟨0, 0, by simp, by simp [binaryRnd]⟩
  obtain ⟨-, h2⟩ := binary_scaled p hx
  refine ⟨round (x / 2 ^ (Int.log 2 |x| - p)), Int.log 2 |x| - p, ?_, rfl⟩
  generalize x / 2 ^ (Int.log 2 |x| - p) = t at h2
  have h4 := abs_sub_round t
  rw [abs_le] at h4 ⊢
  rw [abs_lt] at h2
  have a1 : (round t : ℝ) < ((2 ^ (p + 1) : ℤ) : ℝ) + 1 := by push_cast; linarith
  have a2 : ((-(2 ^ (p + 1)) : ℤ) : ℝ) - 1 < round t := by push_cast; linarith
  constructor
  · have : (-(2 ^ (p + 1)) : ℤ) - 1 < round t := by exact_mod_cast a2
    omega
  · have : round t < (2 ^ (p + 1) : ℤ) + 1 := by exact_mod_cast a1
    omega

/-- Numbers with `p + 1` digits are numbers with `q + 1` digits for `q ≥ p`. -/
theorem binary_widen {p q : Nat} (h : p ≤ q) (x : ℝ) : binaryRnd q (binaryRnd p x) = binaryRnd p x := by
  obtain ⟨m, e, hm, hx⟩ := binary_digits p x
  rw [hx]
  exact binary_exact q m (hm.trans (pow_le_pow_right₀ (by norm_num) (by omega))) e

theorem binary_idem (p : Nat) (x : ℝ) : binaryRnd p (binaryRnd p x) = binaryRnd p x := binary_widen le_rfl x

/-- Binary floating point numbers with `p + 1` digits. -/
noncomputable def binaryFloat (p : Nat) : Rounding where
  u := (2 : ℝ)⁻¹ ^ (p + 1)
  rnd := binaryRnd p
  nonneg := by positivity
  close := binary_close p
  idem := binary_idem p
  one := by simpa using binary_exact p 1 (by simpa using one_le_pow₀ (by norm_num : (1 : ℤ) ≤ 2)) 0

/-- Natural numbers up to `2 ^ (p + 1)` are representable (`2 ^ 24` for `float32`). -/
theorem binary_natCast (p n : Nat) (h : n ≤ 2 ^ (p + 1)) : (binaryFloat p).rnd n = n := by
  show binaryRnd p n = n
  have := binary_exact p n (by rw [abs_of_nonneg (by positivity)]; exact_mod_cast h) 0
  simpa using this

end Curvlinops
