import Verif.Props.Estimators
import Verif.Lemmas.FourthMoments

/-!
# C82: variances of the stochastic estimators

The expectations are as in `Props/Estimators`: over all bit vectors of a fair generator (`signMean`), and with respect
to i.i.d. standard normal entries (`stdNormal`).
-/

namespace Curvlinops

open Matrix MeasureTheory

variable {α W : Type _}

/-! ## The formula for the variance -/

theorem quadVar_three [Ring α] {n : Nat} (B : Matrix (Fin n) (Fin n) α) :
    quadVar 3 B = ∑ i, ∑ j, B i j * (B i j + B j i) := by
  simp [quadVar]

theorem quadVar_one [CommRing α] {n : Nat} (B : Matrix (Fin n) (Fin n) α) :
    quadVar 1 B = ∑ i, ∑ j, if i = j then 0 else B i j * (B i j + B j i) := by
  rw [quadVar, Finset.mul_sum, ← Finset.sum_add_distrib]
  refine Finset.sum_congr rfl fun i _ => ?_
  have h : ∀ j, (if i = j then 0 else B i j * (B i j + B j i)) =
      B i j * (B i j + B j i) + if i = j then -(2 * (B i i * B i i)) else 0 := by
    intro j
    split_ifs with hij
    · subst hij; ring
    · ring
  simp only [h, Finset.sum_add_distrib, Finset.sum_ite_eq, Finset.mem_univ, if_true]
  ring

/-- The matrix with only row `i`. -/
def onlyRow [Zero α] {n : Nat} (M : Matrix (Fin n) (Fin n) α) (i : Fin n) : Matrix (Fin n) (Fin n) α :=
  Matrix.of fun k j => if k = i then M i j else 0

theorem quad_onlyRow [CommRing α] {n : Nat} (M : Matrix (Fin n) (Fin n) α) (i : Fin n) (v : Fin n → α) :
    v ⬝ᵥ (onlyRow M i *ᵥ v) = v i * (M *ᵥ v) i ∧ (onlyRow M i).trace = M i i := by
  constructor
  · rw [dotProduct, Finset.sum_eq_single i]
    · simp [onlyRow, mulVec, dotProduct]
    · intro k _ hk
      simp [onlyRow, mulVec, dotProduct, hk]
    · simp
  · rw [Matrix.trace, Finset.sum_eq_single i]
    · simp [onlyRow]
    · intro k _ hk
      simp [onlyRow, hk]
    · simp

theorem quadVar_onlyRow [CommRing α] {n : Nat} (e : α) (M : Matrix (Fin n) (Fin n) α) (i : Fin n) :
    quadVar e (onlyRow M i) = ∑ j, M i j ^ 2 + (e - 2) * M i i ^ 2 := by
  rw [quadVar, Finset.sum_eq_single i, Finset.sum_eq_single (a := i) (s := Finset.univ) (f := fun k =>
    onlyRow M i k k * onlyRow M i k k)]
  · simp only [onlyRow, Matrix.of_apply, if_true, mul_add, Finset.sum_add_distrib]
    have : ∀ j, (M i j * if j = i then M i i else 0) = if j = i then M i i * M i i else 0 := by
      intro j
      split_ifs with h
      · rw [h]
      · ring
    simp only [this, Finset.sum_ite_eq', Finset.mem_univ, if_true, sq]
    ring
  · intro k _ hk
    simp [onlyRow, hk]
  · simp
  · intro k _ hk
    simp [onlyRow, hk]
  · simp

/-! ## Hutchinson's estimators -/

/-- C82, Rademacher: the mean squared deviation of a sample from the trace is
`∑_{i ≠ j} Mᵢⱼ (Mᵢⱼ + Mⱼᵢ)`. -/
theorem hutchTrace_rademacher_var [Field α] [CharZero α] {n : Nat} (E : Ext α W) (M : Matrix (Fin n) (Fin n) α)
    (hM : Multiplies E M) (w : (Fin n → Bool) → W) (hw : DrawsBits E w) :
    ∃ F : (Fin n → Bool) → α, (∀ b, (hutchTrace E n (.str "rademacher") (w b)).1 = .ok (F b)) ∧
      signMean (fun b => (F b - M.trace) ^ 2) = ∑ i, ∑ j, if i = j then 0 else M i j * (M i j + M j i) :=
  ⟨_, fun b => hutchTrace_eq E M hM _ _ _ (rademacher_ofFn E b _ (hw b)), by
    rw [← quadVar_one]; exact signMean_quad_var M⟩

/-- C82, normal: the sum also has the terms with `i = j`. -/
theorem hutchTrace_normal_var {n : Nat} (E : Ext ℝ W) (M : Matrix (Fin n) (Fin n) ℝ)
    (hM : Multiplies E M) (w : (Fin n → ℝ) → W) (hw : DrawsNormal E w) :
    ∃ F : (Fin n → ℝ) → ℝ, (∀ v, (hutchTrace E n (.str "normal") (w v)).1 = .ok (F v)) ∧
      Integrable (fun v => (F v - M.trace) ^ 2) (stdNormal n) ∧
      ∫ v, (F v - M.trace) ^ 2 ∂stdNormal n = ∑ i, ∑ j, M i j * (M i j + M j i) :=
  ⟨_, fun v => hutchTrace_eq E M hM _ _ _ (normal_ofFn E v _ (hw v)), by
    rw [← quadVar_three]; exact stdNormal_quad_var M⟩

/-- C82, Rademacher: entry `i` of the diagonal estimator deviates by the other entries of row `i`. -/
theorem hutchDiag_rademacher_var [Field α] [CharZero α] {n : Nat} (E : Ext α W) (M : Matrix (Fin n) (Fin n) α)
    (hM : Multiplies E M) (w : (Fin n → Bool) → W) (hw : DrawsBits E w) :
    ∃ F : (Fin n → Bool) → Fin n → α,
      (∀ b, (hutchDiag E n (.str "rademacher") (w b)).1 = .ok (List.ofFn (F b))) ∧
      ∀ i, signMean (fun b => (F b i - M i i) ^ 2) = ∑ j, if j = i then 0 else M i j ^ 2 := by
  refine ⟨_, fun b => hutchDiag_eq E M hM _ _ _ (rademacher_ofFn E b _ (hw b)), fun i => ?_⟩
  have h := signMean_quad_var (onlyRow M i)
  simp only [(quad_onlyRow M i _).1, (quad_onlyRow M i (fun _ => 0)).2, quadVar_onlyRow] at h
  rw [h]
  have hs : ∀ j, (if j = i then 0 else M i j ^ 2) = M i j ^ 2 + if j = i then -(M i i ^ 2) else 0 := by
    intro j
    split_ifs with hj
    · rw [hj]; ring
    · ring
  simp only [hs, Finset.sum_add_distrib, Finset.sum_ite_eq', Finset.mem_univ, if_true]
  ring

/-- C82, normal. -/
theorem hutchDiag_normal_var {n : Nat} (E : Ext ℝ W) (M : Matrix (Fin n) (Fin n) ℝ)
    (hM : Multiplies E M) (w : (Fin n → ℝ) → W) (hw : DrawsNormal E w) :
    ∃ F : (Fin n → ℝ) → Fin n → ℝ,
      (∀ v, (hutchDiag E n (.str "normal") (w v)).1 = .ok (List.ofFn (F v))) ∧
      ∀ i, Integrable (fun v => (F v i - M i i) ^ 2) (stdNormal n) ∧
        ∫ v, (F v i - M i i) ^ 2 ∂stdNormal n = ∑ j, M i j ^ 2 + M i i ^ 2 := by
  refine ⟨_, fun v => hutchDiag_eq E M hM _ _ _ (normal_ofFn E v _ (hw v)), fun i => ?_⟩
  have h := stdNormal_quad_var (onlyRow M i)
  simp only [(quad_onlyRow M i _).1, (quad_onlyRow M i (fun _ => 0)).2, quadVar_onlyRow] at h
  refine ⟨h.1, h.2.trans ?_⟩
  ring

theorem gram_symm [CommRing α] {m n : Nat} (M : Matrix (Fin m) (Fin n) α) (i j : Fin n) :
    (Mᵀ * M) i j * ((Mᵀ * M) i j + (Mᵀ * M) j i) = 2 * (∑ k, M k i * M k j) ^ 2 := by
  have h : ∀ i j, (Mᵀ * M) i j = ∑ k, M k i * M k j := fun i j => rfl
  have hs : ∑ k, M k j * M k i = ∑ k, M k i * M k j := Finset.sum_congr rfl fun _ _ => mul_comm _ _
  rw [h i j, h j i, hs]
  ring

/-- C82, Rademacher: the squared Frobenius norm deviates by the inner products of different columns. -/
theorem hutchNorm_rademacher_var [Field α] [CharZero α] {m n : Nat} (E : Ext α W) (M : Matrix (Fin m) (Fin n) α)
    (hM : Multiplies E M) (w : (Fin n → Bool) → W) (hw : DrawsBits E w) :
    ∃ F : (Fin n → Bool) → α, (∀ b, (hutchNorm E n (.str "rademacher") (w b)).1 = .ok (F b)) ∧
      signMean (fun b => (F b - ∑ i, ∑ j, M i j ^ 2) ^ 2) =
        2 * ∑ i, ∑ j, if i = j then 0 else (∑ k, M k i * M k j) ^ 2 := by
  refine ⟨_, fun b => hutchNorm_eq E M hM _ _ _ (rademacher_ofFn E b _ (hw b)), ?_⟩
  simp only [quad_gram]
  rw [← trace_gram, signMean_quad_var, quadVar_one]
  simp only [gram_symm, Finset.mul_sum, mul_ite, mul_zero]

/-- C82, normal. -/
theorem hutchNorm_normal_var {m n : Nat} (E : Ext ℝ W) (M : Matrix (Fin m) (Fin n) ℝ)
    (hM : Multiplies E M) (w : (Fin n → ℝ) → W) (hw : DrawsNormal E w) :
    ∃ F : (Fin n → ℝ) → ℝ, (∀ v, (hutchNorm E n (.str "normal") (w v)).1 = .ok (F v)) ∧
      Integrable (fun v => (F v - ∑ i, ∑ j, M i j ^ 2) ^ 2) (stdNormal n) ∧
      ∫ v, (F v - ∑ i, ∑ j, M i j ^ 2) ^ 2 ∂stdNormal n = 2 * ∑ i, ∑ j, (∑ k, M k i * M k j) ^ 2 := by
  refine ⟨_, fun v => hutchNorm_eq E M hM _ _ _ (normal_ofFn E v _ (hw v)), ?_⟩
  simp only [quad_gram]
  rw [← trace_gram]
  refine ⟨(stdNormal_quad_var _).1, ?_⟩
  rw [(stdNormal_quad_var _).2, quadVar_three]
  simp only [gram_symm, Finset.mul_sum]

/-- Rademacher vectors give at most the variance of normal vectors, for every quadratic form. -/
theorem quadVar_one_le {n : Nat} (B : Matrix (Fin n) (Fin n) ℝ) : quadVar 1 B ≤ quadVar 3 B := by
  have h : 0 ≤ ∑ i, B i i * B i i := Finset.sum_nonneg fun i _ => mul_self_nonneg _
  unfold quadVar
  linarith

/-- C82: for the same operator, Rademacher samples of the trace have at most the variance of normal samples. -/
theorem hutchTrace_rademacher_le_normal {n : Nat} (E : Ext ℝ W) (M : Matrix (Fin n) (Fin n) ℝ)
    (hM : Multiplies E M) (wb : (Fin n → Bool) → W) (hwb : DrawsBits E wb)
    (wv : (Fin n → ℝ) → W) (hwv : DrawsNormal E wv) :
    ∃ (F : (Fin n → Bool) → ℝ) (G : (Fin n → ℝ) → ℝ),
      (∀ b, (hutchTrace E n (.str "rademacher") (wb b)).1 = .ok (F b)) ∧
      (∀ v, (hutchTrace E n (.str "normal") (wv v)).1 = .ok (G v)) ∧
      signMean (fun b => (F b - M.trace) ^ 2) ≤ ∫ v, (G v - M.trace) ^ 2 ∂stdNormal n := by
  obtain ⟨F, hF, hF'⟩ := hutchTrace_rademacher_var E M hM wb hwb
  obtain ⟨G, hG, -, hG'⟩ := hutchTrace_normal_var E M hM wv hwv
  refine ⟨F, G, hF, hG, ?_⟩
  rw [hF', hG', ← quadVar_one, ← quadVar_three]
  exact quadVar_one_le M

/-! ## Hutch++ -/

/-- C82, Rademacher: given the cached basis, a sample of Hutch++ has the variance of Hutchinson's estimator for the
operator compressed to the complement of the basis. -/
theorem hutchpp_rademacher_var [Field α] [CharZero α] {n k : Nat} (E : Ext α W) (M : Matrix (Fin n) (Fin n) α)
    (hM : Multiplies E M) (s : HutchPP α) (q : Fin k → Fin n → α) (hs : s.Ready M q)
    (w : (Fin n → Bool) → W) (hw : DrawsBits E w) :
    ∃ F : (Fin n → Bool) → α, (∀ b, (s.sample E (.str "rademacher") (w b)).1 = .ok (F b)) ∧
      signMean (fun b => (F b - M.trace) ^ 2) = quadVar 1 (complement q * M * complement q) := by
  refine ⟨_, fun b => hutchpp_sample_eq E M hM s q hs _ _ _ (rademacher_ofFn E b _ (hw b)), ?_⟩
  rw [← trace_split hs.2.1 M, ← signMean_quad_var]
  simp only [add_sub_add_left_eq_sub]

/-- C82, normal. -/
theorem hutchpp_normal_var {n k : Nat} (E : Ext ℝ W) (M : Matrix (Fin n) (Fin n) ℝ)
    (hM : Multiplies E M) (s : HutchPP ℝ) (q : Fin k → Fin n → ℝ) (hs : s.Ready M q)
    (w : (Fin n → ℝ) → W) (hw : DrawsNormal E w) :
    ∃ F : (Fin n → ℝ) → ℝ, (∀ v, (s.sample E (.str "normal") (w v)).1 = .ok (F v)) ∧
      Integrable (fun v => (F v - M.trace) ^ 2) (stdNormal n) ∧
      ∫ v, (F v - M.trace) ^ 2 ∂stdNormal n = quadVar 3 (complement q * M * complement q) := by
  refine ⟨_, fun v => hutchpp_sample_eq E M hM s q hs _ _ _ (normal_ofFn E v _ (hw v)), ?_⟩
  rw [← trace_split hs.2.1 M]
  simp only [add_sub_add_left_eq_sub]
  exact stdNormal_quad_var _

theorem sum_sq_proj_le {m n : Nat} (P : Matrix (Fin m) (Fin m) ℝ) (hP : P * P = P) (hPt : Pᵀ = P)
    (A : Matrix (Fin m) (Fin n) ℝ) : ∑ i, ∑ j, (P * A) i j ^ 2 ≤ ∑ i, ∑ j, A i j ^ 2 := by
  have h : (Aᵀ * A).trace = ((P * A)ᵀ * (P * A)).trace + (((1 - P) * A)ᵀ * ((1 - P) * A)).trace := by
    rw [← Matrix.trace_add]
    congr 1
    simp only [Matrix.transpose_mul, Matrix.transpose_sub, hPt, Matrix.transpose_one]
    rw [Matrix.mul_assoc, ← Matrix.mul_assoc P, hP, Matrix.mul_assoc Aᵀ, ← Matrix.mul_assoc (1 - P) (1 - P)]
    have : (1 - P) * (1 - P) = 1 - P := by
      rw [Matrix.mul_sub, Matrix.sub_mul, Matrix.sub_mul, hP]
      simp
    rw [this, ← Matrix.mul_add, ← Matrix.add_mul]
    simp
  rw [← trace_gram, ← trace_gram, h, trace_gram ((1 - P) * A)]
  exact le_add_of_nonneg_right (Finset.sum_nonneg fun i _ => Finset.sum_nonneg fun j _ => sq_nonneg _)

theorem sum_sq_transpose {m n : Nat} (A : Matrix (Fin m) (Fin n) ℝ) :
    ∑ i, ∑ j, Aᵀ i j ^ 2 = ∑ i, ∑ j, A i j ^ 2 := by
  rw [Finset.sum_comm]
  rfl

theorem quadVar_symm {n : Nat} (B : Matrix (Fin n) (Fin n) ℝ) :
    quadVar 3 B = (∑ i, ∑ j, (B + Bᵀ) i j ^ 2) / 2 := by
  have h1 : ∑ i, ∑ j, B i j * (B i j + B j i) = ∑ i, ∑ j, B j i * (B j i + B i j) := Finset.sum_comm
  have h2 : ∑ i, ∑ j, (B + Bᵀ) i j ^ 2 =
      ∑ i, ∑ j, B i j * (B i j + B j i) + ∑ i, ∑ j, B j i * (B j i + B i j) := by
    simp only [← Finset.sum_add_distrib]
    refine Finset.sum_congr rfl fun i _ => Finset.sum_congr rfl fun j _ => ?_
    rw [Matrix.add_apply, Matrix.transpose_apply]
    ring
  rw [quadVar_three, h2, ← h1]
  ring

/-- Compressing with an orthogonal projection does not increase the variance for normal vectors. -/
theorem quadVar_proj_le {n : Nat} (P : Matrix (Fin n) (Fin n) ℝ) (hP : P * P = P) (hPt : Pᵀ = P)
    (B : Matrix (Fin n) (Fin n) ℝ) : quadVar 3 (P * B * P) ≤ quadVar 3 B := by
  rw [quadVar_symm, quadVar_symm]
  have h : P * B * P + (P * B * P)ᵀ = P * ((B + Bᵀ) * P) := by
    rw [Matrix.transpose_mul, Matrix.transpose_mul, hPt, Matrix.add_mul, Matrix.mul_add, Matrix.mul_assoc]
  have h1 := sum_sq_proj_le P hP hPt ((B + Bᵀ) * P)
  have h2 := sum_sq_proj_le P hP hPt (B + Bᵀ)ᵀ
  rw [← sum_sq_transpose (P * (B + Bᵀ)ᵀ), Matrix.transpose_mul, Matrix.transpose_transpose, hPt,
    sum_sq_transpose] at h2
  rw [h]
  linarith

/-- C82: with normal vectors, whatever basis is cached, a sample of Hutch++ has at most the variance of a sample of
Hutchinson's estimator. -/
theorem hutchpp_le_hutch_normal_partial {n k : Nat} (E : Ext ℝ W) (M : Matrix (Fin n) (Fin n) ℝ)
    (hM : Multiplies E M) (s : HutchPP ℝ) (q : Fin k → Fin n → ℝ) (hs : s.Ready M q)
    (w : (Fin n → ℝ) → W) (hw : DrawsNormal E w) :
    ∃ F G : (Fin n → ℝ) → ℝ, (∀ v, (s.sample E (.str "normal") (w v)).1 = .ok (F v)) ∧
      (∀ v, (hutchTrace E n (.str "normal") (w v)).1 = .ok (G v)) ∧
      ∫ v, (F v - M.trace) ^ 2 ∂stdNormal n ≤ ∫ v, (G v - M.trace) ^ 2 ∂stdNormal n := by
  obtain ⟨F, hF, -, hF'⟩ := hutchpp_normal_var E M hM s q hs w hw
  obtain ⟨G, hG, -, hG'⟩ := hutchTrace_normal_var E M hM w hw
  refine ⟨F, G, hF, hG, ?_⟩
  rw [hF', hG', ← quadVar_three]
  exact quadVar_proj_le _ (complement_sq hs.2.1).1 (complement_sq hs.2.1).2 M

/-- C82: Rademacher samples of Hutch++ have at most the variance of *normal* samples of Hutchinson's estimator; with
Rademacher samples on both sides this fails (`hutchpp_worse_rademacher`). -/
theorem hutchpp_rademacher_le_partial {n k : Nat} (E : Ext ℝ W) (M : Matrix (Fin n) (Fin n) ℝ)
    (hM : Multiplies E M) (s : HutchPP ℝ) (q : Fin k → Fin n → ℝ) (hs : s.Ready M q)
    (w : (Fin n → Bool) → W) (hw : DrawsBits E w) :
    ∃ F : (Fin n → Bool) → ℝ, (∀ b, (s.sample E (.str "rademacher") (w b)).1 = .ok (F b)) ∧
      signMean (fun b => (F b - M.trace) ^ 2) ≤ ∑ i, ∑ j, M i j * (M i j + M j i) := by
  obtain ⟨F, hF, hF'⟩ := hutchpp_rademacher_var E M hM s q hs w hw
  refine ⟨F, hF, ?_⟩
  rw [hF', ← quadVar_three]
  exact (quadVar_one_le _).trans (quadVar_proj_le _ (complement_sq hs.2.1).1 (complement_sq hs.2.1).2 M)

/-- C82: if the columns of the operator lie in the span of the cached basis, every single sample is the trace, for
both distributions. -/
theorem hutchpp_exact [CommRing α] {n k : Nat} (E : Ext α W) (hE : DrawLengths E) (M : Matrix (Fin n) (Fin n) α)
    (hM : Multiplies E M) (s : HutchPP α) (q : Fin k → Fin n → α) (hs : s.Ready M q)
    (hspan : ∃ c : Fin k → Fin n → α, ∀ i j, M i j = ∑ l, q l i * c l j) (d : DistArg) (hd : KnownDist d) (w : W) :
    (s.sample E d w).1 = .ok M.trace := by
  obtain ⟨v, hv⟩ := randomVector_known E hE n d hd w
  obtain ⟨c, hc⟩ := hspan
  have hM' : M = (Matrix.of q)ᵀ * Matrix.of c := by
    ext i j
    exact hc i j
  have h0 : complement q * M = 0 := by
    rw [hM', complement, Matrix.sub_mul, Matrix.one_mul, Matrix.mul_assoc, ← Matrix.mul_assoc (Matrix.of q),
      orthoCols_mul hs.2.1, Matrix.one_mul, sub_self]
  rw [hutchpp_sample_eq E M hM s q hs d w v hv, ← trace_split hs.2.1 M, h0]
  simp

/-- External functions of the witness: the matrix `diag(3, 4)`; a QR decomposition that normalises a single column of
length 5 and returns unit vectors otherwise. -/
def pythExt : Ext ℚ (Nat → Bool) :=
  { streamExt (Matrix.diagonal ![(3 : ℚ), 4]) with
    qr := fun cols => match cols with
      | [[a, b]] => if a * a + b * b = 25 then [[a / 5, b / 5]] else [[1, 0]]
      | _ => List.ofFn fun i : Fin cols.length => List.ofFn fun j : Fin 2 => if i.1 = j.1 then 1 else 0 }

theorem pythExt_ok : Multiplies pythExt (Matrix.diagonal ![(3 : ℚ), 4]) ∧ DrawLengths pythExt ∧ QrOrtho pythExt 2 := by
  refine ⟨streamExt_multiplies _, streamExt_lengths (Matrix.diagonal ![(3 : ℚ), 4]), fun cols hlen hle => ?_⟩
  have hstd : ∃ q : Fin cols.length → Fin 2 → ℚ, OrthoCols q ∧
      (List.ofFn fun i : Fin cols.length => List.ofFn fun j : Fin 2 => if i.1 = j.1 then (1 : ℚ) else 0) =
        List.ofFn fun i => List.ofFn (q i) := streamExt_qr (Matrix.diagonal ![(3 : ℚ), 4]) cols hlen hle
  match cols, hlen, hstd with
  | [], _, hstd => exact hstd
  | c :: d :: t, _, hstd => rcases c with _ | ⟨a, _ | ⟨b, _ | _⟩⟩ <;> exact hstd
  | [c], hlen, _ =>
    match c, hlen c (by simp) with
    | [a, b], _ =>
      by_cases h : a * a + b * b = 25
      · refine ⟨fun _ => ![a / 5, b / 5], fun i j => ?_, ?_⟩
        · have : i = j := Subsingleton.elim (α := Fin 1) i j
          rw [if_pos this]
          simp only [dotProduct, Fin.sum_univ_two, Matrix.cons_val_zero, Matrix.cons_val_one]
          linarith
        · simp [pythExt, h]
      · refine ⟨fun _ => ![1, 0], fun i j => ?_, ?_⟩
        · have : i = j := Subsingleton.elim (α := Fin 1) i j
          rw [if_pos this]
          simp [dotProduct, Fin.sum_univ_two]
        · simp [pythExt, h]

/-- C82 is false of the code for Rademacher vectors: for `diag(3, 4)` every sample of Hutchinson's estimator is exactly
the trace 7, but no first sample of Hutch++ with one basis vector is 7, whatever the generator returns. -/
theorem hutchpp_worse_rademacher (b : Fin 4 → Bool) (w : Nat → Bool) :
    (hutchTrace pythExt 2 (.str "rademacher") w).1 = .ok 7 ∧
    ∃ x, ((⟨2, 1, .str "rademacher", none, none⟩ : HutchPP ℚ).sample pythExt (.str "rademacher")
        fun i => if h : i < 4 then b ⟨i, h⟩ else false).1 = .ok x ∧ (x = 2359 / 625 ∨ x = 6391 / 625) ∧ x ≠ 7 := by
  constructor
  · have hr := rademacher_ofFn pythExt (fun i : Fin 2 => w i) w (by simp [pythExt, streamExt])
    rw [hutchTrace_eq _ _ pythExt_ok.1 _ _ _ hr]
    simp only [sgn, dotProduct, Matrix.mulVec_diagonal, Fin.sum_univ_two]
    split_ifs <;> norm_num [Matrix.cons_val_zero, Matrix.cons_val_one]
  · have key : ∀ b : Fin 4 → Bool,
        let r := ((⟨2, 1, .str "rademacher", none, none⟩ : HutchPP ℚ).sample pythExt (.str "rademacher")
          fun i => if h : i < 4 then b ⟨i, h⟩ else false).1
        r = .ok (2359 / 625) ∨ r = .ok (6391 / 625) := by decide +kernel
    rcases key b with h | h
    · exact ⟨_, h, Or.inl rfl, by norm_num⟩
    · exact ⟨_, h, Or.inr rfl, by norm_num⟩

/-! ## Examples -/

/-- Hutchinson's estimator for a non-symmetric matrix: the samples have mean 5 and variance `2 * 5 + 3 * 5`. -/
example : ∃ F : (Fin 2 → Bool) → ℚ,
    (∀ b, (hutchTrace (streamExt !![1, 2; 3, 4]) 2 (.str "rademacher")
      (fun i => if h : i < 2 then b ⟨i, h⟩ else false)).1 = .ok (F b)) ∧
    signMean (fun b => (F b - 5) ^ 2) = 25 := by
  obtain ⟨F, h1, h2⟩ := hutchTrace_rademacher_var (streamExt !![1, 2; 3, 4]) !![1, 2; 3, 4]
    (streamExt_multiplies _) _ (streamExt_bits _)
  refine ⟨F, h1, ?_⟩
  have ht : Matrix.trace (!![1, 2; 3, 4] : Matrix (Fin 2) (Fin 2) ℚ) = 5 := by
    simp [Matrix.trace, Fin.sum_univ_two]; norm_num
  rw [ht] at h2
  rw [h2]
  simp [Fin.sum_univ_two]
  norm_num

/-- The diagonal of the same matrix: variances 4 and 9. -/
example : ∃ F : (Fin 2 → Bool) → Fin 2 → ℚ,
    (∀ b, (hutchDiag (streamExt !![1, 2; 3, 4]) 2 (.str "rademacher")
      (fun i => if h : i < 2 then b ⟨i, h⟩ else false)).1 = .ok (List.ofFn (F b))) ∧
    signMean (fun b => (F b 0 - 1) ^ 2) = 4 ∧ signMean (fun b => (F b 1 - 4) ^ 2) = 9 := by
  obtain ⟨F, h1, h2⟩ := hutchDiag_rademacher_var (streamExt !![1, 2; 3, 4]) !![1, 2; 3, 4]
    (streamExt_multiplies _) _ (streamExt_bits _)
  refine ⟨F, h1, ?_, ?_⟩
  · have := h2 0
    simp [Fin.sum_univ_two] at this
    rw [this]; norm_num
  · have := h2 1
    simp [Fin.sum_univ_two] at this
    rw [this]; norm_num

/-- A matrix of rank one whose column space is spanned by the cached vector: all samples are exact. -/
example (w : Nat → Bool) :
    ((⟨2, 1, .str "normal", some [[3 / 5, 4 / 5]], some 75⟩ : HutchPP ℚ).sample (streamExt !![27, 36; 36, 48])
      (.str "normal") w).1 = .ok 75 := by
  have hs : HutchPP.Ready (⟨2, 1, .str "normal", some [[3 / 5, 4 / 5]], some 75⟩ : HutchPP ℚ) !![27, 36; 36, 48]
      (fun _ : Fin 1 => ![3 / 5, 4 / 5]) := by
    refine ⟨rfl, fun i j => ?_, by simp, ?_⟩
    · fin_cases i; fin_cases j
      simp [dotProduct, Fin.sum_univ_two]; norm_num
    · simp [Matrix.mulVec, dotProduct, Fin.sum_univ_two]; norm_num
  rw [hutchpp_exact _ (streamExt_lengths _) _ (streamExt_multiplies _) _ _ hs
    ⟨fun _ => ![45, 60], fun i j => by fin_cases i <;> fin_cases j <;> norm_num⟩ _ (Or.inr rfl)]
  simp [Matrix.trace, Fin.sum_univ_two]; norm_num

/-- A basis for the hypothesis of the comparison over `ℝ`. -/
example : HutchPP.Ready (⟨2, 1, .str "normal", some [[1, 0]], some 3⟩ : HutchPP ℝ) (Matrix.diagonal ![3, 4])
    (fun _ : Fin 1 => ![1, 0]) := by
  refine ⟨rfl, fun i j => ?_, by simp, ?_⟩
  · fin_cases i; fin_cases j
    simp [dotProduct, Fin.sum_univ_two]
  · simp [dotProduct, Fin.sum_univ_two, Matrix.mulVec_diagonal]

end Curvlinops
