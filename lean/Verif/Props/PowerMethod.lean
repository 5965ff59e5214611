import Verif.Model.PowerMethod
import Verif.Props.Programs

/-!
# C110: the power iteration of the documentation
-/

namespace Curvlinops

open Matrix Filter Topology

variable {n : Nat}

/-! ## Vectors -/

/-- Specification: the unit vector in the direction of `x`. -/
noncomputable def unitVec (x : Fin n → ℝ) : Fin n → ℝ := (√(x ⬝ᵥ x))⁻¹ • x

/-- Specification: the Rayleigh quotient. -/
noncomputable def rayleigh (M : Matrix (Fin n) (Fin n) ℝ) (x : Fin n → ℝ) : ℝ := (x ⬝ᵥ M *ᵥ x) / (x ⬝ᵥ x)

theorem dot_self_pos {x : Fin n → ℝ} (hx : x ≠ 0) : 0 < x ⬝ᵥ x := by
  rw [← sqNorm_eq]
  refine lt_of_le_of_ne (sqNorm_nonneg' x) fun h => hx ?_
  rw [sqNorm_eq] at h
  exact dotProduct_self_eq_zero.mp h.symm

theorem normalizeVec_ofFn {x : Fin n → ℝ} (hx : x ≠ 0) : normalizeVec (List.ofFn x) = some (List.ofFn (unitVec x)) := by
  unfold normalizeVec
  rw [npDot_ofFn, if_neg (dot_self_pos hx).ne', List.map_ofFn]
  congr 2
  funext i
  simp [unitVec, div_eq_inv_mul]

theorem unitVec_smul {x : Fin n → ℝ} {c : ℝ} (hc : 0 < c) : unitVec (c • x) = unitVec x := by
  unfold unitVec
  rw [smul_dotProduct, dotProduct_smul, smul_eq_mul, smul_eq_mul, ← mul_assoc, Real.sqrt_mul (by positivity), Real.sqrt_mul_self hc.le,
    smul_smul, mul_inv, mul_comm c⁻¹, mul_assoc, inv_mul_cancel₀ hc.ne', mul_one]

theorem unitVec_pos {x : Fin n → ℝ} (hx : x ≠ 0) : ∃ c : ℝ, 0 < c ∧ unitVec x = c • x :=
  ⟨(√(x ⬝ᵥ x))⁻¹, inv_pos.mpr (Real.sqrt_pos.mpr (dot_self_pos hx)), rfl⟩

theorem unitVec_dot {x : Fin n → ℝ} (hx : x ≠ 0) (M : Matrix (Fin n) (Fin n) ℝ) : unitVec x ⬝ᵥ M *ᵥ unitVec x = rayleigh M x := by
  have h := dot_self_pos hx
  unfold unitVec rayleigh
  rw [Matrix.mulVec_smul, smul_dotProduct, dotProduct_smul, smul_eq_mul, smul_eq_mul, ← mul_assoc, ← mul_inv,
    Real.mul_self_sqrt h.le, inv_mul_eq_div]

theorem unitVec_norm {x : Fin n → ℝ} (hx : x ≠ 0) : unitVec x ⬝ᵥ unitVec x = 1 := by
  have h := unitVec_dot hx 1
  rw [Matrix.one_mulVec] at h
  rw [h, rayleigh, Matrix.one_mulVec, div_self (dot_self_pos hx).ne']

/-! ## Projections -/

/-- Specification: orthonormal eigenvectors. -/
structure PowerBasis (M : Matrix (Fin n) (Fin n) ℝ) (bs : List (Fin n → ℝ)) : Prop where
  unit : ∀ b ∈ bs, b ⬝ᵥ b = 1
  orth : bs.Pairwise fun b c => b ⬝ᵥ c = 0
  eig : ∀ b ∈ bs, ∃ l : ℝ, M *ᵥ b = l • b

/-- Specification: `x` is orthogonal to all of them. -/
def Orth (bs : List (Fin n → ℝ)) (x : Fin n → ℝ) : Prop := ∀ b ∈ bs, x ⬝ᵥ b = 0

/-- Specification: the part of `v` that is orthogonal to an orthonormal basis. -/
def projOut (bs : List (Fin n → ℝ)) (v : Fin n → ℝ) : Fin n → ℝ := v - (bs.map fun b => (v ⬝ᵥ b) • b).sum

theorem projOut_cons (b : Fin n → ℝ) (bs : List (Fin n → ℝ)) (h : ∀ c ∈ bs, b ⬝ᵥ c = 0) (v : Fin n → ℝ) :
    projOut bs (v - (v ⬝ᵥ b) • b) = projOut (b :: bs) v := by
  unfold projOut
  have e : (bs.map fun c => ((v - (v ⬝ᵥ b) • b) ⬝ᵥ c) • c) = bs.map fun c => (v ⬝ᵥ c) • c := by
    refine List.map_congr_left fun c hc => ?_
    rw [sub_dotProduct, smul_dotProduct, h c hc, smul_zero, sub_zero]
  rw [e, List.map_cons, List.sum_cons]
  abel

theorem orthonormalize_ofFn (bs : List (Fin n → ℝ)) (ho : bs.Pairwise fun b c => b ⬝ᵥ c = 0) (v : Fin n → ℝ) :
    orthonormalizeVec (List.ofFn v) (bs.map fun b => some (List.ofFn b)) = normalizeVec (List.ofFn (projOut bs v)) := by
  induction bs generalizing v with
  | nil => simp [orthonormalizeVec, projOut]
  | cons b bs ih =>
    rw [List.pairwise_cons] at ho
    rw [← projOut_cons b bs ho.1, ← ih ho.2, List.map_cons, orthonormalizeVec, npDot_ofFn]
    congr 1
    refine List.ext_getElem (by simp) fun i h1 h2 => ?_
    simp

theorem projOut_of_orth {bs : List (Fin n → ℝ)} {x : Fin n → ℝ} (h : Orth bs x) : projOut bs x = x := by
  unfold projOut
  have : (bs.map fun b => (x ⬝ᵥ b) • b) = bs.map fun _ => (0 : Fin n → ℝ) := List.map_congr_left fun b hb => by rw [h b hb, zero_smul]
  rw [this]
  simp

theorem projOut_smul (bs : List (Fin n → ℝ)) (c : ℝ) (x : Fin n → ℝ) : projOut bs (c • x) = c • projOut bs x := by
  unfold projOut
  rw [smul_sub]
  congr 1
  induction bs with
  | nil => simp
  | cons b bs ih => rw [List.map_cons, List.sum_cons, ih, List.map_cons, List.sum_cons, smul_add, smul_dotProduct, smul_smul, smul_eq_mul]

theorem list_sum_dotProduct (bs : List (Fin n → ℝ)) (c : Fin n → ℝ) : bs.sum ⬝ᵥ c = (bs.map fun b => b ⬝ᵥ c).sum := by
  induction bs with
  | nil => simp
  | cons b bs ih => rw [List.sum_cons, add_dotProduct, ih, List.map_cons, List.sum_cons]

theorem projOut_orth {bs : List (Fin n → ℝ)} (hu : ∀ b ∈ bs, b ⬝ᵥ b = 1) (ho : bs.Pairwise fun b c => b ⬝ᵥ c = 0) (v : Fin n → ℝ) :
    Orth bs (projOut bs v) := by
  induction bs generalizing v with
  | nil => intro b hb; simp at hb
  | cons b bs ih =>
    rw [List.pairwise_cons] at ho
    rw [← projOut_cons b bs ho.1]
    have h1 := ih (fun c hc => hu c (by simp [hc])) ho.2 (v - (v ⬝ᵥ b) • b)
    intro c hc
    rcases List.mem_cons.mp hc with rfl | hc
    · unfold projOut
      rw [sub_dotProduct, list_sum_dotProduct, List.map_map]
      have : (bs.map ((fun b => b ⬝ᵥ c) ∘ fun b => ((v - (v ⬝ᵥ c) • c) ⬝ᵥ b) • b)) = bs.map fun _ => (0 : ℝ) := by
        refine List.map_congr_left fun d hd => ?_
        simp only [Function.comp_apply, smul_dotProduct]
        rw [dotProduct_comm d c, ho.1 d hd, smul_zero]
      rw [this]
      simp [sub_dotProduct, hu c (by simp)]
    · exact h1 c hc

theorem projOut_dot {bs : List (Fin n → ℝ)} {p : Fin n → ℝ} (h : Orth bs p) (v : Fin n → ℝ) : p ⬝ᵥ projOut bs v = p ⬝ᵥ v := by
  unfold projOut
  rw [dotProduct_sub, dotProduct_comm p (List.sum _), list_sum_dotProduct, List.map_map]
  have : (bs.map ((fun b => b ⬝ᵥ p) ∘ fun b => (v ⬝ᵥ b) • b)) = bs.map fun _ => (0 : ℝ) := by
    refine List.map_congr_left fun d hd => ?_
    simp only [Function.comp_apply, smul_dotProduct]
    rw [dotProduct_comm d p, h d hd, smul_zero]
  rw [this]
  simp

theorem symm_dot {M : Matrix (Fin n) (Fin n) ℝ} (hM : Mᵀ = M) (x y : Fin n → ℝ) : (M *ᵥ x) ⬝ᵥ y = x ⬝ᵥ M *ᵥ y := by
  rw [Matrix.dotProduct_mulVec, ← Matrix.mulVec_transpose, hM]

theorem orth_mulVec {M : Matrix (Fin n) (Fin n) ℝ} (hM : Mᵀ = M) {bs : List (Fin n → ℝ)} (hb : PowerBasis M bs) {x : Fin n → ℝ}
    (h : Orth bs x) : Orth bs (M *ᵥ x) := by
  intro b hb'
  obtain ⟨l, hl⟩ := hb.eig b hb'
  rw [symm_dot hM, hl, dotProduct_smul, h b hb', smul_zero]

theorem orth_smul {bs : List (Fin n → ℝ)} (c : ℝ) {x : Fin n → ℝ} (h : Orth bs x) : Orth bs (c • x) := by
  intro b hb
  rw [smul_dotProduct, h b hb, smul_zero]

/-! ## Runs of the inner loop -/

/-- Specification: the Rayleigh quotients of the iterates of `x`. -/
noncomputable def iterQuot (M : Matrix (Fin n) (Fin n) ℝ) (x : Fin n → ℝ) (i : Nat) : ℝ := rayleigh M (M ^ i *ᵥ x)

/-- Specification: the relative change of consecutive quotients is below the tolerance at iteration `i ≥ 1`. -/
def QuotSettled (M : Matrix (Fin n) (Fin n) ℝ) (x : Fin n → ℝ) (tol : ℝ) (i : Nat) : Prop :=
  |iterQuot M x (i - 1) - iterQuot M x i| / (|iterQuot M x (i - 1)| + 1e-6) < tol

section run

variable {A : SciOp ℝ} {M : Matrix (Fin n) (Fin n) ℝ} (hA : VecRep A M) (hM : Mᵀ = M) {bs : List (Fin n → ℝ)} (hb : PowerBasis M bs)
  (tol : ℝ) {x : Fin n → ℝ} (hx : Orth bs x)

include hA hM hb hx

omit hM hx in
/-- One iteration. -/
theorem powerIter_step (i : Nat) (hne : M ^ i *ᵥ x ≠ 0) (v : Fin n → ℝ) {s : ℝ} (hs : 0 < s) (hv : projOut bs v = s • (M ^ i *ᵥ x)) :
    ∃ u Au : List ℝ, orthonormalizeVec (List.ofFn v) (bs.map fun b => some (List.ofFn b)) = some u ∧ A.mulVec u = .ok Au ∧
      npDot u Au = iterQuot M x i ∧ (M ^ (i + 1) *ᵥ x ≠ 0 → normalizeVec Au = some (List.ofFn (unitVec (M ^ (i + 1) *ᵥ x)))) := by
  have hy : projOut bs v ≠ 0 := by rw [hv]; exact smul_ne_zero hs.ne' hne
  refine ⟨_, _, by rw [orthonormalize_ofFn bs hb.orth, normalizeVec_ofFn hy], hA.mulVec _, ?_, fun h => ?_⟩
  · rw [npDot_ofFn, hv, unitVec_smul hs, unitVec_dot hne]
    rfl
  · obtain ⟨c, c1, c2⟩ := unitVec_pos hne
    rw [hv, unitVec_smul hs, c2, Matrix.mulVec_smul, Matrix.mulVec_mulVec, ← pow_succ']
    rw [normalizeVec_ofFn (smul_ne_zero c1.ne' h), unitVec_smul c1]

omit hA in
theorem orth_pow (i : Nat) : Orth bs (M ^ i *ᵥ x) := by
  induction i with
  | zero => simpa using hx
  | succ i ih => rw [pow_succ', ← Matrix.mulVec_mulVec]; exact orth_mulVec hM hb ih

/-- From iteration `i ≥ 1` on. -/
theorem powerIter_from (m : Nat) : ∀ (i : Nat) (c : Nat), (∀ j, j ≤ i + 1 + m → M ^ j *ᵥ x ≠ 0) →
    ((∀ j, i + 1 ≤ j → j < i + 1 + m → ¬ QuotSettled M x tol j) →
      powerIter A tol (bs.map fun b => some (List.ofFn b)) m (some (iterQuot M x i)) (some (List.ofFn (unitVec (M ^ (i + 1) *ᵥ x)))) c =
        .ok ⟨some (some (iterQuot M x (i + m))), some (List.ofFn (unitVec (M ^ (i + 1 + m) *ᵥ x))), c + m⟩) ∧
    (∀ j, i + 1 ≤ j → j < i + 1 + m → QuotSettled M x tol j → (∀ j', i + 1 ≤ j' → j' < j → ¬ QuotSettled M x tol j') →
      powerIter A tol (bs.map fun b => some (List.ofFn b)) m (some (iterQuot M x i)) (some (List.ofFn (unitVec (M ^ (i + 1) *ᵥ x)))) c =
        .ok ⟨some (some (iterQuot M x (j - 1))), some (List.ofFn (unitVec (M ^ (j + 1) *ᵥ x))), c + (j - i)⟩) := by
  induction m with
  | zero =>
    intro i c hne
    refine ⟨fun _ => rfl, fun j h1 h2 => by omega⟩
  | succ m ih =>
    intro i c hne
    have h0 := hne (i + 1) (by omega)
    obtain ⟨s, s1, s2⟩ := unitVec_pos h0
    have ho := orth_pow hM hb hx (i + 1)
    obtain ⟨u, Au, a1, a2, a3, a4⟩ := powerIter_step hA hb (i + 1) h0 (unitVec (M ^ (i + 1) *ᵥ x)) s1
      (by rw [projOut_of_orth (by rw [s2]; exact orth_smul s ho), s2])
    have a5 := a4 (hne (i + 1 + 1) (by omega))
    have hstep : powerIter A tol (bs.map fun b => some (List.ofFn b)) (m + 1) (some (iterQuot M x i))
        (some (List.ofFn (unitVec (M ^ (i + 1) *ᵥ x)))) c =
        if |iterQuot M x i - iterQuot M x (i + 1)| / (|iterQuot M x i| + 1e-6) < tol then
          .ok ⟨some (some (iterQuot M x i)), some (List.ofFn (unitVec (M ^ (i + 1 + 1) *ᵥ x))), c + 1⟩
        else powerIter A tol (bs.map fun b => some (List.ofFn b)) m (some (iterQuot M x (i + 1)))
          (some (List.ofFn (unitVec (M ^ (i + 1 + 1) *ᵥ x)))) (c + 1) := by
      rw [powerIter]
      simp only [Option.bind_some, a1, a2, a3, a5]
    have hq : QuotSettled M x tol (i + 1) ↔ |iterQuot M x i - iterQuot M x (i + 1)| / (|iterQuot M x i| + 1e-6) < tol := Iff.rfl
    obtain ⟨i1, i2⟩ := ih (i + 1) (c + 1) fun j hj => hne j (by omega)
    constructor
    · intro hns
      have h := hns (i + 1) (by omega) (by omega)
      rw [hstep, if_neg (hq.not.mp h), i1 fun j h1 h2 => hns j (by omega) (by omega)]
      simp only [Except.ok.injEq, PowerRun.mk.injEq]
      refine ⟨by rw [show i + 1 + m = i + (m + 1) by omega], by rw [show i + 1 + 1 + m = i + 1 + (m + 1) by omega], by omega⟩
    · intro j h1 h2 hj hj'
      rcases Nat.eq_or_lt_of_le h1 with rfl | h1
      · rw [hstep, if_pos (hq.mp hj)]
        simp
      · rw [hstep, if_neg (hq.not.mp (hj' (i + 1) le_rfl h1)), i2 j (by omega) (by omega) hj fun j' h3 h4 => hj' j' (by omega) h4]
        simp only [Except.ok.injEq, PowerRun.mk.injEq, true_and]
        omega

end run

/-- **C110** (a run): after orthonormal eigenvectors `bs` and with the random vector `v`, whose part `x` orthogonal to `bs` is not mapped
to zero, the inner loop is determined by the Rayleigh quotients of `x, M x, M² x, …`. If no two consecutive ones are closer than the
tolerance, it makes `max_iterations = m + 1` products and returns the last quotient. Otherwise it stops at the first iteration
`j ≥ 1` that is closer, and returns the quotient of the iteration before. The vector is the normalized last product. -/
theorem power_run {A : SciOp ℝ} {M : Matrix (Fin n) (Fin n) ℝ} (hA : VecRep A M) (hM : Mᵀ = M) {bs : List (Fin n → ℝ)}
    (hb : PowerBasis M bs) (tol : ℝ) (v : Fin n → ℝ) (m : Nat) (hne : ∀ j ≤ m + 1, M ^ j *ᵥ projOut bs v ≠ 0) :
    ((∀ j, 1 ≤ j → j ≤ m → ¬ QuotSettled M (projOut bs v) tol j) →
      powerIter A tol (bs.map fun b => some (List.ofFn b)) (m + 1) none (normalizeVec (List.ofFn v)) 0 =
        .ok ⟨some (some (iterQuot M (projOut bs v) m)), some (List.ofFn (unitVec (M ^ (m + 1) *ᵥ projOut bs v))), m + 1⟩) ∧
    (∀ j, 1 ≤ j → j ≤ m → QuotSettled M (projOut bs v) tol j → (∀ j', 1 ≤ j' → j' < j → ¬ QuotSettled M (projOut bs v) tol j') →
      powerIter A tol (bs.map fun b => some (List.ofFn b)) (m + 1) none (normalizeVec (List.ofFn v)) 0 =
        .ok ⟨some (some (iterQuot M (projOut bs v) (j - 1))), some (List.ofFn (unitVec (M ^ (j + 1) *ᵥ projOut bs v))), j + 1⟩) := by
  have hx := projOut_orth hb.unit hb.orth v
  have h0 : projOut bs v ≠ 0 := by simpa using hne 0 (by omega)
  have hv : v ≠ 0 := by
    rintro rfl
    refine h0 ?_
    have := projOut_smul bs 0 (0 : Fin n → ℝ)
    simpa using this
  obtain ⟨s, s1, s2⟩ := unitVec_pos hv
  obtain ⟨u, Au, a1, a2, a3, a4⟩ := powerIter_step hA hb 0 (hne 0 (by omega)) (unitVec v) s1
    (by rw [s2, projOut_smul, pow_zero, Matrix.one_mulVec])
  have a5 := a4 (hne 1 (by omega))
  have hstep : powerIter A tol (bs.map fun b => some (List.ofFn b)) (m + 1) none (normalizeVec (List.ofFn v)) 0 =
      powerIter A tol (bs.map fun b => some (List.ofFn b)) m (some (iterQuot M (projOut bs v) 0))
        (some (List.ofFn (unitVec (M ^ (0 + 1) *ᵥ projOut bs v)))) 1 := by
    rw [powerIter, normalizeVec_ofFn hv]
    simp only [Option.bind_some, a1, a2, a3, a5]
  obtain ⟨r1, r2⟩ := powerIter_from hA hM hb tol hx m 0 1 fun j hj => hne j (by omega)
  rw [hstep]
  constructor
  · intro h
    rw [r1 fun j h1 h2 => h j (by omega) (by omega)]
    simp only [Except.ok.injEq, PowerRun.mk.injEq]
    refine ⟨by rw [Nat.zero_add], by rw [show 0 + 1 + m = m + 1 by omega], by omega⟩
  · intro j h1 h2 h3 h4
    rw [r2 j (by omega) (by omega) h3 fun j' h5 h6 => h4 j' (by omega) h6]
    simp only [Except.ok.injEq, PowerRun.mk.injEq, true_and]
    omega

/-! ## The Rayleigh quotients -/

/-- **C110** (bounds): the quotients lie between bounds of the quadratic form; in particular between the extreme eigenvalues. -/
theorem rayleigh_bounds (M : Matrix (Fin n) (Fin n) ℝ) {a b : ℝ} (h : ∀ v, a * sqNorm v ≤ v ⬝ᵥ M *ᵥ v ∧ v ⬝ᵥ M *ᵥ v ≤ b * sqNorm v)
    {x : Fin n → ℝ} (hx : x ≠ 0) : a ≤ rayleigh M x ∧ rayleigh M x ≤ b := by
  have h0 := dot_self_pos hx
  have h1 := h x
  rw [sqNorm_eq] at h1
  exact ⟨(le_div_iff₀ h0).mpr h1.1, (div_le_iff₀ h0).mpr h1.2⟩

theorem psd_cauchy_schwarz {M : Matrix (Fin n) (Fin n) ℝ} (hM : SymPsd M) (y z : Fin n → ℝ) :
    (y ⬝ᵥ M *ᵥ z) ^ 2 ≤ (y ⬝ᵥ M *ᵥ y) * (z ⬝ᵥ M *ᵥ z) := by
  have h := discrim_le_zero (a := z ⬝ᵥ M *ᵥ z) (b := 2 * (y ⬝ᵥ M *ᵥ z)) (c := y ⬝ᵥ M *ᵥ y) fun t => by
    have h1 := hM.2 (y + t • z)
    rw [Matrix.mulVec_add, Matrix.mulVec_smul, add_dotProduct, dotProduct_add, dotProduct_add, smul_dotProduct, smul_dotProduct,
      dotProduct_smul, dotProduct_smul, ← symm_dot hM.1 z y, dotProduct_comm (M *ᵥ z) y] at h1
    simp only [smul_eq_mul] at h1
    linarith
  unfold discrim at h
  linarith

/-- **C110** (monotony): for positive semi-definite matrices the quotients do not decrease, so that more iterations are not worse. -/
theorem iterQuot_mono {M : Matrix (Fin n) (Fin n) ℝ} (hM : SymPsd M) (x : Fin n → ℝ) (i : Nat) (hne : M ^ (i + 1) *ᵥ x ≠ 0) :
    iterQuot M x i ≤ iterQuot M x (i + 1) := by
  have e : M ^ (i + 1) *ᵥ x = M *ᵥ (M ^ i *ᵥ x) := by rw [Matrix.mulVec_mulVec, ← pow_succ']
  unfold iterQuot rayleigh
  rw [e] at hne ⊢
  set y := M ^ i *ᵥ x with hy
  have hy0 : y ≠ 0 := by
    intro h
    rw [h, Matrix.mulVec_zero] at hne
    exact hne rfl
  have h0 := dot_self_pos hy0
  have h2 := dot_self_pos hne
  have c1 : (y ⬝ᵥ M *ᵥ y) ^ 2 ≤ (y ⬝ᵥ y) * ((M *ᵥ y) ⬝ᵥ (M *ᵥ y)) := by
    have := psd_cauchy_schwarz (M := (1 : Matrix (Fin n) (Fin n) ℝ)) ⟨by simp, fun v => by
      rw [Matrix.one_mulVec, ← sqNorm_eq]; exact sqNorm_nonneg' v⟩ y (M *ᵥ y)
    simpa [Matrix.one_mulVec] using this
  have c2 := psd_cauchy_schwarz hM y (M *ᵥ y)
  rw [← symm_dot hM.1 y (M *ᵥ y)] at c2
  have p1 := hM.2 y
  have p3 := hM.2 (M *ᵥ y)
  rw [div_le_div_iff₀ h0 h2]
  set a0 := y ⬝ᵥ y
  set a1 := y ⬝ᵥ M *ᵥ y
  set a2 := (M *ᵥ y) ⬝ᵥ (M *ᵥ y)
  set a3 := (M *ᵥ y) ⬝ᵥ M *ᵥ (M *ᵥ y)
  have hp : 0 < a1 * a3 := lt_of_lt_of_le (by positivity) c2
  have q1 : 0 < a1 := by
    rcases p1.eq_or_lt with h | h
    · rw [← h] at hp; simp at hp
    · exact h
  have h5 : (a1 * a2) * (a1 * a2) ≤ (a1 * a2) * (a3 * a0) := by nlinarith [mul_le_mul c1 c2 (sq_nonneg _) (by positivity)]
  exact le_of_mul_le_mul_left h5 (by positivity)

/-! ## Convergence -/

theorem ratio_tendsto {ι : Type _} [Fintype ι] (d c f : ι → ℝ) {l : ℝ} (hl : l ≠ 0) (hdom : ∀ i, c i ≠ 0 → d i = l ∨ |d i| < |l|)
    (hex : ∃ i, c i ≠ 0 ∧ d i = l) (hf : ∀ i, d i = l → f i = 0) :
    Tendsto (fun T : Nat => (∑ i, f i * (d i ^ T * c i) ^ 2) / ∑ i, (d i ^ T * c i) ^ 2) atTop (𝓝 0) := by
  classical
  have e : (fun T : Nat => (∑ i, f i * (d i ^ T * c i) ^ 2) / ∑ i, (d i ^ T * c i) ^ 2) =
      fun T : Nat => (∑ i, f i * ((d i / l) ^ T * c i) ^ 2) / ∑ i, ((d i / l) ^ T * c i) ^ 2 := by
    funext T
    have hp : (l ^ T) ^ 2 ≠ 0 := by positivity
    have h1 : ∀ g : ι → ℝ, ∑ i, g i * (d i ^ T * c i) ^ 2 = (l ^ T) ^ 2 * ∑ i, g i * ((d i / l) ^ T * c i) ^ 2 := by
      intro g
      rw [Finset.mul_sum]
      refine Finset.sum_congr rfl fun i _ => ?_
      rw [div_pow]
      have : l ^ T ≠ 0 := pow_ne_zero _ hl
      field_simp
    have h2 := h1 fun _ => 1
    simp only [one_mul] at h2
    rw [h1, h2, mul_div_mul_left _ _ hp]
  rw [e]
  have hterm : ∀ i, Tendsto (fun T : Nat => ((d i / l) ^ T * c i) ^ 2) atTop (𝓝 (if d i = l then c i ^ 2 else 0)) := by
    intro i
    by_cases hc : c i = 0
    · simp [hc]
    · by_cases h : d i = l
      · rw [if_pos h, h, div_self hl]
        simp
      · rw [if_neg h]
        have h2 : |d i| < |l| := (hdom i hc).resolve_left h
        have h3 : |d i / l| < 1 := by rwa [abs_div, div_lt_one (abs_pos.mpr hl)]
        have h4 := tendsto_pow_atTop_nhds_zero_of_abs_lt_one h3
        have h5 := (h4.mul_const (c i)).pow 2
        simpa using h5
  have hnum : Tendsto (fun T : Nat => ∑ i, f i * ((d i / l) ^ T * c i) ^ 2) atTop (𝓝 (∑ i, f i * (if d i = l then c i ^ 2 else 0))) :=
    tendsto_finsetSum _ fun i _ => (hterm i).const_mul (f i)
  have hden : Tendsto (fun T : Nat => ∑ i, ((d i / l) ^ T * c i) ^ 2) atTop (𝓝 (∑ i, (if d i = l then c i ^ 2 else 0))) :=
    tendsto_finsetSum _ fun i _ => hterm i
  have hz : ∑ i, f i * (if d i = l then c i ^ 2 else 0) = 0 := Finset.sum_eq_zero fun i _ => by
    by_cases h : d i = l
    · rw [hf i h, zero_mul]
    · rw [if_neg h, mul_zero]
  have hpos : 0 < ∑ i, (if d i = l then c i ^ 2 else 0) := by
    obtain ⟨i, h1, h2⟩ := hex
    refine Finset.sum_pos' (fun j _ => by split_ifs <;> positivity) ⟨i, Finset.mem_univ i, ?_⟩
    rw [if_pos h2]
    positivity
  rw [hz] at hnum
  have := hnum.div hden hpos.ne'
  rwa [zero_div] at this

/-- Specification: `l` is the eigenvalue that a power iteration orthogonal to `bs` should find: it is larger in magnitude than all other
eigenvalues that have eigenvectors orthogonal to `bs`, and the random vector is not orthogonal to its eigenspace. -/
structure Dominant (M : Matrix (Fin n) (Fin n) ℝ) (bs : List (Fin n → ℝ)) (v : Fin n → ℝ) (l : ℝ) : Prop where
  ne_zero : l ≠ 0
  largest : ∀ (a : ℝ) (y : Fin n → ℝ), y ≠ 0 → M *ᵥ y = a • y → Orth bs y → a = l ∨ |a| < |l|
  seen : ∃ p : Fin n → ℝ, M *ᵥ p = l • p ∧ Orth bs p ∧ p ⬝ᵥ v ≠ 0

theorem projOut_mulVec {M : Matrix (Fin n) (Fin n) ℝ} (hM : Mᵀ = M) {bs : List (Fin n → ℝ)} (hb : PowerBasis M bs) (v : Fin n → ℝ) :
    M *ᵥ projOut bs v = projOut bs (M *ᵥ v) := by
  unfold projOut
  rw [Matrix.mulVec_sub]
  congr 1
  have hb' := hb.eig
  clear hb
  induction bs with
  | nil => simp
  | cons b bs ih =>
    obtain ⟨a, ha⟩ := hb' b (by simp)
    rw [List.map_cons, List.sum_cons, Matrix.mulVec_add, ih fun c hc => hb' c (by simp [hc]), List.map_cons, List.sum_cons,
      Matrix.mulVec_smul, ha, symm_dot hM, ha, dotProduct_smul, smul_smul, smul_eq_mul, mul_comm]

/-- Coordinates with respect to eigenvectors. -/
theorem power_coords {M : Matrix (Fin n) (Fin n) ℝ} (hM : Mᵀ = M) {bs : List (Fin n → ℝ)} (hb : PowerBasis M bs) {v : Fin n → ℝ} {l : ℝ}
    (hd : Dominant M bs v l) : ∃ d c : Fin n → ℝ, (∀ i, c i ≠ 0 → d i = l ∨ |d i| < |l|) ∧ (∃ i, c i ≠ 0 ∧ d i = l) ∧
      ∀ T : Nat, (M ^ T *ᵥ projOut bs v) ⬝ᵥ (M ^ T *ᵥ projOut bs v) = ∑ i, (d i ^ T * c i) ^ 2 ∧
        (M ^ T *ᵥ projOut bs v) ⬝ᵥ M *ᵥ (M ^ T *ᵥ projOut bs v) = ∑ i, d i * (d i ^ T * c i) ^ 2 ∧
        sqNorm (M *ᵥ (M ^ T *ᵥ projOut bs v) - l • (M ^ T *ᵥ projOut bs v)) = ∑ i, (d i - l) ^ 2 * (d i ^ T * c i) ^ 2 := by
  obtain ⟨U, d, hU, hU', hMd⟩ := exists_eigendecomposition M hM
  set x := projOut bs v with hx
  have hUM : Uᵀ * M = diagonal d * Uᵀ := by
    rw [hMd, ← Matrix.mul_assoc, ← Matrix.mul_assoc, hU, Matrix.one_mul]
  have hcoord : ∀ y : Fin n → ℝ, Uᵀ *ᵥ (M *ᵥ y) = fun i => d i * (Uᵀ *ᵥ y) i := by
    intro y
    rw [Matrix.mulVec_mulVec, hUM, ← Matrix.mulVec_mulVec]
    funext i
    rw [Matrix.mulVec_diagonal]
  have hpow : ∀ T : Nat, Uᵀ *ᵥ (M ^ T *ᵥ x) = fun i => d i ^ T * (Uᵀ *ᵥ x) i := by
    intro T
    induction T with
    | zero => simp
    | succ T ih =>
      rw [pow_succ', ← Matrix.mulVec_mulVec, hcoord, ih]
      funext i
      rw [pow_succ']
      ring
  have hdot : ∀ y z : Fin n → ℝ, y ⬝ᵥ z = ∑ i, (Uᵀ *ᵥ y) i * (Uᵀ *ᵥ z) i := by
    intro y z
    have : (Uᵀ *ᵥ y) ⬝ᵥ (Uᵀ *ᵥ z) = y ⬝ᵥ z := by
      rw [Matrix.dotProduct_mulVec, ← Matrix.mulVec_transpose, Matrix.transpose_transpose, Matrix.mulVec_mulVec, hU', Matrix.one_mulVec]
    exact this.symm
  have hcol : ∀ i (y : Fin n → ℝ), (Uᵀ *ᵥ y) i = (fun k => U k i) ⬝ᵥ y := fun i y => rfl
  refine ⟨d, Uᵀ *ᵥ x, fun i hi => ?_, ?_, fun T => ⟨?_, ?_, ?_⟩⟩
  · have h1 : (fun k => U k i) ⬝ᵥ x ≠ 0 := by rwa [← hcol]
    have ho := projOut_orth hb.unit hb.orth (fun k => U k i)
    have h2 : projOut bs (fun k => U k i) ⬝ᵥ x = (fun k => U k i) ⬝ᵥ x := by
      rw [dotProduct_comm, projOut_dot (projOut_orth hb.unit hb.orth v), dotProduct_comm]
    refine hd.largest (d i) (projOut bs fun k => U k i) (fun h => h1 (by rw [← h2, h, zero_dotProduct])) ?_ ho
    rw [projOut_mulVec hM hb, (eigendecomposition_col hU hMd i).1, projOut_smul]
  · obtain ⟨p, p1, p2, p3⟩ := hd.seen
    rw [← projOut_dot p2, ← hx, hdot] at p3
    obtain ⟨i, -, hi⟩ := Finset.exists_ne_zero_of_sum_ne_zero p3
    refine ⟨i, right_ne_zero_of_mul hi, ?_⟩
    have h1 := congrFun (hcoord p) i
    rw [p1, Matrix.mulVec_smul] at h1
    simp only [Pi.smul_apply, smul_eq_mul] at h1
    exact (mul_right_cancel₀ (left_ne_zero_of_mul hi) h1).symm
  · rw [hdot, hpow]
    exact Finset.sum_congr rfl fun i _ => by ring
  · rw [hdot, hcoord, hpow]
    exact Finset.sum_congr rfl fun i _ => by ring
  · rw [sqNorm_eq, hdot, Matrix.mulVec_sub, Matrix.mulVec_smul, hcoord, hpow]
    refine Finset.sum_congr rfl fun i _ => ?_
    simp only [Pi.sub_apply, Pi.smul_apply, smul_eq_mul]
    ring

/-- With a dominant eigenvalue no iterate is zero. -/
theorem Dominant.iterates {M : Matrix (Fin n) (Fin n) ℝ} (hM : Mᵀ = M) {bs : List (Fin n → ℝ)} {v : Fin n → ℝ} {l : ℝ}
    (hd : Dominant M bs v l) (j : Nat) : M ^ j *ᵥ projOut bs v ≠ 0 := by
  obtain ⟨p, p1, p2, p3⟩ := hd.seen
  have key : ∀ (j : Nat) (y : Fin n → ℝ), p ⬝ᵥ M ^ j *ᵥ y = l ^ j * (p ⬝ᵥ y) := by
    intro j
    induction j with
    | zero => intro y; simp
    | succ j ih =>
      intro y
      rw [pow_succ', ← Matrix.mulVec_mulVec, ← symm_dot hM, p1, smul_dotProduct, ih, smul_eq_mul, pow_succ']
      ring
  intro h
  have h1 := key j (projOut bs v)
  rw [h, dotProduct_zero, projOut_dot p2] at h1
  exact mul_ne_zero (pow_ne_zero j hd.ne_zero) p3 h1.symm

/-- The quotients converge to the dominant eigenvalue, and the iterates become eigenvectors. -/
theorem iterQuot_tendsto {M : Matrix (Fin n) (Fin n) ℝ} (hM : Mᵀ = M) {bs : List (Fin n → ℝ)} (hb : PowerBasis M bs) {v : Fin n → ℝ} {l : ℝ}
    (hd : Dominant M bs v l) : Tendsto (iterQuot M (projOut bs v)) atTop (𝓝 l) ∧
      Tendsto (fun T => sqNorm (M *ᵥ unitVec (M ^ T *ᵥ projOut bs v) - l • unitVec (M ^ T *ᵥ projOut bs v))) atTop (𝓝 0) := by
  obtain ⟨d, c, h1, h2, h3⟩ := power_coords hM hb hd
  constructor
  · have h := ratio_tendsto d c (fun i => d i - l) hd.ne_zero h1 h2 fun i hi => by rw [hi, sub_self]
    have e : iterQuot M (projOut bs v) = fun T => (∑ i, (d i - l) * (d i ^ T * c i) ^ 2) / (∑ i, (d i ^ T * c i) ^ 2) + l := by
      funext T
      have h0 := (dot_self_pos (hd.iterates hM T)).ne'
      unfold iterQuot rayleigh
      rw [(h3 T).1] at h0 ⊢
      rw [(h3 T).2.1, div_add' _ _ _ h0]
      congr 1
      rw [Finset.mul_sum, ← Finset.sum_add_distrib]
      exact Finset.sum_congr rfl fun i _ => by ring
    rw [e]
    simpa using h.add_const l
  · have h := ratio_tendsto d c (fun i => (d i - l) ^ 2) hd.ne_zero h1 h2 fun i hi => by rw [hi, sub_self]; ring
    refine h.congr fun T => ?_
    have h0 := dot_self_pos (hd.iterates hM T)
    have e : ∀ (y : Fin n → ℝ), 0 < y ⬝ᵥ y → sqNorm (M *ᵥ unitVec y - l • unitVec y) = sqNorm (M *ᵥ y - l • y) / (y ⬝ᵥ y) := by
      intro y hy
      unfold unitVec
      rw [Matrix.mulVec_smul, smul_comm l, ← smul_sub, sqNorm_eq, smul_dotProduct, dotProduct_smul, smul_eq_mul, smul_eq_mul, ← mul_assoc,
        ← mul_inv, Real.mul_self_sqrt hy.le, inv_mul_eq_div, sqNorm_eq]
    rw [e _ h0, (h3 T).2.2, (h3 T).1]

/-- **C110** (convergence): without tolerance (`tol ≤ 0`), after orthonormal eigenvectors `bs`, the returned value and vector converge to
the dominant eigenvalue and become an eigenpair as `max_iterations = m + 1` grows. -/
theorem power_converges {A : SciOp ℝ} {M : Matrix (Fin n) (Fin n) ℝ} (hA : VecRep A M) (hM : Mᵀ = M) {bs : List (Fin n → ℝ)}
    (hb : PowerBasis M bs) {v : Fin n → ℝ} {l : ℝ} (hd : Dominant M bs v l) {tol : ℝ} (htol : tol ≤ 0) :
    ∃ (e : Nat → ℝ) (u : Nat → Fin n → ℝ),
      (∀ m, powerIter A tol (bs.map fun b => some (List.ofFn b)) (m + 1) none (normalizeVec (List.ofFn v)) 0 =
        .ok ⟨some (some (e m)), some (List.ofFn (u m)), m + 1⟩) ∧
      Tendsto e atTop (𝓝 l) ∧ (∀ m, u m ⬝ᵥ u m = 1 ∧ Orth bs (u m)) ∧ Tendsto (fun m => sqNorm (M *ᵥ u m - l • u m)) atTop (𝓝 0) := by
  obtain ⟨h1, h2⟩ := iterQuot_tendsto hM hb hd
  refine ⟨iterQuot M (projOut bs v), fun m => unitVec (M ^ (m + 1) *ᵥ projOut bs v), fun m => ?_, h1, fun m => ⟨?_, ?_⟩, ?_⟩
  · refine (power_run hA hM hb tol v m fun j _ => hd.iterates hM j).1 fun j _ _ h => ?_
    have h3 : 0 ≤ |iterQuot M (projOut bs v) (j - 1) - iterQuot M (projOut bs v) j| / (|iterQuot M (projOut bs v) (j - 1)| + 1e-6) := by
      positivity
    unfold QuotSettled at h
    linarith
  · exact unitVec_norm (hd.iterates hM _)
  · exact orth_smul _ (orth_pow hM hb (projOut_orth hb.unit hb.orth v) _)
  · exact h2.comp (tendsto_add_atTop_nat 1)

/-- **C110** (stopping): with a positive tolerance the iteration stops by itself: from some number on, `max_iterations` does not matter. -/
theorem power_stops {A : SciOp ℝ} {M : Matrix (Fin n) (Fin n) ℝ} (hA : VecRep A M) (hM : Mᵀ = M) {bs : List (Fin n → ℝ)}
    (hb : PowerBasis M bs) {v : Fin n → ℝ} {l : ℝ} (hd : Dominant M bs v l) {tol : ℝ} (htol : 0 < tol) :
    ∃ j, 1 ≤ j ∧ QuotSettled M (projOut bs v) tol j ∧ ∀ m, j ≤ m →
      powerIter A tol (bs.map fun b => some (List.ofFn b)) (m + 1) none (normalizeVec (List.ofFn v)) 0 =
        .ok ⟨some (some (iterQuot M (projOut bs v) (j - 1))), some (List.ofFn (unitVec (M ^ (j + 1) *ᵥ projOut bs v))), j + 1⟩ := by
  classical
  have hl := hd.ne_zero
  obtain ⟨h1, -⟩ := iterQuot_tendsto hM hb hd
  have h2 := h1.comp (tendsto_add_atTop_nat 1)
  have h3 : Tendsto (fun j => |iterQuot M (projOut bs v) j - iterQuot M (projOut bs v) (j + 1)| / (|iterQuot M (projOut bs v) j| + 1e-6))
      atTop (𝓝 (|l - l| / (|l| + 1e-6))) := (h1.sub h2).abs.div (h1.abs.add_const _) (by positivity)
  rw [sub_self, abs_zero, zero_div] at h3
  obtain ⟨N, hN⟩ := (h3.eventually (gt_mem_nhds htol)).exists
  have hex : ∃ j, 1 ≤ j ∧ QuotSettled M (projOut bs v) tol j := ⟨N + 1, by omega, hN⟩
  refine ⟨Nat.find hex, (Nat.find_spec hex).1, (Nat.find_spec hex).2, fun m hm => ?_⟩
  exact (power_run hA hM hb tol v m fun j _ => hd.iterates hM j).2 _ (Nat.find_spec hex).1 hm (Nat.find_spec hex).2 fun j' a b c =>
    Nat.find_min hex b ⟨a, c⟩

/-! ## The whole method -/

theorem powerIter_products (A : SciOp ℝ) (tol : ℝ) (basis : List (Option (List ℝ))) (m : Nat) : ∀ (ev : Option ℝ) (v : Option (List ℝ))
    (c : Nat) (r : PowerRun), powerIter A tol basis m ev v c = .ok r → r.products ≤ c + m := by
  induction m with
  | zero =>
    intro ev v c r h
    simp only [powerIter, Except.ok.injEq] at h
    rw [← h]
    simp
  | succ m ih =>
    intro ev v c r h
    rw [powerIter] at h
    split at h
    · simp only [Except.ok.injEq] at h
      rw [← h]
    · split at h
      · cases h
      · split at h
        · exact (ih _ _ _ _ h).trans (by omega)
        · split_ifs at h
          · simp only [Except.ok.injEq] at h
            rw [← h]
            show _ + 1 ≤ _
            omega
          · exact (ih _ _ _ _ h).trans (by omega)

theorem powerIter_raises (A : SciOp ℝ) (tol : ℝ) (basis : List (Option (List ℝ))) (m : Nat) : ∀ (ev : Option ℝ) (v : Option (List ℝ))
    (c : Nat) (e : PyErr), powerIter A tol basis m ev v c = .error e → ∃ u, A.mulVec u = .error e := by
  induction m with
  | zero =>
    intro ev v c e h
    simp [powerIter] at h
  | succ m ih =>
    intro ev v c e h
    rw [powerIter] at h
    split at h
    · cases h
    · split at h
      · rename_i u _ e' he
        cases h
        exact ⟨_, he⟩
      · split at h
        · exact ih _ _ _ _ h
        · split_ifs at h
          exact ih _ _ _ _ h

theorem powerLoop_append (A : SciOp ℝ) (m : Nat) (tol : ℝ) (draw : Nat → List ℝ) (k : Nat) : ∀ (done rs : List PowerRun),
    powerLoop A m tol draw k done = .ok rs → rs.length = done.length + k ∧ done <+: rs ∧
      ((done.map PowerRun.products).sum ≤ done.length * m → (rs.map PowerRun.products).sum ≤ rs.length * m) := by
  induction k with
  | zero =>
    intro done rs h
    simp only [powerLoop, Except.ok.injEq] at h
    rw [← h]
    exact ⟨rfl, List.prefix_refl _, id⟩
  | succ k ih =>
    intro done rs h
    rw [powerLoop] at h
    split at h
    · cases h
    · rename_i r hr
      obtain ⟨h1, h2, h3⟩ := ih _ _ h
      refine ⟨by rw [h1]; simp; omega, (List.prefix_append done [r]).trans h2, fun h4 => h3 ?_⟩
      have := powerIter_products _ _ _ _ _ _ _ _ hr
      simp only [List.map_append, List.map_cons, List.map_nil, List.sum_append, List.sum_cons, List.sum_nil, List.length_append,
        List.length_cons, List.length_nil]
      rw [Nat.zero_add, Nat.add_mul, Nat.one_mul]
      omega

theorem powerLoop_raises (A : SciOp ℝ) (m : Nat) (tol : ℝ) (draw : Nat → List ℝ) (k : Nat) : ∀ (done : List PowerRun) (e : PyErr),
    powerLoop A m tol draw k done = .error e → ∃ u, A.mulVec u = .error e := by
  induction k with
  | zero => intro done e h; simp [powerLoop] at h
  | succ k ih =>
    intro done e h
    rw [powerLoop] at h
    split at h
    · rename_i e' he
      cases h
      exact powerIter_raises _ _ _ _ _ _ _ _ he
    · exact ih _ _ h

/-- **C110** (results, products, exceptions): `k` values and `k` rows of the array of vectors are returned with at most
`k * max_iterations` products, and only exceptions of products are raised. -/
theorem power_method_result (A : SciOp ℝ) (m : Nat) (tol : ℝ) (k : Nat) (draw : Nat → List ℝ) :
    (∀ vals vecs c, powerMethod A m tol k draw = .ok (vals, vecs, c) → vals.length = k ∧ vecs.length = k ∧ c ≤ k * m) ∧
    ∀ e, powerMethod A m tol k draw = .error e → ∃ u, A.mulVec u = .error e := by
  constructor
  · intro vals vecs c h
    unfold powerMethod at h
    split at h
    · cases h
    · rename_i rs hrs
      obtain ⟨h1, -, h3⟩ := powerLoop_append _ _ _ _ _ _ _ hrs
      simp only [Except.ok.injEq, Prod.mk.injEq] at h
      obtain ⟨rfl, rfl, rfl⟩ := h
      simp only [List.length_nil, Nat.zero_add] at h1
      refine ⟨by simp [h1], by simp [h1], ?_⟩
      rw [← h1]
      exact h3 (by simp)
  · intro e h
    unfold powerMethod at h
    split at h
    · rename_i e' he
      cases h
      exact powerLoop_raises _ _ _ _ _ _ _ he
    · cases h

theorem powerLoop_split (A : SciOp ℝ) (m : Nat) (tol : ℝ) (draw : Nat → List ℝ) (k j : Nat) : ∀ (done : List PowerRun),
    powerLoop A m tol draw (k + j) done =
      match powerLoop A m tol draw k done with
      | .error e => .error e
      | .ok rs => powerLoop A m tol draw j rs := by
  induction k with
  | zero => intro done; simp [powerLoop]
  | succ k ih =>
    intro done
    rw [show k + 1 + j = (k + j) + 1 by omega, powerLoop, powerLoop]
    split
    · rfl
    · exact ih _

/-- **C110** (more eigenpairs): asking for more eigenpairs keeps the earlier ones; they are the last ones of the result. -/
theorem power_method_more (A : SciOp ℝ) (m : Nat) (tol : ℝ) (k j : Nat) (draw : Nat → List ℝ) (vals : List (Option (Option ℝ)))
    (vecs : List (Option (List ℝ))) (c : Nat) (h : powerMethod A m tol (k + j) draw = .ok (vals, vecs, c)) :
    ∃ c', c' ≤ c ∧ powerMethod A m tol k draw = .ok (vals.drop j, vecs.drop j, c') := by
  unfold powerMethod at h ⊢
  rw [powerLoop_split] at h
  split at h
  · cases h
  · rename_i rs' hrs'
    split at hrs'
    · cases hrs'
    · rename_i rs hrs
      obtain ⟨l1, -, -⟩ := powerLoop_append _ _ _ _ _ _ _ hrs
      obtain ⟨l2, ⟨t, ht⟩, -⟩ := powerLoop_append _ _ _ _ _ _ _ hrs'
      simp only [Except.ok.injEq, Prod.mk.injEq] at h
      obtain ⟨rfl, rfl, rfl⟩ := h
      subst ht
      have hj : t.length = j := by
        rw [List.length_append] at l2
        omega
      refine ⟨(rs.map PowerRun.products).sum, by simp, ?_⟩
      rw [hrs]
      simp only [Except.ok.injEq, Prod.mk.injEq, and_true, List.reverse_append, List.map_append]
      constructor <;> rw [List.drop_left' (by simp [hj])]

/-- **C110** (the next eigenpair): it is found by an iteration that is orthogonal to all vectors found before, from the next random vector,
and is put first. -/
theorem power_method_next (A : SciOp ℝ) (m : Nat) (tol : ℝ) (k : Nat) (draw : Nat → List ℝ) (vals : List (Option (Option ℝ)))
    (vecs : List (Option (List ℝ))) (c : Nat) (h : powerMethod A m tol k draw = .ok (vals, vecs, c)) :
    powerMethod A m tol (k + 1) draw =
      match powerIter A tol vecs.reverse m none (normalizeVec (draw k)) 0 with
      | .error e => .error e
      | .ok r => .ok (r.value :: vals, r.vec :: vecs, c + r.products) := by
  unfold powerMethod at h ⊢
  rw [powerLoop_split]
  split at h
  · cases h
  · rename_i rs hrs
    obtain ⟨l1, -, -⟩ := powerLoop_append _ _ _ _ _ _ _ hrs
    simp only [Except.ok.injEq, Prod.mk.injEq] at h
    obtain ⟨rfl, rfl, rfl⟩ := h
    rw [hrs]
    have e : (rs.reverse.map PowerRun.vec).reverse = rs.map PowerRun.vec := by rw [List.map_reverse, List.reverse_reverse]
    have hk : rs.length = k := by simpa using l1
    simp only [powerLoop, e, hk]
    cases powerIter A tol (rs.map PowerRun.vec) m none (normalizeVec (draw k)) 0 with
    | error e => rfl
    | ok r => simp

/-- **C110** (convergence of the first eigenpair of the method). -/
theorem power_method_converges {A : SciOp ℝ} {M : Matrix (Fin n) (Fin n) ℝ} (hA : VecRep A M) (hM : Mᵀ = M) {v : Fin n → ℝ} {l : ℝ}
    (hd : Dominant M [] v l) {tol : ℝ} (htol : tol ≤ 0) (draw : Nat → List ℝ) (hdraw : draw 0 = List.ofFn v) :
    ∃ (e : Nat → ℝ) (u : Nat → Fin n → ℝ),
      (∀ m, powerMethod A (m + 1) tol 1 draw = .ok ([some (some (e m))], [some (List.ofFn (u m))], m + 1)) ∧
      Tendsto e atTop (𝓝 l) ∧ (∀ m, u m ⬝ᵥ u m = 1) ∧ Tendsto (fun m => sqNorm (M *ᵥ u m - l • u m)) atTop (𝓝 0) := by
  obtain ⟨e, u, h1, h2, h3, h4⟩ := power_converges hA hM (bs := []) ⟨by simp, by simp, by simp⟩ hd htol
  refine ⟨e, u, fun m => ?_, h2, fun m => (h3 m).1, h4⟩
  have h0 : powerMethod A (m + 1) tol 0 draw = .ok ([], [], 0) := rfl
  have := power_method_next A (m + 1) tol 0 draw _ _ _ h0
  rw [hdraw, List.reverse_nil, show ([] : List (Option (List ℝ))) = [].map fun b : Fin n → ℝ => some (List.ofFn b) from rfl, h1 m] at this
  rw [this]
  simp

theorem pow_eigen {M : Matrix (Fin n) (Fin n) ℝ} {d : Fin n → ℝ} {l : ℝ} (h : M *ᵥ d = l • d) (j : Nat) : M ^ j *ᵥ d = l ^ j • d := by
  induction j with
  | zero => simp
  | succ j ih => rw [pow_succ', ← Matrix.mulVec_mulVec, ih, Matrix.mulVec_smul, h, smul_smul, pow_succ]

/-- **C110** (starting from eigenvectors): if the random vectors happen to be orthogonal eigenvectors, the method returns exactly these, in
reversed order: the result need not be the leading eigenvalues, and need not be sorted. -/
theorem power_eigenvectors {A : SciOp ℝ} {M : Matrix (Fin n) (Fin n) ℝ} (hA : VecRep A M) (hM : Mᵀ = M) {tol : ℝ} (htol : 0 < tol) (m : Nat)
    (ds : List ((Fin n → ℝ) × ℝ)) (heig : ∀ d ∈ ds, d.1 ≠ 0 ∧ d.2 ≠ 0 ∧ M *ᵥ d.1 = d.2 • d.1)
    (horth : ds.Pairwise fun a b => a.1 ⬝ᵥ b.1 = 0) (draw : Nat → List ℝ)
    (hdraw : ∀ j d, ds[j]? = some d → draw j = List.ofFn d.1) :
    powerMethod A (m + 2) tol ds.length draw = .ok (ds.reverse.map fun d => some (some d.2),
      ds.reverse.map fun d => some (List.ofFn (unitVec d.1)), 2 * ds.length) := by
  let run : (Fin n → ℝ) × ℝ → PowerRun := fun d => ⟨some (some d.2), some (List.ofFn (unitVec d.1)), 2⟩
  have key : ∀ post pre : List ((Fin n → ℝ) × ℝ), ds = pre ++ post →
      powerLoop A (m + 2) tol draw post.length (pre.map run) = .ok (ds.map run) := by
    intro post
    induction post with
    | nil => intro pre h; simp [powerLoop, h]
    | cons d post ih =>
      intro pre h
      rw [List.length_cons, powerLoop]
      obtain ⟨d1, d2, d3⟩ := heig d (by simp [h])
      have hpre : ∀ b ∈ pre, b.1 ⬝ᵥ d.1 = 0 := fun b hb =>
        (List.pairwise_append.mp (h ▸ horth)).2.2 b hb d (by simp)
      have hb : PowerBasis M (pre.map fun b => unitVec b.1) := by
        refine ⟨?_, ?_, ?_⟩
        · intro b hb
          obtain ⟨b, hb', rfl⟩ := List.mem_map.mp hb
          exact unitVec_norm (heig b (by simp [h, hb'])).1
        · rw [List.pairwise_map]
          refine (List.pairwise_append.mp (h ▸ horth)).1.imp fun {a b} hab => ?_
          simp [unitVec, hab]
        · intro b hb
          obtain ⟨b, hb', rfl⟩ := List.mem_map.mp hb
          refine ⟨b.2, ?_⟩
          unfold unitVec
          rw [Matrix.mulVec_smul, (heig b (by simp [h, hb'])).2.2, smul_comm]
      have ho : Orth (pre.map fun b => unitVec b.1) d.1 := by
        intro b hb
        obtain ⟨b, hb', rfl⟩ := List.mem_map.mp hb
        unfold unitVec
        rw [dotProduct_smul, dotProduct_comm d.1, hpre b hb', smul_zero]
      have hp := projOut_of_orth ho
      have hq : ∀ j, iterQuot M d.1 j = d.2 := by
        intro j
        have h0 := dot_self_pos d1
        have hl : d.2 ^ j ≠ 0 := pow_ne_zero j d2
        unfold iterQuot rayleigh
        rw [pow_eigen d3, Matrix.mulVec_smul, d3]
        simp only [smul_dotProduct, dotProduct_smul, smul_eq_mul]
        field_simp
      have hrun := (power_run hA hM hb tol d.1 (m + 1) fun j _ => by
        rw [hp, pow_eigen d3]; exact smul_ne_zero (pow_ne_zero j d2) d1).2 1 le_rfl (by omega) (by
          rw [hp]
          unfold QuotSettled
          rw [hq, hq, sub_self, abs_zero, zero_div]
          exact htol) fun j' h1 h2 => by omega
      rw [hp, hq, pow_eigen d3, unitVec_smul (show (0 : ℝ) < d.2 ^ (1 + 1) from sq_pos_of_ne_zero d2)] at hrun
      have hd : draw (pre.map run).length = List.ofFn d.1 := hdraw _ d (by rw [h]; simp)
      rw [hd, List.map_map]
      rw [List.map_map] at hrun
      have hrun' : powerIter A tol (pre.map (PowerRun.vec ∘ run)) (m + 2) none (normalizeVec (List.ofFn d.1)) 0 = .ok (run d) := hrun
      rw [hrun']
      have := ih (pre ++ [d]) (by simp [h])
      rwa [List.map_append] at this
  have h := key ds [] rfl
  unfold powerMethod
  rw [List.map_nil] at h
  rw [h]
  simp only [Except.ok.injEq, Prod.mk.injEq, ← List.map_reverse, List.map_map]
  refine ⟨rfl, rfl, ?_⟩
  have : ds.map (PowerRun.products ∘ run) = List.replicate ds.length 2 := by
    rw [List.eq_replicate_iff]
    refine ⟨by simp, fun b hb => ?_⟩
    obtain ⟨d, -, rfl⟩ := List.mem_map.mp hb
    rfl
  rw [this]
  simp [mul_comm]

/-- **C110** (NaN): if the part of the random vector orthogonal to the previous eigenvectors is mapped to zero (it then is an eigenvector
for the eigenvalue 0), the method returns NaN. -/
theorem power_nan {A : SciOp ℝ} {M : Matrix (Fin n) (Fin n) ℝ} (hA : VecRep A M) {bs : List (Fin n → ℝ)}
    (hb : PowerBasis M bs) (tol : ℝ) (v : Fin n → ℝ) (m : Nat) (hv : projOut bs v ≠ 0) (hz : M *ᵥ projOut bs v = 0) :
    powerIter A tol (bs.map fun b => some (List.ofFn b)) (m + 2) none (normalizeVec (List.ofFn v)) 0 = .ok ⟨some none, none, m + 2⟩ := by
  have hv0 : v ≠ 0 := by
    rintro rfl
    refine hv ?_
    have := projOut_smul bs 0 (0 : Fin n → ℝ)
    simpa using this
  obtain ⟨s, s1, s2⟩ := unitVec_pos hv0
  have hp : projOut bs (unitVec v) = s • projOut bs v := by rw [s2, projOut_smul]
  have hne : projOut bs (unitVec v) ≠ 0 := by rw [hp]; exact smul_ne_zero s1.ne' hv
  have a1 := orthonormalize_ofFn bs hb.orth (unitVec v)
  rw [normalizeVec_ofFn hne] at a1
  have a2 : A.mulVec (List.ofFn (unitVec (projOut bs (unitVec v)))) = .ok (List.ofFn (0 : Fin n → ℝ)) := by
    rw [hA.mulVec, hp, unitVec_smul s1]
    unfold unitVec
    rw [Matrix.mulVec_smul, hz, smul_zero]
  have a3 : normalizeVec (List.ofFn (0 : Fin n → ℝ)) = none := by
    unfold normalizeVec
    rw [npDot_ofFn]
    simp
  rw [powerIter, normalizeVec_ofFn hv0]
  simp only [Option.bind_some, a1, a2, a3]
  rw [powerIter]
  simp only [Option.bind_none, Except.ok.injEq, PowerRun.mk.injEq, true_and]
  omega

/-! ## What the docstring promises -/

/-- The operator of a diagonal matrix with three entries. -/
noncomputable def diagOp3 : SciOp ℝ := ⟨3, 3, fun x => .ok (.vec (List.zipWith (· * ·) [3, 2, 1] x.ravel)), fun _ _ => .error .notImplementedError⟩

theorem diagOp3_rep : VecRep diagOp3 (diagonal ![3, 2, 1]) := by
  refine ⟨rfl, rfl, fun x => dot_vec_of_impl (by simp [diagOp3]) (by simp [diagOp3]) ?_⟩
  simp [diagOp3, NpVal.ravel, List.ofFn_succ, Matrix.mulVec_diagonal]

/-- Not what is documented ("in descending order", "array of shape `[D, k]`", `example_eigenvalues.py:144-145`): for the operator with
eigenvalues `3, 2, 1` and random vectors in direction of the first two eigenvectors, the values are returned in ascending order, and the
array of vectors has shape `[k, D]`. With random vectors in direction of the last two, the values are not the leading ones. -/
theorem power_docstring_violation :
    powerMethod diagOp3 100 1e-3 2 (fun j => if j = 0 then [1, 0, 0] else [0, 1, 0]) =
      .ok ([some (some 2), some (some 3)], [some [0, 1, 0], some [1, 0, 0]], 4) ∧
    powerMethod diagOp3 100 1e-3 2 (fun j => if j = 0 then [0, 0, 1] else [0, 1, 0]) =
      .ok ([some (some 2), some (some 1)], [some [0, 1, 0], some [0, 0, 1]], 4) := by
  have hd : (diagonal ![3, 2, 1] : Matrix (Fin 3) (Fin 3) ℝ)ᵀ = diagonal ![3, 2, 1] := diagonal_transpose _
  have e : ∀ a : Fin 3, (diagonal ![3, 2, 1] : Matrix (Fin 3) (Fin 3) ℝ) *ᵥ Pi.single a 1 = (![3, 2, 1] a : ℝ) • Pi.single a 1 := by
    intro a
    funext i
    rw [Matrix.mulVec_diagonal]
    by_cases h : i = a
    · subst h; simp
    · simp [h]
  have hu : ∀ a : Fin 3, unitVec (Pi.single a 1 : Fin 3 → ℝ) = Pi.single a 1 := by
    intro a
    simp [unitVec]
  have ne : ∀ a : Fin 3, (Pi.single a 1 : Fin 3 → ℝ) ≠ 0 := fun a h => by
    have := congrFun h a
    simp at this
  constructor
  · have h := power_eigenvectors diagOp3_rep hd (tol := 1e-3) (by norm_num) 98 [(Pi.single 0 1, 3), (Pi.single 1 1, 2)]
      (by
        intro d hd
        simp only [List.mem_cons, List.not_mem_nil, or_false] at hd
        rcases hd with rfl | rfl
        · exact ⟨ne 0, by norm_num, e 0⟩
        · exact ⟨ne 1, by norm_num, e 1⟩) (by simp) (fun j => if j = 0 then [1, 0, 0] else [0, 1, 0])
      (by
        intro j d hj
        rcases j with _ | _ | j <;> simp at hj <;> subst hj <;> simp [List.ofFn_succ, Pi.single_apply])
    simpa [hu, List.ofFn_succ, Pi.single_apply] using h
  · have h := power_eigenvectors diagOp3_rep hd (tol := 1e-3) (by norm_num) 98 [(Pi.single 2 1, 1), (Pi.single 1 1, 2)]
      (by
        intro d hd
        simp only [List.mem_cons, List.not_mem_nil, or_false] at hd
        rcases hd with rfl | rfl
        · exact ⟨ne 2, by norm_num, e 2⟩
        · exact ⟨ne 1, by norm_num, e 1⟩) (by simp) (fun j => if j = 0 then [0, 0, 1] else [0, 1, 0])
      (by
        intro j d hj
        rcases j with _ | _ | j <;> simp at hj <;> subst hj <;> simp [List.ofFn_succ, Pi.single_apply])
    simpa [hu, List.ofFn_succ, Pi.single_apply] using h

/-- An operator that maps everything to zero has the eigenvalue 0, but the method returns NaN. -/
theorem power_zero_nan : powerMethod (dampingOp 1 (0 : ℝ)) 100 1e-3 1 (fun _ => [1]) = .ok ([some none], [none], 100) := by
  have h := power_nan (damping_rep (n := 1) 0).1 (bs := []) ⟨by simp, by simp, by simp⟩ 1e-3 ![1] 98 (by simp [projOut]) (by simp)
  have h' : powerIter (dampingOp 1 (0 : ℝ)) 1e-3 [] 100 none (normalizeVec [1]) 0 = .ok ⟨some none, none, 100⟩ := by
    simpa [List.ofFn_succ] using h
  unfold powerMethod
  simp [powerLoop, h']

/-- The dominant eigenvalue of the example, as seen from a vector that has all components. -/
example : Dominant (diagonal ![3, 2, 1] : Matrix (Fin 3) (Fin 3) ℝ) [] ![1, 1, 1] 3 := by
  refine ⟨by norm_num, fun a y hy h _ => ?_, ⟨![1, 0, 0], ?_, by intro b hb; simp at hb, ?_⟩⟩
  · obtain ⟨i, hi⟩ := Function.ne_iff.mp hy
    have h1 := congrFun h i
    rw [Matrix.mulVec_diagonal] at h1
    have h2 : a = ![3, 2, 1] i := (mul_right_cancel₀ (b := y i) hi h1).symm
    rw [h2]
    fin_cases i
    · left; rfl
    · right; show |(2 : ℝ)| < |3|; norm_num
    · right; show |(1 : ℝ)| < |3|; norm_num
  · funext i
    rw [Matrix.mulVec_diagonal]
    fin_cases i <;> simp
  · simp [dotProduct, Fin.sum_univ_succ]

end Curvlinops
