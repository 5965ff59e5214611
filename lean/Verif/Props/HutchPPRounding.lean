import Verif.Model.HutchPPRounding
import Verif.Props.EstimatorRounding

/-!
# C136: Hutch++ with an inexact basis and with rounding errors
-/

namespace Curvlinops

open Matrix MeasureTheory

section exact

variable {α W : Type _}

/-- Deviation of the columns `q` from orthonormality. -/
def gramDefect [CommRing α] {k n : Nat} (q : Fin k → Fin n → α) (i j : Fin k) : α := q i ⬝ᵥ q j - if i = j then 1 else 0

theorem complement_symm [CommRing α] {k n : Nat} (q : Fin k → Fin n → α) : (complement q)ᵀ = complement q := by
  simp [complement, Matrix.transpose_mul]

theorem quad_complement' [CommRing α] {k n : Nat} (q : Fin k → Fin n → α) (M : Matrix (Fin n) (Fin n) α) (v : Fin n → α) :
    (complement q *ᵥ v) ⬝ᵥ (M *ᵥ (complement q *ᵥ v)) = v ⬝ᵥ ((complement q * M * complement q) *ᵥ v) := by
  rw [← Matrix.mulVec_mulVec, ← Matrix.mulVec_mulVec, Matrix.dotProduct_mulVec v (complement q),
    ← Matrix.mulVec_transpose, complement_symm]

/-- The trace outside a span, for any columns. -/
theorem trace_complement [CommRing α] {k n : Nat} (q : Fin k → Fin n → α) (M : Matrix (Fin n) (Fin n) α) :
    ∑ i, q i ⬝ᵥ (M *ᵥ q i) + (complement q * M * complement q).trace =
      M.trace + ∑ i, ∑ j, (q i ⬝ᵥ (M *ᵥ q j)) * gramDefect q j i := by
  have hS : (M * ((Matrix.of q)ᵀ * Matrix.of q * ((Matrix.of q)ᵀ * Matrix.of q))).trace =
      ∑ i, ∑ j, (q i ⬝ᵥ (M *ᵥ q j)) * (q j ⬝ᵥ q i) := by
    have e1 : M * ((Matrix.of q)ᵀ * Matrix.of q * ((Matrix.of q)ᵀ * Matrix.of q)) =
        M * (Matrix.of q)ᵀ * (Matrix.of q * (Matrix.of q)ᵀ) * Matrix.of q := by simp only [Matrix.mul_assoc]
    rw [e1, Matrix.trace_mul_comm, ← Matrix.mul_assoc]
    simp only [Matrix.trace, Matrix.diag_apply]
    refine Finset.sum_congr rfl fun i _ => ?_
    rw [Matrix.mul_apply]
    refine Finset.sum_congr rfl fun j _ => ?_
    congr 1
  have hC : (complement q * M * complement q).trace =
      M.trace - 2 * (M * ((Matrix.of q)ᵀ * Matrix.of q)).trace +
        (M * ((Matrix.of q)ᵀ * Matrix.of q * ((Matrix.of q)ᵀ * Matrix.of q))).trace := by
    rw [Matrix.trace_mul_comm, ← Matrix.mul_assoc, Matrix.trace_mul_comm, complement]
    have : M * ((1 - (Matrix.of q)ᵀ * Matrix.of q) * (1 - (Matrix.of q)ᵀ * Matrix.of q)) =
        M - M * ((Matrix.of q)ᵀ * Matrix.of q) - M * ((Matrix.of q)ᵀ * Matrix.of q) +
          M * ((Matrix.of q)ᵀ * Matrix.of q * ((Matrix.of q)ᵀ * Matrix.of q)) := by
      noncomm_ring
    rw [this, Matrix.trace_add, Matrix.trace_sub, Matrix.trace_sub]
    ring
  have hT : ∑ i, ∑ j, (q i ⬝ᵥ (M *ᵥ q j)) * gramDefect q j i =
      ∑ i, ∑ j, (q i ⬝ᵥ (M *ᵥ q j)) * (q j ⬝ᵥ q i) - ∑ i, q i ⬝ᵥ (M *ᵥ q i) := by
    rw [← Finset.sum_sub_distrib]
    refine Finset.sum_congr rfl fun i _ => ?_
    simp only [gramDefect, mul_sub, Finset.sum_sub_distrib]
    congr 1
    simp
  rw [hT, hC, hS, trace_span]
  ring

theorem hutchpp_sample_eq' [CommRing α] {n k : Nat} (E : Ext α W) (M : Matrix (Fin n) (Fin n) α)
    (hM : Multiplies E M) (s : HutchPP α) (q : Fin k → Fin n → α) (t : α) (hdim : s.dim = n)
    (hQ : s.Q = some (List.ofFn fun i => List.ofFn (q i))) (ht : s.tr = some t) (d : DistArg) (w : W)
    (v : Fin n → α) (hv : (randomVector E n d w).1 = .ok (List.ofFn v)) :
    (s.sample E d w).1 = .ok (t + v ⬝ᵥ ((complement q * M * complement q) *ᵥ v)) := by
  simp only [HutchPP.sample, (hutchpp_cached E s _ _ hQ ht d w).1, hdim]
  rcases h : randomVector E n d w with ⟨r, w'⟩
  rw [h] at hv
  simp only at hv
  subst hv
  simp only [hQ, ht, projectOut_ofFn]
  have hm := hM (complement q *ᵥ v) w'
  rcases h' : E.mul (List.ofFn (complement q *ᵥ v)) w' with ⟨r, w''⟩
  rw [h'] at hm
  simp only at hm
  subst hm
  simp only [npDot_ofFn, quad_complement']

/-- **C136** (Rademacher): for any cached columns `q` and any cached number `t`, the expectation of a sample is the trace, plus the error of `t`, plus
the defect of orthonormality weighted with the matrix in the span. -/
theorem hutchpp_bias_rademacher [Field α] [CharZero α] {n k : Nat} (E : Ext α W) (M : Matrix (Fin n) (Fin n) α)
    (hM : Multiplies E M) (s : HutchPP α) (q : Fin k → Fin n → α) (t : α) (hdim : s.dim = n)
    (hQ : s.Q = some (List.ofFn fun i => List.ofFn (q i))) (ht : s.tr = some t) (w : (Fin n → Bool) → W) (hw : DrawsBits E w) :
    ∃ F : (Fin n → Bool) → α, (∀ b, (s.sample E (.str "rademacher") (w b)).1 = .ok (F b)) ∧
      signMean F = M.trace + (t - ∑ i, q i ⬝ᵥ (M *ᵥ q i)) + ∑ i, ∑ j, (q i ⬝ᵥ (M *ᵥ q j)) * gramDefect q j i := by
  refine ⟨_, fun b => hutchpp_sample_eq' E M hM s q t hdim hQ ht _ _ _ (rademacher_ofFn E b _ (hw b)), ?_⟩
  have h1 := trace_complement q M
  have h2 : signMean (fun b : Fin n → Bool => t + (fun i => sgn (b i)) ⬝ᵥ ((complement q * M * complement q) *ᵥ fun i => sgn (b i))) =
      t + (complement q * M * complement q).trace := by
    rw [← signMean_quad (complement q * M * complement q)]
    unfold signMean
    rw [Finset.sum_add_distrib, add_div]
    congr 1
    simp only [Finset.sum_const, Finset.card_univ, Fintype.card_fun, Fintype.card_bool, Fintype.card_fin, nsmul_eq_mul,
      Nat.cast_pow, Nat.cast_ofNat]
    exact mul_div_cancel_left₀ _ (pow_ne_zero _ two_ne_zero)
  rw [h2]
  linear_combination h1

/-- **C136** (normal). -/
theorem hutchpp_bias_normal {n k : Nat} (E : Ext ℝ W) (M : Matrix (Fin n) (Fin n) ℝ)
    (hM : Multiplies E M) (s : HutchPP ℝ) (q : Fin k → Fin n → ℝ) (t : ℝ) (hdim : s.dim = n)
    (hQ : s.Q = some (List.ofFn fun i => List.ofFn (q i))) (ht : s.tr = some t) (w : (Fin n → ℝ) → W) (hw : DrawsNormal E w) :
    ∃ F : (Fin n → ℝ) → ℝ, (∀ v, (s.sample E (.str "normal") (w v)).1 = .ok (F v)) ∧
      Integrable F (stdNormal n) ∧
      ∫ v, F v ∂stdNormal n = M.trace + (t - ∑ i, q i ⬝ᵥ (M *ᵥ q i)) + ∑ i, ∑ j, (q i ⬝ᵥ (M *ᵥ q j)) * gramDefect q j i := by
  obtain ⟨hint, hval⟩ := stdNormal_quad (complement q * M * complement q)
  refine ⟨_, fun v => hutchpp_sample_eq' E M hM s q t hdim hQ ht _ _ _ (normal_ofFn E v _ (hw v)),
    (integrable_const _).add hint, ?_⟩
  rw [integral_add (integrable_const _) hint, hval, integral_const]
  have h1 := trace_complement q M
  simp only [probReal_univ, smul_eq_mul, one_mul]
  linear_combination h1

/-- Without defects there is no bias. -/
theorem gramDefect_eq_zero [CommRing α] {k n : Nat} (q : Fin k → Fin n → α) : (∀ i j, gramDefect q i j = 0) ↔ OrthoCols q := by
  simp only [gramDefect, sub_eq_zero, OrthoCols]

/-- **C136** (size of the bias): inner products of the columns that are within `ε` of orthonormality change the expectation by at most `ε` times the
absolute values of the matrix in the span. -/
theorem hutchpp_bias_le {k n : Nat} (q : Fin k → Fin n → ℝ) (M : Matrix (Fin n) (Fin n) ℝ) (ε : ℝ) (hq : ∀ i j, |gramDefect q i j| ≤ ε) :
    |∑ i, ∑ j, (q i ⬝ᵥ (M *ᵥ q j)) * gramDefect q j i| ≤ ε * ∑ i, ∑ j, |q i ⬝ᵥ (M *ᵥ q j)| := by
  rw [Finset.mul_sum]
  refine (Finset.abs_sum_le_sum_abs _ _).trans (Finset.sum_le_sum fun i _ => ?_)
  rw [Finset.mul_sum]
  refine (Finset.abs_sum_le_sum_abs _ _).trans (Finset.sum_le_sum fun j _ => ?_)
  rw [abs_mul, mul_comm]
  exact mul_le_mul_of_nonneg_right (hq j i) (abs_nonneg _)

/-- **C136** (orthonormality is needed): linearly independent columns give no bias for any matrix if and only if they are orthonormal. -/
theorem hutchpp_unbiased_iff [Field α] {k n : Nat} (q : Fin k → Fin n → α) (hq : LinearIndependent α q) :
    (∀ M : Matrix (Fin n) (Fin n) α, ∑ i, ∑ j, (q i ⬝ᵥ (M *ᵥ q j)) * gramDefect q j i = 0) ↔ OrthoCols q := by
  rw [← gramDefect_eq_zero]
  refine ⟨fun h => ?_, fun h M => by simp [h]⟩
  rw [Fintype.linearIndependent_iff] at hq
  have h1 : ∀ b i, ∑ j, q j b * gramDefect q j i = 0 := by
    intro b
    refine hq _ ?_
    funext a
    have := h (Matrix.single a b 1)
    simp only [Matrix.single_mulVec, one_mul] at this
    simp only [Finset.sum_apply, Pi.smul_apply, smul_eq_mul, Pi.zero_apply]
    rw [← this]
    refine Finset.sum_congr rfl fun i _ => ?_
    rw [Finset.sum_mul]
    refine Finset.sum_congr rfl fun j _ => ?_
    simp [dotProduct, Function.update_apply]
    ring
  intro j i
  refine hq (fun j => gramDefect q j i) ?_ j
  funext b
  simpa [mul_comm] using h1 b i

/-- One column of length 2: the identity matrix has trace 2, but samples have the expectation 14. -/
example : ∃ F : (Fin 2 → Bool) → ℚ,
    (∀ b, ((⟨2, 1, .str "rademacher", some [[2, 0]], some 4⟩ : HutchPP ℚ).sample (streamExt (1 : Matrix (Fin 2) (Fin 2) ℚ)) (.str "rademacher")
      (fun i => if h : i < 2 then b ⟨i, h⟩ else false)).1 = .ok (F b)) ∧ signMean F = 14 := by
  obtain ⟨F, h1, h2⟩ := hutchpp_bias_rademacher (streamExt (1 : Matrix (Fin 2) (Fin 2) ℚ)) 1 (streamExt_multiplies _)
    ⟨2, 1, .str "rademacher", some [[2, 0]], some 4⟩ (fun _ : Fin 1 => ![2, 0]) 4 rfl rfl rfl _ (streamExt_bits _)
  refine ⟨F, h1, ?_⟩
  rw [h2]
  simp [gramDefect, dotProduct, Fin.sum_univ_two]
  norm_num

end exact

section rounded

variable {ρ : Rounding} {W : Type _}

theorem Within.sub {g : ℝ} {x y : Fl ρ} {a b A B : ℝ} (hx : Within g x a A) (hy : Within g y b B) :
    Within (g * (1 + ρ.u)) (x - y) (a - b) (A + B) := by
  have h1 : |a - b| ≤ A + B := by
    have := abs_sub a b
    linarith [hx.1, hy.1]
  refine ⟨h1, ?_⟩
  rw [Fl.val_sub]
  refine rnd_within _ _ _ _ h1 ?_
  have e : x.val - y.val - (a - b) = (x.val - a) - (y.val - b) := by ring
  rw [e, mul_add]
  have := abs_sub (x.val - a) (y.val - b)
  linarith [hx.2, hy.2]

/-- The matrix is bounded by the bounds. -/
theorem MultipliesWithin.abs_le {m n : Nat} {g : ℝ} {E : Ext (Fl ρ) W} {M M' : Matrix (Fin m) (Fin n) ℝ} (hM : MultipliesWithin g E M M') (w : W)
    (i : Fin m) (j : Fin n) : |M i j| ≤ M' i j := by
  obtain ⟨y, -, hy⟩ := hM (fun l => if l = j then 1 else 0) w
  have := (hy i).1
  have e1 : ∀ l, (if l = j then (1 : Fl ρ) else 0).val = if l = j then 1 else 0 := fun l => by split_ifs <;> rfl
  have e2 : ∀ l, |(if l = j then (1 : ℝ) else 0)| = if l = j then 1 else 0 := fun l => by split_ifs <;> simp
  simpa only [e1, e2, mul_ite, mul_one, mul_zero, Finset.sum_ite_eq', Finset.mem_univ, if_true] using this

/-- Products with vectors that have errors themselves. -/
theorem MultipliesWithin.mul {m n : Nat} {g h : ℝ} (hg : 1 ≤ g) {E : Ext (Fl ρ) W} {M M' : Matrix (Fin m) (Fin n) ℝ}
    (hM : MultipliesWithin g E M M') (v : Fin n → Fl ρ) (a A : Fin n → ℝ) (hv : ∀ j, Within h (v j) (a j) (A j)) (w : W) :
    ∃ y : Fin m → Fl ρ, (E.mul (List.ofFn v) w).1 = .ok (List.ofFn y) ∧
      ∀ i, Within (g * h) (y i) (∑ j, M i j * a j) (∑ j, M' i j * A j) := by
  obtain ⟨y, hy, hy'⟩ := hM v w
  refine ⟨y, hy, fun i => ?_⟩
  have hMM := fun j => hM.abs_le w i j
  have h1 : |∑ j, M i j * (v j).val - ∑ j, M i j * a j| ≤ (h - 1) * ∑ j, M' i j * A j := by
    rw [← Finset.sum_sub_distrib, Finset.mul_sum]
    refine (Finset.abs_sum_le_sum_abs _ _).trans (Finset.sum_le_sum fun j _ => ?_)
    rw [← mul_sub, abs_mul, show (h - 1) * (M' i j * A j) = M' i j * ((h - 1) * A j) by ring]
    exact mul_le_mul (hMM j) (hv j).2 (abs_nonneg _) ((abs_nonneg _).trans (hMM j))
  have h2 : ∑ j, M' i j * |(v j).val| ≤ h * ∑ j, M' i j * A j := by
    rw [Finset.mul_sum]
    refine Finset.sum_le_sum fun j _ => ?_
    have h3 : |(v j).val| ≤ h * A j := by
      have := abs_sub_abs_le_abs_sub (v j).val (a j)
      linarith [(hv j).1, (hv j).2]
    rw [show h * (M' i j * A j) = M' i j * (h * A j) by ring]
    exact mul_le_mul_of_nonneg_left h3 ((abs_nonneg _).trans (hMM j))
  refine ⟨(Finset.abs_sum_le_sum_abs _ _).trans (Finset.sum_le_sum fun j _ => ?_), ?_⟩
  · rw [abs_mul]
    exact mul_le_mul (hMM j) (hv j).1 (abs_nonneg _) ((abs_nonneg _).trans (hMM j))
  · have h4 := (hy' i).2
    have h5 := mul_le_mul_of_nonneg_left h2 (sub_nonneg.mpr hg)
    have h6 : |(y i).val - ∑ j, M i j * a j| ≤ |(y i).val - ∑ j, M i j * (v j).val| + |∑ j, M i j * (v j).val - ∑ j, M i j * a j| :=
      abs_sub_le _ _ _
    linarith

/-- `|v| + |Q| |Qᵀ| |v|`: bounds for the projected vector. -/
def projectBound {k n : Nat} (q : Fin k → Fin n → Fl ρ) (x : Fin n → ℝ) (i : Fin n) : ℝ :=
  x i + ∑ l, |(q l i).val| * ∑ j, |(q l j).val| * x j

/-- The real numbers in the columns. -/
def colVals {k n : Nat} (q : Fin k → Fin n → Fl ρ) (l : Fin k) (i : Fin n) : ℝ := (q l i).val

theorem projectOutFl_within (σ : FlSum ρ) {k n : Nat} (q : Fin k → Fin n → Fl ρ) (v : Fin n → Fl ρ) :
    ∃ c : Fin n → Fl ρ, projectOutFl σ (List.ofFn fun l => List.ofFn (q l)) (List.ofFn v) = List.ofFn c ∧
      ∀ i, Within ((1 + ρ.u) ^ (n + k + 1)) (c i) ((complement (colVals q) *ᵥ fun j => (v j).val) i)
        (projectBound q (fun j => |(v j).val|) i) := by
  refine ⟨fun i => v i - npDotFl σ (List.ofFn fun l => q l i) (List.ofFn fun l => npDotFl σ (List.ofFn (q l)) (List.ofFn v)), ?_, fun i => ?_⟩
  · refine List.ext_getElem (by simp [projectOutFl]) fun i h1 h2 => ?_
    have hi : i < n := by simpa using h2
    simp only [projectOutFl, List.getElem_map, List.getElem_range, List.getElem_ofFn, List.map_ofFn, Function.comp_def]
    simp [List.getD_eq_getElem?_getD, hi]
  · have hR : (complement (colVals q) *ᵥ fun j => (v j).val) i = (v i).val - ∑ l, (q l i).val * ∑ j, (q l j).val * (v j).val := by
      rw [complement, Matrix.sub_mulVec, Matrix.one_mulVec, ← Matrix.mulVec_mulVec]
      rfl
    rw [hR]
    have h1 : ∀ l, Within ((1 + ρ.u) ^ n) (npDotFl σ (List.ofFn (q l)) (List.ofFn v)) (∑ j, (q l j).val * (v j).val)
        (∑ j, |(q l j).val| * |(v j).val|) := fun l => by
      have := npDotFl_within σ le_rfl (q l) v _ _ _ _ (fun j => within_val (q l j)) (fun j => within_val (v j))
      rwa [one_mul, one_mul] at this
    have h2 := npDotFl_within σ le_rfl (fun l => q l i) _ _ _ _ _ (fun l => within_val (q l i)) h1
    rw [one_mul, ← pow_add] at h2
    have h3 := ((within_val (v i)).mono (one_le_pow_u (n + k))).sub h2
    rw [← pow_succ] at h3
    exact h3

theorem maybeComputeFl_cached (σ : FlSum ρ) (E : Ext (Fl ρ) W) (s : HutchPP (Fl ρ)) (Q : List (List (Fl ρ))) (t : Fl ρ) (hQ : s.Q = some Q)
    (ht : s.tr = some t) (w : W) : maybeComputeFl σ E s w = (.ok (), s, w) := by simp [maybeComputeFl, hQ, ht]

/-- **C136** (one sample): with the cached columns `q` and the cached number `t`, which has accuracy `gt`, the sample for the drawn vector `v`. -/
theorem hutchppFl_sample_within (σ : FlSum ρ) {n k : Nat} (E : Ext (Fl ρ) W) {g gt : ℝ} (hg : 1 ≤ g) (M M' : Matrix (Fin n) (Fin n) ℝ)
    (hM : MultipliesWithin g E M M') (s : HutchPP (Fl ρ)) (q : Fin k → Fin n → Fl ρ) (t : Fl ρ) (hdim : s.dim = n)
    (hQ : s.Q = some (List.ofFn fun l => List.ofFn (q l))) (ht : s.tr = some t) (T T' : ℝ) (hT : Within gt t T T')
    (hgt : gt ≤ g * (1 + ρ.u) ^ (3 * n + 2 * k + 2)) (d : DistArg) (w : W) (v : Fin n → Fl ρ)
    (hv : (randomVectorFl E n d w).1 = .ok (List.ofFn v)) :
    (hutchppSampleFl σ E s d w).2.1 = s ∧ ∃ x, (hutchppSampleFl σ E s d w).1 = .ok x ∧
      Within (g * (1 + ρ.u) ^ (3 * n + 2 * k + 3)) x
        (T + (fun j => (v j).val) ⬝ᵥ ((complement (colVals q) * M * complement (colVals q)) *ᵥ fun j => (v j).val))
        (T' + ∑ i, projectBound q (fun j => |(v j).val|) i * ∑ j, M' i j * projectBound q (fun j => |(v j).val|) j) := by
  rcases h : randomVectorFl E n d w with ⟨r, w'⟩
  rw [h] at hv
  simp only at hv
  subst hv
  obtain ⟨c, hc, hcw⟩ := projectOutFl_within σ q v
  obtain ⟨y, hy, hyw⟩ := hM.mul hg c _ _ hcw w'
  rcases h' : E.mul (List.ofFn c) w' with ⟨r, w''⟩
  rw [h'] at hy
  simp only at hy
  subst hy
  have hs : hutchppSampleFl σ E s d w = (.ok (t + npDotFl σ (List.ofFn c) (List.ofFn y)), s, w'') := by
    simp only [hutchppSampleFl, maybeComputeFl_cached σ E s _ _ hQ ht w, hdim, h, hQ, ht, hc, h']
  rw [hs]
  refine ⟨rfl, _, rfl, ?_⟩
  have h1 := npDotFl_within σ (one_le_pow_u (n + k + 1)) c y _ _ _ _ hcw hyw
  have e1 : (1 + ρ.u) ^ (n + k + 1) * (g * (1 + ρ.u) ^ (n + k + 1)) * (1 + ρ.u) ^ n = g * (1 + ρ.u) ^ (3 * n + 2 * k + 2) := by ring
  rw [e1] at h1
  have h2 := (hT.mono hgt).add h1
  rw [mul_assoc, ← pow_succ] at h2
  rw [← quad_complement']
  exact h2

/-- **C136** (Rademacher, floating point): the expectation of the computed samples differs from the trace plus the bias of the inexact basis by at most
the accumulated rounding errors. -/
theorem hutchppFl_rademacher (hρ : SignsExact ρ) (σ : FlSum ρ) {n k : Nat} (E : Ext (Fl ρ) W) {g gt : ℝ} (hg : 1 ≤ g)
    (M M' : Matrix (Fin n) (Fin n) ℝ) (hM : MultipliesWithin g E M M') (s : HutchPP (Fl ρ)) (q : Fin k → Fin n → Fl ρ) (t : Fl ρ) (hdim : s.dim = n)
    (hQ : s.Q = some (List.ofFn fun l => List.ofFn (q l))) (ht : s.tr = some t) (T' : ℝ)
    (hT : Within gt t (∑ l, colVals q l ⬝ᵥ (M *ᵥ colVals q l)) T') (hgt : gt ≤ g * (1 + ρ.u) ^ (3 * n + 2 * k + 2))
    (w : (Fin n → Bool) → W) (hw : DrawsBits E w) :
    ∃ F : (Fin n → Bool) → Fl ρ, (∀ b, (hutchppSampleFl σ E s (.str "rademacher") (w b)).1 = .ok (F b)) ∧
      |signMean (fun b => (F b).val) -
          (M.trace + ∑ i, ∑ j, (colVals q i ⬝ᵥ (M *ᵥ colVals q j)) * gramDefect (colVals q) j i)| ≤
        (g * (1 + ρ.u) ^ (3 * n + 2 * k + 3) - 1) *
          (T' + ∑ i, projectBound q (fun _ => 1) i * ∑ j, M' i j * projectBound q (fun _ => 1) j) := by
  choose v hv hs using fun b => rademacherFl_ofFn hρ E b (w b) (hw b)
  choose F hF hb using fun b => (hutchppFl_sample_within σ E hg M M' hM s q t hdim hQ ht _ T' hT hgt (.str "rademacher") (w b) (v b) (hv b)).2
  refine ⟨F, hF, ?_⟩
  rw [← trace_complement, ← signMean_quad (complement (colVals q) * M * complement (colVals q))]
  have h2 : ∀ (T : ℝ) (f : (Fin n → Bool) → ℝ), T + signMean f = signMean fun b => T + f b := by
    intro T f
    unfold signMean
    rw [Finset.sum_add_distrib, add_div]
    congr 1
    simp only [Finset.sum_const, Finset.card_univ, Fintype.card_fun, Fintype.card_bool, Fintype.card_fin, nsmul_eq_mul,
      Nat.cast_pow, Nat.cast_ofNat]
    exact (mul_div_cancel_left₀ _ (pow_ne_zero _ two_ne_zero)).symm
  rw [h2]
  refine signMean_close _ _ _ fun b => ?_
  have := (hb b).2
  simp only [hs, abs_sgn] at this
  exact this

/-! ## Set-up -/

theorem traceLoopFl_within (σ : FlSum ρ) {n : Nat} (E : Ext (Fl ρ) W) {g : ℝ} (hg : 1 ≤ g) (M M' : Matrix (Fin n) (Fin n) ℝ)
    (hM : MultipliesWithin g E M M') (qs : List (Fin n → Fl ρ)) : ∀ (m : Nat) (t : Fl ρ) (T T' : ℝ) (w : W),
    AccWithin (g * (1 + ρ.u) ^ n) (fun _ => True) m t T T' →
    (traceLoopFl σ E (qs.map List.ofFn) t w).1 = .ok () ∧
      AccWithin (g * (1 + ρ.u) ^ n) (fun _ => True) (m + qs.length) (traceLoopFl σ E (qs.map List.ofFn) t w).2.1
        (T + (qs.map fun q => ∑ i, (q i).val * ∑ j, M i j * (q j).val).sum)
        (T' + (qs.map fun q => ∑ i, |(q i).val| * ∑ j, M' i j * |(q j).val|).sum) := by
  have hG : 0 ≤ g * (1 + ρ.u) ^ n := by
    have := one_le_pow_u (ρ := ρ) n
    nlinarith
  induction qs with
  | nil => exact fun m t T T' w h => by simpa [traceLoopFl] using h
  | cons q qs ih =>
    intro m t T T' w h
    obtain ⟨y, hy, hyw⟩ := hM q w
    rcases h' : E.mul (List.ofFn q) w with ⟨r, w'⟩
    rw [h'] at hy
    simp only at hy
    subst hy
    have h1 := npDotFl_within σ le_rfl q y _ _ _ _ (fun j => within_val (q j)) hyw
    rw [one_mul] at h1
    have h2 := h.step hG (fun _ _ _ _ => trivial) (h1.mono (le_mul_of_one_le_right hG (by linarith [ρ.nonneg]))) trivial
    obtain ⟨h3, h4⟩ := ih (m + 1) _ _ _ w' h2
    simp only [List.map_cons, traceLoopFl, h', List.sum_cons, List.length_cons]
    refine ⟨h3, ?_⟩
    rw [← add_assoc T, ← add_assoc T', show m + (qs.length + 1) = m + 1 + qs.length by omega]
    exact h4

theorem basisLoopFl_ok {n : Nat} (E : Ext (Fl ρ) W) (hE : DrawLengths E) {g : ℝ} (M M' : Matrix (Fin n) (Fin n) ℝ)
    (hM : MultipliesWithin g E M M') (d : DistArg) (hd : KnownDist d) (k : Nat) (w : W) :
    ∃ cols, (basisLoopFl E n d k w).1 = .ok cols ∧ cols.length = k ∧ ∀ c ∈ cols, c.length = n := by
  have hvec : ∀ w, ∃ v : Fin n → Fl ρ, (randomVectorFl E n d w).1 = .ok (List.ofFn v) := by
    have key : ∀ l : List (Fl ρ), l.length = n → ∃ v : Fin n → Fl ρ, l = List.ofFn v := fun l hl => by
      subst hl
      exact ⟨fun i => l[i], (List.ofFn_getElem (xs := l)).symm⟩
    intro w
    rcases hd with rfl | rfl
    · obtain ⟨v, hv⟩ := key (rademacherFl E n w).1 (by simp [rademacherFl, (hE n w).1])
      exact ⟨v, by simp [randomVectorFl, hv]⟩
    · obtain ⟨v, hv⟩ := key (E.randn n w).1 (hE n w).2
      exact ⟨v, by simp [randomVectorFl, normal, hv]⟩
  induction k generalizing w with
  | zero => exact ⟨[], rfl, rfl, by simp⟩
  | succ k ih =>
    obtain ⟨v, hv⟩ := hvec w
    rcases h : randomVectorFl E n d w with ⟨r, w'⟩
    rw [h] at hv
    simp only at hv
    subst hv
    obtain ⟨y, hy, -⟩ := hM v w'
    rcases h' : E.mul (List.ofFn v) w' with ⟨r', w''⟩
    rw [h'] at hy
    simp only at hy
    subst hy
    have hd' : drawAndMulFl E n d w = (.ok (List.ofFn v, List.ofFn y), w'') := by simp [drawAndMulFl, h, h']
    obtain ⟨cols, hc, hl, hall⟩ := ih w''
    rcases h'' : basisLoopFl E n d k w'' with ⟨r', w'''⟩
    rw [h''] at hc
    simp only at hc
    subst hc
    refine ⟨List.ofFn y :: cols, by simp [basisLoopFl, hd', h''], by simp [hl], ?_⟩
    intro c hc
    rcases List.mem_cons.mp hc with rfl | hc
    · simp
    · exact hall c hc

/-- The QR decomposition returns as many columns as it gets, of the same length; nothing is assumed about their values. -/
def QrColumns (E : Ext (Fl ρ) W) (n : Nat) : Prop :=
  ∀ cols : List (List (Fl ρ)), (∀ c ∈ cols, c.length = n) → cols.length ≤ n →
    ∃ q : Fin cols.length → Fin n → Fl ρ, E.qr cols = List.ofFn fun i => List.ofFn (q i)

/-- **C136** (set-up in floating point): the first call on a fresh estimator caches what the QR decomposition returns, and a number that satisfies the
assumptions of `hutchppFl_rademacher`. -/
theorem hutchppFl_setup (σ : FlSum ρ) {n : Nat} (E : Ext (Fl ρ) W) (hE : DrawLengths E) (hqr : QrColumns E n) {g : ℝ} (hg : 1 ≤ g)
    (M M' : Matrix (Fin n) (Fin n) ℝ) (hM : MultipliesWithin g E M M') (k : Nat) (hk : 0 < k) (hkn : k ≤ n)
    (d : DistArg) (hd : KnownDist d) (w : W) :
    ∃ (q : Fin k → Fin n → Fl ρ) (t : Fl ρ),
      (maybeComputeFl σ E ⟨n, k, d, none, none⟩ w).1 = .ok () ∧
      (maybeComputeFl σ E ⟨n, k, d, none, none⟩ w).2.1 = ⟨n, k, d, some (List.ofFn fun l => List.ofFn (q l)), some t⟩ ∧
      Within (g * (1 + ρ.u) ^ (n + k)) t (∑ l, colVals q l ⬝ᵥ (M *ᵥ colVals q l))
        (∑ l, ∑ i, |(q l i).val| * ∑ j, M' i j * |(q l j).val|) ∧
      g * (1 + ρ.u) ^ (n + k) ≤ g * (1 + ρ.u) ^ (3 * n + 2 * k + 2) := by
  obtain ⟨cols, hc, hl, hall⟩ := basisLoopFl_ok E hE M M' hM d hd k w
  rcases h : basisLoopFl E n d k w with ⟨r, w'⟩
  rw [h] at hc
  simp only at hc
  subst hc
  subst hl
  obtain ⟨q, hQ⟩ := hqr cols hall hkn
  have hstack : ∃ a, columnStack cols = .ok a := by
    cases cols with
    | nil => simp at hk
    | cons c cs =>
      refine ⟨_, if_pos ?_⟩
      rw [List.all_eq_true]
      intro x hx
      simp [hall c (by simp), hall x (by simp [hx])]
  obtain ⟨a, ha⟩ := hstack
  have hmap : (List.ofFn fun i => List.ofFn (q i)) = (List.ofFn q).map List.ofFn := by
    rw [List.map_ofFn]; rfl
  have htake : (E.qr cols).take cols.length = (List.ofFn q).map List.ofFn := by
    rw [hQ, List.take_of_length_le (by simp), hmap]
  obtain ⟨h1, h2⟩ := traceLoopFl_within σ E hg M M' hM (List.ofFn q) 0 0 0 0 w' ⟨fun _ => ⟨rfl, rfl, rfl⟩, within_zero _, trivial⟩
  have hlen : (E.qr cols).length = cols.length := by rw [hQ]; simp
  refine ⟨q, (traceLoopFl σ E ((List.ofFn q).map List.ofFn) 0 w').2.1, ?_, ?_, ?_, ?_⟩
  · simp only [maybeComputeFl, Option.isSome_none, Bool.and_self, Bool.false_eq_true, if_false,
      Int.toNat_natCast, h, ha, htake, h1, hlen, lt_irrefl]
  · simp only [maybeComputeFl, Option.isSome_none, Bool.and_self, Bool.false_eq_true, if_false,
      Int.toNat_natCast, h, ha, htake, h1, hlen, lt_irrefl]
    rw [hQ]
  · have := h2.2.1
    have e : ∀ f : (Fin n → Fl ρ) → ℝ, ((List.ofFn q).map f).sum = ∑ l, f (q l) := fun f => by
      rw [List.map_ofFn, List.sum_ofFn]
      rfl
    rw [zero_add, zero_add, zero_add, List.length_ofFn, mul_assoc, ← pow_add, e, e] at this
    exact this
  · exact mul_le_mul_of_nonneg_left (pow_le_pow_right₀ (by linarith [ρ.nonneg]) (by omega)) (by linarith)

/-- The first sample of a fresh estimator is a sample with what the set-up caches. -/
theorem hutchppFl_first (σ : FlSum ρ) (E : Ext (Fl ρ) W) (s : HutchPP (Fl ρ)) (d : DistArg) (w : W) (h : (maybeComputeFl σ E s w).1 = .ok ()) :
    (maybeComputeFl σ E s w).2.1.Q.isSome ∧ (maybeComputeFl σ E s w).2.1.tr.isSome ∧
    hutchppSampleFl σ E s d w = hutchppSampleFl σ E (maybeComputeFl σ E s w).2.1 d (maybeComputeFl σ E s w).2.2 := by
  have key : (maybeComputeFl σ E s w).2.1.Q.isSome ∧ (maybeComputeFl σ E s w).2.1.tr.isSome := by
    revert h
    unfold maybeComputeFl
    split_ifs with hc
    · exact fun _ => by simpa using hc
    · rcases basisLoopFl E s.dim s.basisDist s.basisDim.toNat w with ⟨_ | cols, w'⟩
      · simp
      · dsimp only
        rcases columnStack cols with _ | _
        · simp
        · dsimp only
          rcases (traceLoopFl σ E ((E.qr cols).take s.basisDim.toNat) 0 w') with ⟨_ | _, t, w''⟩
          · simp
          · dsimp only
            split_ifs <;> simp
  refine ⟨key.1, key.2, ?_⟩
  obtain ⟨Q, hQ⟩ := Option.isSome_iff_exists.mp key.1
  obtain ⟨t, ht⟩ := Option.isSome_iff_exists.mp key.2
  rcases h' : maybeComputeFl σ E s w with ⟨r, s', w'⟩
  rw [h'] at h hQ ht
  simp only at h hQ ht
  subst h
  rw [hutchppSampleFl, h']
  rw [hutchppSampleFl, maybeComputeFl_cached σ E s' Q t hQ ht w']

/-- Exceptions of the set-up are those of the sample. -/
theorem hutchppFl_sample_error (σ : FlSum ρ) (E : Ext (Fl ρ) W) (s : HutchPP (Fl ρ)) (d : DistArg) (w : W) (e : PyErr)
    (h : (maybeComputeFl σ E s w).1 = .error e) :
    hutchppSampleFl σ E s d w = (.error e, (maybeComputeFl σ E s w).2.1, (maybeComputeFl σ E s w).2.2) := by
  rcases h' : maybeComputeFl σ E s w with ⟨r, s', w'⟩
  rw [h'] at h
  simp only at h
  subst h
  rw [hutchppSampleFl, h']

/-- Exceptions of the first product leave a fresh estimator as it is, and too few columns raise an `IndexError`. -/
theorem hutchppFl_setup_errors (σ : FlSum ρ) (E : Ext (Fl ρ) W) (n k : Nat) (d : DistArg) (w : W) :
    (∀ e, (drawAndMulFl E n d w).1 = .error e →
      maybeComputeFl σ E ⟨n, (k + 1 : Nat), d, none, none⟩ w = (.error e, ⟨n, (k + 1 : Nat), d, none, none⟩, (drawAndMulFl E n d w).2)) ∧
    (maybeComputeFl σ E ⟨n, 0, d, none, none⟩ w).1 = .error .valueError ∧
    (∀ cols a, (basisLoopFl E n d k w).1 = .ok cols → columnStack cols = .ok a → (E.qr cols).length < k →
      (traceLoopFl σ E ((E.qr cols).take k) 0 (basisLoopFl E n d k w).2).1 = .ok () →
      (maybeComputeFl σ E ⟨n, k, d, none, none⟩ w).1 = .error .indexError ∧
      (maybeComputeFl σ E ⟨n, k, d, none, none⟩ w).2.1.Q = some (E.qr cols)) := by
  refine ⟨fun e he => ?_, ?_, fun cols a hc ha hl ht => ?_⟩
  · rcases h : drawAndMulFl E n d w with ⟨r, w'⟩
    rw [h] at he
    simp only at he
    subst he
    simp [maybeComputeFl, basisLoopFl, h]
  · simp [maybeComputeFl, basisLoopFl, columnStack]
  · rcases h : basisLoopFl E n d k w with ⟨r, w'⟩
    rw [h] at hc ht
    simp only at hc ht
    subst hc
    simp [maybeComputeFl, h, ha, ht, hl]

/-- Every other distribution raises, and a cached basis stays. -/
theorem hutchppFl_names (σ : FlSum ρ) (E : Ext (Fl ρ) W) (s : HutchPP (Fl ρ)) (Q : List (List (Fl ρ))) (t : Fl ρ) (hQ : s.Q = some Q)
    (ht : s.tr = some t) (w : W) :
    (∀ d, d ≠ "rademacher" → d ≠ "normal" → hutchppSampleFl σ E s (.str d) w = (.error .valueError, s, w)) ∧
      hutchppSampleFl σ E s .nonStr w = (.error .typeError, s, w) := by
  constructor
  · intro d h1 h2
    simp only [hutchppSampleFl, maybeComputeFl_cached σ E s _ _ hQ ht w, randomVectorFl, if_neg h1, if_neg h2]
  · simp only [hutchppSampleFl, maybeComputeFl_cached σ E s _ _ hQ ht w, randomVectorFl]

end rounded

/-- `2⁻³⁰` in binary64. -/
noncomputable def tiny : Fl (binaryFloat 52) := ⟨1 / 2 ^ 30, by
  have := binary_exact 52 1 (by norm_num) (-30)
  rw [show ((1 : ℤ) : ℝ) * 2 ^ (-30 : ℤ) = 1 / 2 ^ 30 by norm_num] at this
  exact this⟩

/-- `1 + 2⁻³⁰` in binary64. -/
noncomputable def nearOne : Fl (binaryFloat 52) := ⟨1 + 1 / 2 ^ 30, by
  have := binary_exact 52 (2 ^ 30 + 1) (by norm_num) (-30)
  rw [show ((2 ^ 30 + 1 : ℤ) : ℝ) * 2 ^ (-30 : ℤ) = 1 + 1 / 2 ^ 30 by norm_num] at this
  exact this⟩

theorem tiny_val : tiny.val = 1 / 2 ^ 30 := rfl

theorem nearOne_val : nearOne.val = 1 + 1 / 2 ^ 30 := rfl

/-- The column `(1, 2⁻³⁰)`, which is orthonormal up to `2⁻⁶⁰`. -/
noncomputable def nearCol : Fin 1 → Fin 2 → Fl (binaryFloat 52) := fun _ => ![1, tiny]

theorem nearCol_val (l : Fin 1) : (nearCol l 0).val = 1 ∧ (nearCol l 1).val = 1 / 2 ^ 30 := ⟨rfl, rfl⟩

/-- Binary64: this column and a cached number with an error of `2⁻⁶⁰`, for the matrix `!![1, 1; 0, 1]` with trace 2. -/
example (σ : FlSum (binaryFloat 52)) :
    ∃ F : (Fin 2 → Bool) → Fl (binaryFloat 52),
      (∀ b, (hutchppSampleFl σ triExt ⟨2, 1, .str "rademacher", some [[1, tiny]], some nearOne⟩ (.str "rademacher")
        (List.ofFn b)).1 = .ok (F b)) ∧ |signMean (fun b => (F b).val) - 2| ≤ 3 / 10 ^ 14 := by
  have hg : 1 ≤ 1 + (binaryFloat 52).u := by linarith [(binaryFloat 52).nonneg]
  have hw : DrawsBits triExt (List.ofFn : (Fin 2 → Bool) → List Bool) := fun b => rfl
  have e1 : ∀ i j, colVals nearCol i ⬝ᵥ (triMat *ᵥ colVals nearCol j) = 1 + 1 / 2 ^ 30 + 1 / 2 ^ 60 := by
    intro i j
    norm_num [nearCol_val, colVals, triMat, dotProduct, Matrix.mulVec, Fin.sum_univ_two]
  obtain ⟨F, hF, hb⟩ := hutchppFl_rademacher (signsExact_binary 52) σ triExt (gt := 1 + 1 / 2 ^ 53) hg _ _ triExt_within
    ⟨2, 1, .str "rademacher", some [[1, tiny]], some nearOne⟩ nearCol nearOne rfl
    (by simp [nearCol, List.ofFn_succ]) rfl 2
    (by simp only [e1]; constructor <;> norm_num [abs_le, nearOne_val])
    (by norm_num [binaryFloat]) _ hw
  refine ⟨F, hF, ?_⟩
  have e2 : triMat.trace = 2 := by norm_num [triMat, Matrix.trace, Fin.sum_univ_two]
  have e3 : gramDefect (colVals nearCol) 0 0 = 1 / 2 ^ 60 := by
    norm_num [nearCol_val, gramDefect, colVals, dotProduct, Fin.sum_univ_two]
  have e4 : (1 + (binaryFloat 52).u) * (1 + (binaryFloat 52).u) ^ (3 * 2 + 2 * 1 + 3) - 1 ≤ 14 / 10 ^ 16 := by norm_num [binaryFloat]
  have e5 : (2 : ℝ) + ∑ i, projectBound nearCol (fun _ => 1) i * ∑ j, triMat i j * projectBound nearCol (fun _ => 1) j ≤ 10 := by
    norm_num [projectBound, nearCol_val, triMat, Fin.sum_univ_two]
  simp only [e2, e1, Fin.sum_univ_one, Fin.isValue, e3] at hb
  rw [abs_le] at hb ⊢
  have := mul_le_mul e4 e5 (by
    norm_num [projectBound, nearCol_val, triMat, Fin.sum_univ_two]) (by norm_num)
  constructor <;> linarith [hb.1, hb.2]

end Curvlinops
