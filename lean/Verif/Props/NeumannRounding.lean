import Verif.Props.NeumannRate
import Verif.Lemmas.BinaryFloat
import Mathlib.Analysis.Seminorm
import Mathlib.Analysis.InnerProductSpace.PiL2

/-!
# C101: rounding errors of the Neumann inverse
-/

namespace Curvlinops

open Matrix

variable {n : Nat} {ρ : Rounding}

/-- Specification: a norm of vectors that depends on the absolute values of the entries only, monotonically. -/
def MonotoneNorm (N : Seminorm ℝ (Fin n → ℝ)) : Prop := ∀ x y : Fin n → ℝ, (∀ i, |x i| ≤ |y i|) → N x ≤ N y

/-- The real numbers represented by an array. -/
def flVec (x : Fin n → Fl ρ) : Fin n → ℝ := fun i => (x i).val

/-- Specification: `L @ x` is `M x` up to an error of at most `δ` times `x`. -/
def AccurateRep (N : Seminorm ℝ (Fin n → ℝ)) (L : SciOp (Fl ρ)) (M : Matrix (Fin n) (Fin n) ℝ) (δ : ℝ) : Prop :=
  L.rows = n ∧ L.cols = n ∧ ∀ x : Fin n → Fl ρ, ∃ y : Fin n → Fl ρ,
    L.dot (.vec (List.ofFn x)) = .ok (.vec (List.ofFn y)) ∧ N (flVec y - M *ᵥ flVec x) ≤ δ * N (flVec x)

/-- Rounding every entry of a vector. -/
theorem norm_rnd_le (N : Seminorm ℝ (Fin n → ℝ)) (hN : MonotoneNorm N) (y : Fin n → ℝ) :
    N ((fun i => ρ.rnd (y i)) - y) ≤ ρ.u * N y := by
  have h : N (ρ.u • y) = ρ.u * N y := by rw [map_smul_eq_mul, Real.norm_eq_abs, abs_of_nonneg ρ.nonneg]
  rw [← h]
  refine hN _ _ fun i => ?_
  rw [Pi.smul_apply, smul_eq_mul, abs_mul, abs_of_nonneg ρ.nonneg]
  exact ρ.close (y i)

/-- Rounding a vector that is close to another one. -/
theorem norm_rnd_sub_le (N : Seminorm ℝ (Fin n → ℝ)) (hN : MonotoneNorm N) (y z : Fin n → ℝ) (e s : ℝ)
    (he : N (y - z) ≤ e) (hz : N z ≤ s) : N ((fun i => ρ.rnd (y i)) - z) ≤ e + ρ.u * (e + s) := by
  have h1 := norm_rnd_le (ρ := ρ) N hN y
  have h2 : N y ≤ e + s := by
    have : y = (y - z) + z := by abel
    calc N y = N ((y - z) + z) := by rw [← this]
      _ ≤ N (y - z) + N z := map_add_le_add N _ _
      _ ≤ _ := add_le_add he hz
  have h3 : ((fun i => ρ.rnd (y i)) - z) = ((fun i => ρ.rnd (y i)) - y) + (y - z) := by abel
  have h4 : N ((fun i => ρ.rnd (y i)) - z) ≤ ρ.u * N y + e := by
    rw [h3]
    exact (map_add_le_add N _ _).trans (add_le_add h1 he)
  have h5 := mul_le_mul_of_nonneg_left h2 ρ.nonneg
  linarith

/-- The contraction factor in floating point arithmetic, where `q` bounds `I - scale A` and `d` is the error of
`scale A`. -/
def flContraction (u q d : ℝ) : ℝ := (1 + u) * (q + d + u * (1 + q + d))

theorem le_flContraction {u q d : ℝ} (hu : 0 ≤ u) (hq : 0 ≤ q) (hd : 0 ≤ d) : q ≤ flContraction u q d := by
  unfold flContraction
  have : 0 ≤ u * (1 + q + d) := by positivity
  nlinarith

section step

variable (N : Seminorm ℝ (Fin n → ℝ)) (hN : MonotoneNorm N) (M : Matrix (Fin n) (Fin n) ℝ) (s : Fl ρ) (q δ : ℝ)
  (hq : ∀ v, N ((1 - s.val • M) *ᵥ v) ≤ q * N v)

include hN hq in
/-- One term: `v - scale * (A @ v)`. -/
theorem neumann_step (v w : Fin n → Fl ρ) (hw : N (flVec w - M *ᵥ flVec v) ≤ δ * N (flVec v)) :
    N (flVec (fun i => v i - s * w i) - (1 - s.val • M) *ᵥ flVec v) ≤
      (flContraction ρ.u q (|s.val| * δ) - q) * N (flVec v) := by
  have hu := ρ.nonneg
  have e1 : N (s.val • flVec w - s.val • (M *ᵥ flVec v)) ≤ |s.val| * δ * N (flVec v) := by
    rw [← smul_sub, map_smul_eq_mul, Real.norm_eq_abs, mul_assoc]
    exact mul_le_mul_of_nonneg_left hw (abs_nonneg _)
  have e2 : N (s.val • (M *ᵥ flVec v)) ≤ (1 + q) * N (flVec v) := by
    have : s.val • (M *ᵥ flVec v) = flVec v - (1 - s.val • M) *ᵥ flVec v := by
      rw [Matrix.sub_mulVec, Matrix.one_mulVec, Matrix.smul_mulVec, sub_sub_cancel]
    rw [this, add_mul, one_mul]
    exact (map_sub_le_add N _ _).trans (add_le_add le_rfl (hq _))
  have e3 := norm_rnd_sub_le (ρ := ρ) N hN _ _ _ _ e1 e2
  have e4 : N ((flVec v - fun i => ρ.rnd ((s.val • flVec w) i)) - (1 - s.val • M) *ᵥ flVec v) ≤
      |s.val| * δ * N (flVec v) + ρ.u * (|s.val| * δ * N (flVec v) + (1 + q) * N (flVec v)) := by
    have : (flVec v - fun i => ρ.rnd ((s.val • flVec w) i)) - (1 - s.val • M) *ᵥ flVec v =
        -((fun i => ρ.rnd ((s.val • flVec w) i)) - s.val • (M *ᵥ flVec v)) := by
      rw [Matrix.sub_mulVec, Matrix.one_mulVec, Matrix.smul_mulVec]
      abel
    rw [this, map_neg_eq_map]
    exact e3
  refine (norm_rnd_sub_le (ρ := ρ) N hN _ _ _ _ e4 (hq _)).trans (le_of_eq ?_)
  unfold flContraction
  ring

include hq in
/-- Powers of `I - scale A`. -/
theorem norm_pow_le (hq0 : 0 ≤ q) (k : Nat) (x : Fin n → ℝ) : N (((1 - s.val • M) ^ k) *ᵥ x) ≤ q ^ k * N x := by
  induction k with
  | zero => simp
  | succ k ih =>
    rw [pow_succ', ← Matrix.mulVec_mulVec]
    refine (hq _).trans ?_
    rw [pow_succ', mul_assoc]
    exact mul_le_mul_of_nonneg_left ih hq0

end step

/-- The loop, from the state after `k` terms. -/
theorem neumannLoop_rounding (N : Seminorm ℝ (Fin n → ℝ)) (hN : MonotoneNorm N) (L : SciOp (Fl ρ))
    (M : Matrix (Fin n) (Fin n) ℝ) (δ : ℝ) (hδ : 0 ≤ δ) (hL : AccurateRep N L M δ) (h : NeumannHyper (Fl ρ)) (q : ℝ)
    (hq0 : 0 ≤ q) (hq : ∀ v, N ((1 - h.scale.val • M) *ᵥ v) ≤ q * N v) (x : Fin n → ℝ) (θ : ℝ)
    (hθ : θ = flContraction ρ.u q (|h.scale.val| * δ)) (T : Nat) :
    ∀ (k : Nat) (v r : Fin n → Fl ρ),
      N (flVec v - ((1 - h.scale.val • M) ^ k) *ᵥ x) ≤ (θ ^ k - q ^ k) * N x →
      N (flVec r - (∑ j ∈ Finset.range (k + 1), (1 - h.scale.val • M) ^ j) *ᵥ x) ≤
        ((1 + ρ.u) ^ k * (∑ j ∈ Finset.range (k + 1), θ ^ j) - ∑ j ∈ Finset.range (k + 1), q ^ j) * N x →
      ∃ y : Fin n → Fl ρ,
        neumannLoop (fun _ => false) L h T (.vec (List.ofFn v)) (.vec (List.ofFn r)) = .ok (.vec (List.ofFn y)) ∧
        N (flVec y - (∑ j ∈ Finset.range (k + T + 1), (1 - h.scale.val • M) ^ j) *ᵥ x) ≤
          ((1 + ρ.u) ^ (k + T) * (∑ j ∈ Finset.range (k + T + 1), θ ^ j) - ∑ j ∈ Finset.range (k + T + 1), q ^ j) * N x := by
  have hu := ρ.nonneg
  have hqθ : q ≤ θ := hθ ▸ le_flContraction hu hq0 (by positivity)
  have hθ0 : 0 ≤ θ := hq0.trans hqθ
  have hX : 0 ≤ N x := apply_nonneg N x
  induction T with
  | zero => intro k v r _ hr; exact ⟨r, rfl, hr⟩
  | succ T ih =>
    intro k v r hv hr
    obtain ⟨w, w1, w2⟩ := hL.2.2 v
    have hvn : N (flVec v) ≤ θ ^ k * N x := by
      have h1 := norm_pow_le N M h.scale q hq hq0 k x
      have h2 : flVec v = (flVec v - ((1 - h.scale.val • M) ^ k) *ᵥ x) + ((1 - h.scale.val • M) ^ k) *ᵥ x := by abel
      have h3 := map_add_le_add N (flVec v - ((1 - h.scale.val • M) ^ k) *ᵥ x) (((1 - h.scale.val • M) ^ k) *ᵥ x)
      rw [← h2] at h3
      linarith
    have hv' : N (flVec (fun i => v i - h.scale * w i) - ((1 - h.scale.val • M) ^ (k + 1)) *ᵥ x) ≤
        (θ ^ (k + 1) - q ^ (k + 1)) * N x := by
      have h1 := neumann_step N hN M h.scale q δ hq v w w2
      rw [← hθ] at h1
      have h2 := hq (flVec v - ((1 - h.scale.val • M) ^ k) *ᵥ x)
      have h3 : flVec (fun i => v i - h.scale * w i) - ((1 - h.scale.val • M) ^ (k + 1)) *ᵥ x =
          (flVec (fun i => v i - h.scale * w i) - (1 - h.scale.val • M) *ᵥ flVec v) +
            (1 - h.scale.val • M) *ᵥ (flVec v - ((1 - h.scale.val • M) ^ k) *ᵥ x) := by
        rw [Matrix.mulVec_sub, Matrix.mulVec_mulVec, ← pow_succ']
        abel
      rw [h3]
      refine (map_add_le_add N _ _).trans ?_
      have h4 := mul_le_mul_of_nonneg_left hvn (sub_nonneg.mpr hqθ)
      have h5 := mul_le_mul_of_nonneg_left hv hq0
      have h6 : (θ ^ (k + 1) - q ^ (k + 1)) * N x = (θ - q) * (θ ^ k * N x) + q * ((θ ^ k - q ^ k) * N x) := by
        rw [pow_succ, pow_succ]; ring
      linarith
    have hr' : N (flVec (fun i => r i + (v i - h.scale * w i)) -
        (∑ j ∈ Finset.range (k + 1 + 1), (1 - h.scale.val • M) ^ j) *ᵥ x) ≤
        ((1 + ρ.u) ^ (k + 1) * (∑ j ∈ Finset.range (k + 1 + 1), θ ^ j) - ∑ j ∈ Finset.range (k + 1 + 1), q ^ j) * N x := by
      have h1 : N ((flVec r + flVec (fun i => v i - h.scale * w i)) -
          (∑ j ∈ Finset.range (k + 1 + 1), (1 - h.scale.val • M) ^ j) *ᵥ x) ≤
          ((1 + ρ.u) ^ k * (∑ j ∈ Finset.range (k + 1 + 1), θ ^ j) - ∑ j ∈ Finset.range (k + 1 + 1), q ^ j) * N x := by
        rw [Finset.sum_range_succ _ (k + 1), Matrix.add_mulVec, add_sub_add_comm]
        refine (map_add_le_add N _ _).trans ((add_le_add hr hv').trans ?_)
        rw [Finset.sum_range_succ _ (k + 1), Finset.sum_range_succ _ (k + 1), ← add_mul]
        refine mul_le_mul_of_nonneg_right ?_ hX
        have h2 : θ ^ (k + 1) ≤ (1 + ρ.u) ^ k * θ ^ (k + 1) :=
          le_mul_of_one_le_left (pow_nonneg hθ0 _) (one_le_pow₀ (by linarith))
        linarith
      have h2 : N ((∑ j ∈ Finset.range (k + 1 + 1), (1 - h.scale.val • M) ^ j) *ᵥ x) ≤
          (∑ j ∈ Finset.range (k + 1 + 1), q ^ j) * N x := by
        rw [Matrix.sum_mulVec, Finset.sum_mul]
        exact (Finset.le_sum_of_subadditive N (map_zero N).le (map_add_le_add N) _ _).trans
          (Finset.sum_le_sum fun j _ => norm_pow_le N M h.scale q hq hq0 j x)
      refine (norm_rnd_sub_le (ρ := ρ) N hN _ _ _ _ h1 h2).trans (le_of_eq ?_)
      ring
    obtain ⟨y, y1, y2⟩ := ih (k + 1) _ _ hv' hr'
    refine ⟨y, ?_, ?_⟩
    · rw [neumannLoop, w1]
      simp only [map2_ofFn]
      have hn : (h.checkNan && NpVal.hasNaN (fun _ => false)
          (.vec (List.ofFn fun i => r i + (v i - h.scale * w i)))) = false := by
        simp [NpVal.hasNaN]
      rw [if_neg (by simp [hn])]
      exact y1
    · have e : k + 1 + T = k + (T + 1) := by ring
      rwa [e] at y2

/-- C101: the result of the Neumann inverse in floating point arithmetic and the truncated Neumann series. -/
theorem neumann_rounding (N : Seminorm ℝ (Fin n → ℝ)) (hN : MonotoneNorm N) (L : SciOp (Fl ρ))
    (M : Matrix (Fin n) (Fin n) ℝ) (δ : ℝ) (hδ : 0 ≤ δ) (hL : AccurateRep N L M δ) (h : NeumannHyper (Fl ρ)) (q : ℝ)
    (hq0 : 0 ≤ q) (hq : ∀ v, N (v - h.scale.val • (M *ᵥ v)) ≤ q * N v) (x : Fin n → Fl ρ) :
    ∃ y : Fin n → Fl ρ,
      (neumannOp (fun _ => false) L h).dot (.vec (List.ofFn x)) = .ok (.vec (List.ofFn y)) ∧
      N (flVec y - neumannSum M h.scale.val h.numTerms (flVec x)) ≤
        |h.scale.val| * ((1 + ρ.u) ^ (h.numTerms + 1) *
          (∑ j ∈ Finset.range (h.numTerms + 1), flContraction ρ.u q (|h.scale.val| * δ) ^ j) -
            ∑ j ∈ Finset.range (h.numTerms + 1), q ^ j) * N (flVec x) := by
  have hq' : ∀ v, N ((1 - h.scale.val • M) *ᵥ v) ≤ q * N v := fun v => by
    rw [Matrix.sub_mulVec, Matrix.one_mulVec, Matrix.smul_mulVec]; exact hq v
  obtain ⟨y, y1, y2⟩ := neumannLoop_rounding N hN L M δ hδ hL h q hq0 hq' (flVec x) _ rfl h.numTerms 0 x x
    (by simp) (by simp)
  rw [Nat.zero_add] at y2
  refine ⟨fun i => h.scale * y i, ?_, ?_⟩
  · refine dot_vec_of_impl (by simp [neumannOp, hL.2.1]) (by simp [neumannOp, hL.1]) ?_
    simp only [neumannOp, neumannMatvec, y1, NpVal.map1, List.map_ofFn]
    rfl
  · have h1 : N (h.scale.val • flVec y - neumannSum M h.scale.val h.numTerms (flVec x)) ≤
        |h.scale.val| * (((1 + ρ.u) ^ h.numTerms *
          (∑ j ∈ Finset.range (h.numTerms + 1), flContraction ρ.u q (|h.scale.val| * δ) ^ j) -
            ∑ j ∈ Finset.range (h.numTerms + 1), q ^ j) * N (flVec x)) := by
      rw [neumannSum, ← smul_sub, map_smul_eq_mul, Real.norm_eq_abs]
      exact mul_le_mul_of_nonneg_left y2 (abs_nonneg _)
    have h2 : N (neumannSum M h.scale.val h.numTerms (flVec x)) ≤
        |h.scale.val| * ((∑ j ∈ Finset.range (h.numTerms + 1), q ^ j) * N (flVec x)) := by
      rw [neumannSum, map_smul_eq_mul, Real.norm_eq_abs]
      refine mul_le_mul_of_nonneg_left ?_ (abs_nonneg _)
      rw [Matrix.sum_mulVec, Finset.sum_mul]
      exact (Finset.le_sum_of_subadditive N (map_zero N).le (map_add_le_add N) _ _).trans
        (Finset.sum_le_sum fun j _ => norm_pow_le N M h.scale q hq' hq0 j _)
    refine (norm_rnd_sub_le (ρ := ρ) N hN _ _ _ _ h1 h2).trans (le_of_eq ?_)
    ring

/-- C101: the result and the exact solution: truncation and rounding errors. -/
theorem neumann_rounding_inverse (N : Seminorm ℝ (Fin n → ℝ)) (hN : MonotoneNorm N) (L : SciOp (Fl ρ))
    (M : Matrix (Fin n) (Fin n) ℝ) (δ : ℝ) (hδ : 0 ≤ δ) (hL : AccurateRep N L M δ) (h : NeumannHyper (Fl ρ)) (q : ℝ)
    (hq0 : 0 ≤ q) (hq : ∀ v, N (v - h.scale.val • (M *ᵥ v)) ≤ q * N v)
    (hθ : flContraction ρ.u q (|h.scale.val| * δ) < 1) (x : Fin n → Fl ρ) (z : Fin n → ℝ) (hz : M *ᵥ z = flVec x) :
    ∃ y : Fin n → Fl ρ,
      (neumannOp (fun _ => false) L h).dot (.vec (List.ofFn x)) = .ok (.vec (List.ofFn y)) ∧
      N (flVec y - z) ≤ q ^ (h.numTerms + 1) * N z +
        |h.scale.val| * ((1 + ρ.u) ^ (h.numTerms + 1) / (1 - flContraction ρ.u q (|h.scale.val| * δ)) -
          (1 - q ^ (h.numTerms + 1)) / (1 - q)) * N (flVec x) := by
  obtain ⟨y, y1, y2⟩ := neumann_rounding N hN L M δ hδ hL h q hq0 hq x
  refine ⟨y, y1, ?_⟩
  have hu := ρ.nonneg
  have hqθ : q ≤ flContraction ρ.u q (|h.scale.val| * δ) := le_flContraction hu hq0 (by positivity)
  have hq' : ∀ v, N ((1 - h.scale.val • M) *ᵥ v) ≤ q * N v := fun v => by
    rw [Matrix.sub_mulVec, Matrix.one_mulVec, Matrix.smul_mulVec]; exact hq v
  have e : neumannSum M h.scale.val h.numTerms (flVec x) - z = -(((1 - h.scale.val • M) ^ (h.numTerms + 1)) *ᵥ z) := by
    have hg : (∑ k ∈ Finset.range (h.numTerms + 1), (1 - h.scale.val • M) ^ k) * (h.scale.val • M) =
        1 - (1 - h.scale.val • M) ^ (h.numTerms + 1) := by
      have := geom_sum_mul_neg (1 - h.scale.val • M) (h.numTerms + 1)
      rwa [sub_sub_cancel] at this
    have : neumannSum M h.scale.val h.numTerms (flVec x) = (1 - (1 - h.scale.val • M) ^ (h.numTerms + 1)) *ᵥ z := by
      rw [← hg, ← hz, neumannSum, Matrix.mulVec_mulVec, Matrix.mul_smul, Matrix.smul_mulVec]
    rw [this, Matrix.sub_mulVec, Matrix.one_mulVec]
    abel
  have h1 : N (neumannSum M h.scale.val h.numTerms (flVec x) - z) ≤ q ^ (h.numTerms + 1) * N z := by
    rw [e, map_neg_eq_map]
    exact norm_pow_le N M h.scale q hq' hq0 _ z
  have h2 : flVec y - z = (neumannSum M h.scale.val h.numTerms (flVec x) - z) +
      (flVec y - neumannSum M h.scale.val h.numTerms (flVec x)) := by abel
  rw [h2]
  refine (map_add_le_add N _ _).trans (add_le_add h1 (y2.trans ?_))
  refine mul_le_mul_of_nonneg_right (mul_le_mul_of_nonneg_left ?_ (abs_nonneg _)) (apply_nonneg N _)
  have g1 : ∑ j ∈ Finset.range (h.numTerms + 1), q ^ j = (1 - q ^ (h.numTerms + 1)) / (1 - q) := by
    rw [geom_sum_eq (by linarith), ← neg_sub, ← neg_sub (1 : ℝ) q, neg_div_neg_eq]
  rw [g1]
  refine sub_le_sub_right ?_ _
  rw [div_eq_mul_inv]
  refine mul_le_mul_of_nonneg_left ?_ (by positivity)
  set θ := flContraction ρ.u q (|h.scale.val| * δ)
  have h0 : 0 ≤ θ := hq0.trans hqθ
  rw [geom_sum_eq (by linarith), ← neg_sub, ← neg_sub (1 : ℝ) θ, neg_div_neg_eq, div_eq_mul_inv]
  refine mul_le_of_le_one_left (inv_nonneg.mpr (by linarith)) ?_
  have := pow_nonneg h0 (h.numTerms + 1)
  linarith

/-! ## Norms -/

/-- The largest absolute value of the entries. -/
noncomputable def supNorm : Seminorm ℝ (Fin n → ℝ) := normSeminorm ℝ (Fin n → ℝ)

theorem supNorm_monotone : MonotoneNorm (supNorm (n := n)) := fun _ y h =>
  (pi_norm_le_iff_of_nonneg (norm_nonneg y)).mpr fun i => (h i).trans (norm_le_pi_norm y i)

/-- The Euclidean norm. -/
noncomputable def euclNorm : Seminorm ℝ (Fin n → ℝ) :=
  (normSeminorm ℝ (EuclideanSpace ℝ (Fin n))).comp (WithLp.linearEquiv 2 ℝ (Fin n → ℝ)).symm.toLinearMap

theorem euclNorm_eq (x : Fin n → ℝ) : euclNorm x = Real.sqrt (sqNorm x) := by
  show ‖(WithLp.linearEquiv 2 ℝ (Fin n → ℝ)).symm x‖ = _
  rw [EuclideanSpace.norm_eq]
  simp [sqNorm]

theorem euclNorm_monotone : MonotoneNorm (euclNorm (n := n)) := fun x y h => by
  rw [euclNorm_eq, euclNorm_eq]
  exact Real.sqrt_le_sqrt (Finset.sum_le_sum fun i _ => sq_le_sq.mpr (h i))

/-- For a symmetric matrix, the eigenvalues bound `I - scale A` in the Euclidean norm. -/
theorem euclNorm_contraction (M : Matrix (Fin n) (Fin n) ℝ) (hM : Mᵀ = M) (s q : ℝ) (hq0 : 0 ≤ q)
    (hq : ∀ l, IsEigenvalue M l → |1 - s * l| ≤ q) (v : Fin n → ℝ) : euclNorm (v - s • (M *ᵥ v)) ≤ q * euclNorm v := by
  have h := neumann_power_le M hM s q hq 1 v
  rw [pow_one, pow_one, Matrix.sub_mulVec, Matrix.one_mulVec, Matrix.smul_mulVec] at h
  rw [euclNorm_eq, euclNorm_eq, ← Real.sqrt_sq hq0, ← Real.sqrt_mul (sq_nonneg q)]
  exact Real.sqrt_le_sqrt h

/-- C101 for symmetric matrices: the factor `q` of C97 (the largest `|1 - scale l|` over the eigenvalues `l`). -/
theorem neumann_rounding_symmetric (L : SciOp (Fl ρ)) (M : Matrix (Fin n) (Fin n) ℝ) (hM : Mᵀ = M) (δ : ℝ) (hδ : 0 ≤ δ)
    (hL : AccurateRep euclNorm L M δ) (h : NeumannHyper (Fl ρ)) (q : ℝ) (hq0 : 0 ≤ q)
    (hq : ∀ l, IsEigenvalue M l → |1 - h.scale.val * l| ≤ q)
    (hθ : flContraction ρ.u q (|h.scale.val| * δ) < 1) (x : Fin n → Fl ρ) (z : Fin n → ℝ) (hz : M *ᵥ z = flVec x) :
    ∃ y : Fin n → Fl ρ,
      (neumannOp (fun _ => false) L h).dot (.vec (List.ofFn x)) = .ok (.vec (List.ofFn y)) ∧
      euclNorm (flVec y - z) ≤ q ^ (h.numTerms + 1) * euclNorm z +
        |h.scale.val| * ((1 + ρ.u) ^ (h.numTerms + 1) / (1 - flContraction ρ.u q (|h.scale.val| * δ)) -
          (1 - q ^ (h.numTerms + 1)) / (1 - q)) * euclNorm (flVec x) :=
  neumann_rounding_inverse euclNorm euclNorm_monotone L M δ hδ hL h q hq0
    (euclNorm_contraction M hM _ q hq0 hq) hθ x z hz

/-! ## Example -/

/-- The operator that multiplies every entry with `c`. -/
noncomputable def flScaleOp (n : Nat) (c : Fl ρ) : SciOp (Fl ρ) where
  rows := n
  cols := n
  matvecImpl := fun x => .ok (x.map1 (c * ·))
  matmatImpl := fun _ _ => .error .notImplementedError

theorem flScaleOp_accurate (N : Seminorm ℝ (Fin n → ℝ)) (hN : MonotoneNorm N) (c : Fl ρ) :
    AccurateRep N (flScaleOp n c) (c.val • 1) (ρ.u * |c.val|) := by
  refine ⟨rfl, rfl, fun x => ⟨fun i => c * x i, ?_, ?_⟩⟩
  · refine dot_vec_of_impl (by simp [flScaleOp]) (by simp [flScaleOp]) ?_
    simp only [flScaleOp, NpVal.map1, List.map_ofFn]
    rfl
  · have h := norm_rnd_le (ρ := ρ) N hN (c.val • flVec x)
    rw [map_smul_eq_mul, Real.norm_eq_abs, ← mul_assoc] at h
    rw [Matrix.smul_mulVec, Matrix.one_mulVec]
    exact h

/-- `float32`, the matrix `I / 2`, `scale = 1` and `num_terms = 30`: relative error below 1e-5. -/
example (x : Fin 3 → Fl (binaryFloat 23)) :
    ∃ y : Fin 3 → Fl (binaryFloat 23),
      (neumannOp (fun _ => false) (flScaleOp 3 (Fl.of (binaryFloat 23) (1 / 2))) ⟨30, 1, true⟩).dot (.vec (List.ofFn x)) =
        .ok (.vec (List.ofFn y)) ∧
      supNorm (flVec y - (2 : ℝ) • flVec x) ≤ 1e-5 * supNorm (flVec x) := by
  have r : (binaryFloat 23).rnd (1 / 2) = 1 / 2 := by
    show binaryRnd 23 _ = _
    have e : (1 / 2 : ℝ) = ((1 : ℤ) : ℝ) * 2 ^ (-1 : ℤ) := by norm_num
    rw [e]
    exact binary_exact 23 1 (by norm_num) (-1)
  have hv : (Fl.of (binaryFloat 23) (1 / 2)).val = 1 / 2 := r
  have hL := flScaleOp_accurate supNorm (supNorm_monotone (n := 3)) (Fl.of (binaryFloat 23) (1 / 2))
  rw [hv] at hL
  have hu : (binaryFloat 23).u = (2 : ℝ)⁻¹ ^ 24 := rfl
  rw [hu] at hL
  obtain ⟨y, y1, y2⟩ := neumann_rounding_inverse supNorm supNorm_monotone _ _ _ (by positivity) hL ⟨30, 1, true⟩ (1 / 2)
    (by norm_num) (fun v => by
      have : v - (1 : Fl (binaryFloat 23)).val • (((1 / 2 : ℝ) • (1 : Matrix (Fin 3) (Fin 3) ℝ)) *ᵥ v) = (1 / 2 : ℝ) • v := by
        rw [Matrix.smul_mulVec, Matrix.one_mulVec, Fl.val_one, one_smul]
        funext i
        simp only [Pi.sub_apply, Pi.smul_apply, smul_eq_mul]
        ring
      show supNorm (v - (1 : Fl (binaryFloat 23)).val • _) ≤ _
      rw [this, map_smul_eq_mul]
      norm_num)
    (by rw [hu]; norm_num [flContraction]) x ((2 : ℝ) • flVec x)
    (by rw [Matrix.smul_mulVec, Matrix.one_mulVec, smul_smul]; norm_num)
  refine ⟨y, y1, y2.trans ?_⟩
  rw [map_smul_eq_mul, hu, ← mul_assoc, ← add_mul]
  refine mul_le_mul_of_nonneg_right ?_ (apply_nonneg _ _)
  norm_num [flContraction]

end Curvlinops
