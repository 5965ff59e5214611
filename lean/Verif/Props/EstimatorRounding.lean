import Verif.Model.EstimatorRounding
import Verif.Props.Estimators
import Verif.Props.KfacScalarsRounding
import Verif.Props.LossOptions

/-!
# C135: rounding errors of the Hutchinson estimators
-/

namespace Curvlinops

open Matrix

variable {ρ : Rounding} {W : Type _}

/-- Products with the operator have accuracy `g` relative to the bounds `M'` on the entries of the matrix `M`. Theorems C100 and C132 provide such
accuracies for the curvature operators and KFAC. -/
def MultipliesWithin {m n : Nat} (g : ℝ) (E : Ext (Fl ρ) W) (M M' : Matrix (Fin m) (Fin n) ℝ) : Prop :=
  ∀ (v : Fin n → Fl ρ) w, ∃ y : Fin m → Fl ρ, (E.mul (List.ofFn v) w).1 = .ok (List.ofFn y) ∧
    ∀ i, Within g (y i) (∑ j, M i j * (v j).val) (∑ j, M' i j * |(v j).val|)

/-- One and two and minus one are representable. -/
def SignsExact (ρ : Rounding) : Prop := ρ.rnd 2 = 2 ∧ ρ.rnd (-1) = -1

/-- **C135** (vectors): Rademacher vectors are exact in floating point. -/
theorem rademacherFl_ofFn (hρ : SignsExact ρ) (E : Ext (Fl ρ) W) {n : Nat} (b : Fin n → Bool) (w : W) (h : (E.bits n w).1 = List.ofFn b) :
    ∃ v : Fin n → Fl ρ, (randomVectorFl E n (.str "rademacher") w).1 = .ok (List.ofFn v) ∧ ∀ i, (v i).val = sgn (b i) := by
  refine ⟨fun i => (if b i then 1 else 0) * ((2 : Nat) : Fl ρ) - 1, ?_, fun i => ?_⟩
  · simp only [randomVectorFl, if_true, rademacherFl, h, List.map_ofFn]
    rfl
  · have h2 : (((2 : Nat) : Fl ρ)).val = 2 := by
      rw [Fl.val_natCast]
      exact_mod_cast hρ.1
    rw [Fl.val_sub, Fl.val_mul, h2, Fl.val_one]
    unfold sgn
    cases b i
    · simp only [Bool.false_eq_true, if_false, Fl.val_zero, zero_mul, Fl.rnd_zero, zero_sub]
      exact hρ.2
    · simp only [if_true, Fl.val_one, one_mul, hρ.1]
      rw [show (2 : ℝ) - 1 = 1 by norm_num]
      exact ρ.one

/-- What the three `sample` methods return for the drawn vector `v`, whose product is `y`. -/
theorem samplesFl_eq {m n : Nat} (σ : FlSum ρ) (E : Ext (Fl ρ) W) (M M' : Matrix (Fin m) (Fin n) ℝ) {g : ℝ} (hM : MultipliesWithin g E M M')
    (dist : DistArg) (w : W) (v : Fin n → Fl ρ) (hv : (randomVectorFl E n dist w).1 = .ok (List.ofFn v)) :
    ∃ y : Fin m → Fl ρ, (∀ i, Within g (y i) (∑ j, M i j * (v j).val) (∑ j, M' i j * |(v j).val|)) ∧
      (hutchTraceFl σ E n dist w).1 = .ok (npDotFl σ (List.ofFn v) (List.ofFn y)) ∧
      (hutchDiagFl E n dist w).1 = .ok (List.zipWith (· * ·) (List.ofFn v) (List.ofFn y)) ∧
      (hutchNormFl σ E n dist w).1 = .ok (npDotFl σ (List.ofFn y) (List.ofFn y)) := by
  rcases h : randomVectorFl E n dist w with ⟨r, w'⟩
  rw [h] at hv
  simp only at hv
  subst hv
  obtain ⟨y, hy, hy'⟩ := hM v w'
  rcases h' : E.mul (List.ofFn v) w' with ⟨r', w''⟩
  rw [h'] at hy
  simp only at hy
  subst hy
  have hd : drawAndMulFl E n dist w = (.ok (List.ofFn v, List.ofFn y), w'') := by simp [drawAndMulFl, h, h']
  exact ⟨y, hy', by simp [hutchTraceFl, hd], by simp [hutchDiagFl, hd], by simp [hutchNormFl, hd]⟩

theorem npDotFl_within (σ : FlSum ρ) {g h : ℝ} (hg : 1 ≤ g) {n : Nat} (x y : Fin n → Fl ρ) (a A b B : Fin n → ℝ)
    (hx : ∀ i, Within g (x i) (a i) (A i)) (hy : ∀ i, Within h (y i) (b i) (B i)) :
    Within (g * h * (1 + ρ.u) ^ n) (npDotFl σ (List.ofFn x) (List.ofFn y)) (∑ i, a i * b i) (∑ i, A i * B i) := by
  have e : List.zipWith (· * ·) (List.ofFn x) (List.ofFn y) = (List.finRange n).map fun i => x i * y i := by
    rw [← List.ofFn_eq_map]
    refine List.ext_getElem (by simp) fun i h1 h2 => ?_
    simp
  have := Within.sum σ (List.finRange n) (fun i => x i * y i) (fun i => a i * b i) (fun i => A i * B i) fun i _ => (hx i).mul hg (hy i)
  unfold npDotFl
  rw [e, Fin.sum_univ_def, Fin.sum_univ_def]
  cases n with
  | zero => 
    simp only [List.finRange_zero, List.map_nil, FlSum.sum_nil, List.sum_nil]
    exact within_zero _
  | succ n =>
    refine this.mono (le_of_eq ?_)
    rw [List.length_finRange, Nat.add_sub_cancel, pow_succ]
    ring

theorem within_val (x : Fl ρ) : Within 1 x x.val |x.val| := ⟨le_rfl, by simp⟩

/-- **C135** (one sample, any distribution): errors of the three estimators for the drawn vector. -/
theorem samplesFl_within {m n : Nat} (σ : FlSum ρ) (E : Ext (Fl ρ) W) {g : ℝ} (hg : 1 ≤ g) (dist : DistArg) (w : W) (v : Fin n → Fl ρ)
    (hv : (randomVectorFl E n dist w).1 = .ok (List.ofFn v)) :
    (∀ M M' : Matrix (Fin n) (Fin n) ℝ, MultipliesWithin g E M M' →
      (∃ t, (hutchTraceFl σ E n dist w).1 = .ok t ∧
        Within (g * (1 + ρ.u) ^ n) t (∑ i, (v i).val * ∑ j, M i j * (v j).val) (∑ i, |(v i).val| * ∑ j, M' i j * |(v j).val|)) ∧
      ∃ d : Fin n → Fl ρ, (hutchDiagFl E n dist w).1 = .ok (List.ofFn d) ∧
        ∀ i, Within (g * (1 + ρ.u)) (d i) ((v i).val * ∑ j, M i j * (v j).val) (|(v i).val| * ∑ j, M' i j * |(v j).val|)) ∧
    ∀ M M' : Matrix (Fin m) (Fin n) ℝ, MultipliesWithin g E M M' →
      ∃ t, (hutchNormFl σ E n dist w).1 = .ok t ∧
        Within (g ^ 2 * (1 + ρ.u) ^ m) t (∑ i, (∑ j, M i j * (v j).val) ^ 2) (∑ i, (∑ j, M' i j * |(v j).val|) ^ 2) := by
  constructor
  · intro M M' hM
    obtain ⟨y, hy, h1, h2, -⟩ := samplesFl_eq σ E M M' hM dist w v hv
    refine ⟨⟨_, h1, ?_⟩, fun i => v i * y i, ?_, fun i => ?_⟩
    · have := npDotFl_within σ le_rfl v y _ _ _ _ (fun i => within_val (v i)) hy
      rwa [one_mul] at this
    · rw [h2]
      congr 1
      refine List.ext_getElem (by simp) fun i h1 h2 => ?_
      simp
    · have := (within_val (v i)).mul le_rfl (hy i)
      rwa [one_mul] at this
  · intro M M' hM
    obtain ⟨y, hy, -, -, h3⟩ := samplesFl_eq σ E M M' hM dist w v hv
    refine ⟨_, h3, ?_⟩
    have := npDotFl_within σ hg y y _ _ _ _ hy hy
    simp only [pow_two]
    exact this

/-- Means of numbers with errors. -/
theorem signMean_close {n : Nat} (F G : (Fin n → Bool) → ℝ) (e : ℝ) (h : ∀ b, |F b - G b| ≤ e) : |signMean F - signMean G| ≤ e := by
  unfold signMean
  rw [← sub_div, ← Finset.sum_sub_distrib, abs_div, abs_of_pos (by positivity : (0 : ℝ) < 2 ^ n), div_le_iff₀ (by positivity)]
  refine (Finset.abs_sum_le_sum_abs _ _).trans ((Finset.sum_le_sum fun b _ => h b).trans (le_of_eq ?_))
  simp [mul_comm]

theorem abs_sgn (b : Bool) : |(sgn b : ℝ)| = 1 := by unfold sgn; split_ifs <;> simp

/-- **C135** (trace, Rademacher): every sample succeeds and has the same bound on its error, and the expectation of the computed samples differs from the
trace by at most this bound. -/
theorem hutchTraceFl_rademacher (hρ : SignsExact ρ) (σ : FlSum ρ) {n : Nat} (E : Ext (Fl ρ) W) {g : ℝ} (hg : 1 ≤ g) (M M' : Matrix (Fin n) (Fin n) ℝ)
    (hM : MultipliesWithin g E M M') (w : (Fin n → Bool) → W) (hw : DrawsBits E w) :
    ∃ F : (Fin n → Bool) → Fl ρ, (∀ b, (hutchTraceFl σ E n (.str "rademacher") (w b)).1 = .ok (F b)) ∧
      |signMean (fun b => (F b).val) - M.trace| ≤ (g * (1 + ρ.u) ^ n - 1) * ∑ i, ∑ j, M' i j := by
  choose v hv hs using fun b => rademacherFl_ofFn hρ E b (w b) (hw b)
  choose F hF hb using fun b => ((samplesFl_within (m := n) σ E hg (.str "rademacher") (w b) (v b) (hv b)).1 M M' hM).1
  refine ⟨F, hF, ?_⟩
  rw [← signMean_quad M]
  refine signMean_close _ _ _ fun b => ?_
  have := (hb b).2
  simp only [hs, abs_sgn, one_mul, mul_one] at this
  exact this

/-- **C135** (diagonal, Rademacher). -/
theorem hutchDiagFl_rademacher (hρ : SignsExact ρ) {n : Nat} (E : Ext (Fl ρ) W) {g : ℝ} (hg : 1 ≤ g) (M M' : Matrix (Fin n) (Fin n) ℝ)
    (hM : MultipliesWithin g E M M') (w : (Fin n → Bool) → W) (hw : DrawsBits E w) (σ : FlSum ρ) :
    ∃ F : (Fin n → Bool) → Fin n → Fl ρ, (∀ b, (hutchDiagFl E n (.str "rademacher") (w b)).1 = .ok (List.ofFn (F b))) ∧
      ∀ i, |signMean (fun b => (F b i).val) - M i i| ≤ (g * (1 + ρ.u) - 1) * ∑ j, M' i j := by
  choose v hv hs using fun b => rademacherFl_ofFn hρ E b (w b) (hw b)
  choose F hF hb using fun b => ((samplesFl_within (m := n) σ E hg (.str "rademacher") (w b) (v b) (hv b)).1 M M' hM).2
  refine ⟨F, hF, fun i => ?_⟩
  rw [← signMean_diag M i]
  refine signMean_close _ _ _ fun b => ?_
  have := (hb b i).2
  simp only [hs, abs_sgn, one_mul, mul_one] at this
  exact this

/-- **C135** (squared Frobenius norm, Rademacher), also for matrices that are not square. -/
theorem hutchNormFl_rademacher (hρ : SignsExact ρ) (σ : FlSum ρ) {m n : Nat} (E : Ext (Fl ρ) W) {g : ℝ} (hg : 1 ≤ g) (M M' : Matrix (Fin m) (Fin n) ℝ)
    (hM : MultipliesWithin g E M M') (w : (Fin n → Bool) → W) (hw : DrawsBits E w) :
    ∃ F : (Fin n → Bool) → Fl ρ, (∀ b, (hutchNormFl σ E n (.str "rademacher") (w b)).1 = .ok (F b)) ∧
      |signMean (fun b => (F b).val) - ∑ i, ∑ j, M i j ^ 2| ≤ (g ^ 2 * (1 + ρ.u) ^ m - 1) * ∑ i, (∑ j, M' i j) ^ 2 := by
  choose v hv hs using fun b => rademacherFl_ofFn hρ E b (w b) (hw b)
  choose F hF hb using fun b => (samplesFl_within σ E hg (.str "rademacher") (w b) (v b) (hv b)).2 M M' hM
  refine ⟨F, hF, ?_⟩
  rw [← trace_gram, ← signMean_quad (Mᵀ * M)]
  refine signMean_close _ _ _ fun b => ?_
  have := (hb b).2
  simp only [hs, abs_sgn, mul_one] at this
  rw [← quad_gram]
  simpa only [dotProduct, mulVec, ← pow_two] using this

/-- The known names draw vectors of the requested length, and every other argument raises before the operator is used. -/
theorem samplesFl_names (σ : FlSum ρ) (E : Ext (Fl ρ) W) (n : Nat) (w : W) :
    (randomVectorFl E n (.str "normal") w).1 = .ok (E.randn n w).1 ∧
    (∀ s, s ≠ "rademacher" → s ≠ "normal" → hutchTraceFl σ E n (.str s) w = (.error .valueError, w) ∧
      hutchDiagFl E n (.str s) w = (.error .valueError, w) ∧ hutchNormFl σ E n (.str s) w = (.error .valueError, w)) ∧
    hutchTraceFl σ E n .nonStr w = (.error .typeError, w) ∧ hutchDiagFl E n .nonStr w = (.error .typeError, w) ∧
      hutchNormFl σ E n .nonStr w = (.error .typeError, w) := by
  refine ⟨by simp [randomVectorFl, normal], fun s h1 h2 => ?_, rfl, rfl, rfl⟩
  simp [hutchTraceFl, hutchDiagFl, hutchNormFl, drawAndMulFl, randomVectorFl, h1, h2]

/-! ## KFAC -/

/-- KFAC's matrix is bounded by that of the bounds. -/
theorem RoundedRun.abs_le {π : Rounding} {η : ℝ} {cfg : KfacCfg} {shapes : List (List Nat)} {layers : List PLayer}
    {batches : List (List (Computed ρ))} {B p q : Nat} {eA eG : ℝ} (hrun : RoundedRun π η cfg shapes layers batches B p q eA eG) (σ : FlSum ρ)
    (M M' : Mat ℝ) (hM : IsKron (kfacBlocks cfg.sep shapes (layers.map (PLayer.layer cfg (batches.flatten.map Computed.exact)))) M)
    (hM' : IsKron (kfacBlocks cfg.sep shapes (layers.map (PLayer.boundLayer cfg batches.flatten))) M') (r c : Nat)
    (hr : r < (shapes.map List.prod).sum) (hc : c < (shapes.map List.prod).sum) : |M r c| ≤ M' r c := by
  have hne' : (batches.map fun b => b.map Computed.exact) ≠ [] := by simpa using hrun.batches_ne
  have hflat : (batches.map fun b => b.map Computed.exact).flatten = batches.flatten.map Computed.exact := by
    rw [List.map_flatten]
  have hK := pnet_kfacLayers (cfg := cfg) hrun.net _ hne' hrun.pos.2.1 hrun.pos.2.2.1 hrun.pos.2.2.2
  rw [hflat] at hK
  have hzero : IsKron (kfacBlocks cfg.sep shapes (layers.map fun l =>
      { l.layer cfg (batches.flatten.map Computed.exact) with B := ⟨l.dout, fun _ _ => 0⟩ })) fun _ _ => (0 : ℝ) := by
    have hB : ∀ b ∈ kfacBlocks cfg.sep shapes (layers.map fun l =>
        { l.layer cfg (batches.flatten.map Computed.exact) with B := ⟨l.dout, fun _ _ => 0⟩ }), ∀ i j, b.B i j = 0 := by
      intro b hb i j
      obtain ⟨l, hl, hb⟩ := List.mem_flatMap.mp hb
      obtain ⟨l, -, rfl⟩ := List.mem_map.mp hl
      unfold Layer.blocks at hb
      split at hb <;> (try split at hb) <;> simp only [List.mem_cons, List.not_mem_nil, or_false] at hb <;>
        (try rcases hb with rfl | rfl) <;> rfl
    rintro ⟨i, a, b⟩ ⟨j, c, d⟩
    symm
    unfold KIdx.entry
    split_ifs
    · exact mul_eq_zero_of_left (hB _ (List.getElem_mem _) _ _) _
    · rfl
  have := kfacBlocks_close (le_refl (0 : ℝ)) zero_le_one cfg.sep shapes layers (PLayer.layer cfg (batches.flatten.map Computed.exact))
    (fun l => { l.layer cfg (batches.flatten.map Computed.exact) with B := ⟨l.dout, fun _ _ => 0⟩ }) (PLayer.boundLayer cfg batches.flatten) ?_
    (fun l hl => hK.fits _ (List.mem_map_of_mem hl)) hrun.net.perm M _ M' hM hzero hM' r c hr hc
  · simpa using this
  · intro l hl
    obtain ⟨h1, F, -, h2, -⟩ := hrun.factors σ l hl
    refine ⟨rfl, rfl, rfl, fun hw => ?_, rfl, h2.dim', h2.abs_le, fun i hi j hj => ?_⟩
    · obtain ⟨F, -, h1, -⟩ := h1 hw
      exact ⟨rfl, h1.dim', h1.abs_le, fun i hi j hj => by simp⟩
    · simpa using h2.abs_le i hi j hj

/-- **C135** (KFAC): if the operator's product is that of KFAC in floating point on the flattened tensors, it has the accuracy of C132, so that the
theorems above are about the estimators on KFAC. -/
theorem kfac_multipliesWithin (π : Rounding) (σ σ' : FlSum ρ) {η : ℝ} (cfg : KfacCfg) (shapes : List (List Nat))
    (layers : List PLayer) (batches : List (List (Computed ρ))) {B p q : Nat} {eA eG : ℝ}
    (hrun : RoundedRun π η cfg shapes layers batches B p q eA eG)
    (M M' : Mat ℝ) (hM : IsKron (kfacBlocks cfg.sep shapes (layers.map (PLayer.layer cfg (batches.flatten.map Computed.exact)))) M)
    (hM' : IsKron (kfacBlocks cfg.sep shapes (layers.map (PLayer.boundLayer cfg batches.flatten))) M') (E : Ext (Fl ρ) W)
    (hE : ∀ Xs Ys, HasShapes Xs shapes 1 → kfacMatmatFl σ' cfg.sep (pMapping layers)
        (kfacFactorsFl π σ cfg (layers.map PLayer.klayer) (batches.map fun b => b.map Computed.fl)).1
        (kfacFactorsFl π σ cfg (layers.map PLayer.klayer) (batches.map fun b => b.map Computed.fl)).2 Xs = .ok Ys →
      ∀ w, (E.mul (flatData Xs) w).1 = .ok (flatData Ys)) :
    MultipliesWithin (m := (shapes.map List.prod).sum) (n := (shapes.map List.prod).sum) ((1 + eA) * (1 + eG) * (1 + ρ.u) ^ (p + q)) E
      (fun i j => M i j) fun i j => M' i j := by
  intro v w
  obtain ⟨Xs, hX, hv⟩ := exists_flat 1 shapes (List.ofFn v) (by simp [total])
  obtain ⟨Ys, hY, hYs, hb⟩ := kfac_product_rounding π σ σ' cfg shapes layers batches hrun M M' hM hM' 1 Xs hX
  have hlen : (flatData Ys).length = (shapes.map List.prod).sum := by
    have := hYs.flatData_length
    simpa [total] using this
  refine ⟨fun i => (flatData Ys).getD i 0, ?_, fun i => ⟨?_, ?_⟩⟩
  · rw [← hv, hE Xs Ys hX hY w]
    congr 1
    refine List.ext_getElem (by simp [hlen]) fun i h1 h2 => ?_
    simp [List.getD_eq_getElem?_getD, h1]
  · refine (Finset.abs_sum_le_sum_abs _ _).trans (Finset.sum_le_sum fun j _ => ?_)
    rw [abs_mul]
    exact mul_le_mul_of_nonneg_right (hrun.abs_le σ M M' hM hM' i j i.2 j.2) (abs_nonneg _)
  · have h := hb i i.2 0 one_pos
    have hvj : ∀ j : Fin (shapes.map List.prod).sum, (flatData Xs).getD j 0 = v j := fun j => by
      rw [hv]
      simp [List.getD_eq_getElem?_getD]
    simp only [mul_one, add_zero, Finset.sum_range, hvj] at h
    exact h

/-! ## Example: `float64` and the matrix with rows `(1, 1)` and `(0, 1)`, whose products are computed with one rounded addition -/

theorem signsExact_binary (p : Nat) : SignsExact (binaryFloat p) := by
  refine ⟨?_, ?_⟩
  · have := binary_natCast p 2 (by
      calc 2 = 2 ^ 1 := rfl
        _ ≤ 2 ^ (p + 1) := Nat.pow_le_pow_right (by norm_num) (by omega))
    exact_mod_cast this
  · have := binary_exact p (-1) (by simpa using one_le_pow₀ (by norm_num : (1 : ℤ) ≤ 2)) 0
    show binaryRnd p (-1) = -1
    simpa using this

/-- The generator's bits are the world. -/
noncomputable def triExt : Ext (Fl (binaryFloat 52)) (List Bool) where
  bits _ w := (w, w)
  randn n w := (List.replicate n 0, w)
  mul v w := (.ok [v.getD 0 0 + v.getD 1 0, v.getD 1 0], w)
  qr Q := Q

def triMat : Matrix (Fin 2) (Fin 2) ℝ := !![1, 1; 0, 1]

theorem triExt_within : MultipliesWithin (1 + (binaryFloat 52).u) triExt triMat triMat := by
  intro v w
  refine ⟨![v 0 + v 1, v 1], by simp [triExt, List.ofFn_succ], fun i => ?_⟩
  fin_cases i
  · have := (within_val (v 0)).add (within_val (v 1))
    rw [one_mul] at this
    simpa [triMat, Fin.sum_univ_two] using this
  · have := (within_val (v 1)).mono (h := 1 + (binaryFloat 52).u) (by linarith [(binaryFloat 52).nonneg])
    simpa [triMat, Fin.sum_univ_two] using this

example (σ : FlSum (binaryFloat 52)) :
    (∃ F : (Fin 2 → Bool) → Fl (binaryFloat 52), (∀ b, (hutchTraceFl σ triExt 2 (.str "rademacher") (List.ofFn b)).1 = .ok (F b)) ∧
      |signMean (fun b => (F b).val) - 2| ≤ 1 / 10 ^ 15) ∧
    (∃ F : (Fin 2 → Bool) → Fin 2 → Fl (binaryFloat 52),
      (∀ b, (hutchDiagFl triExt 2 (.str "rademacher") (List.ofFn b)).1 = .ok (List.ofFn (F b))) ∧
      |signMean (fun b => (F b 0).val) - 1| ≤ 1 / 10 ^ 15) ∧
    ∃ F : (Fin 2 → Bool) → Fl (binaryFloat 52), (∀ b, (hutchNormFl σ triExt 2 (.str "rademacher") (List.ofFn b)).1 = .ok (F b)) ∧
      |signMean (fun b => (F b).val) - 3| ≤ 5 / 10 ^ 15 := by
  have hg : 1 ≤ 1 + (binaryFloat 52).u := by linarith [(binaryFloat 52).nonneg]
  have hw : DrawsBits triExt (List.ofFn : (Fin 2 → Bool) → List Bool) := fun b => rfl
  obtain ⟨F, h1, h2⟩ := hutchTraceFl_rademacher (signsExact_binary 52) σ triExt hg _ _ triExt_within _ hw
  obtain ⟨G, h3, h4⟩ := hutchDiagFl_rademacher (signsExact_binary 52) triExt hg _ _ triExt_within _ hw σ
  obtain ⟨H, h5, h6⟩ := hutchNormFl_rademacher (signsExact_binary 52) σ triExt hg _ _ triExt_within _ hw
  refine ⟨⟨F, h1, ?_⟩, ⟨G, h3, ?_⟩, H, h5, ?_⟩
  · have e : triMat.trace = 2 := by norm_num [triMat, Matrix.trace, Fin.sum_univ_two]
    rw [e] at h2
    refine h2.trans ?_
    norm_num [triMat, Fin.sum_univ_two, binaryFloat]
  · have h4 := h4 0
    rw [show triMat 0 0 = 1 by simp [triMat]] at h4
    refine h4.trans ?_
    norm_num [triMat, Fin.sum_univ_two, binaryFloat]
  · have e : ∑ i, ∑ j, triMat i j ^ 2 = 3 := by norm_num [triMat, Fin.sum_univ_two]
    rw [e] at h6
    refine h6.trans ?_
    norm_num [triMat, Fin.sum_univ_two, binaryFloat]

end Curvlinops
