import Verif.Lemmas.BinaryFloat
import Verif.Props.Determinism

/-!
# C100: rounding errors of the loop over the mini-batches
-/

namespace Curvlinops

/-! ## The loops as folds, in any arithmetic -/

section fold

variable {α : Type _} [Zero α] [One α] [Add α] [Mul α] [Div α] [NatCast α]

/-- One entry of the accumulated result: weights and products in the order of the mini-batches. -/
def foldEntry {B : Type _} (p : B → α) (bs : List B) (a : α) : α := bs.foldl (fun acc b => acc + p b) a

omit [Zero α] [One α] [Mul α] [Div α] [NatCast α] in
theorem foldEntry_cons {B : Type _} (p : B → α) (b : B) (bs : List B) (a : α) :
    foldEntry p (b :: bs) a = foldEntry p bs (a + p b) := rfl

omit [One α] [Div α] [NatCast α] in
theorem getD_zipWith_lt (c : α) (l m : List α) {i : Nat} (hl : i < l.length) (hm : i < m.length) :
    (List.zipWith (fun x y => x + c * y) l m).getD i 0 = l.getD i 0 + c * m.getD i 0 := by
  simp [List.getD_eq_getElem?_getD, hl, hm]

/-- The loop of `_matmat` accumulates every entry separately, in the order of the data. -/
theorem matmatLoop_fold {B : Type _} (red : Reduction) (nData : Nat) (size : B → Nat)
    (f : B → List (Tensor α) → Py (List (Tensor α))) (shapes : List (List Nat)) (c : B → α) (cur : B → List (Tensor α))
    {K : Nat} (M : List (Tensor α)) :
    ∀ (data : List B), (∀ b ∈ data, normalizationFactor red (size b) nData = .ok (c b)) →
      (∀ b ∈ data, f b M = .ok (cur b) ∧ HasShapes (cur b) shapes K) →
      ∀ AM : List (Tensor α), HasShapes AM shapes K →
      ∃ Y, matmatLoop red nData size f M data AM = .ok Y ∧ HasShapes Y shapes K ∧
        ∀ r < total shapes * K, (flatData Y).getD r 0 =
          foldEntry (fun b => c b * (flatData (cur b)).getD r 0) data ((flatData AM).getD r 0)
  | [], _, _, AM, hAM => ⟨AM, rfl, hAM, fun _ _ => rfl⟩
  | b :: data, hc, hf, AM, hAM => by
    obtain ⟨h1, h2⟩ := hf b (by simp)
    obtain ⟨AM', e1, e2, e3⟩ := addScaled_spec (c b) hAM h2
    obtain ⟨Y, y1, y2, y3⟩ := matmatLoop_fold red nData size f shapes c cur M data (fun b' h => hc b' (by simp [h]))
      (fun b' h => hf b' (by simp [h])) AM' e2
    refine ⟨Y, ?_, y2, fun r hr => ?_⟩
    · rw [matmatLoop, hc b (by simp)]
      simp only [h1, e1, y1]
    · rw [y3 r hr, e3, foldEntry_cons, getD_zipWith_lt _ _ _ (by rw [hAM.flatData_length]; exact hr)
        (by rw [h2.flatData_length]; exact hr)]

omit [Zero α] [One α] [Div α] [NatCast α] in
theorem addScaled_vec (c : α) {T C : List (Tensor α)} {shapes : List (List Nat)} (hT : HasVec T shapes) (hC : HasVec C shapes) :
    ∃ T', zipUpdate (fun t u => t.addScaled c u) T C = .ok T' ∧ HasVec T' shapes ∧
      flatData T' = List.zipWith (fun x y => x + c * y) (flatData T) (flatData C) := by
  induction T generalizing C shapes with
  | nil =>
    have hs : shapes = [] := List.length_eq_zero_iff.mp hT.length.symm
    subst hs
    exact ⟨[], by simp [zipUpdate], hT, by simp [flatData]⟩
  | cons t ts ih =>
    rcases shapes with _ | ⟨s, ss⟩
    · have := hT.length; simp at this
    rcases C with _ | ⟨u, us⟩
    · have := hC.length; simp at this
    rw [hasVec_cons] at hT hC
    obtain ⟨ts', e1, e2, e3⟩ := ih hT.2 hC.2
    have hsh : u.shape = t.shape := by rw [hT.1.1, hC.1.1]
    have hlen : t.data.length = u.data.length := by rw [hT.1.2, hC.1.2, hsh]
    refine ⟨⟨t.shape, List.zipWith (fun x y => x + c * y) t.data u.data⟩ :: ts', ?_, ?_, ?_⟩
    · have ht : t.addScaled c u =
          .ok ⟨t.shape, List.zipWith (fun x y => x + c * y) t.data u.data⟩ := by
        simp only [Tensor.addScaled, hsh, if_true]
      simp only [zipUpdate, ht, e1]
    · rw [hasVec_cons]
      refine ⟨⟨hT.1.1, ?_⟩, e2⟩
      have h2 := hT.1.2
      simp only [Tensor.WF] at h2 ⊢
      rw [List.length_zipWith, ← hlen, h2]; simp
    · rw [flatData_cons, flatData_cons, flatData_cons, e3, List.zipWith_append hlen]

omit [One α] [Add α] [Div α] [NatCast α] in
theorem flat_scale_lt (C : List (Tensor α)) (c : α) {r : Nat} (h : r < (flatData C).length) :
    (flatData (C.map (Tensor.scale c))).getD r 0 = c * (flatData C).getD r 0 := by
  have : flatData (C.map (Tensor.scale c)) = (flatData C).map (c * ·) := by
    simp [flatData, Tensor.scale, List.map_flatten, Function.comp_def]
  rw [this]
  simp [List.getD_eq_getElem?_getD, h]

/-- The loop of `gradient_and_loss` accumulates the loss and every entry of the gradient separately. -/
theorem gradLossLoop_fold {B : Type _} (red : Reduction) (nData : Nat) (size : B → Nat)
    (lg : B → α × List (Tensor α)) (c : B → α) (shapes : List (List Nat)) :
    ∀ (data : List B) (G : List (Tensor α)) (L : α),
      (∀ b ∈ data, normalizationFactor red (size b) nData = .ok (c b)) →
      (∀ b ∈ data, HasVec (lg b).2 shapes) → HasVec G shapes →
      ∃ G', gradLossLoop red nData size lg data G L = .ok (G', foldEntry (fun b => (lg b).1 * c b) data L) ∧
        HasVec G' shapes ∧ ∀ r < total shapes, (flatData G').getD r 0 =
          foldEntry (fun b => 1 * (c b * (flatData (lg b).2).getD r 0)) data ((flatData G).getD r 0)
  | [], G, L, _, _, hG => ⟨G, rfl, hG, fun _ _ => rfl⟩
  | b :: bs, G, L, hc, hlg, hG => by
    have hs := hasVec_scale (c b) (hlg b (by simp))
    obtain ⟨G1, a1, a2, a3⟩ := addScaled_vec (1 : α) hG hs
    obtain ⟨G', h1, h2, h3⟩ := gradLossLoop_fold red nData size lg c shapes bs G1 (L + (lg b).1 * c b)
      (fun b' hb' => hc b' (by simp [hb'])) (fun b' hb' => hlg b' (by simp [hb'])) a2
    refine ⟨G', ?_, h2, fun r hr => ?_⟩
    · rw [gradLossLoop, batchLossGrad, hc b (by simp)]
      simp only [a1, h1, foldEntry_cons]
    · have hl : r < (flatData (lg b).2).length := by rw [(hlg b (by simp)).flatData_length]; exact hr
      rw [h3 r hr, a3, foldEntry_cons, getD_zipWith_lt _ _ _ (by rw [hG.flatData_length]; exact hr)
        (by rw [hs.flatData_length]; exact hr), flat_scale_lt _ _ hl]

end fold

/-! ## Errors of single operations -/

section ops

variable {ρ : Rounding}

theorem rnd_within (x a s g : ℝ) (ha : |a| ≤ s) (hx : |x - a| ≤ (g - 1) * s) :
    |ρ.rnd x - a| ≤ (g * (1 + ρ.u) - 1) * s := by
  have h1 : |x| ≤ g * s := by
    have := abs_sub_abs_le_abs_sub x a
    linarith
  have h2 := ρ.close x
  have h3 : ρ.u * |x| ≤ ρ.u * (g * s) := mul_le_mul_of_nonneg_left h1 ρ.nonneg
  have h4 : |ρ.rnd x - a| ≤ |ρ.rnd x - x| + |x - a| := abs_sub_le _ _ _
  linarith

/-- A sum: errors of the summands, and one rounding. -/
theorem add_within (x y : Fl ρ) (a b s t g : ℝ) (ha : |a| ≤ s) (hb : |b| ≤ t)
    (hx : |x.val - a| ≤ (g - 1) * s) (hy : |y.val - b| ≤ (g - 1) * t) :
    |(x + y).val - (a + b)| ≤ (g * (1 + ρ.u) - 1) * (s + t) := by
  rw [Fl.val_add]
  refine rnd_within _ _ _ _ ((abs_add_le _ _).trans (add_le_add ha hb)) ?_
  have e : x.val + y.val - (a + b) = (x.val - a) + (y.val - b) := by ring
  rw [e, mul_add]
  exact (abs_add_le _ _).trans (add_le_add hx hy)

/-- A product: errors of the factors, and one rounding. -/
theorem mul_within (x y : Fl ρ) (a b s t g h : ℝ) (hg : 1 ≤ g) (ha : |a| ≤ s) (hb : |b| ≤ t)
    (hx : |x.val - a| ≤ (g - 1) * s) (hy : |y.val - b| ≤ (h - 1) * t) :
    |(x * y).val - a * b| ≤ (g * h * (1 + ρ.u) - 1) * (s * t) := by
  rw [Fl.val_mul]
  have hs : 0 ≤ s := (abs_nonneg a).trans ha
  have ht : 0 ≤ t := (abs_nonneg b).trans hb
  refine rnd_within _ _ _ _ ?_ ?_
  · rw [abs_mul]
    exact mul_le_mul ha hb (abs_nonneg _) hs
  · have e : x.val * y.val - a * b = (x.val - a) * (y.val - b) + (x.val - a) * b + a * (y.val - b) := by ring
    have h1 : |(x.val - a) * (y.val - b)| ≤ ((g - 1) * s) * ((h - 1) * t) := by
      rw [abs_mul]
      exact mul_le_mul hx hy (abs_nonneg _) (mul_nonneg (by linarith) hs)
    have h2 : |(x.val - a) * b| ≤ ((g - 1) * s) * t := by
      rw [abs_mul]
      exact mul_le_mul hx hb (abs_nonneg _) (mul_nonneg (by linarith) hs)
    have h3 : |a * (y.val - b)| ≤ s * ((h - 1) * t) := by
      rw [abs_mul]
      exact mul_le_mul ha hy (abs_nonneg _) hs
    rw [e]
    have h4 := abs_add_le ((x.val - a) * (y.val - b) + (x.val - a) * b) (a * (y.val - b))
    have h5 := abs_add_le ((x.val - a) * (y.val - b)) ((x.val - a) * b)
    nlinarith

/-- Accumulating `n` summands that are themselves accurate up to `g`: one more rounding per summand. -/
theorem foldEntry_within {B : Type _} (p : B → Fl ρ) (z Z : B → ℝ) (g : ℝ) (hg : 1 ≤ g) :
    ∀ (bs : List B), (∀ b ∈ bs, |z b| ≤ Z b ∧ |(p b).val - z b| ≤ (g - 1) * Z b) → ∀ (x : Fl ρ) (a s h : ℝ), g ≤ h → |a| ≤ s →
      |x.val - a| ≤ (h - 1) * s →
      |(foldEntry p bs x).val - (a + (bs.map z).sum)| ≤ (h * (1 + ρ.u) ^ bs.length - 1) * (s + (bs.map Z).sum)
  | [], _, x, a, s, h, _, _, hx => by simpa [foldEntry] using hx
  | b :: bs, hb, x, a, s, h, hgh, ha, hx => by
    obtain ⟨b1, b2⟩ := hb b (by simp)
    have hZ : 0 ≤ Z b := (abs_nonneg _).trans b1
    have hu := ρ.nonneg
    have key := add_within x (p b) a (z b) s (Z b) h ha b1 hx
      (b2.trans (mul_le_mul_of_nonneg_right (by linarith) hZ))
    have := foldEntry_within p z Z g hg bs (fun b' h => hb b' (by simp [h])) (x + p b) (a + z b) (s + Z b) (h * (1 + ρ.u))
      (by nlinarith) ((abs_add_le _ _).trans (add_le_add ha b1)) key
    rw [foldEntry_cons, List.map_cons, List.sum_cons, List.map_cons, List.sum_cons, List.length_cons, ← add_assoc,
      ← add_assoc, pow_succ, mul_comm ((1 + ρ.u) ^ bs.length), ← mul_assoc]
    exact this

/-- From zero: the first addition is exact. -/
theorem foldEntry_zero_within {B : Type _} (p : B → Fl ρ) (z Z : B → ℝ) (g : ℝ) (hg : 1 ≤ g) (bs : List B)
    (h : ∀ b ∈ bs, |z b| ≤ Z b ∧ |(p b).val - z b| ≤ (g - 1) * Z b) :
    |(foldEntry p bs 0).val - (bs.map z).sum| ≤ (g * (1 + ρ.u) ^ (bs.length - 1) - 1) * (bs.map Z).sum := by
  cases bs with
  | nil => simp [foldEntry]
  | cons b bs =>
    obtain ⟨b1, b2⟩ := h b (by simp)
    have := foldEntry_within p z Z g hg bs (fun b' h' => h b' (by simp [h'])) (p b) (z b) (Z b) g le_rfl b1 b2
    rw [foldEntry_cons, Fl.zero_add', List.length_cons, Nat.add_sub_cancel]
    simpa using this

end ops

/-! ## The operators -/

section operators

variable {ρ : Rounding} {D : Type _}

/-- Specification: the weight of a mini-batch in the empirical risk. -/
noncomputable def batchWeight (red : Reduction) (size N : Nat) : ℝ := if red = .mean then (size : ℝ) / N else 1

theorem batchWeight_nonneg (red : Reduction) (size N : Nat) : 0 ≤ batchWeight red size N := by
  unfold batchWeight; split_ifs <;> positivity

/-- The risk is the weighted sum of the risks of the mini-batches. -/
theorem risk_batches (red : Reduction) (hred : red = .mean ∨ red = .sum) (x : D → ℝ) (batches : List (List D))
    (hne : ∀ b ∈ batches, b ≠ []) :
    (batches.map fun b => batchWeight red b.length batches.flatten.length * riskValue red x b).sum =
      riskValue red x batches.flatten := by
  unfold riskValue
  rw [sum_map_flatten x batches, ← List.sum_map_mul_left]
  refine congrArg List.sum (List.map_congr_left fun b hb => ?_)
  have h1 : (b.length : ℝ) ≠ 0 := by
    have := (List.length_pos_of_ne_nil (hne b hb)).ne'
    exact_mod_cast this
  unfold batchWeight
  rcases hred with rfl | rfl
  · simp only [if_true]
    field_simp
  · simp

theorem abs_riskValue_le (red : Reduction) (x : D → ℝ) (b : List D) :
    |riskValue red x b| ≤ riskValue red (fun d => |x d|) b := by
  unfold riskValue
  have hc : 0 ≤ (if red = .mean then (b.length : ℝ)⁻¹ else 1) := by split_ifs <;> positivity
  rw [abs_mul, abs_of_nonneg hc]
  refine mul_le_mul_of_nonneg_left ?_ hc
  induction b with
  | nil => simp
  | cons d ds ih =>
    rw [List.map_cons, List.sum_cons, List.map_cons, List.sum_cons]
    have : |(ds.map x).sum| ≤ (ds.map fun d => |x d|).sum := by
      by_cases h : ds = []
      · subst h; simp
      · have hc' : 0 ≤ (if red = .mean then (ds.length : ℝ)⁻¹ else 1) := by split_ifs <;> positivity
        exact ih hc'
    exact (abs_add_le _ _).trans (add_le_add le_rfl this)

theorem abs_riskValue_le_of (red : Reduction) (x a : D → ℝ) (ha : ∀ d, |x d| ≤ a d) (b : List D) :
    |riskValue red x b| ≤ riskValue red a b := by
  refine (abs_riskValue_le red x b).trans ?_
  unfold riskValue
  exact mul_le_mul_of_nonneg_left (List.sum_le_sum fun d _ => ha d) (by split_ifs <;> positivity)

/-- Roundings per mini-batch: division and product for `'mean'`, none for `'sum'`. -/
def weightRoundings (red : Reduction) : Nat := if red = .mean then 2 else 0

/-- The normalization factor, as computed. -/
noncomputable def flWeight (ρ : Rounding) (red : Reduction) (size N : Nat) : Fl ρ :=
  if red = .mean then (size : Fl ρ) / (N : Fl ρ) else 1

theorem flWeight_eq (red : Reduction) (hred : red = .mean ∨ red = .sum) (size N : Nat) (hN : N ≠ 0) :
    normalizationFactor red size N = .ok (flWeight ρ red size N) := by
  unfold normalizationFactor flWeight
  rw [if_neg hN]
  rcases hred with rfl | rfl <;> simp

/-- The weighted contribution of a mini-batch. -/
theorem weighted_within (red : Reduction) (hred : red = .mean ∨ red = .sum) (size N : Nat) (hs : ρ.rnd size = size)
    (hN : ρ.rnd N = N) (y : Fl ρ) (a s η : ℝ) (ha : |a| ≤ s) (hy : |y.val - a| ≤ η * s) :
    |(flWeight ρ red size N * y).val - batchWeight red size N * a| ≤
      ((1 + η) * (1 + ρ.u) ^ weightRoundings red - 1) * (batchWeight red size N * s) := by
  have hu := ρ.nonneg
  rcases hred with rfl | rfl
  · have hw := batchWeight_nonneg .mean size N
    have := mul_within (flWeight ρ .mean size N) y (batchWeight .mean size N) a (batchWeight .mean size N) s (1 + ρ.u) (1 + η)
      (by linarith) (abs_of_nonneg hw).le ha ?_ (by simpa using hy)
    · refine this.trans (le_of_eq ?_)
      simp only [weightRoundings, if_true]
      ring
    · simp only [flWeight, batchWeight, if_true, Fl.val_div, Fl.val_natCast, hs, hN]
      have h := ρ.close ((size : ℝ) / N)
      rw [abs_of_nonneg (by positivity : (0 : ℝ) ≤ (size : ℝ) / N)] at h
      simpa using h
  · simpa [flWeight, batchWeight, weightRoundings, Fl.one_mul'] using hy

theorem mem_sizes {batches : List (List D)} {b : List D} (hb : b ∈ batches) : b.length ≤ batches.flatten.length := by
  rw [List.length_flatten]
  exact List.le_sum_of_mem (List.mem_map_of_mem hb)

/-- Accumulated error: the contributions of `n` mini-batches, each accurate up to the factor `1 + η`. -/
noncomputable def batchError (ρ : Rounding) (red : Reduction) (η : ℝ) (n : Nat) : ℝ :=
  (1 + η) * (1 + ρ.u) ^ (weightRoundings red + (n - 1)) - 1

theorem fold_batches (red : Reduction) (hred : red = .mean ∨ red = .sum) (x a : D → ℝ)
    (ha : ∀ d, |x d| ≤ a d) (η : ℝ) (hη : 0 ≤ η)
    (batches : List (List D)) (hne : ∀ b ∈ batches, b ≠ []) (hrep : ∀ n ≤ batches.flatten.length, ρ.rnd n = n)
    (p y : List D → Fl ρ)
    (hp : ∀ b ∈ batches, p b = flWeight ρ red b.length batches.flatten.length * y b)
    (hy : ∀ b ∈ batches, |(y b).val - riskValue red x b| ≤ η * riskValue red a b) :
    |(foldEntry p batches 0).val - riskValue red x batches.flatten| ≤
      batchError ρ red η batches.length * riskValue red a batches.flatten := by
  have hu := ρ.nonneg
  have hg : 1 ≤ (1 + η) * (1 + ρ.u) ^ weightRoundings red :=
    one_le_mul_of_one_le_of_one_le (by linarith) (one_le_pow₀ (by linarith))
  have key := foldEntry_zero_within p (fun b => batchWeight red b.length batches.flatten.length * riskValue red x b)
    (fun b => batchWeight red b.length batches.flatten.length * riskValue red a b)
    ((1 + η) * (1 + ρ.u) ^ weightRoundings red) hg batches fun b hb => ?_
  · rw [risk_batches red hred x batches hne, risk_batches red hred _ batches hne] at key
    refine key.trans (le_of_eq ?_)
    rw [batchError, pow_add]
    ring
  · constructor
    · rw [abs_mul, abs_of_nonneg (batchWeight_nonneg _ _ _)]
      exact mul_le_mul_of_nonneg_left (abs_riskValue_le_of red x a ha b) (batchWeight_nonneg _ _ _)
    · rw [hp b hb]
      exact weighted_within red hred _ _ (hrep _ (mem_sizes hb)) (hrep _ le_rfl) _ _ _ η (abs_riskValue_le_of red x a ha b) (hy b hb)

/-- C100: products in floating point arithmetic. `x d r` is the exact contribution of datum `d` to entry `r` and `a d r`
a bound on its absolute value (the absolute value itself, or the contribution with absolute values everywhere); the product
of every mini-batch is computed with an error of at most `η` relative to the mean (sum) of these bounds over its data. Then
the product over all mini-batches has an error of at most `(1 + η) (1 + u)^(n + 1) - 1` for reduction `'mean'`
(`(1 + η) (1 + u)^(n - 1) - 1` for `'sum'`), relative to the mean (sum) of the bounds over all data. -/
theorem matmat_rounding (shapes : List (List Nat)) (K : Nat) (red : Reduction) (hred : red = .mean ∨ red = .sum)
    (x a : D → Nat → ℝ) (ha : ∀ d r, |x d r| ≤ a d r) (η : ℝ) (hη : 0 ≤ η) (f : List D → List (Tensor (Fl ρ)) → Py (List (Tensor (Fl ρ))))
    (batches : List (List D)) (hne : ∀ b ∈ batches, b ≠ []) (hrep : ∀ n ≤ batches.flatten.length, ρ.rnd n = n)
    (M : List (Tensor (Fl ρ))) (hM : HasShapes M shapes K)
    (hf : ∀ b ∈ batches, ∃ Y, f b M = .ok Y ∧ HasShapes Y shapes K ∧ ∀ r < total shapes * K,
      |((flatData Y).getD r 0).val - riskValue red (fun d => x d r) b| ≤ η * riskValue red (fun d => a d r) b) :
    ∃ Y, ((curvatureOp shapes red (inferNData List.length batches none) List.length f batches).matmat M).1 = .ok Y ∧
      HasShapes Y shapes K ∧ ∀ r < total shapes * K,
        |((flatData Y).getD r 0).val - riskValue red (fun d => x d r) batches.flatten| ≤
          batchError ρ red η batches.length * riskValue red (fun d => a d r) batches.flatten := by
  have hN : inferNData List.length batches none = batches.flatten.length := by
    simp [inferNData, List.length_flatten]
  choose! cur h1 h2 h3 using hf
  have hz : HasShapes (M.map Tensor.zerosLike) shapes K := by
    constructor
    · rw [List.map_map, ← hM.1]; rfl
    · intro t ht
      obtain ⟨m, hm, rfl⟩ := List.mem_map.mp ht
      simpa [Tensor.WF, Tensor.zerosLike] using hM.2 m hm
  have hz0 : ∀ r, (flatData (M.map (Tensor.zerosLike (α := Fl ρ)))).getD r 0 = 0 := by
    intro r
    rw [List.getD_eq_getElem?_getD]
    rcases h : (flatData (M.map (Tensor.zerosLike (α := Fl ρ))))[r]? with _ | v
    · rfl
    · have hx := List.mem_of_getElem? h
      simp only [flatData, List.mem_flatten, List.mem_map] at hx
      obtain ⟨l, ⟨t, ⟨m, _, rfl⟩, rfl⟩, hx⟩ := hx
      simp only [Tensor.zerosLike, List.mem_map] at hx
      obtain ⟨_, _, rfl⟩ := hx
      rfl
  obtain ⟨Y, y1, y2, y3⟩ := matmatLoop_fold red (inferNData List.length batches none) List.length f shapes
    (fun b => flWeight ρ red b.length batches.flatten.length) cur M batches
    (fun b hb => by
      rw [hN]
      refine flWeight_eq red hred _ _ ?_
      have := List.length_pos_of_ne_nil (hne b hb)
      have := mem_sizes hb
      omega)
    (fun b hb => ⟨h1 b hb, h2 b hb⟩) _ hz
  refine ⟨Y, y1, y2, fun r hr => ?_⟩
  rw [y3 r hr, hz0]
  exact fold_batches red hred (fun d => x d r) (fun d => a d r) (fun d => ha d r) η hη batches hne hrep _ (fun b => (flatData (cur b)).getD r 0)
    (fun _ _ => rfl) (fun b hb => h3 b hb r hr)

/-- C100: `gradient_and_loss` in floating point arithmetic, in the same sense. -/
theorem gradientAndLoss_rounding (shapes : List (List Nat)) (red : Reduction) (hred : red = .mean ∨ red = .sum) (l m : D → ℝ)
    (hm : ∀ d, |l d| ≤ m d) (x a : D → Nat → ℝ) (ha : ∀ d r, |x d r| ≤ a d r) (η : ℝ) (hη : 0 ≤ η) (lg : List D → Fl ρ × List (Tensor (Fl ρ)))
    (batches : List (List D)) (hne : ∀ b ∈ batches, b ≠ []) (hrep : ∀ n ≤ batches.flatten.length, ρ.rnd n = n)
    (hshape : ∀ b ∈ batches, HasVec (lg b).2 shapes)
    (hloss : ∀ b ∈ batches, |(lg b).1.val - riskValue red l b| ≤ η * riskValue red m b)
    (hgrad : ∀ b ∈ batches, ∀ r < total shapes,
      |((flatData (lg b).2).getD r 0).val - riskValue red (fun d => x d r) b| ≤ η * riskValue red (fun d => a d r) b) :
    ∃ G L, gradientAndLoss shapes red (inferNData List.length batches none) List.length (some lg) batches = .ok (G, L) ∧
      HasVec G shapes ∧
      |L.val - riskValue red l batches.flatten| ≤
        batchError ρ red η batches.length * riskValue red m batches.flatten ∧
      ∀ r < total shapes, |((flatData G).getD r 0).val - riskValue red (fun d => x d r) batches.flatten| ≤
        batchError ρ red η batches.length * riskValue red (fun d => a d r) batches.flatten := by
  have hN : inferNData List.length batches none = batches.flatten.length := by
    simp [inferNData, List.length_flatten]
  have hvz : HasVec (shapes.map fun s => (⟨s, List.replicate s.prod 0⟩ : Tensor (Fl ρ))) shapes := by
    constructor
    · rw [List.map_map]; exact List.map_id shapes
    · intro t ht
      obtain ⟨s, _, rfl⟩ := List.mem_map.mp ht
      simp [Tensor.WF]
  have hz : ∀ i, (flatData (shapes.map fun s => (⟨s, List.replicate s.prod 0⟩ : Tensor (Fl ρ)))).getD i 0 = 0 := by
    intro i
    rw [List.getD_eq_getElem?_getD]
    rcases h : (flatData (shapes.map fun s => (⟨s, List.replicate s.prod 0⟩ : Tensor (Fl ρ))))[i]? with _ | x
    · rfl
    · have hx := List.mem_of_getElem? h
      simp only [flatData, List.mem_flatten, List.mem_map] at hx
      obtain ⟨l, ⟨t, ⟨s, _, rfl⟩, rfl⟩, hx⟩ := hx
      exact (List.mem_replicate.mp hx).2
  obtain ⟨G, g1, g2, g3⟩ := gradLossLoop_fold red (inferNData List.length batches none) List.length lg
    (fun b => flWeight ρ red b.length batches.flatten.length) shapes batches _ 0
    (fun b hb => by
      rw [hN]
      refine flWeight_eq red hred _ _ ?_
      have := List.length_pos_of_ne_nil (hne b hb)
      have := mem_sizes hb
      omega) hshape hvz
  refine ⟨G, _, g1, g2, ?_, fun r hr => ?_⟩
  · refine fold_batches red hred l m hm η hη batches hne hrep _ (fun b => (lg b).1) (fun b _ => ?_) hloss
    exact Fl.ext (by rw [Fl.val_mul, Fl.val_mul, mul_comm])
  · rw [g3 r hr, hz]
    exact fold_batches red hred (fun d => x d r) (fun d => a d r) (fun d => ha d r) η hη batches hne hrep _ (fun b => (flatData (lg b).2).getD r 0)
      (fun b _ => Fl.one_mul' _) (fun b hb => hgrad b hb r hr)

theorem riskValue_perm (red : Reduction) (x : D → ℝ) {l l' : List D} (h : l.Perm l') :
    riskValue red x l = riskValue red x l' := by
  unfold riskValue
  rw [h.length_eq, (h.map x).sum_eq]

/-- C100: two runs over the same data, in other mini-batches or in another order, differ by at most the sum of the bounds. -/
theorem batching_rounding (shapes : List (List Nat)) (K : Nat) (red : Reduction) (hred : red = .mean ∨ red = .sum)
    (x a : D → Nat → ℝ) (ha : ∀ d r, |x d r| ≤ a d r) (η : ℝ) (hη : 0 ≤ η) (f : List D → List (Tensor (Fl ρ)) → Py (List (Tensor (Fl ρ))))
    (batches batches' : List (List D)) (hperm : batches.flatten.Perm batches'.flatten) (hne : ∀ b ∈ batches, b ≠ [])
    (hne' : ∀ b ∈ batches', b ≠ []) (hrep : ∀ n ≤ batches.flatten.length, ρ.rnd n = n)
    (M : List (Tensor (Fl ρ))) (hM : HasShapes M shapes K)
    (hf : ∀ b, b ∈ batches ∨ b ∈ batches' → ∃ Y, f b M = .ok Y ∧ HasShapes Y shapes K ∧ ∀ r < total shapes * K,
      |((flatData Y).getD r 0).val - riskValue red (fun d => x d r) b| ≤ η * riskValue red (fun d => a d r) b) :
    ∃ Y Y', ((curvatureOp shapes red (inferNData List.length batches none) List.length f batches).matmat M).1 = .ok Y ∧
      ((curvatureOp shapes red (inferNData List.length batches' none) List.length f batches').matmat M).1 = .ok Y' ∧
      ∀ r < total shapes * K, |((flatData Y).getD r 0).val - ((flatData Y').getD r 0).val| ≤
        (batchError ρ red η batches.length + batchError ρ red η batches'.length) *
          riskValue red (fun d => a d r) batches.flatten := by
  obtain ⟨Y, y1, _, y3⟩ := matmat_rounding shapes K red hred x a ha η hη f batches hne hrep M hM fun b hb => hf b (.inl hb)
  obtain ⟨Y', z1, _, z3⟩ := matmat_rounding shapes K red hred x a ha η hη f batches' hne'
    (by rw [← hperm.length_eq]; exact hrep) M hM fun b hb => hf b (.inr hb)
  refine ⟨Y, Y', y1, z1, fun r hr => ?_⟩
  have h1 := y3 r hr
  have h2 := z3 r hr
  rw [← riskValue_perm red _ hperm, ← riskValue_perm red _ hperm, abs_sub_comm] at h2
  rw [add_mul]
  exact (abs_sub_le _ _ _).trans (add_le_add h1 h2)

/-- C100: for `k = n + 1` (`'mean'`) or `k = n - 1` (`'sum'`) with `k u ≤ 1/2`, the bound is at most `η + 2 k u (1 + η)`. -/
theorem batchError_le (red : Reduction) (η : ℝ) (hη : 0 ≤ η) (n : Nat)
    (h : ((weightRoundings red + (n - 1) : ℕ) : ℝ) * ρ.u ≤ 1 / 2) :
    batchError ρ red η n ≤ η + 2 * ((weightRoundings red + (n - 1) : ℕ) : ℝ) * ρ.u * (1 + η) := by
  have hu := ρ.nonneg
  set k := weightRoundings red + (n - 1)
  have h0 : 0 ≤ (k : ℝ) * ρ.u := by positivity
  have h1 : (1 + ρ.u) ^ k ≤ Real.exp ((k : ℝ) * ρ.u) := by
    rw [Real.exp_nat_mul]
    exact pow_le_pow_left₀ (by linarith) (by linarith [Real.add_one_le_exp ρ.u]) k
  have h2 : Real.exp ((k : ℝ) * ρ.u) ≤ 1 / (1 - (k : ℝ) * ρ.u) :=
    Real.exp_bound_div_one_sub_of_interval h0 (by linarith)
  have h3 : 1 / (1 - (k : ℝ) * ρ.u) ≤ 1 + 2 * ((k : ℝ) * ρ.u) := by
    rw [div_le_iff₀ (by linarith)]
    nlinarith
  have h4 := mul_le_mul_of_nonneg_left ((h1.trans h2).trans h3) (by linarith : (0 : ℝ) ≤ 1 + η)
  show (1 + η) * (1 + ρ.u) ^ k - 1 ≤ _
  linarith

end operators

/-! ## Examples and the order of mini-batches -/

/-- Exact arithmetic: the standard model without errors. -/
noncomputable def exactRounding : Rounding where
  u := 0
  rnd := id
  nonneg := le_rfl
  close := by simp
  idem := by simp
  one := rfl

/-- Without rounding errors, the bound is zero. -/
example (red : Reduction) (n : Nat) : batchError exactRounding red 0 n = 0 := by simp [batchError, exactRounding]

/-- `float32`, `'mean'`, at most 1000 mini-batches: the error of the accumulation is below 1.3e-4. -/
example (n : Nat) (hn : n ≤ 1000) : batchError (binaryFloat 23) .mean 0 n ≤ 1.3e-4 := by
  have hk : ((weightRoundings .mean + (n - 1) : ℕ) : ℝ) ≤ 1001 := by
    have : weightRoundings .mean + (n - 1) ≤ 1001 := by simp only [weightRoundings, if_true]; omega
    exact_mod_cast this
  have hu : (binaryFloat 23).u = (2 : ℝ)⁻¹ ^ 24 := rfl
  have hku : ((weightRoundings .mean + (n - 1) : ℕ) : ℝ) * (binaryFloat 23).u ≤ 1001 * (2 : ℝ)⁻¹ ^ 24 := by
    rw [hu]; exact mul_le_mul_of_nonneg_right hk (by positivity)
  refine (batchError_le .mean 0 le_rfl n (hku.trans (by norm_num))).trans ?_
  have : (1001 : ℝ) * (2 : ℝ)⁻¹ ^ 24 * 2 ≤ 1.3e-4 := by norm_num
  linarith

/-- One tensor with one entry. -/
def entry {α : Type _} (a : α) : List (Tensor α) := [⟨[1, 1], [a]⟩]

theorem entry_shapes {α : Type _} (a : α) : HasShapes (entry a) [[1]] 1 := by
  constructor
  · rfl
  · intro t ht
    simp only [entry, List.mem_singleton] at ht
    subst ht
    rfl

/-- `float32`, two mini-batches of three data: all hypotheses of `matmat_rounding` hold. -/
example : ∃ Y, ((curvatureOp [[1]] .mean (inferNData List.length [[1, 2], [3]] none) List.length
      (fun (b : List ℕ) _ => .ok (entry (Fl.of (binaryFloat 23) (if b.length = 2 then 3 / 2 else 3))))
      [[1, 2], [3]]).matmat (entry 1)).1 = .ok Y ∧ HasShapes Y [[1]] 1 ∧
    |((flatData Y).getD 0 0).val - 2| ≤ ((1 + (2 : ℝ)⁻¹ ^ 24) ^ 4 - 1) * 2 := by
  obtain ⟨Y, h1, h2, h4⟩ := matmat_rounding (ρ := binaryFloat 23) [[1]] 1 .mean (.inl rfl) (fun (d : ℕ) _ => (d : ℝ))
    (fun (d : ℕ) _ => |(d : ℝ)|) (fun _ _ => le_rfl) ((2 : ℝ)⁻¹ ^ 24) (by positivity)
    (fun b _ => .ok (entry (Fl.of (binaryFloat 23) (if b.length = 2 then 3 / 2 else 3)))) [[1, 2], [3]]
    (by simp) (fun n hn => binary_natCast 23 n (by simp at hn; omega)) (entry 1) (entry_shapes 1) (by
      intro b hb
      refine ⟨_, rfl, entry_shapes _, fun r hr => ?_⟩
      have hr : r = 0 := by simpa [total] using hr
      subst hr
      have hc := (binaryFloat 23).close (if b.length = 2 then 3 / 2 else 3)
      simp only [List.mem_cons, List.not_mem_nil, or_false] at hb
      have e : riskValue .mean (fun d : ℕ => (d : ℝ)) b = (if b.length = 2 then 3 / 2 else 3) := by
        rcases hb with rfl | rfl <;> norm_num [riskValue]
      have e' : riskValue .mean (fun d : ℕ => |(d : ℝ)|) b = |if b.length = 2 then (3 / 2 : ℝ) else 3| := by
        rcases hb with rfl | rfl <;> norm_num [riskValue]
      rw [e, e']
      exact hc)
  refine ⟨Y, h1, h2, ?_⟩
  have h5 := h4 0 (by simp [total])
  have e : riskValue .mean (fun d : ℕ => (d : ℝ)) [[1, 2], [3]].flatten = 2 := by norm_num [riskValue]
  have e' : riskValue .mean (fun d : ℕ => |(d : ℝ)|) [[1, 2], [3]].flatten = 2 := by norm_num [riskValue]
  rw [e, e'] at h5
  refine h5.trans (le_of_eq ?_)
  simp only [batchError, weightRoundings, if_true, List.length_cons, List.length_nil, binaryFloat]
  ring

/-- `2 ^ 24 + 1/4` is rounded to `2 ^ 24`. -/
theorem binary_absorb : binaryRnd 23 (2 ^ 24 + 1 / 4) = 2 ^ 24 := by
  have hl : Int.log 2 |(2 : ℝ) ^ 24 + 1 / 4| = 24 := by
    rw [abs_of_pos (by positivity)]
    have h1 : (24 : ℤ) ≤ Int.log 2 ((2 : ℝ) ^ 24 + 1 / 4) :=
      (Int.zpow_le_iff_le_log (by norm_num) (by positivity)).mp (by norm_num)
    have h2 : Int.log 2 ((2 : ℝ) ^ 24 + 1 / 4) < 25 :=
      (Int.lt_zpow_iff_log_lt (by norm_num) (by positivity)).mp (by norm_num)
    omega
  unfold binaryRnd
  rw [hl]
  have : round (((2 : ℝ) ^ 24 + 1 / 4) / 2 ^ ((24 : ℤ) - (23 : ℕ))) = 2 ^ 23 := by
    rw [round_eq, Int.floor_eq_iff]
    norm_num
  rw [this]
  norm_num

/-- C100: in floating point arithmetic, the order of mini-batches can change a product (`C09` holds for exact arithmetic). -/
theorem order_matters_in_floating_point :
    ∃ (shapes : List (List Nat)) (f : List ℕ → List (Tensor (Fl (binaryFloat 23))) → Py (List (Tensor (Fl (binaryFloat 23)))))
      (batches batches' : List (List ℕ)) (M : List (Tensor (Fl (binaryFloat 23)))),
      batches.Perm batches' ∧ HasShapes M shapes 1 ∧
      ((curvatureOp shapes .sum (inferNData List.length batches none) List.length f batches).matmat M).1 ≠
      ((curvatureOp shapes .sum (inferNData List.length batches' none) List.length f batches').matmat M).1 := by
  let c : List ℕ → ℝ := fun b => if b = [0] then 2 ^ 24 else if b = [1] then 1 / 4 else -2 ^ 24
  let cur : List ℕ → List (Tensor (Fl (binaryFloat 23))) := fun b => entry (Fl.of _ (c b))
  have run : ∀ batches : List (List ℕ), (∀ b ∈ batches, b ≠ []) → ∃ Y,
      ((curvatureOp [[1]] .sum (inferNData List.length batches none) List.length (fun b _ => .ok (cur b)) batches).matmat
        (entry 0)).1 = .ok Y ∧
      (flatData Y).getD 0 0 = foldEntry (fun b => 1 * Fl.of (binaryFloat 23) (c b)) batches 0 := by
    intro batches hne
    obtain ⟨Y, h1, _, h3⟩ := matmatLoop_fold .sum (inferNData List.length batches none) List.length
      (fun b (_ : List (Tensor (Fl (binaryFloat 23)))) => .ok (cur b)) [[1]]
      (fun b => flWeight (binaryFloat 23) .sum b.length batches.flatten.length) cur (entry 0) batches
      (fun b hb => by
        have hN : inferNData List.length batches none = batches.flatten.length := by
          simp [inferNData, List.length_flatten]
        rw [hN]
        refine flWeight_eq .sum (.inr rfl) _ _ ?_
        have := List.length_pos_of_ne_nil (hne b hb)
        have := mem_sizes hb
        omega)
      (fun b _ => ⟨rfl, entry_shapes _⟩) ((entry 0).map Tensor.zerosLike) (entry_shapes 0)
    refine ⟨Y, h1, ?_⟩
    rw [h3 0 (by simp [total])]
    rfl
  refine ⟨[[1]], fun b _ => .ok (cur b), [[0], [1], [2]], [[0], [2], [1]], entry 0, ?_, entry_shapes 0, fun h => ?_⟩
  · exact List.Perm.cons _ (List.Perm.swap _ _ _)
  obtain ⟨Y, y1, y2⟩ := run [[0], [1], [2]] (by simp)
  obtain ⟨Z, z1, z2⟩ := run [[0], [2], [1]] (by simp)
  rw [y1, z1] at h
  cases h
  rw [y2] at z2
  have hv := congrArg Fl.val z2
  have c0 : c [0] = 2 ^ 24 := rfl
  have c1 : c [1] = 1 / 4 := rfl
  have c2 : c [2] = -2 ^ 24 := rfl
  have r0 : (binaryFloat 23).rnd (2 ^ 24) = 2 ^ 24 := by
    show binaryRnd 23 _ = _
    simpa using binary_exact 23 1 (by norm_num) 24
  have r1 : (binaryFloat 23).rnd (1 / 4) = 1 / 4 := by
    show binaryRnd 23 _ = _
    have e : (1 / 4 : ℝ) = ((1 : ℤ) : ℝ) * 2 ^ (-2 : ℤ) := by norm_num
    rw [e]
    exact binary_exact 23 1 (by norm_num) (-2)
  have r2 : (binaryFloat 23).rnd (-2 ^ 24) = -2 ^ 24 := by
    show binaryRnd 23 _ = _
    simpa using binary_exact 23 (-1) (by norm_num) 24
  have r3 : (binaryFloat 23).rnd (2 ^ 24 + 1 / 4) = 2 ^ 24 := binary_absorb
  have rz : (binaryFloat 23).rnd 0 = 0 := Fl.rnd_zero
  have vof : ∀ a, (Fl.of (binaryFloat 23) a).val = (binaryFloat 23).rnd a := fun _ => rfl
  simp only [foldEntry, List.foldl_cons, List.foldl_nil, Fl.one_mul', Fl.zero_add', Fl.val_add, vof, c0, c1, c2, r0, r1, r2,
    r3, add_neg_cancel, zero_add, rz] at hv
  norm_num at hv

end Curvlinops
