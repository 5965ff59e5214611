import Verif.Props.Minibatch
import Verif.Props.KfacMajorization

/-!
# C127: eigenvalues on randomly selected data and on mini-batches
-/

namespace Curvlinops

variable {S : Type _} [Fintype S]

/-- Specification: `vals` are values whose counterparts `vs s`, multiplied with `w`, exaggerate in the mean over the outcomes `s`: the sums
agree, the sums of the `k` largest values and the sums of convex functions are too large. -/
structure MeanMajorized (w : ℝ) (vals : List ℝ) (vs : S → List ℝ) : Prop where
  length : ∀ s, (vs s).length = vals.length
  sum : vals.sum = w * outcomeMean fun s => (vs s).sum
  largest : ∀ k, (vals.take k).sum ≤ w * outcomeMean fun s => ((vs s).take k).sum
  convex : ∀ (t : Set ℝ) (f : ℝ → ℝ), ConvexOn ℝ t f → (∀ s, ∀ x ∈ vs s, w * x ∈ t) →
    (∀ x ∈ vals, x ∈ t) ∧ (vals.map f).sum ≤ outcomeMean fun s => ((vs s).map fun x => f (w * x)).sum

theorem overlap_stochastic {N : Nat} {q u : Fin N → Fin N → ℝ} (hq : ∀ p p', ∑ r, q p r * q p' r = if p = p' then 1 else 0)
    (hu : ∀ p p', ∑ r, u p r * u p' r = if p = p' then 1 else 0) :
    (Matrix.of fun p p' => (∑ r, u p' r * q p r) ^ 2) ∈ doublyStochastic ℝ (Fin N) := by
  rw [mem_doublyStochastic_iff_sum]
  refine ⟨fun p p' => sq_nonneg _, fun p => ?_, fun p' => ?_⟩
  · have := parseval_fin hu (q p)
    rw [hq, if_pos rfl] at this
    rw [this]
    rfl
  · have := parseval_fin hq (u p')
    rw [hu, if_pos rfl] at this
    rw [this]
    exact Finset.sum_congr rfl fun p _ => by simp only [Matrix.of_apply, mul_comm]

theorem outcomeMean_sum {N : Nat} (X : S → Fin N → ℝ) : ∑ p, outcomeMean (fun s => X s p) = outcomeMean fun s => ∑ p, X s p := by
  unfold outcomeMean
  rw [← Finset.sum_div, Finset.sum_comm]

theorem outcomeMean_mono {X Y : S → ℝ} (h : ∀ s, X s ≤ Y s) : outcomeMean X ≤ outcomeMean Y := by
  unfold outcomeMean
  exact div_le_div_of_nonneg_right (Finset.sum_le_sum fun s _ => h s) (Nat.cast_nonneg _)

theorem outcomeMean_convex [Nonempty S] {t : Set ℝ} {f : ℝ → ℝ} (hf : ConvexOn ℝ t f) {X : S → ℝ} (h : ∀ s, X s ∈ t) :
    outcomeMean X ∈ t ∧ f (outcomeMean X) ≤ outcomeMean fun s => f (X s) := by
  have hc : (Fintype.card S : ℝ) ≠ 0 := by exact_mod_cast Fintype.card_ne_zero
  have h1 : ∑ _s : S, (Fintype.card S : ℝ)⁻¹ = 1 := by simp [hc]
  have e : ∀ Y : S → ℝ, outcomeMean Y = ∑ s, (Fintype.card S : ℝ)⁻¹ • Y s := by
    intro Y
    simp only [outcomeMean, smul_eq_mul, inv_mul_eq_div, Finset.sum_div]
  rw [e X, e fun s => f (X s)]
  exact ⟨hf.1.sum_mem (fun _ _ => by positivity) h1 fun s _ => h s, hf.map_sum_le (fun _ _ => by positivity) h1 fun s _ => h s⟩

/-- Means of symmetric matrices. -/
theorem HasSpectrum.mean [Nonempty S] {N : Nat} {w : ℝ} (hw : 0 ≤ w) {M : Mat ℝ} {Ms : S → Mat ℝ}
    (hM : ∀ r s : Fin N, M r s = w * outcomeMean fun o => Ms o r s) {vals : List ℝ} {vs : S → List ℝ} (h : HasSpectrum N M vals)
    (hs : Decreasing vals) (h' : ∀ o, HasSpectrum N (Ms o) (vs o)) (hs' : ∀ o, Decreasing (vs o)) : MeanMajorized w vals vs := by
  obtain ⟨lam, q, hq, he, hl, rfl⟩ := h.sorted hs
  choose mu u hu hf hm hvs using fun o => (h' o).sorted (hs' o)
  let D : S → Matrix (Fin N) (Fin N) ℝ := fun o => Matrix.of fun p p' => (∑ r, u o p' r * q p r) ^ 2
  have hD : ∀ o, D o ∈ doublyStochastic ℝ (Fin N) := fun o => overlap_stochastic hq (hu o)
  let nu : S → Fin N → ℝ := fun o p => ∑ p', D o p p' * mu o p'
  have hnu : ∀ o p, nu o p = ∑ r, q p r * ∑ k : Fin N, Ms o r k * q p k := by
    intro o p
    rw [spectral_quad_fin (hu o) (hf o) (q p)]
    exact Finset.sum_congr rfl fun p' _ => by simp only [D, Matrix.of_apply, mul_comm]
  have hlam : ∀ p, lam p = w * outcomeMean fun o => nu o p := by
    intro p
    have h1 : lam p = ∑ r, q p r * ∑ k : Fin N, M r k * q p k := by
      simp only [he]
      have := hq p p
      rw [if_pos rfl] at this
      calc lam p = lam p * ∑ r, q p r * q p r := by rw [this, mul_one]
        _ = _ := by
          rw [Finset.mul_sum]
          exact Finset.sum_congr rfl fun r _ => by ring
    rw [h1]
    simp only [hnu, hM, Finset.mul_sum]
    rw [← outcomeMean_sum]
    rw [Finset.mul_sum]
    refine Finset.sum_congr rfl fun r _ => ?_
    rw [← outcomeMean_sum, Finset.mul_sum]
    refine Finset.sum_congr rfl fun k _ => ?_
    unfold outcomeMean
    rw [← Finset.mul_sum, ← Finset.sum_mul]
    ring
  refine ⟨fun s => by rw [hvs s]; simp, ?_, fun k => ?_, fun t f hcf hin => ?_⟩
  · rw [List.sum_ofFn]
    simp only [hlam, hvs, List.sum_ofFn]
    rw [← Finset.mul_sum, outcomeMean_sum]
    congr 2
    funext o
    exact average_sum (hD o) fun p => rfl
  · rw [take_ofFn_sum]
    simp only [hlam, hvs, take_ofFn_sum]
    have e : ∀ p : Fin N, (if p.1 < k then w * outcomeMean (fun o => nu o p) else 0) =
        w * outcomeMean fun o => if p.1 < k then nu o p else 0 := by
      intro p
      split_ifs
      · rfl
      · simp [outcomeMean]
    rw [Finset.sum_congr rfl fun p _ => e p, ← Finset.mul_sum, outcomeMean_sum]
    exact mul_le_mul_of_nonneg_left (outcomeMean_mono fun o => average_largest (hD o) (fun p => rfl) (hm o) k) hw
  · have k1 : ∀ o, (∀ p, w * nu o p ∈ t) ∧ ∑ p, f (w * nu o p) ≤ ∑ p, f (w * mu o p) := fun o =>
      average_convex (lam := fun p => w * mu o p) (mu := fun p => w * nu o p) (hD o) (fun p => by
        simp only [nu, Finset.mul_sum]
        exact Finset.sum_congr rfl fun p' _ => by ring) hcf fun p => hin o _ (by rw [hvs o]; simp [List.mem_ofFn])
    have k2 : ∀ p, lam p ∈ t ∧ f (lam p) ≤ outcomeMean fun o => f (w * nu o p) := by
      intro p
      have := outcomeMean_convex hcf fun o => (k1 o).1 p
      have e : lam p = outcomeMean fun o => w * nu o p := by
        rw [hlam]
        unfold outcomeMean
        rw [← Finset.mul_sum]
        ring
      rwa [e]
    refine ⟨fun x hx => ?_, ?_⟩
    · obtain ⟨p, rfl⟩ := (List.mem_ofFn' _ _).mp hx
      exact (k2 p).1
    · rw [sum_ofFn_map]
      simp only [hvs, sum_ofFn_map]
      calc ∑ p, f (lam p) ≤ ∑ p, outcomeMean fun o => f (w * nu o p) := Finset.sum_le_sum fun p _ => (k2 p).2
        _ = outcomeMean fun o => ∑ p, f (w * nu o p) := outcomeMean_sum _
        _ ≤ _ := outcomeMean_mono fun o => (k1 o).2

/-- The matrix of a mean is the mean of the matrices. -/
theorem IsMean.entries {w : ℝ} {ops : S → LinOp ℝ} {op : LinOp ℝ} (h : IsMean w ops op) (hin : ∀ s, (ops s).inShape = op.inShape)
    (hout : ∀ s, (ops s).outShape = op.outShape) {M : Mat ℝ} (hM : Represents op M) {Ms : S → Mat ℝ} (hMs : ∀ s, Represents (ops s) (Ms s))
    {r c : Nat} (hr : r < op.nrows) (hc : c < op.ncols) : M r c = w * outcomeMean fun s => Ms s r c := by
  obtain ⟨Xs, h1, h2⟩ := exists_flat 1 op.inShape ((List.range (total op.inShape)).map fun j => if j = c then (1 : ℝ) else 0)
    (by simp)
  have key : ∀ (op' : LinOp ℝ) (D : Mat ℝ) (Y : List (Tensor ℝ)), op'.inShape = op.inShape → op'.outShape = op.outShape →
      Represents op' D → (op'.matmat Xs).1 = .ok Y → (flatData Y).getD r 0 = D r c := by
    intro op' D Y hi ho hD hY
    obtain ⟨Z, z1, -, z3⟩ := hD 1 Xs (by rw [hi]; exact h1)
    rw [hY, Except.ok.injEq] at z1
    subst z1
    have en : op'.nrows = op.nrows := by simp only [LinOp.nrows, LinOp.outFlat, ho]
    have ec : op'.ncols = op.ncols := by simp only [LinOp.ncols, LinOp.inFlat, hi]
    rw [en, ec] at z3
    have := z3.2 r hr 0 (by omega)
    simp only [mul_one, add_zero] at this
    rw [this, Finset.sum_eq_single c]
    · rw [h2, List.getD_eq_getElem?_getD, List.getElem?_map, List.getElem?_range (show c < total op.inShape from hc)]
      simp
    · intro j hj hne
      have hj : j < total op.inShape := Finset.mem_range.mp hj
      rw [h2, List.getD_eq_getElem?_getD, List.getElem?_map, List.getElem?_range hj]
      simp [hne]
    · intro h
      exact absurd (Finset.mem_range.mpr hc) h
  obtain ⟨Y, Ys, y1, -, y3, y4⟩ := h 1 Xs h1
  rw [← key op M Y rfl rfl hM y1, y4 r]
  congr 2
  funext s
  exact key (ops s) (Ms s) (Ys s) (hin s) (hout s) (hMs s) (y3 s).1

/-- **C127**: where the products of a symmetric operator are the means of the products of symmetric operators, multiplied with `w`, the
eigenvalues of those operators exaggerate in the mean. -/
theorem IsMean.eigenvalues [Nonempty S] {w : ℝ} (hw : 0 ≤ w) {ops : S → LinOp ℝ} {op : LinOp ℝ} (h : IsMean w ops op)
    (hin : ∀ s, (ops s).inShape = op.inShape) (hout : ∀ s, (ops s).outShape = op.outShape) (hsq : op.ncols = op.nrows) {vals : List ℝ}
    (hv : op.HasEigenvalues vals) {vs : S → List ℝ} (hvs : ∀ s, (ops s).HasEigenvalues (vs s)) : MeanMajorized w vals vs := by
  obtain ⟨M, hM, h1, h2⟩ := hv
  choose Ms hMs h3 h4 using hvs
  have en : ∀ s, (ops s).nrows = op.nrows := fun s => by simp only [LinOp.nrows, LinOp.outFlat, hout]
  exact HasSpectrum.mean hw (fun r c => h.entries hin hout hM hMs r.2 (by rw [hsq]; exact c.2)) h1 h2 (fun s => en s ▸ h3 s) h4

/-- **C127** (extreme eigenvalues): in the mean, the largest eigenvalue is too large and the smallest one is too small. -/
theorem MeanMajorized.extreme {w : ℝ} {vals : List ℝ} {vs : S → List ℝ} (h : MeanMajorized w vals vs) (hne : vals ≠ []) :
    vals.headD 0 ≤ w * (outcomeMean fun s => (vs s).headD 0) ∧ w * (outcomeMean fun s => (vs s).getLastD 0) ≤ vals.getLastD 0 := by
  have hh : ∀ l : List ℝ, (l.take 1).sum = l.headD 0 := by
    intro l
    cases l <;> simp
  have hl : ∀ l : List ℝ, l ≠ [] → (l.take (l.length - 1)).sum = l.sum - l.getLastD 0 := by
    intro l hl
    obtain ⟨l', x, rfl⟩ : ∃ l' x, l = l' ++ [x] := ⟨l.dropLast, l.getLast hl, (List.dropLast_append_getLast hl).symm⟩
    simp
  refine ⟨by simpa only [hh] using h.largest 1, ?_⟩
  have h1 := h.largest (vals.length - 1)
  rw [hl vals hne] at h1
  have h2 : ∀ s, ((vs s).take (vals.length - 1)).sum = (vs s).sum - (vs s).getLastD 0 := by
    intro s
    rw [← h.length s]
    refine hl _ ?_
    rw [ne_eq, ← List.length_eq_zero_iff, h.length s, List.length_eq_zero_iff]
    exact hne
  simp only [h2] at h1
  have h3 : (outcomeMean fun s => (vs s).sum - (vs s).getLastD 0) = (outcomeMean fun s => (vs s).sum) - outcomeMean fun s => (vs s).getLastD 0 := by
    unfold outcomeMean
    rw [Finset.sum_sub_distrib, sub_div]
  rw [h3, h.sum] at h1
  linarith

/-- **C127** (damping): for non-negative eigenvalues and damping `δ`, in the mean the trace of the inverse is too large, and the logarithm of
the determinant and the effective dimension `Σ λ / (λ + δ)` are too small. -/
theorem MeanMajorized.damped [Nonempty S] {w : ℝ} (hw : 0 ≤ w) {vals : List ℝ} {vs : S → List ℝ} (h : MeanMajorized w vals vs)
    (h0 : ∀ s, ∀ x ∈ vs s, 0 ≤ x) {δ : ℝ} (hδ : 0 < δ) :
    (∀ x ∈ vals, 0 ≤ x) ∧
    (vals.map fun x => (x + δ)⁻¹).sum ≤ (outcomeMean fun s => ((vs s).map fun x => (w * x + δ)⁻¹).sum) ∧
    (outcomeMean fun s => Real.log ((vs s).map fun x => w * x + δ).prod) ≤ Real.log (vals.map (· + δ)).prod ∧
    (outcomeMean fun s => ((vs s).map fun x => w * x / (w * x + δ)).sum) ≤ (vals.map fun x => x / (x + δ)).sum := by
  have hin : ∀ s, ∀ x ∈ vs s, w * x ∈ Set.Ici (0 : ℝ) := fun s x hx => mul_nonneg hw (h0 s x hx)
  have h0' : ∀ x ∈ vals, 0 ≤ x := (h.convex (Set.Ici 0) (fun _ => 0) (convexOn_const 0 (convex_Ici 0)) hin).1
  have hsub : Set.Ici (0 : ℝ) ⊆ (fun z => δ + z) ⁻¹' Set.Ioi 0 := by
    intro x hx
    simp only [Set.mem_Ici] at hx
    simp only [Set.mem_preimage, Set.mem_Ioi]
    linarith
  have hinv : ConvexOn ℝ (Set.Ici 0) fun x : ℝ => (x + δ)⁻¹ := by
    have h1 : ConvexOn ℝ (Set.Ioi 0) fun x : ℝ => x⁻¹ := by
      have := convexOn_zpow (𝕜 := ℝ) (-1)
      simpa using this
    exact (h1.translate_left δ).subset hsub (convex_Ici 0)
  have hlog : ConvexOn ℝ (Set.Ici 0) fun x : ℝ => -Real.log (x + δ) :=
    ((strictConcaveOn_log_Ioi.concaveOn.neg : ConvexOn ℝ (Set.Ioi 0) fun x => -Real.log x).translate_left δ).subset hsub (convex_Ici 0)
  have hinvle := (h.convex _ _ hinv hin).2
  have klog : ∀ l : List ℝ, (∀ x ∈ l, 0 ≤ x) → 0 < (l.map (· + δ)).prod ∧
      (l.map fun x => -Real.log (x + δ)).sum = -Real.log (l.map (· + δ)).prod := by
    intro l
    induction l with
    | nil => simp
    | cons x l ih =>
      intro hl
      obtain ⟨i1, i2⟩ := ih fun y hy => hl y (by simp [hy])
      have hx : 0 < x + δ := by
        have := hl x (by simp)
        positivity
      refine ⟨by rw [List.map_cons, List.prod_cons]; exact mul_pos hx i1, ?_⟩
      rw [List.map_cons, List.sum_cons, i2, List.map_cons, List.prod_cons, Real.log_mul hx.ne' i1.ne']
      ring
  have keff : ∀ l : List ℝ, (∀ x ∈ l, 0 ≤ x) → (l.map fun x => x / (x + δ)).sum = l.length - δ * (l.map fun x => (x + δ)⁻¹).sum := by
    intro l
    induction l with
    | nil => simp
    | cons x l ih =>
      intro hl
      have hx : x + δ ≠ 0 := by
        have := hl x (by simp)
        positivity
      simp only [List.map_cons, List.sum_cons, ih fun y hy => hl y (by simp [hy]), List.length_cons]
      push_cast
      field_simp
      ring
  have hpos : ∀ s, ∀ y ∈ (vs s).map (w * ·), 0 ≤ y := by
    intro s y hy
    obtain ⟨x, hx, rfl⟩ := List.mem_map.mp hy
    exact hin s x hx
  refine ⟨h0', hinvle, ?_, ?_⟩
  · have h1 := (h.convex _ _ hlog hin).2
    rw [(klog vals h0').2] at h1
    have e : ∀ s, ((vs s).map fun x => -Real.log (w * x + δ)).sum = -Real.log ((vs s).map fun x => w * x + δ).prod := by
      intro s
      have := (klog _ (hpos s)).2
      simpa only [List.map_map, Function.comp_def] using this
    simp only [e] at h1
    have e2 : (outcomeMean fun s => -Real.log ((vs s).map fun x => w * x + δ).prod) =
        -outcomeMean fun s => Real.log ((vs s).map fun x => w * x + δ).prod := by
      unfold outcomeMean
      rw [Finset.sum_neg_distrib, neg_div]
    rw [e2] at h1
    linarith
  · have e : ∀ s, ((vs s).map fun x => w * x / (w * x + δ)).sum = vals.length - δ * ((vs s).map fun x => (w * x + δ)⁻¹).sum := by
      intro s
      have := keff _ (hpos s)
      simpa only [List.map_map, Function.comp_def, List.length_map, h.length s] using this
    have e2 : (outcomeMean fun s => ((vals.length : ℝ) - δ * ((vs s).map fun x => (w * x + δ)⁻¹).sum)) =
        vals.length - δ * outcomeMean fun s => ((vs s).map fun x => (w * x + δ)⁻¹).sum := by
      have hc : (Fintype.card S : ℝ) ≠ 0 := by exact_mod_cast Fintype.card_ne_zero
      unfold outcomeMean
      rw [Finset.sum_sub_distrib, ← Finset.mul_sum]
      simp only [Finset.sum_const, Finset.card_univ, nsmul_eq_mul]
      field_simp
    simp only [e, e2]
    rw [keff vals h0']
    nlinarith

/-! ### The operators -/

theorem HasSpectrum.nonneg_of_quad {N : Nat} {M : Mat ℝ} (hM : QuadNonneg N M) {vals : List ℝ} (h : HasSpectrum N M vals) : ∀ x ∈ vals, 0 ≤ x := by
  obtain ⟨lam, q, hq, he, hp⟩ := h
  intro x hx
  obtain ⟨p, rfl⟩ := (List.mem_ofFn' _ _).mp (hp.mem_iff.mp hx)
  have h1 : ∑ r, q p r * ∑ k : Fin N, M r k * q p k = lam p := by
    simp only [he]
    have := hq p p
    rw [if_pos rfl] at this
    calc ∑ r, q p r * (lam p * q p r) = lam p * ∑ r, q p r * q p r := by
          rw [Finset.mul_sum]
          exact Finset.sum_congr rfl fun r _ => by ring
      _ = lam p := by rw [this, mul_one]
  rw [← h1]
  have h2 := hM fun r => if hr : r < N then q p ⟨r, hr⟩ else 0
  simp only [Finset.sum_range, Fin.is_lt, dif_pos, Fin.eta] at h2
  refine h2.trans_eq (Finset.sum_congr rfl fun r _ => ?_)
  rw [Finset.mul_sum]
  exact Finset.sum_congr rfl fun k _ => by ring

/-- The eigenvalues of the GGN and of the empirical Fisher are not negative. -/
theorem lossOps_nonneg {k : LossKind} {C : Nat} (shapes : List (List Nat)) (hshapes : shapes ≠ []) (mean : Bool) (T : Nat)
    (batches : List (List (List (Term k C)))) (hb : ∀ b ∈ batches, b ≠ []) (hT : ∀ b ∈ batches, ∀ d ∈ b, d.length = T) {vals : List ℝ} :
    ((curvatureOp shapes (redOf mean) (inferNData List.length batches none) List.length
      (fun b => ggnLossBatch shapes mean b.flatten) batches).HasEigenvalues vals → ∀ x ∈ vals, 0 ≤ x) ∧
    ((curvatureOp shapes (redOf mean) (inferNData List.length batches none) List.length
      (fun b => efBatch shapes mean b.flatten) batches).HasEigenvalues vals → ∀ x ∈ vals, 0 ≤ x) :=
  ⟨fun h => (h.of (ggnLossOp_represents shapes hshapes mean T batches hb hT) rfl).1.nonneg_of_quad (ggnLoss_symm_psd mean T _ _).2,
    fun h => (h.of (efOp_represents shapes hshapes mean T batches hb hT) rfl).1.nonneg_of_quad (ef_symm_psd mean T _ _).2⟩

section selected

variable {m N : Nat} {k : LossKind} {C : Nat} (shapes : List (List Nat)) (hshapes : shapes ≠ []) (T : Nat) (ds : Fin N → List (Term k C))
  (hT : ∀ n, (ds n).length = T) (full : List (List (List (Term k C)))) (hfull : full.flatten.Perm (List.ofFn ds))
  (hne : ∀ b ∈ full, b ≠ []) (pos : S → Fin m → Fin N) (sel : S → List (List (List (Term k C))))
  (hsel : ∀ s, (sel s).flatten.Perm (List.ofFn fun j => ds (pos s j))) (hnes : ∀ s, ∀ b ∈ sel s, b ≠ [])

include hshapes hT hfull hne hsel hnes

/-- **C127** (GGN on selected data). -/
theorem ggn_selected_eigenvalues [Nonempty S] (mean : Bool) (hE : Exchangeable pos) (hm : m ≠ 0) {vals : List ℝ}
    (hv : (curvatureOp shapes (redOf mean) (inferNData List.length full none) List.length
      (fun b => ggnLossBatch shapes mean b.flatten) full).HasEigenvalues vals) {vs : S → List ℝ}
    (hvs : ∀ s, (curvatureOp shapes (redOf mean) (inferNData List.length (sel s) none) List.length
      (fun b => ggnLossBatch shapes mean b.flatten) (sel s)).HasEigenvalues (vs s)) :
    MeanMajorized (if redOf mean = .mean then 1 else (N : ℝ) / m) vals vs :=
  (ggn_selected_unbiased shapes hshapes T ds hT full hfull hne pos sel hsel hnes mean hE hm).eigenvalues
    (by split_ifs <;> positivity) (fun _ => rfl) (fun _ => rfl) rfl hv hvs

/-- **C127** (empirical Fisher on selected data). -/
theorem ef_selected_eigenvalues [Nonempty S] (mean : Bool) (hE : Exchangeable pos) (hm : m ≠ 0) {vals : List ℝ}
    (hv : (curvatureOp shapes (redOf mean) (inferNData List.length full none) List.length
      (fun b => efBatch shapes mean b.flatten) full).HasEigenvalues vals) {vs : S → List ℝ}
    (hvs : ∀ s, (curvatureOp shapes (redOf mean) (inferNData List.length (sel s) none) List.length
      (fun b => efBatch shapes mean b.flatten) (sel s)).HasEigenvalues (vs s)) :
    MeanMajorized (if redOf mean = .mean then 1 else (N : ℝ) / m) vals vs :=
  (ef_selected_unbiased shapes hshapes T ds hT full hfull hne pos sel hsel hnes mean hE hm).eigenvalues
    (by split_ifs <;> positivity) (fun _ => rfl) (fun _ => rfl) rfl hv hvs

end selected

/-- **C127** (Hessian on selected data), for all block sizes. -/
theorem hessian_selected_eigenvalues {P O m N : Nat} [Nonempty S] (shapes : List (List Nat)) (hshapes : shapes ≠ []) (blockSizes : List Int)
    (hpos : ∀ s ∈ blockSizes, 0 < s) (hsum : blockSizes.sum = shapes.length) (θ : Fin P → ℝ) (ds : Fin N → NetDatum P O)
    (hdiff : ∀ n, ContDiffAt ℝ 2 (fun θ => (ds n).loss ((ds n).f θ)) θ) (full : List (List (NetDatum P O)))
    (hfull : full.flatten.Perm (List.ofFn ds)) (hne : ∀ b ∈ full, b ≠ []) (pos : S → Fin m → Fin N)
    (sel : S → List (List (NetDatum P O))) (hsel : ∀ s, (sel s).flatten.Perm (List.ofFn fun j => ds (pos s j)))
    (hnes : ∀ s, ∀ b ∈ sel s, b ≠ []) (red : Reduction) (hred : red = .mean ∨ red = .sum) (hE : Exchangeable pos) (hm : m ≠ 0)
    {vals : List ℝ} (hv : (curvatureOp shapes red (inferNData List.length full none) List.length
      (netHessianBatch shapes blockSizes red θ) full).HasEigenvalues vals) {vs : S → List ℝ}
    (hvs : ∀ s, (curvatureOp shapes red (inferNData List.length (sel s) none) List.length
      (netHessianBatch shapes blockSizes red θ) (sel s)).HasEigenvalues (vs s)) :
    MeanMajorized (if red = .mean then 1 else (N : ℝ) / m) vals vs :=
  (hessian_selected_unbiased shapes hshapes blockSizes hpos hsum θ ds hdiff full hfull hne pos sel hsel hnes red hred hE hm).eigenvalues
    (by split_ifs <;> positivity) (fun _ => rfl) (fun _ => rfl) rfl hv hvs

/-- **C127** (mini-batches of a data loader): for mini-batches of the same size and reduction `mean`, and for all mini-batches and reduction
`sum`. -/
theorem loader_eigenvalues {D : Type _} {m : Nat} (shapes : List (List Nat)) (a : D → Mat ℝ)
    (f : List D → List (Tensor ℝ) → Py (List (Tensor ℝ))) (red : Reduction) (hred : red = .mean ∨ red = .sum) (batches : List (List D))
    (hb : batches ≠ []) (hne : ∀ b ∈ batches, b ≠ []) (hf : ∀ b ∈ batches, BatchRepresents shapes (f b) (batchMatrix red a b))
    (hsize : red = .mean → ∀ b ∈ batches, b.length = m) {vals : List ℝ}
    (hv : (curvatureOp shapes red (inferNData List.length batches none) List.length f batches).HasEigenvalues vals)
    {vs : Fin batches.length → List ℝ}
    (hvs : ∀ i, (curvatureOp shapes red (inferNData List.length [batches[i]] none) List.length f [batches[i]]).HasEigenvalues (vs i)) :
    MeanMajorized (if red = .mean then 1 else (batches.length : ℝ)) vals vs :=
  haveI : Nonempty (Fin batches.length) := ⟨⟨0, List.length_pos_of_ne_nil hb⟩⟩
  (loader_mean shapes a f red hred batches hb hne hf hsize).eigenvalues
    (by split_ifs <;> positivity) (fun _ => rfl) (fun _ => rfl) rfl hv hvs

/-! ### Examples -/

/-- A datum of a model with two parameters, whose prediction changes with parameter `n` only. -/
def axisDatum (n : Nat) : List (Term .mse 1) := [⟨fun _ c => if c = n then 1 else 0, fun _ => 0, fun _ => 0⟩]

/-- **C127** (how far the eigenvalues are from each other): the GGN on two data is the identity, with the eigenvalues 1 and 1. The GGN on each
of the data has the eigenvalues 2 and 0: the largest eigenvalue is always twice as large, and the matrix never has an inverse. -/
theorem selected_exaggerates :
    (curvatureOp [[2]] .mean (inferNData List.length [[axisDatum 0], [axisDatum 1]] none) List.length
      (fun b => ggnLossBatch [[2]] true b.flatten) [[axisDatum 0], [axisDatum 1]]).HasEigenvalues [1, 1] ∧
    ∀ n : Fin 2, (curvatureOp [[2]] .mean (inferNData List.length [[axisDatum n]] none) List.length
      (fun b => ggnLossBatch [[2]] true b.flatten) [[axisDatum n]]).HasEigenvalues [2, 0] := by
  have hd : ∀ (n r c : Nat), datumMatrix true 1 lossHessian (axisDatum n) r c = 2 * (if r = n then 1 else 0) * if c = n then 1 else 0 := by
    intro n r c
    simp [datumMatrix, axisDatum, termSandwich, lossHessian, hess_mse, termWeight]
  refine ⟨⟨_, ggnLossOp_represents [[2]] (by simp) true 1 _ (by simp) (by simp [axisDatum]), ?_, by simp [Decreasing]⟩,
    fun n => ⟨_, ggnLossOp_represents [[2]] (by simp) true 1 _ (by simp) (by simp [axisDatum]), ?_, by simp [Decreasing]⟩⟩
  · show HasSpectrum 2 _ _
    refine ⟨fun _ => 1, fun p r => if p = r then 1 else 0, fun p p' => by simp, fun p r => ?_, by simp [List.ofFn_succ]⟩
    fin_cases p <;> fin_cases r <;> simp [riskMatrix, redOf, hd]
  · show HasSpectrum 2 _ _
    refine ⟨fun p => if p = 0 then 2 else 0, fun p r => if r = p + n then 1 else 0, fun p p' => ?_, fun p r => ?_,
      by simp [List.ofFn_succ]⟩
    · fin_cases n <;> fin_cases p <;> fin_cases p' <;> simp
    · fin_cases n <;> fin_cases p <;> fin_cases r <;> simp [riskMatrix, redOf, hd]

/-- Two of three data of a classification problem, all choices alike: eigenvalues of the GGN. -/
example : ∃ (vals : List ℝ) (vs : (Fin 2 ↪ Fin 3) → List ℝ),
    (curvatureOp [[2], [1, 1]] .mean (inferNData List.length ceData none) List.length
      (fun b => ggnLossBatch [[2], [1, 1]] true b.flatten) ceData).HasEigenvalues vals ∧
    (∀ s, (curvatureOp [[2], [1, 1]] .mean (inferNData List.length [List.ofFn fun j => ceData.flatten[s j]] none) List.length
      (fun b => ggnLossBatch [[2], [1, 1]] true b.flatten) [List.ofFn fun j => ceData.flatten[s j]]).HasEigenvalues (vs s)) ∧
    vals.sum = outcomeMean (fun s => (vs s).sum) ∧ (vals.take 1).sum ≤ (outcomeMean fun s => ((vs s).take 1).sum) ∧
    (vals.map fun x => (x + 1)⁻¹).sum ≤ outcomeMean fun s => ((vs s).map fun x => (x + 1)⁻¹).sum := by
  have : Nonempty (Fin 2 ↪ Fin 3) := ⟨Fin.castSuccEmb⟩
  have hT : ∀ n : Fin 3, (ceData.flatten[n]).length = 1 := by intro n; fin_cases n <;> rfl
  obtain ⟨vals, hv⟩ := (lossOps_hasEigenvalues [[2], [1, 1]] (by simp) true 1 ceData (by simp [ceData]) (by simp [ceData])).1
  have hsT : ∀ s : Fin 2 ↪ Fin 3, ∀ b ∈ [List.ofFn fun j => ceData.flatten[s j]], ∀ d ∈ b, d.length = 1 := by
    intro s b hb d hd
    obtain rfl : b = List.ofFn fun j => ceData.flatten[s j] := by simpa using hb
    obtain ⟨j, rfl⟩ := (List.mem_ofFn' _ _).mp hd
    exact hT (s j)
  choose vs hvs using fun s : Fin 2 ↪ Fin 3 => (lossOps_hasEigenvalues [[2], [1, 1]] (by simp) true 1
    [List.ofFn fun j => ceData.flatten[s j]] (by simp) (hsT s)).1
  have h := ggn_selected_eigenvalues (N := 3) (m := 2) [[2], [1, 1]] (by simp) 1 (fun n : Fin 3 => ceData.flatten[n]) hT ceData
    (by simp [ceData, List.ofFn_succ]) (by simp [ceData]) (fun (s : Fin 2 ↪ Fin 3) j => s j)
    (fun s => [List.ofFn fun j => ceData.flatten[s j]]) (by simp) (by simp) true exchangeable_subset (by simp) hv hvs
  have h1 := h.sum
  have h2 := h.largest 1
  have h3 := (h.damped (by simp [redOf]) (fun s => (lossOps_nonneg [[2], [1, 1]] (by simp) true 1 _ (by simp) (hsT s)).1 (hvs s))
    one_pos).2.1
  simp only [redOf, if_true, one_mul] at h1 h2 h3
  exact ⟨vals, vs, hv, hvs, h1, h2, h3⟩

end Curvlinops
