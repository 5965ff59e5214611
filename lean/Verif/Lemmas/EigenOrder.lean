import Verif.Props.KfacSpectrum
import Mathlib.Data.Fin.Tuple.Sort
import Mathlib.Analysis.Convex.Birkhoff
import Mathlib.Algebra.Order.Rearrangement

/-!
# Comparing the eigenvalues of two symmetric matrices

Lemmas for C120: sorted eigenvalues are monotone in quadratic forms, also under isometries from a smaller space, and the theorem of
Hoffman and Wielandt.
-/

namespace Curvlinops

/-- Specification: listed in decreasing order. -/
def Decreasing (vals : List ℝ) : Prop := vals.Pairwise (· ≥ ·)

/-- Eigenvectors in the order of a decreasing list of the eigenvalues. -/
theorem HasSpectrum.sorted {N : Nat} {M : Mat ℝ} {vals : List ℝ} (h : HasSpectrum N M vals) (hs : Decreasing vals) :
    ∃ (lam : Fin N → ℝ) (q : Fin N → Fin N → ℝ), (∀ p p', ∑ r, q p r * q p' r = if p = p' then 1 else 0) ∧
      (∀ p (r : Fin N), ∑ k : Fin N, M r k * q p k = lam p * q p r) ∧ Antitone lam ∧ vals = List.ofFn lam := by
  obtain ⟨lam, q, hq, he, hp⟩ := h
  let σ := Tuple.sort fun p => -lam p
  have hmono : Antitone (lam ∘ σ) := by
    intro a b hab
    have := Tuple.monotone_sort (fun p => -lam p) hab
    simpa using this
  refine ⟨lam ∘ σ, q ∘ σ, fun p p' => ?_, fun p r => he (σ p) r, hmono, ?_⟩
  · simp only [Function.comp_apply]
    rw [hq]
    simp only [EmbeddingLike.apply_eq_iff_eq]
  · refine List.Perm.eq_of_pairwise' (r := (· ≥ ·)) hs ?_ (hp.trans (σ.ofFn_comp_perm lam).symm)
    rw [List.pairwise_ofFn]
    exact fun i j hij => hmono hij.le

theorem spectral_quad_fin {N : Nat} {M : Mat ℝ} {lam : Fin N → ℝ} {q : Fin N → Fin N → ℝ}
    (h : ∀ p p', ∑ r, q p r * q p' r = if p = p' then 1 else 0) (he : ∀ p (r : Fin N), ∑ k : Fin N, M r k * q p k = lam p * q p r)
    (v : Fin N → ℝ) : ∑ r, v r * ∑ k : Fin N, M r k * v k = ∑ p, lam p * (∑ r, q p r * v r) ^ 2 := by
  have := spectral_quad h he fun r => if hr : r < N then v ⟨r, hr⟩ else 0
  rw [Finset.sum_range] at this
  simpa [Finset.sum_range] using this

theorem parseval_fin {N : Nat} {q : Fin N → Fin N → ℝ} (h : ∀ p p', ∑ r, q p r * q p' r = if p = p' then 1 else 0) (v : Fin N → ℝ) :
    ∑ r, v r * v r = ∑ p, (∑ r, q p r * v r) ^ 2 := by
  have := parseval h fun r => if hr : r < N then v ⟨r, hr⟩ else 0
  rw [Finset.sum_range] at this
  simpa using this

/-- If `E` preserves lengths and `yᵀBy ≤ (Ey)ᵀM(Ey)`, every eigenvalue of `B` is at most that of `M` at the same place. -/
theorem eigenvalue_le {n k : Nat} (hkn : k ≤ n) {M B : Mat ℝ} {lam : Fin n → ℝ} {q : Fin n → Fin n → ℝ} {mu : Fin k → ℝ}
    {u : Fin k → Fin k → ℝ} (hq : ∀ p p', ∑ r, q p r * q p' r = if p = p' then 1 else 0)
    (he : ∀ p (r : Fin n), ∑ k : Fin n, M r k * q p k = lam p * q p r) (hl : Antitone lam)
    (hu : ∀ p p', ∑ r, u p r * u p' r = if p = p' then 1 else 0)
    (hf : ∀ p (r : Fin k), ∑ j : Fin k, B r j * u p j = mu p * u p r) (hm : Antitone mu) (E : (Fin k → ℝ) →ₗ[ℝ] (Fin n → ℝ))
    (hiso : ∀ y, ∑ r, E y r * E y r = ∑ r, y r * y r)
    (hle : ∀ y : Fin k → ℝ, ∑ r, y r * ∑ j : Fin k, B r j * y j ≤ ∑ r, E y r * ∑ j : Fin n, M r j * E y j) (i : Fin k) :
    mu i ≤ lam (Fin.castLE hkn i) := by
  let F : (Fin k → ℝ) →ₗ[ℝ] (Fin k → ℝ) := LinearMap.pi fun p =>
    if i < p then ∑ r, u p r • LinearMap.proj r else if p < i then ∑ r, q (Fin.castLE hkn p) r • (LinearMap.proj r).comp E else 0
  have hF1 : ∀ y p, i < p → F y p = ∑ r, u p r * y r := by
    intro y p hp
    simp [F, hp, LinearMap.sum_apply]
  have hF2 : ∀ y p, p < i → F y p = ∑ r, q (Fin.castLE hkn p) r * E y r := by
    intro y p hp
    simp [F, hp, hp.le.not_gt, LinearMap.sum_apply]
  have hF3 : ∀ y, F y i = 0 := by
    intro y
    simp [F]
  have hns : ¬ Function.Surjective F := by
    intro hs
    obtain ⟨y, hy⟩ := hs (Pi.single i 1)
    have := hF3 y
    rw [hy] at this
    simp at this
  have hni : ¬ Function.Injective F := fun h => hns (LinearMap.injective_iff_surjective.mp h)
  rw [← LinearMap.ker_eq_bot, LinearMap.ker_eq_bot'] at hni
  push Not at hni
  obtain ⟨y, hy, hy0⟩ := hni
  have hpos : 0 < ∑ r, y r * y r := by
    refine lt_of_le_of_ne (Finset.sum_nonneg fun r _ => mul_self_nonneg _) fun h0 => hy0 ?_
    have := (Finset.sum_eq_zero_iff_of_nonneg fun r _ => mul_self_nonneg (y r)).mp h0.symm
    funext r
    simpa using this r (Finset.mem_univ r)
  have h1 : mu i * ∑ r, y r * y r ≤ ∑ r, y r * ∑ j : Fin k, B r j * y j := by
    rw [spectral_quad_fin hu hf, parseval_fin hu, Finset.mul_sum]
    refine Finset.sum_le_sum fun p _ => ?_
    rcases le_or_gt p i with h | h
    · exact mul_le_mul_of_nonneg_right (hm h) (sq_nonneg _)
    · have := hF1 y p h
      rw [hy] at this
      rw [← this]
      simp
  have h2 : ∑ r, E y r * ∑ j : Fin n, M r j * E y j ≤ lam (Fin.castLE hkn i) * ∑ r, y r * y r := by
    rw [← hiso, spectral_quad_fin hq he, parseval_fin hq, Finset.mul_sum]
    refine Finset.sum_le_sum fun p _ => ?_
    rcases le_or_gt (Fin.castLE hkn i) p with h | h
    · exact mul_le_mul_of_nonneg_right (hl h) (sq_nonneg _)
    · have hpi : (⟨p, lt_trans (show p.val < i.val from h) i.2⟩ : Fin k) < i := h
      have := hF2 y _ hpi
      rw [hy] at this
      rw [show p = Fin.castLE hkn ⟨p, lt_trans (show p.val < i.val from h) i.2⟩ from rfl, ← this]
      simp
  exact le_of_mul_le_mul_right (h1.trans ((hle y).trans h2)) hpos

/-- The same for lists of eigenvalues. -/
theorem HasSpectrum.le {n k : Nat} (hkn : k ≤ n) {M B : Mat ℝ} {vals vals' : List ℝ} (h : HasSpectrum n M vals) (hs : Decreasing vals)
    (h' : HasSpectrum k B vals') (hs' : Decreasing vals') (E : (Fin k → ℝ) →ₗ[ℝ] (Fin n → ℝ))
    (hiso : ∀ y, ∑ r, E y r * E y r = ∑ r, y r * y r)
    (hle : ∀ y : Fin k → ℝ, ∑ r, y r * ∑ j : Fin k, B r j * y j ≤ ∑ r, E y r * ∑ j : Fin n, M r j * E y j) (i : Nat) (hi : i < k) :
    vals'.getD i 0 ≤ vals.getD i 0 := by
  obtain ⟨lam, q, hq, he, hl, rfl⟩ := h.sorted hs
  obtain ⟨mu, u, hu, hf, hm, rfl⟩ := h'.sorted hs'
  have := eigenvalue_le hkn hq he hl hu hf hm E hiso hle ⟨i, hi⟩
  simpa [List.getD_eq_getElem?_getD, hi, hi.trans_le hkn] using this

theorem HasSpectrum.length {N : Nat} {M : Mat ℝ} {vals : List ℝ} (h : HasSpectrum N M vals) : vals.length = N := by
  obtain ⟨_, _, _, _, hp⟩ := h
  rw [hp.length_eq, List.length_ofFn]

theorem HasSpectrum.neg {N : Nat} {M : Mat ℝ} {vals : List ℝ} (h : HasSpectrum N M vals) :
    HasSpectrum N (fun r c => -M r c) (vals.map Neg.neg).reverse := by
  obtain ⟨lam, q, hq, he, hp⟩ := h
  refine ⟨fun p => -lam p, q, hq, fun p r => ?_, (List.reverse_perm _).trans ?_⟩
  · simp only [neg_mul, Finset.sum_neg_distrib, he]
  · have := hp.map Neg.neg
    rwa [List.map_ofFn] at this

theorem Decreasing.neg {vals : List ℝ} (h : Decreasing vals) : Decreasing (vals.map Neg.neg).reverse := by
  unfold Decreasing at *
  rw [List.pairwise_reverse, List.pairwise_map]
  exact h.imp fun h => neg_le_neg h

theorem getD_neg_reverse {vals : List ℝ} {n i : Nat} (hn : vals.length = n) (hi : i < n) :
    (vals.map Neg.neg).reverse.getD i 0 = -vals.getD (n - 1 - i) 0 := by
  subst hn
  have h2 : vals.length - 1 - i < vals.length := by omega
  simp [List.getD_eq_getElem?_getD, hi, h2]

/-- From below. -/
theorem HasSpectrum.ge {n k : Nat} (hkn : k ≤ n) {M B : Mat ℝ} {vals vals' : List ℝ} (h : HasSpectrum n M vals) (hs : Decreasing vals)
    (h' : HasSpectrum k B vals') (hs' : Decreasing vals') (E : (Fin k → ℝ) →ₗ[ℝ] (Fin n → ℝ))
    (hiso : ∀ y, ∑ r, E y r * E y r = ∑ r, y r * y r)
    (hle : ∀ y : Fin k → ℝ, ∑ r, E y r * ∑ j : Fin n, M r j * E y j ≤ ∑ r, y r * ∑ j : Fin k, B r j * y j) (i : Nat) (hi : i < k) :
    vals.getD (i + (n - k)) 0 ≤ vals'.getD i 0 := by
  have := HasSpectrum.le hkn h.neg hs.neg h'.neg hs'.neg E hiso (fun y => by
    simpa only [neg_mul, Finset.sum_neg_distrib, mul_neg, neg_le_neg_iff] using hle y) (k - 1 - i) (by omega)
  rw [getD_neg_reverse h.length (by omega), getD_neg_reverse h'.length (by omega)] at this
  rw [show n - 1 - (k - 1 - i) = i + (n - k) by omega, show k - 1 - (k - 1 - i) = i by omega] at this
  linarith

/-! ## Distances of eigenvalues -/

/-- Sorted numbers maximize `Σ λ_p μ_p`, also among doubly stochastic couplings. -/
theorem coupling_le {n : Nat} {lam mu : Fin n → ℝ} (hl : Antitone lam) (hm : Antitone mu) (D : Matrix (Fin n) (Fin n) ℝ)
    (hD : D ∈ doublyStochastic ℝ (Fin n)) : ∑ p, ∑ p', D p p' * (lam p * mu p') ≤ ∑ p, lam p * mu p := by
  obtain ⟨w, hw, hw1, rfl⟩ := exists_eq_sum_perm_of_mem_doublyStochastic hD
  have hmv : Monovary lam mu := by
    intro a b hab
    exact hl (le_of_not_gt fun hba => absurd (hm hba.le) (not_le.mpr hab))
  have key : ∀ σ : Equiv.Perm (Fin n), ∑ p, ∑ p', σ.permMatrix ℝ p p' * (lam p * mu p') = ∑ p, lam p * mu (σ p) := by
    intro σ
    refine Finset.sum_congr rfl fun p _ => ?_
    rw [Finset.sum_eq_single (σ p)]
    · simp [Equiv.toPEquiv_apply, PEquiv.toMatrix_apply]
    · intro b _ hb
      simp [Equiv.toPEquiv_apply, PEquiv.toMatrix_apply, hb.symm]
    · simp
  have h1 : ∑ p, ∑ p', (∑ σ, w σ • σ.permMatrix ℝ) p p' * (lam p * mu p') =
      ∑ σ, w σ * ∑ p, ∑ p', σ.permMatrix ℝ p p' * (lam p * mu p') := by
    simp only [Matrix.sum_apply, Matrix.smul_apply, smul_eq_mul, Finset.sum_mul, Finset.mul_sum]
    rw [Finset.sum_congr rfl fun p _ => Finset.sum_comm, Finset.sum_comm]
    exact Finset.sum_congr rfl fun σ _ => Finset.sum_congr rfl fun p _ => Finset.sum_congr rfl fun p' _ => by ring
  rw [h1]
  calc ∑ σ, w σ * ∑ p, ∑ p', σ.permMatrix ℝ p p' * (lam p * mu p') ≤ ∑ σ, w σ * ∑ p, lam p * mu p := by
        refine Finset.sum_le_sum fun σ _ => mul_le_mul_of_nonneg_left ?_ (hw σ)
        rw [key]
        exact hmv.sum_mul_comp_perm_le_sum_mul
    _ = ∑ p, lam p * mu p := by rw [← Finset.sum_mul, hw1, one_mul]

/-- **Hoffman-Wielandt**: the sum of squared differences of the sorted eigenvalues is at most the squared Frobenius distance. -/
theorem HasSpectrum.distance {n : Nat} {M B : Mat ℝ} {vals vals' : List ℝ} (h : HasSpectrum n M vals) (hs : Decreasing vals)
    (h' : HasSpectrum n B vals') (hs' : Decreasing vals') :
    ∑ i ∈ Finset.range n, (vals.getD i 0 - vals'.getD i 0) ^ 2 ≤ matSquares n fun r c => M r c - B r c := by
  have e1 := h.squares
  have e2 := h'.squares
  obtain ⟨lam, q, hq, he, hl, rfl⟩ := h.sorted hs
  obtain ⟨mu, u, hu, hf, hm, rfl⟩ := h'.sorted hs'
  rw [sum_ofFn_map] at e1 e2
  let D : Matrix (Fin n) (Fin n) ℝ := Matrix.of fun p p' => (∑ r, q p r * u p' r) ^ 2
  have hD : D ∈ doublyStochastic ℝ (Fin n) := by
    rw [mem_doublyStochastic_iff_sum]
    refine ⟨fun p p' => sq_nonneg _, fun p => ?_, fun p' => ?_⟩
    · have := parseval_fin hu (q p)
      rw [hq, if_pos rfl] at this
      rw [this]
      exact Finset.sum_congr rfl fun p' _ => by simp only [D, Matrix.of_apply, mul_comm]
    · have := parseval_fin hq (u p')
      rw [hu, if_pos rfl] at this
      rw [this]
      rfl
  have hc := coupling_le hl hm D hD
  have hmix : ∑ r : Fin n, ∑ s : Fin n, M r s * B r s = ∑ p, ∑ p', D p p' * (lam p * mu p') := by
    simp only [D, Matrix.of_apply, spectral_entries hq he, spectral_entries hu hf]
    have h1 : ∀ p p' : Fin n, (∑ r, q p r * u p' r) ^ 2 * (lam p * mu p') =
        ∑ r : Fin n, ∑ s : Fin n, q p r * lam p * q p s * (u p' r * mu p' * u p' s) := by
      intro p p'
      rw [sq, Finset.sum_mul_sum, Finset.sum_mul]
      refine Finset.sum_congr rfl fun r _ => ?_
      rw [Finset.sum_mul]
      exact Finset.sum_congr rfl fun s _ => by ring
    simp only [h1]
    simp only [Finset.sum_mul_sum]
    rw [Finset.sum_congr rfl fun r _ => Finset.sum_comm, Finset.sum_comm]
    refine Finset.sum_congr rfl fun p _ => ?_
    rw [Finset.sum_congr rfl fun r _ => Finset.sum_comm, Finset.sum_comm]
  have hsq : matSquares n (fun r c => M r c - B r c) = matSquares n M + matSquares n B - 2 * ∑ r : Fin n, ∑ s : Fin n, M r s * B r s := by
    unfold matSquares
    simp only [Finset.sum_range]
    rw [Finset.mul_sum, ← Finset.sum_add_distrib, ← Finset.sum_sub_distrib]
    refine Finset.sum_congr rfl fun r _ => ?_
    rw [Finset.mul_sum, ← Finset.sum_add_distrib, ← Finset.sum_sub_distrib]
    exact Finset.sum_congr rfl fun s _ => by ring
  rw [hsq, e1, e2, hmix, Finset.sum_range]
  have h3 : ∀ i : Fin n, ((List.ofFn lam).getD i 0 - (List.ofFn mu).getD i 0) ^ 2 = lam i ^ 2 + mu i ^ 2 - 2 * (lam i * mu i) := by
    intro i
    simp [List.getD_eq_getElem?_getD]
    ring
  simp only [h3, Finset.sum_sub_distrib, Finset.sum_add_distrib, ← Finset.mul_sum]
  linarith

end Curvlinops
