import Verif.Props.KfacInverseFresh
import Verif.Props.KfacScalars
import Verif.Props.KfacDampingOrder
import Verif.Props.KfacInverseBound
import Mathlib.Algebra.Polynomial.Roots

/-!
# C118: the eigenvalues of KFAC

They are the products of the eigenvalues of the factors, layer by layer, and for separately treated biases the eigenvalues of the
gradient covariance. Consequences for the properties `trace`, `det` and `frobenius_norm`, for extreme eigenvalues, and for the exactly
damped inverse.
-/

namespace Curvlinops

/-- Specification: `vals` are the eigenvalues of the symmetric matrix `M`, with multiplicities: there are `N` orthonormal eigenvectors
`q p` with these eigenvalues. -/
def HasSpectrum (N : Nat) (M : Mat ℝ) (vals : List ℝ) : Prop :=
  ∃ (lam : Fin N → ℝ) (q : Fin N → Fin N → ℝ), (∀ p p', ∑ r, q p r * q p' r = if p = p' then 1 else 0) ∧
    (∀ p (r : Fin N), ∑ k : Fin N, M r k * q p k = lam p * q p r) ∧ vals.Perm (List.ofFn lam)

/-! ## What eigenvalues tell -/

theorem orthonormal_cols {N : Nat} {q : Fin N → Fin N → ℝ} (h : ∀ p p', ∑ r, q p r * q p' r = if p = p' then 1 else 0)
    (r s : Fin N) : ∑ p, q p r * q p s = if r = s then 1 else 0 := by
  have h1 : (Matrix.of q) * (Matrix.of q).transpose = 1 := by
    ext p p'
    rw [Matrix.mul_apply, Matrix.one_apply]
    exact h p p'
  have h2 := mul_eq_one_comm.mp h1
  have h3 := congrFun (congrFun h2 r) s
  rw [Matrix.mul_apply, Matrix.one_apply] at h3
  exact h3

/-- `M = Q diag(λ) Qᵀ`. -/
theorem spectral_entries {N : Nat} {M : Mat ℝ} {lam : Fin N → ℝ} {q : Fin N → Fin N → ℝ}
    (h : ∀ p p', ∑ r, q p r * q p' r = if p = p' then 1 else 0) (he : ∀ p (r : Fin N), ∑ k : Fin N, M r k * q p k = lam p * q p r)
    (r s : Fin N) : M r s = ∑ p, q p r * lam p * q p s := by
  have : ∑ p, q p r * lam p * q p s = ∑ p, (∑ k : Fin N, M r k * q p k) * q p s :=
    Finset.sum_congr rfl fun p _ => by rw [he]; ring
  rw [this]
  simp only [Finset.sum_mul]
  rw [Finset.sum_comm]
  have h2 : ∀ k : Fin N, ∑ p, M r k * q p k * q p s = M r k * if k = s then 1 else 0 := by
    intro k
    rw [← orthonormal_cols h k s, Finset.mul_sum]
    exact Finset.sum_congr rfl fun p _ => by ring
  simp only [h2]
  simp

theorem sum_ofFn_map {N : Nat} (lam : Fin N → ℝ) (f : ℝ → ℝ) : ((List.ofFn lam).map f).sum = ∑ p, f (lam p) := by
  rw [List.map_ofFn, List.sum_ofFn]
  rfl

/-- The trace is the sum of the eigenvalues. -/
theorem HasSpectrum.trace {N : Nat} {M : Mat ℝ} {vals : List ℝ} (h : HasSpectrum N M vals) : matTrace N M = vals.sum := by
  obtain ⟨lam, q, hq, he, hp⟩ := h
  rw [hp.sum_eq, List.sum_ofFn, matTrace, Finset.sum_range]
  simp only [spectral_entries hq he]
  rw [Finset.sum_comm]
  refine Finset.sum_congr rfl fun p _ => ?_
  have := hq p p
  rw [if_pos rfl] at this
  calc ∑ r, q p r * lam p * q p r = lam p * ∑ r, q p r * q p r := by
        rw [Finset.mul_sum]
        exact Finset.sum_congr rfl fun r _ => by ring
    _ = lam p := by rw [this, mul_one]

/-- The sum of squared entries is the sum of squared eigenvalues. -/
theorem HasSpectrum.squares {N : Nat} {M : Mat ℝ} {vals : List ℝ} (h : HasSpectrum N M vals) :
    matSquares N M = (vals.map (· ^ 2)).sum := by
  obtain ⟨lam, q, hq, he, hp⟩ := h
  rw [(hp.map _).sum_eq, sum_ofFn_map, matSquares, Finset.sum_range]
  have h1 : ∀ r : Fin N, ∑ s ∈ Finset.range N, M r s ^ 2 = ∑ p, lam p ^ 2 * (q p r * q p r) := by
    intro r
    rw [Finset.sum_range]
    have h2 : ∀ s : Fin N, M r s ^ 2 = ∑ p, q p r * lam p * (M r s * q p s) := by
      intro s
      rw [sq]
      conv_lhs => rw [spectral_entries hq he r s]
      rw [Finset.sum_mul]
      refine Finset.sum_congr rfl fun p _ => ?_
      rw [← spectral_entries hq he r s]
      ring
    simp only [h2]
    rw [Finset.sum_comm]
    refine Finset.sum_congr rfl fun p _ => ?_
    rw [← Finset.mul_sum, he]
    ring
  simp only [h1]
  rw [Finset.sum_comm]
  refine Finset.sum_congr rfl fun p _ => ?_
  have := hq p p
  rw [if_pos rfl] at this
  rw [← Finset.mul_sum, this, mul_one]

/-- The determinant is the product of the eigenvalues. -/
theorem HasSpectrum.det {N : Nat} {M : Mat ℝ} {vals : List ℝ} (h : HasSpectrum N M vals) : matDet N M = vals.prod := by
  obtain ⟨lam, q, hq, he, hp⟩ := h
  rw [hp.prod_eq, List.prod_ofFn, matDet]
  have h1 : (Matrix.of q) * (Matrix.of q).transpose = 1 := by
    ext p p'
    rw [Matrix.mul_apply, Matrix.one_apply]
    exact hq p p'
  have h2 : (Matrix.of fun i j : Fin N => M i j) = (Matrix.of q).transpose * Matrix.diagonal lam * Matrix.of q := by
    ext r s
    rw [Matrix.mul_apply]
    simp only [Matrix.mul_diagonal, Matrix.transpose_apply, Matrix.of_apply]
    exact spectral_entries hq he r s
  rw [h2, Matrix.det_mul, Matrix.det_mul, Matrix.det_diagonal, mul_right_comm, ← Matrix.det_mul, mul_eq_one_comm.mp h1, Matrix.det_one,
    one_mul]

/-- Eigenvalues of `M + δ`. -/
theorem HasSpectrum.add_diag {N : Nat} {M : Mat ℝ} {vals : List ℝ} (h : HasSpectrum N M vals) (δ : ℝ) :
    HasSpectrum N (fun r k => M r k + if r = k then δ else 0) (vals.map (· + δ)) := by
  obtain ⟨lam, q, hq, he, hp⟩ := h
  refine ⟨fun p => lam p + δ, q, hq, fun p r => ?_, ?_⟩
  · simp only [add_mul, Finset.sum_add_distrib, he]
    congr 1
    simp only [Fin.val_inj, ite_mul, zero_mul]
    simp
  · have := hp.map (· + δ)
    rwa [List.map_ofFn] at this

/-- A matrix has only one spectrum: any two lists of eigenvalues agree up to the order. -/
theorem HasSpectrum.unique {N : Nat} {M : Mat ℝ} {vals vals' : List ℝ} (h : HasSpectrum N M vals) (h' : HasSpectrum N M vals') :
    vals.Perm vals' := by
  have hpoly : ∀ l : List ℝ, ∀ t : ℝ, ((l.map fun a => Polynomial.X - Polynomial.C a).prod).eval (-t) =
      (-1) ^ l.length * (l.map (· + t)).prod := by
    intro l t
    induction l with
    | nil => simp
    | cons a l ih =>
      rw [List.map_cons, List.prod_cons, Polynomial.eval_mul, ih, List.map_cons, List.prod_cons, List.length_cons]
      simp only [Polynomial.eval_sub, Polynomial.eval_X, Polynomial.eval_C]
      ring
  have hlen : vals.length = N ∧ vals'.length = N := by
    obtain ⟨_, _, _, _, hp⟩ := h
    obtain ⟨_, _, _, _, hp'⟩ := h'
    exact ⟨by rw [hp.length_eq, List.length_ofFn], by rw [hp'.length_eq, List.length_ofFn]⟩
  have heq : (vals.map fun a => Polynomial.X - Polynomial.C a).prod = (vals'.map fun a => Polynomial.X - Polynomial.C a).prod := by
    refine Polynomial.funext fun t => ?_
    have h1 := hpoly vals (-t)
    have h2 := hpoly vals' (-t)
    rw [neg_neg] at h1 h2
    rw [h1, h2, hlen.1, hlen.2, ← (h.add_diag (-t)).det, ← (h'.add_diag (-t)).det]
  have hroots : ∀ l : List ℝ, ((l.map fun a => Polynomial.X - Polynomial.C a).prod).roots = (l : Multiset ℝ) := by
    intro l
    rw [← Polynomial.roots_multiset_prod_X_sub_C (l : Multiset ℝ), Multiset.map_coe, Multiset.prod_coe]
  have := hroots vals
  rw [heq, hroots vals'] at this
  exact (Multiset.coe_eq_coe.mp this).symm

/-- Quadratic forms in terms of eigenvectors. -/
theorem spectral_quad {N : Nat} {M : Mat ℝ} {lam : Fin N → ℝ} {q : Fin N → Fin N → ℝ}
    (h : ∀ p p', ∑ r, q p r * q p' r = if p = p' then 1 else 0) (he : ∀ p (r : Fin N), ∑ k : Fin N, M r k * q p k = lam p * q p r)
    (v : Nat → ℝ) : ∑ r ∈ Finset.range N, v r * ∑ k ∈ Finset.range N, M r k * v k = ∑ p, lam p * (∑ r, q p r * v r) ^ 2 := by
  rw [Finset.sum_range]
  simp only [Finset.sum_range (n := N), spectral_entries h he]
  have h1 : ∀ r : Fin N, v r * ∑ k : Fin N, (∑ p, q p r * lam p * q p k) * v k =
      ∑ p, lam p * ((q p r * v r) * ∑ k, q p k * v k) := by
    intro r
    simp only [Finset.sum_mul]
    rw [Finset.sum_comm, Finset.mul_sum]
    refine Finset.sum_congr rfl fun p _ => ?_
    simp only [Finset.mul_sum]
    exact Finset.sum_congr rfl fun k _ => by ring
  simp only [h1]
  rw [Finset.sum_comm]
  refine Finset.sum_congr rfl fun p _ => ?_
  rw [← Finset.mul_sum, ← Finset.sum_mul, sq]

theorem parseval {N : Nat} {q : Fin N → Fin N → ℝ} (h : ∀ p p', ∑ r, q p r * q p' r = if p = p' then 1 else 0) (v : Nat → ℝ) :
    ∑ r ∈ Finset.range N, v r * v r = ∑ p, (∑ r, q p r * v r) ^ 2 := by
  have := spectral_quad (M := fun i j => if i = j then 1 else 0) (lam := fun _ => 1) h (fun p r => by
    simp only [Fin.val_inj]
    simp) v
  simp only [one_mul] at this
  rw [← this]
  refine Finset.sum_congr rfl fun r hr => ?_
  congr 1
  simp only [ite_mul, one_mul, zero_mul]
  rw [Finset.sum_ite_eq, if_pos hr]

/-- All quadratic forms lie between the extreme eigenvalues. -/
theorem HasSpectrum.bounds {N : Nat} {M : Mat ℝ} {vals : List ℝ} (h : HasSpectrum N M vals) {lo hi : ℝ}
    (hv : ∀ x ∈ vals, lo ≤ x ∧ x ≤ hi) (v : Nat → ℝ) :
    lo * ∑ r ∈ Finset.range N, v r * v r ≤ ∑ r ∈ Finset.range N, v r * ∑ k ∈ Finset.range N, M r k * v k ∧
      ∑ r ∈ Finset.range N, v r * ∑ k ∈ Finset.range N, M r k * v k ≤ hi * ∑ r ∈ Finset.range N, v r * v r := by
  obtain ⟨lam, q, hq, he, hp⟩ := h
  have hl : ∀ p, lo ≤ lam p ∧ lam p ≤ hi := fun p => hv _ (hp.mem_iff.mpr (by simp [List.mem_ofFn]))
  rw [spectral_quad hq he, parseval hq, Finset.mul_sum, Finset.mul_sum]
  exact ⟨Finset.sum_le_sum fun p _ => mul_le_mul_of_nonneg_right (hl p).1 (sq_nonneg _),
    Finset.sum_le_sum fun p _ => mul_le_mul_of_nonneg_right (hl p).2 (sq_nonneg _)⟩

/-- Every eigenvalue has a unit eigenvector. -/
theorem HasSpectrum.attained {N : Nat} {M : Mat ℝ} {vals : List ℝ} (h : HasSpectrum N M vals) {x : ℝ} (hx : x ∈ vals) :
    ∃ v : Nat → ℝ, ∑ r ∈ Finset.range N, v r * v r = 1 ∧ ∀ r < N, ∑ k ∈ Finset.range N, M r k * v k = x * v r := by
  obtain ⟨lam, q, hq, he, hp⟩ := h
  obtain ⟨p, rfl⟩ := List.mem_ofFn.mp (hp.mem_iff.mp hx)
  refine ⟨fun r => if h : r < N then q p ⟨r, h⟩ else 0, ?_, fun r hr => ?_⟩
  · rw [Finset.sum_range]
    have := hq p p
    rw [if_pos rfl] at this
    simpa using this
  · rw [Finset.sum_range]
    simpa [hr] using he p ⟨r, hr⟩

/-- The eigenvalues of the inverse of `M + δ`. -/
theorem HasSpectrum.damped_inverse {N : Nat} {M E : Mat ℝ} {vals : List ℝ} (h : HasSpectrum N M vals) {δ : ℝ}
    (hv : ∀ x ∈ vals, x + δ ≠ 0) (hE : MatInv N (fun r k => M r k + if r = k then δ else 0) E) :
    HasSpectrum N E (vals.map fun x => 1 / (x + δ)) := by
  obtain ⟨lam, q, hq, he, hp⟩ := h
  have hl : ∀ p, lam p + δ ≠ 0 := fun p => hv _ (hp.mem_iff.mpr (by simp [List.mem_ofFn]))
  refine ⟨fun p => 1 / (lam p + δ), q, hq, fun p r => ?_, ?_⟩
  · have h1 : ∀ k : Fin N, q p k = 1 / (lam p + δ) * ∑ m : Fin N, (M k m + if (k : Nat) = m then δ else 0) * q p m := by
      intro k
      simp only [add_mul, Finset.sum_add_distrib, he]
      have : ∑ m : Fin N, (if (k : Nat) = m then δ else 0) * q p m = δ * q p k := by
        simp only [Fin.val_inj, ite_mul, zero_mul]
        simp
      rw [this, ← add_mul, ← mul_assoc, one_div_mul_cancel (hl p), one_mul]
    have h2 : ∑ k : Fin N, E r k * ∑ m : Fin N, (M k m + if (k : Nat) = m then δ else 0) * q p m = q p r := by
      simp only [Finset.mul_sum]
      rw [Finset.sum_comm]
      have h3 : ∀ m : Fin N, ∑ k : Fin N, E r k * ((M k m + if (k : Nat) = m then δ else 0) * q p m) =
          (if (r : Nat) = m then 1 else 0) * q p m := by
        intro m
        rw [← (hE r r.2 m m.2).2, Finset.sum_mul, Finset.sum_range]
        exact Finset.sum_congr rfl fun k _ => by ring
      rw [Finset.sum_congr rfl fun m _ => h3 m]
      simp only [Fin.val_inj, ite_mul, one_mul, zero_mul]
      simp
    calc ∑ k : Fin N, E r k * q p k = ∑ k : Fin N, 1 / (lam p + δ) * (E r k *
          ∑ m : Fin N, (M k m + if (k : Nat) = m then δ else 0) * q p m) :=
          Finset.sum_congr rfl fun k _ => by
            conv_lhs => rw [h1 k]
            ring
      _ = 1 / (lam p + δ) * q p r := by rw [← Finset.mul_sum, h2]
  · have := hp.map fun x => 1 / (x + δ)
    rwa [List.map_ofFn] at this

/-! ## Kronecker products -/

theorem Factor.IsEigen.apply {F : Factor ℝ} {e : Eigen} (h : F.IsEigen e) {p i : Nat} (hp : p < F.dim) (hi : i < F.dim) :
    ∑ j ∈ Finset.range F.dim, F.mat i j * e.vecs j p = e.vals p * e.vecs i p := by
  have h1 : ∀ j ∈ Finset.range F.dim, F.mat i j * e.vecs j p =
      ∑ s ∈ Finset.range F.dim, e.vecs i s * e.vals s * (e.vecs j s * e.vecs j p) := by
    intro j hj
    rw [← h.decomp i hi j (Finset.mem_range.mp hj), Finset.sum_mul]
    exact Finset.sum_congr rfl fun s _ => by ring
  rw [Finset.sum_congr rfl h1, Finset.sum_comm]
  have h2 : ∀ s ∈ Finset.range F.dim, ∑ j ∈ Finset.range F.dim, e.vecs i s * e.vals s * (e.vecs j s * e.vecs j p) =
      if s = p then e.vecs i s * e.vals s else 0 := by
    intro s hs
    rw [← Finset.mul_sum, h.orthonormal s (Finset.mem_range.mp hs) p hp]
    split_ifs <;> simp
  rw [Finset.sum_congr rfl h2, Finset.sum_ite_eq', if_pos (Finset.mem_range.mpr hp), mul_comm]

theorem Factor.IsEigen.symm {F : Factor ℝ} {e : Eigen} (h : F.IsEigen e) {i j : Nat} (hi : i < F.dim) (hj : j < F.dim) :
    F.mat i j = F.mat j i := by
  rw [← h.decomp i hi j hj, ← h.decomp j hj i hi]
  exact Finset.sum_congr rfl fun p _ => by ring

/-- Products of the eigenvalues of two factors. -/
def Eigen.products (eA eB : Eigen) : List ℝ := (List.range eB.dim).flatMap fun i => (List.range eA.dim).map fun j => eB.vals i * eA.vals j

theorem count_eq_sum (vals : List ℝ) (a : ℝ) : vals.count a = (vals.map fun x => if x = a then 1 else 0).sum := by
  induction vals with
  | nil => rfl
  | cons x xs ih =>
    rw [List.count_cons, List.map_cons, List.sum_cons, ih, add_comm]
    congr 1
    simp

theorem sum_flatMap_map {σ : Type _} (l : List σ) (f : σ → List ℝ) (g : ℝ → ℕ) :
    ((l.flatMap f).map g).sum = (l.map fun x => ((f x).map g).sum).sum := by
  induction l with
  | nil => rfl
  | cons x xs ih => rw [List.flatMap_cons, List.map_append, List.sum_append, ih, List.map_cons, List.sum_cons]

theorem sum_map_range (n : Nat) (f : Nat → ℕ) : ((List.range n).map f).sum = ∑ i : Fin n, f i := by
  rw [← Finset.sum_range]
  induction n with
  | zero => rfl
  | succ n ih => rw [List.range_succ, List.map_append, List.sum_append, ih, Finset.sum_range_succ]; simp

theorem sum_map_finRange (n : Nat) (f : Fin n → ℕ) : ((List.finRange n).map f).sum = ∑ l, f l := by
  rw [← List.ofFn_eq_map, List.sum_ofFn]

/-- The eigenvalues of a block-diagonal matrix of Kronecker products, by eigendecompositions of all factors. -/
theorem kron_spectrum (bs : List (KBlock ℝ)) (N : Nat) (h : Tiles bs N) (M : Mat ℝ) (hM : IsKron bs M) (eA eB : Fin bs.length → Eigen)
    (hA : ∀ l : Fin bs.length, (⟨(bs[l]).cols, (bs[l]).A⟩ : Factor ℝ).IsEigen (eA l))
    (hB : ∀ l : Fin bs.length, (⟨(bs[l]).rows, (bs[l]).B⟩ : Factor ℝ).IsEigen (eB l)) :
    HasSpectrum N M ((List.finRange bs.length).flatMap fun l => (eA l).products (eB l)) := by
  let lam : KIdx bs → ℝ := fun x => (eB x.1).vals x.2.1 * (eA x.1).vals x.2.2
  let vec : KIdx bs → KIdx bs → ℝ := fun x y => if x.1 = y.1 then
    (eB x.1).vecs y.2.1 x.2.1 * (eA x.1).vecs y.2.2 x.2.2 else 0
  have horth : ∀ x x' : KIdx bs, ∑ y, vec x y * vec x' y = if x = x' then 1 else 0 := by
    rintro ⟨l, i, j⟩ ⟨l', i', j'⟩
    rw [sum_kidx, Finset.sum_eq_single l]
    · by_cases hl : l = l'
      · subst hl
        have e1 := (hB l).orthonormal i i.2 i' i'.2
        have e2 := (hA l).orthonormal j j.2 j' j'.2
        rw [Finset.sum_range] at e1 e2
        simp only [vec, if_true]
        have : ∀ (a b : Nat → Nat → ℝ), ∑ p : Fin (bs[l]).rows, ∑ q : Fin (bs[l]).cols, a p i * b q j * (a p i' * b q j') =
            (∑ p : Fin (bs[l]).rows, a p i * a p i') * ∑ q : Fin (bs[l]).cols, b q j * b q j' := by
          intro a b
          rw [Finset.sum_mul_sum]
          exact Finset.sum_congr rfl fun p _ => Finset.sum_congr rfl fun q _ => by ring
        refine (this _ _).trans ?_
        rw [e1, e2]
        simp only [Sigma.mk.injEq, heq_eq_eq, true_and, Prod.mk.injEq, Fin.val_inj]
        by_cases h1 : i = i' <;> by_cases h2 : j = j' <;> simp [h1, h2]
      · refine (Finset.sum_eq_zero fun p _ => Finset.sum_eq_zero fun q _ => ?_).trans (if_neg ?_).symm
        · simp [vec, Ne.symm hl]
        · intro hc
          exact hl (congrArg Sigma.fst hc)
    · intro m _ hm
      exact Finset.sum_eq_zero fun p _ => Finset.sum_eq_zero fun q _ => by simp [vec, Ne.symm hm]
    · simp
  have heig : ∀ x y : KIdx bs, ∑ z : KIdx bs, y.entry z * vec x z = lam x * vec x y := by
    rintro ⟨l, i, j⟩ ⟨l', i', j'⟩
    rw [sum_kidx, Finset.sum_eq_single l]
    · by_cases hl : l' = l
      · subst hl
        have e1 := (hB l').apply i.2 i'.2
        have e2 := (hA l').apply j.2 j'.2
        rw [Finset.sum_range] at e1 e2
        simp only [vec, KIdx.entry, if_true]
        have : ∀ (a b : Nat → Nat → ℝ), ∑ p : Fin (bs[l']).rows, ∑ q : Fin (bs[l']).cols,
            (bs[l']).B i' p * (bs[l']).A q j' * (a p i * b q j) =
            (∑ p : Fin (bs[l']).rows, (bs[l']).B i' p * a p i) * ∑ q : Fin (bs[l']).cols, (bs[l']).A j' q * b q j := by
          intro a b
          rw [Finset.sum_mul_sum]
          refine Finset.sum_congr rfl fun p _ => Finset.sum_congr rfl fun q _ => ?_
          have : (bs[l']).A q j' = (bs[l']).A j' q := (hA l').symm q.2 j'.2
          rw [this]
          ring
        refine (this _ _).trans ?_
        rw [e1, e2]
        simp only [lam]
        ring
      · rw [Finset.sum_eq_zero fun p _ => Finset.sum_eq_zero fun q _ => by simp [KIdx.entry, hl]]
        simp [vec, Ne.symm hl]
    · intro m _ hm
      exact Finset.sum_eq_zero fun p _ => Finset.sum_eq_zero fun q _ => by simp [vec, Ne.symm hm]
    · simp
  have hpos : ∀ r : Fin N, ((h.equiv.symm r).pos : Nat) = r := fun r => congrArg Fin.val (h.equiv.apply_symm_apply r)
  refine ⟨fun p => lam (h.equiv.symm p), fun p r => vec (h.equiv.symm p) (h.equiv.symm r), fun p p' => ?_, fun p r => ?_, ?_⟩
  · rw [Equiv.sum_comp h.equiv.symm fun y => vec (h.equiv.symm p) y * vec (h.equiv.symm p') y, horth]
    simp only [EmbeddingLike.apply_eq_iff_eq]
  · rw [← heig, ← Equiv.sum_comp h.equiv.symm fun z => (h.equiv.symm r).entry z * vec (h.equiv.symm p) z]
    refine Finset.sum_congr rfl fun k _ => ?_
    rw [← hM, hpos, hpos]
  · rw [List.perm_iff_count]
    intro a
    rw [count_eq_sum, count_eq_sum, List.map_ofFn, List.sum_ofFn]
    simp only [Function.comp_def]
    rw [Equiv.sum_comp h.equiv.symm fun x => if lam x = a then 1 else 0, sum_kidx, sum_flatMap_map, sum_map_finRange]
    refine Finset.sum_congr rfl fun l _ => ?_
    have d1 : (eA l).dim = (bs[l]).cols := (hA l).dim
    have d2 : (eB l).dim = (bs[l]).rows := (hB l).dim
    have : ∀ eA eB : Eigen, eA.dim = (bs[l]).cols → eB.dim = (bs[l]).rows → ((eA.products eB).map fun x => if x = a then 1 else 0).sum =
        ∑ i : Fin (bs[l]).rows, ∑ j : Fin (bs[l]).cols, if eB.vals i * eA.vals j = a then 1 else 0 := by
      intro eA eB h1 h2
      unfold Eigen.products
      rw [h1, h2, sum_flatMap_map, sum_map_range]
      refine Finset.sum_congr rfl fun i _ => ?_
      rw [List.map_map, Function.comp_def, sum_map_range]
    exact this _ _ d1 d2

theorem finRange_flatMap {σ τ ρ : Type _} (ts : List σ) (f : σ → τ) (g : σ → List ρ) :
    ((List.finRange (ts.map f).length).flatMap fun l : Fin (ts.map f).length => g (ts[(l : Nat)]'(by simpa using l.2))) = ts.flatMap g := by
  rw [List.flatMap_def, List.flatMap_def]
  congr 1
  refine List.ext_getElem (by simp) fun i h1 h2 => ?_
  simp

/-- The same, with the eigendecompositions beside the blocks. -/
theorem kron_spectrum_list (ts : List (KBlock ℝ × Eigen × Eigen)) (N : Nat) (h : Tiles (ts.map (·.1)) N) (M : Mat ℝ)
    (hM : IsKron (ts.map (·.1)) M)
    (ht : ∀ t ∈ ts, (⟨t.1.cols, t.1.A⟩ : Factor ℝ).IsEigen t.2.1 ∧ (⟨t.1.rows, t.1.B⟩ : Factor ℝ).IsEigen t.2.2) :
    HasSpectrum N M (ts.flatMap fun t => t.2.1.products t.2.2) := by
  rw [← finRange_flatMap ts (·.1)]
  refine kron_spectrum _ N h M hM _ _ (fun l => ?_) fun l => ?_
  · have hl : (l : Nat) < ts.length := by simpa using l.2
    have := (ht _ (List.getElem_mem hl)).1
    simpa only [Fin.getElem_fin, List.getElem_map] using this
  · have hl : (l : Nat) < ts.length := by simpa using l.2
    have := (ht _ (List.getElem_mem hl)).2
    simpa only [Fin.getElem_fin, List.getElem_map] using this

/-! ## Layers -/

/-- Specification: the eigenvalues that a layer contributes. -/
def LayerPos.eigenvalues (sep : Bool) (pos : LayerPos) (eA eB : Eigen) : List ℝ :=
  match pos with
  | .both _ _ => if sep then eA.products eB ++ (List.range eB.dim).map eB.vals else eA.products eB
  | .weight _ => eA.products eB
  | .bias _ => (List.range eB.dim).map eB.vals

theorem unitEigen_isEigen : (⟨1, fun _ _ => 1⟩ : Factor ℝ).IsEigen unitEigen := by
  refine ⟨rfl, fun p hp q hq => ?_, fun i _ j _ => by simp [unitEigen]⟩
  obtain rfl : p = 0 := Nat.lt_one_iff.mp hp
  obtain rfl : q = 0 := Nat.lt_one_iff.mp hq
  simp [unitEigen]

theorem unitEigen_products (e : Eigen) : unitEigen.products e = (List.range e.dim).map e.vals := by
  unfold Eigen.products unitEigen
  simp [List.flatMap_def]
  induction List.range e.dim with
  | nil => rfl
  | cons x xs ih => simp [ih]

theorem Layer.eigs_products (sep : Bool) (shapes : List (List Nat)) (l : Layer ℝ) (eA eB : Eigen) :
    ((l.eigs sep shapes eA eB).flatMap fun t => t.2.1.products t.2.2) = l.pos.eigenvalues sep eA eB := by
  unfold Layer.eigs LayerPos.eigenvalues
  cases l.pos <;> cases sep <;> simp [unitEigen_products]

theorem Layer.eigs_isEigen {sep : Bool} {shapes : List (List Nat)} {l : Layer ℝ} (hf : l.Fits sep shapes) {eA eB : Eigen}
    (hA : l.pos.hasWeight = true → l.A.IsEigen eA) (hB : l.B.IsEigen eB) (t : KBlock ℝ × Eigen × Eigen)
    (ht : t ∈ l.eigs sep shapes eA eB) :
    (⟨t.1.cols, t.1.A⟩ : Factor ℝ).IsEigen t.2.1 ∧ (⟨t.1.rows, t.1.B⟩ : Factor ℝ).IsEigen t.2.2 := by
  obtain ⟨n, pos, A, B⟩ := l
  unfold Layer.Fits at hf
  unfold Layer.eigs at ht
  cases pos with
  | both w b =>
    have hA := hA rfl
    cases sep with
    | true =>
      simp only [if_true, add_zero] at hf ht
      simp only [List.mem_cons, List.not_mem_nil, or_false] at ht
      rcases ht with rfl | rfl
      · simp only [Layer.wBlock, ← hf.2.2]
        exact ⟨hA, hB⟩
      · exact ⟨unitEigen_isEigen, hB⟩
    | false =>
      simp only [Bool.false_eq_true, if_false] at hf ht
      simp only [List.mem_singleton] at ht
      subst ht
      simp only [Layer.jBlock, ← hf.2.2]
      exact ⟨hA, hB⟩
  | weight w =>
    have hA := hA rfl
    simp only [List.mem_singleton] at hf ht
    subst ht
    simp only [Layer.wBlock, ← hf.2]
    exact ⟨hA, hB⟩
  | bias b =>
    simp only [List.mem_singleton] at ht
    subst ht
    exact ⟨unitEigen_isEigen, hB⟩

theorem layers_spectrum (sep : Bool) (shapes : List (List Nat)) (ls : List (Layer ℝ × Eigen × Eigen)) (N : Nat)
    (ht : Tiles (kfacBlocks sep shapes (ls.map (·.1))) N) (hf : ∀ t ∈ ls, t.1.Fits sep shapes)
    (hA : ∀ t ∈ ls, t.1.pos.hasWeight = true → t.1.A.IsEigen t.2.1) (hB : ∀ t ∈ ls, t.1.B.IsEigen t.2.2) (M : Mat ℝ)
    (hM : IsKron (kfacBlocks sep shapes (ls.map (·.1))) M) :
    HasSpectrum N M (ls.flatMap fun t => t.1.pos.eigenvalues sep t.2.1 t.2.2) := by
  have h1 : (ls.flatMap fun t => t.1.eigs sep shapes t.2.1 t.2.2).map (·.1) = kfacBlocks sep shapes (ls.map (·.1)) := by
    rw [kfacBlocks, List.map_flatMap, List.flatMap_map]
    simp only [Layer.eigs_fst]
  rw [← h1] at ht hM
  have := kron_spectrum_list _ N ht M hM (fun t htm => by
    obtain ⟨l, hl, htl⟩ := List.mem_flatMap.mp htm
    exact Layer.eigs_isEigen (hf l hl) (hA l hl) (hB l hl) t htl)
  rw [List.flatMap_assoc] at this
  simpa only [Layer.eigs_products] using this

/-! ## KFAC -/

section Kfac

variable {Θ B G : Type _}

theorem kfac_spectrum_kron {sep : Bool} {shapes : List (List Nat)} {mapping : Dict (Dict Nat)} {inCov gradCov : Dict (Factor ℝ)}
    {layers : List (Layer ℝ)} (hK : KfacLayers sep shapes mapping inCov gradCov layers) (eA eB : Layer ℝ → Eigen)
    (hA : ∀ l ∈ layers, l.pos.hasWeight = true → l.A.IsEigen (eA l)) (hB : ∀ l ∈ layers, l.B.IsEigen (eB l)) (M : Mat ℝ)
    (hM : IsKron (kfacBlocks sep shapes layers) M) :
    HasSpectrum (shapes.map List.prod).sum M (layers.flatMap fun l => l.pos.eigenvalues sep (eA l) (eB l)) := by
  have hm : (layers.map fun l => (l, eA l, eB l)).map (·.1) = layers := by rw [List.map_map]; exact List.map_id _
  have := layers_spectrum sep shapes (layers.map fun l => (l, eA l, eB l)) _ (by rw [hm]; exact kfac_tiles _ _ _ _ _ _ hK)
    (fun t ht => by obtain ⟨l, hl, rfl⟩ := List.mem_map.mp ht; exact hK.fits l hl)
    (fun t ht => by obtain ⟨l, hl, rfl⟩ := List.mem_map.mp ht; exact hA l hl)
    (fun t ht => by obtain ⟨l, hl, rfl⟩ := List.mem_map.mp ht; exact hB l hl) M (by rw [hm]; exact hM)
  rwa [List.flatMap_map] at this

/-- **C118**: the eigenvalues of KFAC are the products of the eigenvalues of the two factors of each layer, and those of the gradient
covariance for separately treated biases. -/
theorem kfac_spectrum (w : KWorld Θ B G) (s₀ : KState Θ) (shapes : List (List Nat)) (layers : List (Layer ℝ))
    (hK : KfacLayers s₀.cfg.sep shapes w.mapping (w.factors s₀).1 (w.factors s₀).2 layers) (eA eB : Layer ℝ → Eigen)
    (hA : ∀ l ∈ layers, l.pos.hasWeight = true → l.A.IsEigen (eA l)) (hB : ∀ l ∈ layers, l.B.IsEigen (eB l)) :
    ∃ M, Represents (kfacOp shapes s₀.cfg.sep w.mapping (w.factors s₀).1 (w.factors s₀).2) M ∧
      HasSpectrum (shapes.map List.prod).sum M (layers.flatMap fun l => l.pos.eigenvalues s₀.cfg.sep (eA l) (eB l)) := by
  obtain ⟨M, hM⟩ := (kfac_matrix_exists _ _ _ _ _ _ hK).1
  exact ⟨M, kfac_represents _ _ _ _ _ _ hK M hM, kfac_spectrum_kron hK eA eB hA hB M hM⟩

/-- Eigendecompositions of the factors exist (`torch.linalg.eigh` computes them), and the eigenvalues are nonnegative. -/
theorem kfac_eigen_exist (w : KWorld Θ B G) (s₀ : KState Θ) (shapes : List (List Nat)) (layers : List (Layer ℝ))
    (hK : KfacLayers s₀.cfg.sep shapes w.mapping (w.factors s₀).1 (w.factors s₀).2 layers) :
    ∃ eA eB : Layer ℝ → Eigen, (∀ l ∈ layers, l.pos.hasWeight = true → l.A.IsEigen (eA l)) ∧ ∀ l ∈ layers, l.B.IsEigen (eB l) := by
  classical
  obtain ⟨la, hla⟩ := linAlg_correct_exists
  have hp := factors_psd w s₀ _ shapes layers hK
  have h1 : ∀ l : Layer ℝ, ∃ e, l ∈ layers → l.pos.hasWeight = true → l.A.IsEigen e := by
    intro l
    by_cases h : l ∈ layers ∧ l.pos.hasWeight = true
    · obtain ⟨e, -, he⟩ := hla.eigh l.A ((hp l h.1).1 h.2).1
      exact ⟨e, fun _ _ => he⟩
    · exact ⟨unitEigen, fun h1 h2 => absurd ⟨h1, h2⟩ h⟩
  have h2 : ∀ l : Layer ℝ, ∃ e, l ∈ layers → l.B.IsEigen e := by
    intro l
    by_cases h : l ∈ layers
    · obtain ⟨e, -, he⟩ := hla.eigh l.B (hp l h).2.1
      exact ⟨e, fun _ => he⟩
    · exact ⟨unitEigen, fun h1 => absurd h1 h⟩
  choose eA hA using h1
  choose eB hB using h2
  exact ⟨eA, eB, hA, hB⟩

theorem Eigen.mem_products {eA eB : Eigen} {x : ℝ} : x ∈ eA.products eB ↔ ∃ i < eB.dim, ∃ j < eA.dim, eB.vals i * eA.vals j = x := by
  simp [Eigen.products]

theorem LayerPos.eigenvalues_nonneg {sep : Bool} {pos : LayerPos} {eA eB : Eigen}
    (hA : pos.hasWeight = true → ∀ p < eA.dim, 0 ≤ eA.vals p) (hB : ∀ p < eB.dim, 0 ≤ eB.vals p) (x : ℝ)
    (hx : x ∈ pos.eigenvalues sep eA eB) : 0 ≤ x := by
  have h1 : pos.hasWeight = true → x ∈ eA.products eB → 0 ≤ x := by
    intro hw h
    obtain ⟨i, hi, j, hj, rfl⟩ := Eigen.mem_products.mp h
    exact mul_nonneg (hB i hi) (hA hw j hj)
  have h2 : x ∈ (List.range eB.dim).map eB.vals → 0 ≤ x := by
    intro h
    obtain ⟨i, hi, rfl⟩ := List.mem_map.mp h
    exact hB i (List.mem_range.mp hi)
  unfold LayerPos.eigenvalues at hx
  cases pos with
  | both w b =>
    cases sep with
    | true => exact (List.mem_append.mp hx).elim (h1 rfl) h2
    | false => exact h1 rfl hx
  | weight w => exact h1 rfl hx
  | bias b => exact h2 hx

theorem LayerPos.eigenvalues_pos {sep : Bool} {pos : LayerPos} {eA eB : Eigen}
    (hA : pos.hasWeight = true → ∀ p < eA.dim, 0 < eA.vals p) (hB : ∀ p < eB.dim, 0 < eB.vals p) (x : ℝ)
    (hx : x ∈ pos.eigenvalues sep eA eB) : 0 < x := by
  have h1 : pos.hasWeight = true → x ∈ eA.products eB → 0 < x := by
    intro hw h
    obtain ⟨i, hi, j, hj, rfl⟩ := Eigen.mem_products.mp h
    exact mul_pos (hB i hi) (hA hw j hj)
  have h2 : x ∈ (List.range eB.dim).map eB.vals → 0 < x := by
    intro h
    obtain ⟨i, hi, rfl⟩ := List.mem_map.mp h
    exact hB i (List.mem_range.mp hi)
  unfold LayerPos.eigenvalues at hx
  cases pos with
  | both w b =>
    cases sep with
    | true => exact (List.mem_append.mp hx).elim (h1 rfl) h2
    | false => exact h1 rfl hx
  | weight w => exact h1 rfl hx
  | bias b => exact h2 hx

/-- C118: no eigenvalue is negative. -/
theorem kfac_spectrum_nonneg (w : KWorld Θ B G) (s₀ : KState Θ) (shapes : List (List Nat)) (layers : List (Layer ℝ))
    (hK : KfacLayers s₀.cfg.sep shapes w.mapping (w.factors s₀).1 (w.factors s₀).2 layers) (eA eB : Layer ℝ → Eigen)
    (hA : ∀ l ∈ layers, l.pos.hasWeight = true → l.A.IsEigen (eA l)) (hB : ∀ l ∈ layers, l.B.IsEigen (eB l)) (x : ℝ)
    (hx : x ∈ layers.flatMap fun l => l.pos.eigenvalues s₀.cfg.sep (eA l) (eB l)) : 0 ≤ x := by
  obtain ⟨l, hl, hx⟩ := List.mem_flatMap.mp hx
  have hp := factors_psd w s₀ _ shapes layers hK l hl
  refine LayerPos.eigenvalues_nonneg (fun hw p hpd => ?_) (fun p hpd => ?_) x hx
  · rw [(hA l hl hw).dim] at hpd
    exact (hA l hl hw).nonneg (hp.1 hw) p hpd
  · rw [(hB l hl).dim] at hpd
    exact (hB l hl).nonneg hp.2 p hpd

/-- C118: `trace`, `det` and `frobenius_norm` are sum, product and root of the sum of squares of the eigenvalues. -/
theorem kfac_scalars_spectrum (w : KWorld Θ B G) (s₀ : KState Θ) (shapes : List (List Nat)) (layers : List (Layer ℝ)) (hne : layers ≠ [])
    (hK : KfacLayers s₀.cfg.sep shapes w.mapping (w.factors s₀).1 (w.factors s₀).2 layers) (eA eB : Layer ℝ → Eigen)
    (hA : ∀ l ∈ layers, l.pos.hasWeight = true → l.A.IsEigen (eA l)) (hB : ∀ l ∈ layers, l.B.IsEigen (eB l)) :
    let vals := layers.flatMap fun l => l.pos.eigenvalues s₀.cfg.sep (eA l) (eB l)
    kfacTrace s₀.cfg.sep w.mapping (w.factors s₀).1 (w.factors s₀).2 = .ok vals.sum ∧
      kfacDet s₀.cfg.sep w.mapping (w.factors s₀).1 (w.factors s₀).2 = .ok vals.prod ∧
      kfacFrobenius s₀.cfg.sep w.mapping (w.factors s₀).1 (w.factors s₀).2 = .ok (Real.sqrt (vals.map (· ^ 2)).sum) := by
  intro vals
  obtain ⟨M, hM⟩ := (kfac_matrix_exists _ _ _ _ _ _ hK).1
  have h := kfac_spectrum_kron hK eA eB hA hB M hM
  exact ⟨(kfacTrace_eq hK M hM).trans (congrArg _ h.trace), (kfacDet_eq hK M hM).trans (congrArg _ h.det),
    (kfacFrobenius_eq hK M hM hne).trans (congrArg (fun x => Except.ok (Real.sqrt x)) h.squares)⟩

/-- C118: the exactly damped inverse has the eigenvalues `1 / (λ + δ)`. -/
theorem kfacInverse_exact_spectrum (w : KWorld Θ B G) (s₀ : KState Θ) (hf : s₀.IsFresh) (hg : w.Good s₀.cfg) (la : LinAlg)
    (hla : la.Correct) (dt : FloatType) (shapes : List (List Nat)) (layers : List (Layer ℝ))
    (hK : KfacLayers s₀.cfg.sep shapes w.mapping (w.factors s₀).1 (w.factors s₀).2 layers) (cfg : InvCfg)
    (hex : cfg.exact = true) (δ : ℝ) (hδ : cfg.damping = .value δ) (hpos : 0 < δ) (eA eB : Layer ℝ → Eigen)
    (hA : ∀ l ∈ layers, l.pos.hasWeight = true → l.A.IsEigen (eA l)) (hB : ∀ l ∈ layers, l.B.IsEigen (eB l)) :
    ∃ E, Represents (KInvState.op w la dt shapes ⟨s₀, cfg, []⟩) E ∧ HasSpectrum (shapes.map List.prod).sum E
      ((layers.flatMap fun l => l.pos.eigenvalues s₀.cfg.sep (eA l) (eB l)).map fun x => 1 / (x + δ)) := by
  obtain ⟨M, hM⟩ := (kfac_matrix_exists _ _ _ _ _ _ hK).1
  obtain ⟨E, hE, hI⟩ := kfacInverse_fresh_exact w s₀ hf hg la hla dt shapes layers hK cfg hex δ hδ hpos M hM
  refine ⟨E, hE, (kfac_spectrum_kron hK eA eB hA hB M hM).damped_inverse (fun x hx => ?_) hI⟩
  have := kfac_spectrum_nonneg w s₀ shapes layers hK eA eB hA hB x hx
  exact ne_of_gt (by linarith)

/-- Eigenvalues moved by a damping. -/
def Eigen.shift (e : Eigen) (d : ℝ) : Eigen := { e with vals := fun p => e.vals p + d }

theorem Factor.IsEigen.shift {F : Factor ℝ} {e : Eigen} (h : F.IsEigen e) (d : ℝ) : (F.addDiag d).IsEigen (e.shift d) := by
  refine ⟨h.dim, h.orthonormal, fun i hi j hj => ?_⟩
  have h1 : ∀ p ∈ Finset.range F.dim, e.vecs i p * (e.vals p + d) * e.vecs j p =
      e.vecs i p * e.vals p * e.vecs j p + d * (e.vecs i p * e.vecs j p) := fun p _ => by ring
  show ∑ p ∈ Finset.range F.dim, e.vecs i p * (e.vals p + d) * e.vecs j p = F.mat i j + if i = j then d else 0
  rw [Finset.sum_congr rfl h1, Finset.sum_add_distrib, h.decomp i hi j hj, ← Finset.mul_sum, h.rows i hi j hj]
  split_ifs <;> simp

/-- C118: with damped factors, of whatever origin, the inverse has the eigenvalues `1 / ((α + a) (β + b))`, and `1 / (β + b)` for
separately treated biases. -/
theorem kfacInverse_damped_spectrum (w : KWorld Θ B G) (s₀ : KState Θ) (hf : s₀.IsFresh) (hg : w.Good s₀.cfg) (la : LinAlg)
    (hla : la.Correct) (dt : FloatType) (shapes : List (List Nat)) (layers : List (Layer ℝ))
    (hK : KfacLayers s₀.cfg.sep shapes w.mapping (w.factors s₀).1 (w.factors s₀).2 layers) (cfg : InvCfg)
    (hex : cfg.exact = false) (a b : Layer ℝ → ℝ)
    (hd : ∀ l ∈ layers, computeDamping cfg ((w.factors s₀).1.get l.name) ((w.factors s₀).2.get l.name) =
      .ok (.fin (a l), .fin (b l)))
    (ha : ∀ l ∈ layers, 0 < a l) (hb : ∀ l ∈ layers, 0 < b l) (eA eB : Layer ℝ → Eigen)
    (hA : ∀ l ∈ layers, l.pos.hasWeight = true → l.A.IsEigen (eA l)) (hB : ∀ l ∈ layers, l.B.IsEigen (eB l)) :
    ∃ E, Represents (KInvState.op w la dt shapes ⟨s₀, cfg, []⟩) E ∧ HasSpectrum (shapes.map List.prod).sum E
      ((layers.flatMap fun l => l.pos.eigenvalues s₀.cfg.sep ((eA l).shift (a l)) ((eB l).shift (b l))).map fun x => 1 / x) := by
  have ht := damped_tiles hK a b
  have hm : (layers.map fun l => (l.damped (a l) (b l), (eA l).shift (a l), (eB l).shift (b l))).map (·.1) =
      layers.map fun l => l.damped (a l) (b l) := by rw [List.map_map]; rfl
  obtain ⟨E, hE, hI⟩ := kfacInverse_fresh_damped w s₀ hf hg la hla dt shapes layers hK cfg hex a b hd ha hb _
    (scatter_isKron _ _ ht)
  have hs := layers_spectrum s₀.cfg.sep shapes (layers.map fun l => (l.damped (a l) (b l), (eA l).shift (a l), (eB l).shift (b l))) _
    (by rw [hm]; exact ht)
    (fun t ht => by
      obtain ⟨l, hl, rfl⟩ := List.mem_map.mp ht
      have := hK.fits l hl
      obtain ⟨n, pos, A, B⟩ := l
      cases pos <;> exact this)
    (fun t ht => by obtain ⟨l, hl, rfl⟩ := List.mem_map.mp ht; exact fun hw => (hA l hl hw).shift _)
    (fun t ht => by obtain ⟨l, hl, rfl⟩ := List.mem_map.mp ht; exact (hB l hl).shift _) _ (by rw [hm]; exact scatter_isKron _ _ ht)
  rw [List.flatMap_map] at hs
  have h0 := hs.damped_inverse (δ := 0) (E := E) (fun x hx => ?_) (fun r hr c hc => ?_)
  · simp only [add_zero] at h0
    exact ⟨E, hE, h0⟩
  · rw [add_zero]
    obtain ⟨l, hl, hx⟩ := List.mem_flatMap.mp hx
    have hp := factors_psd w s₀ _ shapes layers hK l hl
    refine ne_of_gt (LayerPos.eigenvalues_pos (fun hw p hpd => ?_) (fun p hpd => ?_) x hx)
    · have hpd : p < (eA l).dim := hpd
      rw [(hA l hl hw).dim] at hpd
      exact add_pos_of_nonneg_of_pos ((hA l hl hw).nonneg (hp.1 hw) p hpd) (ha l hl)
    · have hpd : p < (eB l).dim := hpd
      rw [(hB l hl).dim] at hpd
      exact add_pos_of_nonneg_of_pos ((hB l hl).nonneg hp.2 p hpd) (hb l hl)
  · simp only [ite_self, add_zero]
    exact hI r hr c hc

end Kfac

/-! ## Example: one weight and one separately treated bias -/

theorem affine_isEigen : (∀ l ∈ [affineLayer], l.pos.hasWeight = true → l.A.IsEigen unitEigen) ∧
    ∀ l ∈ [affineLayer], l.B.IsEigen ⟨1, fun _ _ => 1, fun _ => 2⟩ := by
  constructor
  · intro l hl _
    rw [List.mem_singleton.mp hl]
    exact unitEigen_isEigen
  · intro l hl
    rw [List.mem_singleton.mp hl]
    refine ⟨rfl, fun p hp q hq => ?_, fun i _ j _ => by simp [affineLayer]⟩
    obtain rfl : p = 0 := Nat.lt_one_iff.mp hp
    obtain rfl : q = 0 := Nat.lt_one_iff.mp hq
    simp [affineLayer]

/-- Non-vacuity: the eigenvalues 2 (weight: `2 · 1`) and 2 (bias). -/
example : ∃ M, Represents (kfacOp [[1, 1], [1]] unitState.cfg.sep affineWorld.mapping (affineWorld.factors unitState).1
      (affineWorld.factors unitState).2) M ∧ HasSpectrum 2 M [2, 2] := by
  have h := kfac_spectrum affineWorld unitState [[1, 1], [1]] [affineLayer] affine_layers _ _ affine_isEigen.1 affine_isEigen.2
  have hv : ([affineLayer].flatMap fun l => l.pos.eigenvalues unitState.cfg.sep unitEigen ⟨1, fun _ _ => 1, fun _ => 2⟩) = [2, 2] := by
    simp [affineLayer, LayerPos.eigenvalues, unitState, KState.fresh, stateCfg, Eigen.products, unitEigen]
  rw [hv] at h
  exact h

/-- The inverse with damping 1 of both factors has the eigenvalues `1 / ((1 + 1) (2 + 1))` and `1 / (2 + 1)`, with exact damping `1 / (2 + 1)`
twice. -/
example (la : LinAlg) (hla : la.Correct) (dt : FloatType) (c : Bool) :
    (∃ E, Represents (KInvState.op affineWorld la dt [[1, 1], [1]] ⟨unitState, ⟨.value 1, false, 0, false, c, true⟩, []⟩) E ∧
      HasSpectrum 2 E [1 / 6, 1 / 3]) ∧
    ∃ E, Represents (KInvState.op affineWorld la dt [[1, 1], [1]] ⟨unitState, ⟨.value 1, false, 0, true, c, true⟩, []⟩) E ∧
      HasSpectrum 2 E [1 / 3, 1 / 3] := by
  constructor
  · have h := kfacInverse_damped_spectrum affineWorld unitState unitState_fresh affineWorld_good la hla dt [[1, 1], [1]] [affineLayer]
      affine_layers ⟨.value 1, false, 0, false, c, true⟩ rfl (fun _ => 1) (fun _ => 1) (fun _ _ => (plainDamping _ rfl _ _).1 _ rfl)
      (fun _ _ => one_pos) (fun _ _ => one_pos) _ _ affine_isEigen.1 affine_isEigen.2
    have hv : (([affineLayer].flatMap fun l => l.pos.eigenvalues unitState.cfg.sep (unitEigen.shift 1)
        (Eigen.shift ⟨1, fun _ _ => 1, fun _ => 2⟩ 1)).map fun x => 1 / x) = [1 / 6, 1 / 3] := by
      simp [affineLayer, LayerPos.eigenvalues, unitState, KState.fresh, stateCfg, Eigen.products, unitEigen, Eigen.shift]
      norm_num
    rw [hv] at h
    exact h
  · have h := kfacInverse_exact_spectrum affineWorld unitState unitState_fresh affineWorld_good la hla dt [[1, 1], [1]] [affineLayer]
      affine_layers ⟨.value 1, false, 0, true, c, true⟩ rfl 1 rfl one_pos _ _ affine_isEigen.1 affine_isEigen.2
    have hv : (([affineLayer].flatMap fun l => l.pos.eigenvalues unitState.cfg.sep unitEigen
        ⟨1, fun _ _ => 1, fun _ => 2⟩).map fun x => 1 / (x + 1)) = [1 / 3, 1 / 3] := by
      simp [affineLayer, LayerPos.eigenvalues, unitState, KState.fresh, stateCfg, Eigen.products, unitEigen]
      norm_num
    rw [hv] at h
    exact h

end Curvlinops
