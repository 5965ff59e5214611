import Verif.Props.LossCurvature
import Verif.Props.Determinism
import Verif.Props.FisherMC
import Verif.Props.JacobianForm
import Verif.Props.LossOptions
import Verif.Props.Scaling
import Verif.Lemmas.Spectral
import Mathlib.LinearAlgebra.Matrix.Rank

/-!
# C99: kernels, ranges and ranks of the curvature matrices
-/

namespace Curvlinops

open Matrix

variable {k : LossKind} {C : Nat}

/-! ## Specification -/

/-- Directional derivative of the prediction of a term in the direction `v` of the first `N` parameters. -/
noncomputable def Term.dir (t : Term k C) (N : Nat) (v : Nat → ℝ) (i : Fin C) : ℝ := ∑ p ∈ Finset.range N, t.J i p * v p

/-- Changes of the prediction that the loss Hessian does not see: none for `MSELoss` and `BCEWithLogitsLoss`, constants for
`CrossEntropyLoss`. -/
def Unseen (k : LossKind) (u : Fin C → ℝ) : Prop :=
  match k with
  | .ce => ∀ i j, u i = u j
  | _ => ∀ i, u i = 0

/-- Product of the leading `N × N` part with a vector. -/
noncomputable def mulPart (N : Nat) (M : Mat ℝ) (v : Nat → ℝ) (r : Nat) : ℝ := ∑ c ∈ Finset.range N, M r c * v c

/-! ## The loss Hessians -/

theorem ce_quad (f u : Fin C → ℝ) (c : Fin C) :
    ∑ i, ∑ j, u i * ((if i = j then softmax f i else 0) - softmax f i * softmax f j) * u j =
      ∑ i, softmax f i * (u i - ∑ j, softmax f j * u j) ^ 2 := by
  simp only [mul_sub, sub_mul, Finset.sum_sub_distrib]
  rw [diag_quad (softmax f) u, outer_quad (softmax f) u]
  have h3 : ∀ μ : ℝ, ∑ i, softmax f i * (u i - μ) ^ 2 =
      ∑ i, softmax f i * u i ^ 2 - 2 * μ * (∑ i, softmax f i * u i) + μ ^ 2 * ∑ i, softmax f i := by
    intro μ
    rw [Finset.mul_sum, Finset.mul_sum, ← Finset.sum_sub_distrib, ← Finset.sum_add_distrib]
    exact Finset.sum_congr rfl fun i _ => by ring
  rw [h3, sum_softmax f c]
  ring

theorem unseen_of_quad (t : Term k C) (u : Fin C → ℝ) (h : ∑ i, ∑ j, u i * lossHessian t i j * u j = 0) : Unseen k u := by
  obtain ⟨J, f, y⟩ := t
  unfold lossHessian at h
  cases k
  · simp only [hess_mse] at h
    rw [diag_quad (fun _ => 2) u] at h
    intro i
    have := (Finset.sum_eq_zero_iff_of_nonneg fun i _ => by positivity).mp h i (Finset.mem_univ i)
    simpa using this
  · intro i j
    simp only [hess_ce] at h
    rw [ce_quad f u i] at h
    have hz := (Finset.sum_eq_zero_iff_of_nonneg fun i _ => mul_nonneg (softmax_pos f i).le (sq_nonneg _)).mp h
    have key : ∀ i, u i = ∑ j, softmax f j * u j := by
      intro i
      have := hz i (Finset.mem_univ i)
      rcases mul_eq_zero.mp this with h | h
      · exact absurd h (softmax_pos f i).ne'
      · exact sub_eq_zero.mp (pow_eq_zero_iff two_ne_zero |>.mp h)
    rw [key i, key j]
  · simp only [hess_bce] at h
    rw [diag_quad (fun c => Real.sigmoid (f c) * (1 - Real.sigmoid (f c))) u] at h
    have hp : ∀ i, 0 < Real.sigmoid (f i) * (1 - Real.sigmoid (f i)) := fun i =>
      mul_pos (Real.sigmoid_pos _) (by have := Real.sigmoid_lt_one (f i); linarith)
    intro i
    have := (Finset.sum_eq_zero_iff_of_nonneg fun i _ => mul_nonneg (hp i).le (sq_nonneg _)).mp h i (Finset.mem_univ i)
    rcases mul_eq_zero.mp this with h | h
    · exact absurd h (hp i).ne'
    · exact pow_eq_zero_iff two_ne_zero |>.mp h

theorem hessian_unseen (t : Term k C) (u : Fin C → ℝ) (h : Unseen k u) (i : Fin C) : ∑ j, lossHessian t i j * u j = 0 := by
  obtain ⟨J, f, y⟩ := t
  unfold lossHessian
  cases k
  · exact Finset.sum_eq_zero fun j _ => by rw [h j, mul_zero]
  · simp only [hess_ce]
    have : ∀ j, u j = u i := fun j => h j i
    simp only [this, ← Finset.sum_mul, Finset.sum_sub_distrib, ← Finset.mul_sum, sum_softmax f i]
    simp
  · exact Finset.sum_eq_zero fun j _ => by rw [h j, mul_zero]

theorem gradient_unseen (t : Term k C) (u : Fin C → ℝ) (h : Unseen k u) :
    ∑ i, u i * pderiv (termLoss k t.y) i t.f = 0 := by
  obtain ⟨J, f, y⟩ := t
  cases k
  · exact Finset.sum_eq_zero fun j _ => by rw [h j, zero_mul]
  · simp only [pderiv_ce]
    have : ∀ j, u j = u y := fun j => h j y
    simp only [this, ← Finset.mul_sum, Finset.sum_sub_distrib, sum_softmax f y]
    simp
  · exact Finset.sum_eq_zero fun j _ => by rw [h j, zero_mul]

/-! ## The matrices as sums over all loss terms -/

theorem risk_terms (mean : Bool) (T : Nat) (H : Term k C → Fin C → Fin C → ℝ) (ds : List (List (Term k C)))
    (hT : ∀ d ∈ ds, d.length = T) (r c : Nat) :
    riskMatrix (redOf mean) (datumMatrix mean T H) ds r c =
      termWeight k mean ds.flatten.length C * (ds.flatten.map fun t => termSandwich t (H t) r c).sum := by
  unfold riskMatrix datumMatrix
  rw [List.sum_map_mul_left, sum_map_flatten (fun t => termSandwich t (H t) r c) ds, ← mul_assoc]
  congr 1
  rw [← reductionFactor_batch, ← length_flatten_const hT]
  unfold reductionFactor termWeight
  cases mean <;> cases k <;> simp

/-- The gradient of the empirical risk as sum over all loss terms. -/
theorem riskGrad_terms (mean : Bool) (T : Nat) (ds : List (List (Term k C))) (hT : ∀ d ∈ ds, d.length = T) (r : Nat) :
    riskValue (redOf mean) (fun d => termWeight k mean T C * (d.map fun t => termGrad t r).sum) ds =
      termWeight k mean ds.flatten.length C * (ds.flatten.map fun t => termGrad t r).sum := by
  unfold riskValue
  rw [List.sum_map_mul_left, sum_map_flatten (fun t => termGrad t r) ds, ← mul_assoc]
  congr 1
  rw [← reductionFactor_batch, ← length_flatten_const hT]
  unfold reductionFactor termWeight
  cases mean <;> cases k <;> simp

theorem mulPart_sum (N : Nat) (w : ℝ) (ts : List (Term k C)) (a : Term k C → Mat ℝ) (v : Nat → ℝ) (r : Nat) :
    mulPart N (fun r c => w * (ts.map fun t => a t r c).sum) v r = w * (ts.map fun t => mulPart N (a t) v r).sum := by
  unfold mulPart
  induction ts with
  | nil => simp
  | cons t ts ih =>
    simp only [List.map_cons, List.sum_cons, mul_add, add_mul, Finset.sum_add_distrib, ih]
    congr 1
    rw [Finset.mul_sum]
    exact Finset.sum_congr rfl fun c _ => by ring

theorem mulPart_sandwich (N : Nat) (t : Term k C) (H : Fin C → Fin C → ℝ) (v : Nat → ℝ) (r : Nat) :
    mulPart N (termSandwich t H) v r = ∑ i : Fin C, t.J i r * ∑ j, H i j * t.dir N v j := by
  unfold mulPart termSandwich Term.dir
  simp only [Finset.sum_mul, Finset.mul_sum]
  rw [Finset.sum_comm]
  refine Finset.sum_congr rfl fun i _ => ?_
  rw [Finset.sum_comm]
  exact Finset.sum_congr rfl fun j _ => Finset.sum_congr rfl fun c _ => by ring

theorem dot_sandwich (N : Nat) (t : Term k C) (g : Fin C → ℝ) (u : Nat → ℝ) :
    ∑ r ∈ Finset.range N, u r * ∑ i : Fin C, t.J i r * g i = ∑ i, t.dir N u i * g i := by
  unfold Term.dir
  simp only [Finset.sum_mul, Finset.mul_sum]
  rw [Finset.sum_comm]
  exact Finset.sum_congr rfl fun i _ => Finset.sum_congr rfl fun r _ => by ring

theorem dot_list_sum {τ : Type _} (N : Nat) (w : ℝ) (ts : List τ) (a : τ → Nat → ℝ) (u : Nat → ℝ) :
    ∑ r ∈ Finset.range N, u r * (w * (ts.map fun t => a t r).sum) =
      w * (ts.map fun t => ∑ r ∈ Finset.range N, u r * a t r).sum := by
  induction ts with
  | nil => simp
  | cons t ts ih =>
    simp only [List.map_cons, List.sum_cons, mul_add, Finset.sum_add_distrib, ih]
    congr 1
    rw [Finset.mul_sum]
    exact Finset.sum_congr rfl fun c _ => by ring

theorem termWeight_pos (k : LossKind) (mean : Bool) {n C : Nat} (hn : n ≠ 0) (hC : C ≠ 0) : 0 < termWeight k mean n C := by
  have h1 : (0 : ℝ) < n := by exact_mod_cast Nat.pos_of_ne_zero hn
  have h2 : (0 : ℝ) < C := by exact_mod_cast Nat.pos_of_ne_zero hC
  unfold termWeight
  split
  · split <;> positivity
  · exact zero_lt_one

theorem list_sum_eq_zero_of_nonneg {τ : Type _} (ts : List τ) (f : τ → ℝ) (h0 : ∀ t ∈ ts, 0 ≤ f t) (h : (ts.map f).sum = 0) :
    ∀ t ∈ ts, f t = 0 := by
  induction ts with
  | nil => exact fun t ht => by cases ht
  | cons t ts ih =>
    simp only [List.map_cons, List.sum_cons] at h
    have h1 := h0 t (by simp)
    have h2 : 0 ≤ (ts.map f).sum := List.sum_nonneg fun x hx => by
      obtain ⟨s, hs, rfl⟩ := List.mem_map.mp hx
      exact h0 s (by simp [hs])
    intro s hs
    rcases List.mem_cons.mp hs with rfl | hs
    · linarith
    · exact ih (fun s hs => h0 s (by simp [hs])) (by linarith) s hs

/-! ## Kernels -/

/-- Positive semi-definite matrices per term: the kernel of the sum is the intersection. -/
theorem sandwich_kernel (N : Nat) (w : ℝ) (hw : 0 < w) (ts : List (Term k C)) (H : Term k C → Fin C → Fin C → ℝ)
    (P : Term k C → (Fin C → ℝ) → Prop) (hpsd : ∀ t, ∀ u : Fin C → ℝ, 0 ≤ ∑ i, ∑ j, u i * H t i j * u j)
    (h1 : ∀ t u, ∑ i, ∑ j, u i * H t i j * u j = 0 → P t u) (h2 : ∀ t u, P t u → ∀ i, ∑ j, H t i j * u j = 0)
    (v : Nat → ℝ) :
    (∀ r < N, mulPart N (fun r c => w * (ts.map fun t => termSandwich t (H t) r c).sum) v r = 0) ↔
      ∀ t ∈ ts, P t (t.dir N v) := by
  constructor
  · intro h t ht
    have h0 : ∑ r ∈ Finset.range N, v r *
        mulPart N (fun r c => w * (ts.map fun t => termSandwich t (H t) r c).sum) v r = 0 :=
      Finset.sum_eq_zero fun r hr => by rw [h r (Finset.mem_range.mp hr), mul_zero]
    simp only [mulPart_sum, mulPart_sandwich] at h0
    rw [dot_list_sum] at h0
    simp only [dot_sandwich] at h0
    rcases mul_eq_zero.mp h0 with h0 | h0
    · exact absurd h0 hw.ne'
    have e : ∀ t : Term k C, ∑ i, t.dir N v i * ∑ j, H t i j * t.dir N v j =
        ∑ i, ∑ j, t.dir N v i * H t i j * t.dir N v j := fun t =>
      Finset.sum_congr rfl fun i _ => by
        rw [Finset.mul_sum]
        exact Finset.sum_congr rfl fun j _ => by ring
    simp only [e] at h0
    exact h1 t _ (list_sum_eq_zero_of_nonneg ts _ (fun t _ => hpsd t _) h0 t ht)
  · intro h r _
    rw [mulPart_sum]
    have : (ts.map fun t => mulPart N (termSandwich t (H t)) v r).sum = 0 := by
      refine List.sum_eq_zero fun x hx => ?_
      obtain ⟨t, ht, rfl⟩ := List.mem_map.mp hx
      rw [mulPart_sandwich]
      exact Finset.sum_eq_zero fun i _ => by rw [h2 t _ (h t ht) i, mul_zero]
    rw [this, mul_zero]

/-- C99: the kernel of the GGN are the directions in which no prediction changes, or, for `CrossEntropyLoss`, in which all
logits of a prediction change by the same amount. -/
theorem ggn_kernel (mean : Bool) (T N : Nat) (ds : List (List (Term k C))) (hT : ∀ d ∈ ds, d.length = T)
    (hn : ds.flatten ≠ []) (hC : C ≠ 0) (v : Nat → ℝ) :
    (∀ r < N, mulPart N (riskMatrix (redOf mean) (datumMatrix mean T lossHessian) ds) v r = 0) ↔
      ∀ t ∈ ds.flatten, Unseen k (t.dir N v) := by
  have e : riskMatrix (redOf mean) (datumMatrix mean T lossHessian) ds = fun r c =>
      termWeight k mean ds.flatten.length C * (ds.flatten.map fun t => termSandwich t (lossHessian t) r c).sum := by
    funext r c
    exact risk_terms mean T _ ds hT r c
  rw [e]
  exact sandwich_kernel N _ (termWeight_pos k mean (List.length_pos_of_ne_nil hn).ne' hC) _ lossHessian (fun _ => Unseen k)
    lossHessian_psd unseen_of_quad hessian_unseen v

/-- C99: the kernel of the empirical Fisher are the directions in which no loss term changes. -/
theorem ef_kernel (mean : Bool) (T N : Nat) (ds : List (List (Term k C))) (hT : ∀ d ∈ ds, d.length = T)
    (hn : ds.flatten ≠ []) (hC : C ≠ 0) (v : Nat → ℝ) :
    (∀ r < N, mulPart N (riskMatrix (redOf mean) (datumMatrix mean T lossGradOuter) ds) v r = 0) ↔
      ∀ t ∈ ds.flatten, ∑ p ∈ Finset.range N, termGrad t p * v p = 0 := by
  have e : riskMatrix (redOf mean) (datumMatrix mean T lossGradOuter) ds = fun r c =>
      termWeight k mean ds.flatten.length C * (ds.flatten.map fun t => termSandwich t (lossGradOuter t) r c).sum := by
    funext r c
    exact risk_terms mean T _ ds hT r c
  rw [e, sandwich_kernel N _ (termWeight_pos k mean (List.length_pos_of_ne_nil hn).ne' hC) _ lossGradOuter
    (fun t u => ∑ i, u i * pderiv (termLoss k t.y) i t.f = 0) lossGradOuter_psd]
  · refine forall₂_congr fun t _ => ?_
    rw [← dot_sandwich]
    refine Eq.congr ?_ rfl
    exact Finset.sum_congr rfl fun r _ => mul_comm _ _
  · intro t u h
    unfold lossGradOuter at h
    rw [outer_quad] at h
    rw [← pow_eq_zero_iff two_ne_zero, ← h]
    congr 1
    exact Finset.sum_congr rfl fun i _ => mul_comm _ _
  · intro t u h i
    unfold lossGradOuter
    have : ∀ j, pderiv (termLoss k t.y) i t.f * pderiv (termLoss k t.y) j t.f * u j =
        pderiv (termLoss k t.y) i t.f * (u j * pderiv (termLoss k t.y) j t.f) := fun j => by ring
    simp only [this, ← Finset.mul_sum, h, mul_zero]

/-! ## Ranges -/

/-- A vector that is orthogonal to the kernel of a symmetric matrix is in its range. -/
theorem mem_range_of_orthogonal {N : Nat} (M : Matrix (Fin N) (Fin N) ℝ) (hM : Mᵀ = M) (g : Fin N → ℝ)
    (h : ∀ v, M *ᵥ v = 0 → v ⬝ᵥ g = 0) : ∃ x, M *ᵥ x = g := by
  obtain ⟨U, d, hU, hU', hMd⟩ := exists_eigendecomposition M hM
  refine ⟨U *ᵥ fun j => (Uᵀ *ᵥ g) j / d j, ?_⟩
  have key : (fun j => d j * ((Uᵀ *ᵥ g) j / d j)) = Uᵀ *ᵥ g := by
    funext j
    by_cases hd : d j = 0
    · have := h (fun i => U i j) (by rw [(eigendecomposition_col hU hMd j).1, hd, zero_smul])
      have e : (Uᵀ *ᵥ g) j = 0 := this
      rw [e, hd]
      simp
    · field_simp
  rw [hMd, Matrix.mulVec_mulVec, Matrix.mul_assoc, hU, Matrix.mul_one, ← Matrix.mulVec_mulVec]
  have : diagonal d *ᵥ (fun j => (Uᵀ *ᵥ g) j / d j) = fun j => d j * ((Uᵀ *ᵥ g) j / d j) := by
    funext j
    rw [Matrix.mulVec_diagonal]
  rw [this, key, Matrix.mulVec_mulVec, hU', Matrix.one_mulVec]

/-- The same for leading parts. -/
theorem part_range_of_orthogonal (N : Nat) (M : Mat ℝ) (hM : ∀ r c, M r c = M c r) (g : Nat → ℝ)
    (h : ∀ v, (∀ r < N, mulPart N M v r = 0) → ∑ r ∈ Finset.range N, v r * g r = 0) :
    ∃ x : Nat → ℝ, ∀ r < N, mulPart N M x r = g r := by
  have hext : ∀ (v : Fin N → ℝ), ∀ c < N, ∀ hc : c < N, (fun i => if h : i < N then v ⟨i, h⟩ else 0) c = v ⟨c, hc⟩ := by
    intro v c _ hc
    simp [hc]
  have hmul : ∀ (v : Fin N → ℝ) (r : Fin N), mulPart N M (fun i => if h : i < N then v ⟨i, h⟩ else 0) r =
      ((fun i j : Fin N => M i j) *ᵥ v : Fin N → ℝ) r := by
    intro v r
    unfold mulPart
    rw [Finset.sum_range]
    exact Finset.sum_congr rfl fun c _ => by simp
  obtain ⟨x, hx⟩ := mem_range_of_orthogonal (fun i j : Fin N => M i j) (by ext i j; exact hM j i) (fun i => g i) (by
    intro v hv
    have := h (fun i => if h : i < N then v ⟨i, h⟩ else 0) fun r hr => by
      rw [hmul v ⟨r, hr⟩, hv]; rfl
    rw [Finset.sum_range] at this
    refine Eq.trans ?_ this
    exact Finset.sum_congr rfl fun c _ => by simp)
  exact ⟨fun i => if h : i < N then x ⟨i, h⟩ else 0, fun r hr => by rw [hmul x ⟨r, hr⟩, hx]⟩

theorem dot_termGrad (N : Nat) (t : Term k C) (v : Nat → ℝ) :
    ∑ r ∈ Finset.range N, v r * termGrad t r = ∑ i, t.dir N v i * pderiv (termLoss k t.y) i t.f :=
  dot_sandwich N t _ v

/-- C99: the gradient of the empirical risk is in the range of the GGN, for all three losses. -/
theorem gradient_in_ggn_range (mean : Bool) (T N : Nat) (ds : List (List (Term k C))) (hT : ∀ d ∈ ds, d.length = T)
    (hn : ds.flatten ≠ []) (hC : C ≠ 0) :
    ∃ x : Nat → ℝ, ∀ r < N, mulPart N (riskMatrix (redOf mean) (datumMatrix mean T lossHessian) ds) x r =
      riskValue (redOf mean) (fun d => termWeight k mean T C * (d.map fun t => termGrad t r).sum) ds := by
  refine part_range_of_orthogonal N _ (ggnLoss_symm_psd mean T N ds).1 _ fun v hv => ?_
  have hu := (ggn_kernel mean T N ds hT hn hC v).mp hv
  simp only [riskGrad_terms mean T ds hT]
  rw [dot_list_sum]
  have : (ds.flatten.map fun t => ∑ r ∈ Finset.range N, v r * termGrad t r).sum = 0 := by
    refine List.sum_eq_zero fun x hx => ?_
    obtain ⟨t, ht, rfl⟩ := List.mem_map.mp hx
    rw [dot_termGrad]
    exact gradient_unseen t _ (hu t ht)
  rw [this, mul_zero]

/-- C99: the gradient of the empirical risk is in the range of the empirical Fisher. -/
theorem gradient_in_ef_range (mean : Bool) (T N : Nat) (ds : List (List (Term k C))) (hT : ∀ d ∈ ds, d.length = T)
    (hn : ds.flatten ≠ []) (hC : C ≠ 0) :
    ∃ x : Nat → ℝ, ∀ r < N, mulPart N (riskMatrix (redOf mean) (datumMatrix mean T lossGradOuter) ds) x r =
      riskValue (redOf mean) (fun d => termWeight k mean T C * (d.map fun t => termGrad t r).sum) ds := by
  refine part_range_of_orthogonal N _ (ef_symm_psd mean T N ds).1 _ fun v hv => ?_
  have hu := (ef_kernel mean T N ds hT hn hC v).mp hv
  simp only [riskGrad_terms mean T ds hT]
  rw [dot_list_sum]
  have : (ds.flatten.map fun t => ∑ r ∈ Finset.range N, v r * termGrad t r).sum = 0 := by
    refine List.sum_eq_zero fun x hx => ?_
    obtain ⟨t, ht, rfl⟩ := List.mem_map.mp hx
    refine Eq.trans ?_ (hu t ht)
    exact Finset.sum_congr rfl fun r _ => mul_comm _ _
  rw [this, mul_zero]

/-! ## Ranks -/

/-- The leading `N × N` part. -/
def lead (N : Nat) (M : Mat ℝ) : Matrix (Fin N) (Fin N) ℝ := fun i j => M i j

theorem rank_list_sum_le {τ : Type _} {N c : Nat} (w : ℝ) (ts : List τ) (a : τ → Mat ℝ) (A : τ → Fin N → Fin c → ℝ)
    (B : τ → Fin c → Fin N → ℝ) (h : ∀ t ∈ ts, ∀ i j : Fin N, a t i j = ∑ q, A t i q * B t q j) :
    (lead N fun r k => w * (ts.map fun t => a t r k).sum).rank ≤ ts.length * c := by
  have e : (lead N fun r k => w * (ts.map fun t => a t r k).sum) =
      (Matrix.of fun i (x : Fin ts.length × Fin c) => w * A ts[x.1] i x.2) *
        (Matrix.of fun (x : Fin ts.length × Fin c) j => B ts[x.1] x.2 j) := by
    ext i j
    rw [Matrix.mul_apply, Fintype.sum_prod_type]
    have h1 : (ts.map fun t => a t i j).sum = ∑ m : Fin ts.length, a ts[m] i j :=
      (Fin.sum_univ_fun_getElem ts fun t => a t i j).symm
    show w * (ts.map fun t => a t i j).sum = _
    rw [h1, Finset.mul_sum]
    refine Finset.sum_congr rfl fun m _ => ?_
    rw [h ts[m] (List.getElem_mem _) i j, Finset.mul_sum]
    exact Finset.sum_congr rfl fun x _ => by simp only [Matrix.of_apply]; ring
  rw [e]
  refine (Matrix.rank_mul_le_left _ _).trans ((Matrix.rank_le_card_width _).trans ?_)
  simp

/-- Number of directions in prediction space that the loss Hessian can see. -/
def seenDims (k : LossKind) (C : Nat) : Nat := if k = .ce then C - 1 else C

/-- C99: the rank of the GGN is at most the number of loss terms times the output dimension (minus one for
`CrossEntropyLoss`). -/
theorem ggn_rank_le (mean : Bool) (T N : Nat) (ds : List (List (Term k C))) (hT : ∀ d ∈ ds, d.length = T) :
    (lead N (riskMatrix (redOf mean) (datumMatrix mean T lossHessian) ds)).rank ≤ ds.flatten.length * seenDims k C := by
  have e : riskMatrix (redOf mean) (datumMatrix mean T lossHessian) ds = fun r c =>
      termWeight k mean ds.flatten.length C * (ds.flatten.map fun t => termSandwich t (lossHessian t) r c).sum := by
    funext r c
    exact risk_terms mean T _ ds hT r c
  rw [e]
  unfold seenDims
  by_cases hk : k = .ce
  · rw [if_pos hk]
    cases C with
    | zero =>
      refine rank_list_sum_le (c := 0) _ _ _ (fun _ _ _ => 0) (fun _ _ _ => 0) fun t _ i j => ?_
      simp [termSandwich]
    | succ c =>
      refine rank_list_sum_le (c := c) _ _ _ (fun t i q => ∑ a : Fin (c + 1), t.J a i * lossHessian t a q.castSucc)
        (fun t q j => t.J q j - t.J c j) fun t _ i j => ?_
      unfold termSandwich
      have hu : ∀ a, ∑ q : Fin (c + 1), lossHessian t a q = 0 := by
        intro a
        have := hessian_unseen t (fun _ => 1) (by subst hk; exact fun _ _ => rfl) a
        simpa using this
      have hl : ∀ a, lossHessian t a (Fin.last c) = - ∑ q : Fin c, lossHessian t a q.castSucc := by
        intro a
        have := hu a
        rw [Fin.sum_univ_castSucc] at this
        linarith
      have key : ∀ a : Fin (c + 1), ∑ q : Fin (c + 1), t.J a i * lossHessian t a q * t.J q j =
          ∑ q : Fin c, t.J a i * lossHessian t a q.castSucc * (t.J q j - t.J c j) := by
        intro a
        rw [Fin.sum_univ_castSucc, hl a]
        simp only [Fin.val_castSucc, Fin.val_last, mul_sub, Finset.sum_sub_distrib, ← Finset.sum_mul, ← Finset.mul_sum]
        ring
      simp only [key, Finset.sum_mul]
      rw [Finset.sum_comm]
  · rw [if_neg hk]
    refine rank_list_sum_le (c := C) _ _ _ (fun t i q => ∑ a : Fin C, t.J a i * lossHessian t a q)
      (fun t q j => t.J q j) fun t _ i j => ?_
    unfold termSandwich
    simp only [Finset.sum_mul]
    rw [Finset.sum_comm]

/-- C99: the rank of the empirical Fisher is at most the number of loss terms. -/
theorem ef_rank_le (mean : Bool) (T N : Nat) (ds : List (List (Term k C))) (hT : ∀ d ∈ ds, d.length = T) :
    (lead N (riskMatrix (redOf mean) (datumMatrix mean T lossGradOuter) ds)).rank ≤ ds.flatten.length := by
  have e : riskMatrix (redOf mean) (datumMatrix mean T lossGradOuter) ds = fun r c =>
      termWeight k mean ds.flatten.length C * (ds.flatten.map fun t => termGrad t r * termGrad t c).sum := by
    funext r c
    exact ef_matrix mean T ds hT r c
  rw [e]
  refine le_of_le_of_eq (rank_list_sum_le (c := 1) _ _ _ (fun t i _ => termGrad t i) (fun t _ j => termGrad t j)
    fun t _ i j => ?_) (mul_one _)
  simp

/-! ## The Monte-Carlo Fisher -/

/-- All terms with their draws. -/
def LabeledBatch.terms {S : Nat} (lb : LabeledBatch k C S) : List (Term k C × (Fin S → TermDraw k C)) :=
  List.ofFn fun m : Fin lb.data.flatten.length => (lb.data.flatten[m], fun s => lb.draws s m)

theorem mcMatrix_terms {S : Nat} (mean : Bool) (n T : Nat) (lbs : List (LabeledBatch k C S)) (r c : Nat) :
    mcMatrix mean n T lbs r c = termWeight k mean (n * T) C *
      ((lbs.flatMap LabeledBatch.terms).map fun x => termSandwich x.1 (sampleOuter x.1.f x.2) r c).sum := by
  unfold mcMatrix
  congr 1
  induction lbs with
  | nil => rfl
  | cons lb lbs ih =>
    rw [List.flatMap_cons, List.map_append, List.sum_append, List.map_cons, List.sum_cons, ih]
    congr 1
    rw [LabeledBatch.terms, List.map_ofFn, List.sum_ofFn]
    rfl

/-- C99: whatever is drawn, the rank of the Monte-Carlo Fisher is at most the number of loss terms times `mc_samples`. -/
theorem mc_rank_le {S : Nat} (mean : Bool) (n T N : Nat) (lbs : List (LabeledBatch k C S)) :
    (lead N (mcMatrix mean n T lbs)).rank ≤ (lbs.map fun lb => lb.data.flatten.length).sum * S := by
  have e : mcMatrix mean n T lbs = fun r c => termWeight k mean (n * T) C *
      ((lbs.flatMap LabeledBatch.terms).map fun x => termSandwich x.1 (sampleOuter x.1.f x.2) r c).sum := by
    funext r c
    exact mcMatrix_terms mean n T lbs r c
  have hl : (lbs.flatMap LabeledBatch.terms).length = (lbs.map fun lb => lb.data.flatten.length).sum := by
    rw [List.length_flatMap]
    refine congrArg List.sum (List.map_congr_left fun lb _ => ?_)
    simp [LabeledBatch.terms]
  rw [e, ← hl]
  refine rank_list_sum_le (c := S) _ _ _
    (fun x i s => (∑ a : Fin C, x.1.J a i * wouldBeGrad k x.1.f (x.2 s) a) / S)
    (fun x s j => ∑ a : Fin C, x.1.J a j * wouldBeGrad k x.1.f (x.2 s) a) fun x _ i j => ?_
  unfold termSandwich sampleOuter
  have : ∀ s : Fin S, (∑ a : Fin C, x.1.J a i * wouldBeGrad k x.1.f (x.2 s) a) / S *
      (∑ a : Fin C, x.1.J a j * wouldBeGrad k x.1.f (x.2 s) a) = ∑ a : Fin C, ∑ b : Fin C,
        x.1.J a i * (wouldBeGrad k x.1.f (x.2 s) a * wouldBeGrad k x.1.f (x.2 s) b / S) * x.1.J b j := by
    intro s
    rw [Finset.sum_div, Finset.sum_mul_sum]
    exact Finset.sum_congr rfl fun a _ => Finset.sum_congr rfl fun b _ => by ring
  refine Eq.trans ?_ (Finset.sum_congr rfl fun s _ => (this s).symm)
  rw [Finset.sum_comm (s := (Finset.univ : Finset (Fin S)))]
  refine Finset.sum_congr rfl fun a _ => ?_
  rw [Finset.sum_comm (s := (Finset.univ : Finset (Fin S)))]
  refine Finset.sum_congr rfl fun b _ => ?_
  rw [Finset.sum_div, Finset.mul_sum, Finset.sum_mul]

theorem wouldBe_unseen (f : Fin C → ℝ) (z : TermDraw k C) (u : Fin C → ℝ) (h : Unseen k u) :
    ∑ i, wouldBeGrad k f z i * u i = 0 := by
  cases k
  · exact Finset.sum_eq_zero fun j _ => by rw [h j, mul_zero]
  · change Fin C at z
    have e : ∀ i, u i = u z := fun i => h i z
    simp only [e, ← Finset.sum_mul]
    have h1 : ∑ i, (if i = z then (1 : ℝ) else 0) = 1 := (Finset.sum_ite_eq' Finset.univ z fun _ => (1 : ℝ)).trans (by simp)
    have h2 : ∑ i, wouldBeGrad .ce f z i = 0 := by
      unfold wouldBeGrad
      rw [Finset.sum_sub_distrib, sum_softmax f z, h1, sub_self]
    rw [h2, zero_mul]
  · exact Finset.sum_eq_zero fun j _ => by rw [h j, mul_zero]

/-- C99: whatever is drawn, what the GGN maps to zero is mapped to zero by the Monte-Carlo Fisher. -/
theorem mc_kernel {S : Nat} (mean : Bool) (n T N : Nat) (lbs : List (LabeledBatch k C S)) (v : Nat → ℝ)
    (h : ∀ lb ∈ lbs, ∀ t ∈ lb.data.flatten, Unseen k (t.dir N v)) (r : Nat) : mulPart N (mcMatrix mean n T lbs) v r = 0 := by
  have e : mulPart N (mcMatrix mean n T lbs) v r = termWeight k mean (n * T) C *
      (lbs.map fun lb => ∑ m : Fin lb.data.flatten.length, mulPart N (termSandwich lb.data.flatten[m]
        (sampleOuter lb.data.flatten[m].f fun s => lb.draws s m)) v r).sum := by
    unfold mulPart mcMatrix
    simp only [mul_assoc, ← Finset.mul_sum]
    congr 1
    clear h
    induction lbs with
    | nil => simp
    | cons lb lbs ih =>
      simp only [List.map_cons, List.sum_cons, add_mul, Finset.sum_add_distrib, ih, Finset.sum_mul]
      rw [Finset.sum_comm]
  rw [e]
  refine mul_eq_zero_of_right _ (List.sum_eq_zero fun x hx => ?_)
  obtain ⟨lb, hlb, rfl⟩ := List.mem_map.mp hx
  refine Finset.sum_eq_zero fun m _ => ?_
  rw [mulPart_sandwich]
  refine Finset.sum_eq_zero fun i _ => mul_eq_zero_of_right _ ?_
  unfold sampleOuter
  have hu := h lb hlb lb.data.flatten[m] (List.getElem_mem _)
  simp only [div_mul_eq_mul_div, ← Finset.sum_div, Finset.sum_mul, mul_assoc]
  rw [Finset.sum_comm]
  simp only [← Finset.mul_sum, wouldBe_unseen _ _ _ hu, mul_zero, Finset.sum_const_zero, zero_div]

/-! ## The operators -/

/-- A matrix whose range contains the gradient solves the system on the operator. -/
theorem solvable_of_range (op : LinOp ℝ) (shapes : List (List Nat)) (hin : op.inShape = shapes) (hout : op.outShape = shapes)
    (M : Mat ℝ) (hM : Represents op M) (G : List (Tensor ℝ)) (hG : HasVec G shapes)
    (h : ∃ x : Nat → ℝ, ∀ r < total shapes, mulPart (total shapes) M x r = (flatData G).getD r 0) :
    ∃ X Y, HasShapes X shapes 1 ∧ (op.matmat X).1 = .ok Y ∧ HasShapes Y shapes 1 ∧ flatData Y = flatData G := by
  obtain ⟨x, hx⟩ := h
  obtain ⟨X, hX, hXd⟩ := exists_flat 1 shapes ((List.range (total shapes)).map x) (by simp)
  obtain ⟨Y, y1, y2, y3⟩ := hM 1 X (hin ▸ hX)
  refine ⟨X, Y, hX, y1, hout ▸ y2, ?_⟩
  have hr : op.nrows = total shapes := by unfold LinOp.nrows LinOp.outFlat; rw [hout]; rfl
  have hc : op.ncols = total shapes := by unfold LinOp.ncols LinOp.inFlat; rw [hin]; rfl
  rw [hr, hc] at y3
  have hgl : (flatData G).length = total shapes := hG.flatData_length
  refine List.ext_getElem (by rw [y3.1, hgl, Nat.mul_one]) fun r h1 h2 => ?_
  have hrt : r < total shapes := hgl ▸ h2
  have hg : ∀ (l : List ℝ) (h : r < l.length), l.getD r 0 = l[r] := fun l h => by simp [h]
  rw [← hg _ h1, ← hg _ h2, ← hx r hrt]
  have := y3.2 r hrt 0 (by omega)
  simp only [Nat.mul_one, Nat.add_zero] at this
  rw [this]
  refine Finset.sum_congr rfl fun c hc => ?_
  rw [hXd]
  congr 1
  simp [List.getD_eq_getElem?_getD, List.getElem?_map, List.getElem?_range (Finset.mem_range.mp hc)]

/-- C99: for every data set, batching and reduction, the gradient returned by `gradient_and_loss` is the result of a
product of the GGN with some vector, and of the empirical Fisher with some vector: the systems of the *undamped* natural
gradient have solutions. -/
theorem natural_gradient_solvable (shapes : List (List Nat)) (hshapes : shapes ≠ []) (mean : Bool) (T : Nat) (hT0 : T ≠ 0)
    (hC : C ≠ 0) (batches : List (List (List (Term k C)))) (hb0 : batches ≠ []) (hne : ∀ b ∈ batches, b ≠ [])
    (hT : ∀ b ∈ batches, ∀ d ∈ b, d.length = T) :
    ∃ G L, gradientAndLoss shapes (redOf mean) (inferNData List.length batches none) List.length
        (some fun b => lossGradBatch shapes mean b.flatten) batches = .ok (G, L) ∧ HasVec G shapes ∧
      (∃ X Y, HasShapes X shapes 1 ∧ ((curvatureOp shapes (redOf mean) (inferNData List.length batches none) List.length
        (fun b => ggnLossBatch shapes mean b.flatten) batches).matmat X).1 = .ok Y ∧ HasShapes Y shapes 1 ∧
        flatData Y = flatData G) ∧
      ∃ X Y, HasShapes X shapes 1 ∧ ((curvatureOp shapes (redOf mean) (inferNData List.length batches none) List.length
        (fun b => efBatch shapes mean b.flatten) batches).matmat X).1 = .ok Y ∧ HasShapes Y shapes 1 ∧
        flatData Y = flatData G := by
  have hT' : ∀ d ∈ batches.flatten, d.length = T := fun d hd => by
    obtain ⟨b, h1, h2⟩ := List.mem_flatten.mp hd; exact hT b h1 d h2
  have hn : batches.flatten.flatten ≠ [] := by
    obtain ⟨b, bs, rfl⟩ := List.exists_cons_of_ne_nil hb0
    obtain ⟨d, ds, rfl⟩ := List.exists_cons_of_ne_nil (hne b (by simp))
    intro h0
    have hd := hT (d :: ds) (by simp) d (by simp)
    have : d = [] := by simpa using (List.flatten_eq_nil_iff.mp h0) d (by simp)
    rw [this] at hd
    exact hT0 hd.symm
  obtain ⟨G, g1, g2, g3⟩ := gradientAndLoss_spec shapes (redOf mean) (redOf_cases mean)
    (fun d => termWeight k mean T C * (d.map fun t => termLoss k t.y t.f).sum)
    (fun d r => termWeight k mean T C * (d.map fun t => termGrad t r).sum)
    (fun b => lossGradBatch shapes mean b.flatten) batches hne
    (fun b hb => (lossGradBatch_spec shapes mean T b (hT b hb)).1)
    (fun b hb => (lossGradBatch_spec shapes mean T b (hT b hb)).2.1)
    (fun b hb => (lossGradBatch_spec shapes mean T b (hT b hb)).2.2)
  refine ⟨G, _, g1, g2, ?_, ?_⟩
  · obtain ⟨x, hx⟩ := gradient_in_ggn_range mean T (total shapes) batches.flatten hT' hn hC
    exact solvable_of_range _ shapes (curvatureOp_inShape _ _ _ _ _ _) (curvatureOp_outShape _ _ _ _ _ _) _
      (ggnLossOp_represents shapes hshapes mean T batches hne hT) G g2 ⟨x, fun r hr => (hx r hr).trans (g3 r hr).symm⟩
  · obtain ⟨x, hx⟩ := gradient_in_ef_range mean T (total shapes) batches.flatten hT' hn hC
    exact solvable_of_range _ shapes (curvatureOp_inShape _ _ _ _ _ _) (curvatureOp_outShape _ _ _ _ _ _) _
      (efOp_represents shapes hshapes mean T batches hne hT) G g2 ⟨x, fun r hr => (hx r hr).trans (g3 r hr).symm⟩

/-! ## The Monte-Carlo Fisher need not contain the gradient in its range -/

/-- A single datum of class 0 with three classes; the network is the identity at zero. -/
noncomputable def rangeTerm : Term .ce 3 := ⟨fun c p => if c = p then 1 else 0, fun _ => 0, 0⟩

/-- A generator that draws class 1. -/
def rangeRng : Rng .ce 3 := ⟨Unit, fun _ _ => (), fun _ _ _ => (fun _ _ => (1 : Fin 3), ())⟩

noncomputable def rangeCfg : McConfig .ce 3 := ⟨[[3]], true, 0, 1, 1, [[[rangeTerm]]]⟩

theorem softmax_zero (c : Fin 3) : softmax (fun _ => (0 : ℝ)) c = 1 / 3 := by
  simp [softmax]

/-- C99: the gradient need not be in the range of the Monte-Carlo Fisher. -/
theorem gradient_not_in_mc_range (st : McState rangeRng) :
    ∃ G L, gradientAndLoss [[3]] .mean 1 List.length (some fun b => lossGradBatch [[3]] true b.flatten) rangeCfg.data =
        .ok (G, L) ∧
      ∀ X, HasShapes X [[3]] 1 → ∃ Y, ((mcOp rangeRng rangeCfg st).matmat X).1 = .ok Y ∧ flatData Y ≠ flatData G := by
  have hl : ∀ b ∈ rangeCfg.data, ∀ d ∈ b, d.length = 1 := by simp [rangeCfg]
  obtain ⟨G, g1, g2, g3⟩ := gradientAndLoss_spec [[3]] .mean (Or.inl rfl)
    (fun d : List (Term .ce 3) => termWeight .ce true 1 3 * (d.map fun t => termLoss .ce t.y t.f).sum)
    (fun d r => termWeight .ce true 1 3 * (d.map fun t => termGrad t r).sum)
    (fun b => lossGradBatch [[3]] true b.flatten) rangeCfg.data (by simp [rangeCfg])
    (fun b hb => (lossGradBatch_spec [[3]] true 1 b (hl b hb)).1)
    (fun b hb => (lossGradBatch_spec [[3]] true 1 b (hl b hb)).2.1)
    (fun b hb => (lossGradBatch_spec [[3]] true 1 b (hl b hb)).2.2)
  refine ⟨G, _, g1, fun X hX => ?_⟩
  have hrep := mcOp_draws rangeRng rangeCfg (by simp [rangeCfg]) (by simp [rangeCfg]) 1 (by simp [rangeCfg]) hl
    (fun _ _ => trivial) (Or.inl (by simp [rangeCfg])) st
  obtain ⟨Y, y1, y2, y3⟩ := hrep 1 X hX
  refine ⟨Y, y1, fun h => ?_⟩
  have hg : ∀ r < 3, (flatData G).getD r 0 = softmax (fun _ : Fin 3 => (0 : ℝ)) 0 - if r = 0 then 1 else 0 := by
    intro r hr
    rw [g3 r hr]
    interval_cases r <;>
    simp [riskValue, rangeCfg, termWeight, termGrad, rangeTerm, pderiv_ce, Fin.sum_univ_three, softmax_zero]
  have hy : ∀ r < 3, (flatData Y).getD r 0 = _ := fun r hr => by
    have := y3.2 r hr 0 (by omega)
    simpa only [Nat.mul_one, Nat.add_zero] using this
  have h0 := hy 0 (by omega)
  have h2 := hy 2 (by omega)
  rw [h, hg _ (by omega)] at h0 h2
  have hm : ∀ c, mcMatrix true 1 1 (drawAll rangeRng 1 [[[rangeTerm]]] ()) 0 c =
      mcMatrix true 1 1 (drawAll rangeRng 1 [[[rangeTerm]]] ()) 2 c := by
    intro c
    simp [mcMatrix, drawAll, rangeRng, termSandwich, sampleOuter, wouldBeGrad, rangeTerm, Fin.sum_univ_three, softmax_zero]
  have e : (if (0 : Nat) = 0 then (1 : ℝ) else 0) = if (2 : Nat) = 0 then 1 else 0 := by
    have : softmax (fun _ : Fin 3 => (0 : ℝ)) 0 - (if (0 : Nat) = 0 then (1 : ℝ) else 0) =
        softmax (fun _ : Fin 3 => (0 : ℝ)) 0 - if (2 : Nat) = 0 then (1 : ℝ) else 0 := by
      rw [h0, h2]
      exact Finset.sum_congr rfl fun c _ => congrArg (· * _) (hm c)
    linarith
  norm_num at e

/-! ## Non-vacuity -/

/-- Three terms with two classes: the GGN has rank at most three, not only six. -/
example : (lead 3 (riskMatrix (redOf true) (datumMatrix true 1 lossHessian) ceData.flatten)).rank ≤ 3 := by
  have := ggn_rank_le true 1 3 ceData.flatten (by simp [ceData])
  simpa [ceData, seenDims] using this

/-- The empirical Fisher of the same data. -/
example : (lead 3 (riskMatrix (redOf true) (datumMatrix true 1 lossGradOuter) ceData.flatten)).rank ≤ 3 := by
  have := ef_rank_le true 1 3 ceData.flatten (by simp [ceData])
  simpa [ceData] using this

/-- One term, one sample: rank at most one, while the GGN of the same datum may have rank two. -/
example : (lead 3 (mcMatrix true 1 1 (drawAll rangeRng 1 [[[rangeTerm]]] ()))).rank ≤ 1 := by
  have := mc_rank_le true 1 1 3 (drawAll rangeRng 1 [[[rangeTerm]]] ())
  simpa [drawAll] using this

/-- The third parameter of `rangeTerm`'s network shifts a single logit: it is not in the kernel. Shifting all logits is. -/
example : (∀ r < 3, mulPart 3 (riskMatrix (redOf true) (datumMatrix true 1 lossHessian) [[rangeTerm]]) (fun _ => 1) r = 0) ∧
    ¬ ∀ r < 3, mulPart 3 (riskMatrix (redOf true) (datumMatrix true 1 lossHessian) [[rangeTerm]])
      (fun p => if p = 2 then 1 else 0) r = 0 := by
  rw [ggn_kernel true 1 3 [[rangeTerm]] (by simp) (by simp) (by simp),
    ggn_kernel true 1 3 [[rangeTerm]] (by simp) (by simp) (by simp)]
  constructor
  · intro t ht
    have : t = rangeTerm := by simpa using ht
    subst this
    intro i j
    fin_cases i <;> fin_cases j <;> simp [Term.dir, rangeTerm]
  · intro h
    have := h rangeTerm (by simp) 0 2
    simp [Term.dir, rangeTerm] at this

/-- Two mini-batches of different sizes: both systems can be solved. -/
example : ∃ G L, gradientAndLoss [[2], [1, 1]] .mean (inferNData List.length ceData none) List.length
      (some fun b => lossGradBatch [[2], [1, 1]] true b.flatten) ceData = .ok (G, L) ∧
    ∃ X Y, HasShapes X [[2], [1, 1]] 1 ∧ ((curvatureOp [[2], [1, 1]] .mean (inferNData List.length ceData none) List.length
      (fun b => ggnLossBatch [[2], [1, 1]] true b.flatten) ceData).matmat X).1 = .ok Y ∧ flatData Y = flatData G := by
  obtain ⟨G, L, h1, -, ⟨X, Y, hX, hY, -, h⟩, -⟩ := natural_gradient_solvable [[2], [1, 1]] (by simp) true 1 (by simp) (by simp)
    ceData (by simp [ceData]) (by simp [ceData]) (by simp [ceData])
  exact ⟨G, L, h1, X, Y, hX, hY, h⟩

end Curvlinops
