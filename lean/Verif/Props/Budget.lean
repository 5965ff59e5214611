import Verif.Model.Inverse
import Verif.Props.Estimators
import Verif.Props.Lanczos
import Verif.Props.SpectrumAverages

/-!
# C104: numbers of matrix-vector products
-/

namespace Curvlinops

open Matrix

variable {α W : Type _}

/-! ## Estimators -/

/-- Specification: `count` counts the products, also those that raise. -/
structure Counts (E : Ext α W) (count : W → Nat) : Prop where
  mul : ∀ v w, count (E.mul v w).2 = count w + 1
  bits : ∀ n w, count (E.bits n w).2 = count w
  randn : ∀ n w, count (E.randn n w).2 = count w

theorem randomVector_count [Ring α] {E : Ext α W} {count : W → Nat} (h : Counts E count) (n : Nat) (d : DistArg) (w : W) :
    count (randomVector E n d w).2 = count w := by
  unfold randomVector
  split
  · split_ifs
    · exact h.bits n w
    · exact h.randn n w
    · rfl
  · rfl

theorem drawAndMul_count [Ring α] {E : Ext α W} {count : W → Nat} (h : Counts E count) (n : Nat) (d : DistArg) (w : W) :
    count (drawAndMul E n d w).2 ≤ count w + 1 ∧
    (∀ r, (drawAndMul E n d w).1 = .ok r → count (drawAndMul E n d w).2 = count w + 1) := by
  have h1 := randomVector_count h n d w
  unfold drawAndMul
  rcases hr : randomVector E n d w with ⟨_ | v, w1⟩
  · rw [hr] at h1
    simp only at h1 ⊢
    exact ⟨by omega, fun r h => (by cases h)⟩
  · rw [hr] at h1
    simp only at h1 ⊢
    have h2 := h.mul v w1
    rcases hm : E.mul v w1 with ⟨_ | y, w2⟩
    · rw [hm] at h2
      simp only at h2 ⊢
      exact ⟨by omega, fun r h => (by cases h)⟩
    · rw [hm] at h2
      simp only at h2 ⊢
      exact ⟨by omega, fun _ _ => by omega⟩

/-- C104: a sample of the Hutchinson estimators needs one product, and a failing one at most one. -/
theorem hutch_budget [Ring α] (E : Ext α W) (count : W → Nat) (h : Counts E count) (n : Nat) (d : DistArg) (w : W) :
    (count (hutchTrace E n d w).2 ≤ count w + 1 ∧
      ∀ r, (hutchTrace E n d w).1 = .ok r → count (hutchTrace E n d w).2 = count w + 1) ∧
    (count (hutchDiag E n d w).2 ≤ count w + 1 ∧
      ∀ r, (hutchDiag E n d w).1 = .ok r → count (hutchDiag E n d w).2 = count w + 1) ∧
    (count (hutchNorm E n d w).2 ≤ count w + 1 ∧
      ∀ r, (hutchNorm E n d w).1 = .ok r → count (hutchNorm E n d w).2 = count w + 1) := by
  obtain ⟨h1, h2⟩ := drawAndMul_count h n d w
  simp only [hutchTrace, hutchDiag, hutchNorm]
  rcases hr : drawAndMul E n d w with ⟨_ | r, w1⟩
  · rw [hr] at h1
    simp only at h1 ⊢
    refine ⟨⟨h1, fun r h => (by cases h)⟩, ⟨h1, fun r h => (by cases h)⟩, ⟨h1, fun r h => (by cases h)⟩⟩
  · rw [hr] at h1 h2
    simp only at h1 h2 ⊢
    have := h2 r rfl
    exact ⟨⟨h1, fun _ _ => this⟩, ⟨h1, fun _ _ => this⟩, ⟨h1, fun _ _ => this⟩⟩

theorem basisLoop_count [Ring α] {E : Ext α W} {count : W → Nat} (h : Counts E count) (n : Nat) (d : DistArg) (k : Nat) (w : W) :
    count (basisLoop E n d k w).2 ≤ count w + k ∧
    (∀ r, (basisLoop E n d k w).1 = .ok r → count (basisLoop E n d k w).2 = count w + k) := by
  induction k generalizing w with
  | zero => exact ⟨le_refl _, fun _ _ => rfl⟩
  | succ k ih =>
    obtain ⟨h1, h2⟩ := drawAndMul_count h n d w
    rw [basisLoop]
    rcases hr : drawAndMul E n d w with ⟨_ | r, w1⟩
    · rw [hr] at h1
      simp only at h1 ⊢
      exact ⟨by omega, fun r h => (by cases h)⟩
    · rw [hr] at h2
      have h2' : count w1 = count w + 1 := h2 r rfl
      obtain ⟨i1, i2⟩ := ih w1
      simp only
      rcases hb : basisLoop E n d k w1 with ⟨_ | bs, w2⟩
      · rw [hb] at i1
        simp only at i1 ⊢
        exact ⟨by omega, fun r h => (by cases h)⟩
      · rw [hb] at i2
        have i2' : count w2 = count w1 + k := i2 bs rfl
        simp only
        exact ⟨by omega, fun _ _ => by omega⟩

theorem traceLoop_count [Ring α] {E : Ext α W} {count : W → Nat} (h : Counts E count) (qs : List (List α)) (t : α) (w : W) :
    count (traceLoop E qs t w).2.2 ≤ count w + qs.length ∧
    ((traceLoop E qs t w).1 = .ok () → count (traceLoop E qs t w).2.2 = count w + qs.length) := by
  induction qs generalizing t w with
  | nil => exact ⟨le_refl _, fun _ => rfl⟩
  | cons q qs ih =>
    rw [traceLoop]
    have h2 := h.mul q w
    rcases hm : E.mul q w with ⟨_ | y, w2⟩
    · rw [hm] at h2
      simp only [List.length_cons] at h2 ⊢
      exact ⟨by omega, fun h => (by cases h)⟩
    · rw [hm] at h2
      simp only [List.length_cons] at h2 ⊢
      obtain ⟨i1, i2⟩ := ih (t + npDot q y) w2
      exact ⟨by omega, fun h => by have := i2 h; omega⟩

theorem maybeCompute_count [Ring α] {E : Ext α W} {count : W → Nat} (h : Counts E count) (s : HutchPP α) (w : W) :
    count (s.maybeCompute E w).2.2 ≤ count w + 2 * s.basisDim.toNat ∧
    (s.Q = none → (s.maybeCompute E w).1 = .ok () →
      count (s.maybeCompute E w).2.2 = count w + 2 * s.basisDim.toNat) ∧
    ((s.maybeCompute E w).1 = .ok () → (s.maybeCompute E w).2.1.Q.isSome ∧ (s.maybeCompute E w).2.1.tr.isSome) := by
  unfold HutchPP.maybeCompute
  by_cases hc : (s.Q.isSome && s.tr.isSome) = true
  · rw [if_pos hc]
    simp only [Bool.and_eq_true] at hc
    refine ⟨by simp, fun hq => ?_, fun _ => hc⟩
    rw [hq] at hc
    cases hc.1
  · rw [if_neg hc]
    obtain ⟨b1, b2⟩ := basisLoop_count h s.dim s.basisDist s.basisDim.toNat w
    rcases hb : basisLoop E s.dim s.basisDist s.basisDim.toNat w with ⟨_ | cols, w1⟩
    · rw [hb] at b1
      simp only at b1 ⊢
      exact ⟨by omega, fun _ h => (by cases h), fun h => (by cases h)⟩
    · rw [hb] at b2
      have b2' : count w1 = count w + s.basisDim.toNat := b2 cols rfl
      simp only
      rcases hs : columnStack cols with _ | v
      · simp only
        exact ⟨by omega, fun _ h => (by cases h), fun h => (by cases h)⟩
      · simp only
        obtain ⟨t1, t2⟩ := traceLoop_count h ((E.qr cols).take s.basisDim.toNat) 0 w1
        have hl : ((E.qr cols).take s.basisDim.toNat).length ≤ s.basisDim.toNat := by
          rw [List.length_take]; exact Nat.min_le_left _ _
        rcases ht : traceLoop E ((E.qr cols).take s.basisDim.toNat) 0 w1 with ⟨_ | _, t, w2⟩
        · rw [ht] at t1
          simp only at t1 ⊢
          exact ⟨by omega, fun _ h => (by cases h), fun h => (by cases h)⟩
        · rw [ht] at t1 t2
          have t2' : count w2 = count w1 + ((E.qr cols).take s.basisDim.toNat).length := t2 rfl
          simp only
          split_ifs with hq
          · exact ⟨by simp only; omega, fun _ h => (by cases h), fun h => (by cases h)⟩
          · rw [List.length_take] at t2'
            refine ⟨by simp only; omega, fun _ _ => by simp only; omega, fun _ => ⟨rfl, rfl⟩⟩

theorem sample_count [Ring α] {E : Ext α W} {count : W → Nat} (h : Counts E count) (s : HutchPP α) (d : DistArg) (w : W) :
    count (s.sample E d w).2.2 ≤ count w + 2 * s.basisDim.toNat + 1 ∧
    (s.Q = none → ∀ x, (s.sample E d w).1 = .ok x → count (s.sample E d w).2.2 = count w + 2 * s.basisDim.toNat + 1) ∧
    (∀ x, (s.sample E d w).1 = .ok x → (s.sample E d w).2.1.Q.isSome ∧ (s.sample E d w).2.1.tr.isSome) := by
  obtain ⟨m1, m2, m3⟩ := maybeCompute_count h s w
  unfold HutchPP.sample
  rcases hm : s.maybeCompute E w with ⟨_ | _, s1, w1⟩
  · rw [hm] at m1
    simp only at m1 ⊢
    exact ⟨by omega, fun _ x h => (by cases h), fun x h => (by cases h)⟩
  · rw [hm] at m1 m2 m3
    simp only at m1 m2 m3 ⊢
    have hv := randomVector_count h s1.dim d w1
    rcases hr : randomVector E s1.dim d w1 with ⟨_ | v, w2⟩
    · rw [hr] at hv
      simp only at hv ⊢
      exact ⟨by omega, fun _ x h => (by cases h), fun x h => (by cases h)⟩
    · rw [hr] at hv
      simp only at hv ⊢
      obtain ⟨hq, ht⟩ := m3 trivial
      obtain ⟨Q, hQ⟩ := Option.isSome_iff_exists.mp hq
      obtain ⟨t, ht⟩ := Option.isSome_iff_exists.mp ht
      simp only [hQ, ht]
      have hmul := h.mul (projectOut Q v) w2
      rcases hy : E.mul (projectOut Q v) w2 with ⟨_ | y, w3⟩
      · rw [hy] at hmul
        simp only at hmul ⊢
        exact ⟨by omega, fun _ x h => (by cases h), fun x h => (by cases h)⟩
      · rw [hy] at hmul
        simp only at hmul ⊢
        refine ⟨by omega, fun hn x _ => ?_, fun _ _ => by rw [hQ, ht]; exact ⟨rfl, rfl⟩⟩
        have := m2 hn trivial
        omega

theorem sample_cached_count [Ring α] {E : Ext α W} {count : W → Nat} (h : Counts E count) (s : HutchPP α)
    (hQ : s.Q.isSome) (ht : s.tr.isSome) (d : DistArg) (w : W) :
    count (s.sample E d w).2.2 ≤ count w + 1 ∧ (s.sample E d w).2.1 = s ∧
    (∀ x, (s.sample E d w).1 = .ok x → count (s.sample E d w).2.2 = count w + 1) := by
  obtain ⟨Q, hQ⟩ := Option.isSome_iff_exists.mp hQ
  obtain ⟨t, ht⟩ := Option.isSome_iff_exists.mp ht
  obtain ⟨hm, hs⟩ := hutchpp_cached E s Q t hQ ht d w
  have hv := randomVector_count h s.dim d w
  rcases hr : randomVector E s.dim d w with ⟨_ | v, w2⟩
  · rw [hr] at hv
    simp only [HutchPP.sample, hm, hr] at hv hs ⊢
    exact ⟨by omega, trivial, fun x h => (by cases h)⟩
  · rw [hr] at hv
    have hmul := h.mul (projectOut Q v) w2
    rcases hy : E.mul (projectOut Q v) w2 with ⟨_ | y, w3⟩
    · rw [hy] at hmul
      simp only [HutchPP.sample, hm, hr, hQ, ht, hy] at hv hmul ⊢
      exact ⟨by omega, trivial, fun x h => (by cases h)⟩
    · rw [hy] at hmul
      simp only [HutchPP.sample, hm, hr, hQ, ht, hy] at hv hmul ⊢
      exact ⟨by omega, trivial, fun _ _ => by omega⟩

/-- C104: as the documentation says, `s2` samples of a new Hutch++ estimator with `basis_dim = s1` need `2 * s1 + s2`
products: as many as this number of samples of the Hutchinson estimator. -/
theorem hutchpp_budget [Ring α] (E : Ext α W) (count : W → Nat) (h : Counts E count) (shape : List Nat) (s1 : Nat)
    (dist : DistArg) (s : HutchPP α) (hs : mkHutchPP shape (some (s1 : Int)) dist = .ok s) (d : DistArg) (ds : List DistArg)
    (w : W) (hok : ∀ r ∈ (HutchPP.run E (d :: ds) s w).1, ∃ x, r = .ok x) :
    count (HutchPP.run E (d :: ds) s w).2.2 = count w + (2 * s1 + (d :: ds).length) := by
  have hs' : s.Q = none ∧ s.basisDim = s1 := by
    unfold mkHutchPP at hs
    split at hs
    · cases hs
    · simp only [Option.getD_some] at hs
      split_ifs at hs
      rw [← Except.ok.inj hs]
      exact ⟨rfl, rfl⟩
  obtain ⟨-, b2, b3⟩ := sample_count h s d w
  simp only [HutchPP.run] at hok ⊢
  obtain ⟨x, hx⟩ := hok _ (List.mem_cons_self ..)
  have c1 := b2 hs'.1 x hx
  obtain ⟨hQ, ht⟩ := b3 x hx
  rw [hs'.2, Int.toNat_natCast] at c1
  generalize (s.sample E d w).2.1 = s' at hok hQ ht ⊢
  generalize (s.sample E d w).2.2 = w' at hok c1 ⊢
  have hok' : ∀ r ∈ (HutchPP.run E ds s' w').1, ∃ x, r = .ok x := fun r hr => hok r (List.mem_cons_of_mem _ hr)
  clear hok
  suffices count (HutchPP.run E ds s' w').2.2 = count w' + ds.length by
    rw [this, List.length_cons]; omega
  clear c1
  induction ds generalizing w' with
  | nil => rfl
  | cons d ds ih =>
    obtain ⟨-, e1, e2⟩ := sample_cached_count h s' hQ ht d w'
    simp only [HutchPP.run] at hok' ⊢
    obtain ⟨x, hx⟩ := hok' _ (List.mem_cons_self ..)
    rw [e1] at hok' ⊢
    rw [ih _ fun r hr => hok' r (List.mem_cons_of_mem _ hr), e2 x hx, List.length_cons]
    omega

/-- C104: exceptions do not make it more: any number of calls of `sample` in a state with both buffers needs at most one
product each; a call before that at most `2 * basis_dim + 1`. -/
theorem hutchpp_budget_bound [Ring α] (E : Ext α W) (count : W → Nat) (h : Counts E count) (s : HutchPP α) (d : DistArg)
    (w : W) :
    count (s.sample E d w).2.2 ≤ count w + 2 * s.basisDim.toNat + 1 ∧
    (s.Q.isSome → s.tr.isSome → count (s.sample E d w).2.2 ≤ count w + 1) :=
  ⟨(sample_count h s d w).1, fun hQ ht => (sample_cached_count h s hQ ht d w).1⟩

/-! ## Operators that are built from others

The operator `A` is a function here. A result needs at most `n` products if it is determined by `n` of them. -/

/-- Specification: the result `f A` is determined by at most `n` products with `A`. -/
def DeterminedBy {X Y β : Type _} (f : (X → Y) → β) (A : X → Y) (n : Nat) : Prop :=
  ∃ xs : List X, xs.length ≤ n ∧ ∀ A' : X → Y, (∀ x ∈ xs, A' x = A x) → f A' = f A

theorem lanczosLoop_budget {d : Nat} (A : EuclideanSpace ℝ (Fin d) → EuclideanSpace ℝ (Fin d)) (ncv : Nat)
    (randn : EuclideanSpace ℝ (Fin d)) (k : Nat) : DeterminedBy (fun A => lanczosLoop A ncv randn k) A k := by
  induction k with
  | zero => exact ⟨[], by simp, fun _ _ => by simp [lanczosLoop]⟩
  | succ k ih =>
    obtain ⟨xs, h1, h2⟩ := ih
    rcases hl : lanczosLoop A ncv randn k with _ | st
    · refine ⟨xs, by omega, fun A' h => ?_⟩
      have := h2 A' h
      simp only at this ⊢
      rw [lanczosLoop_succ, lanczosLoop_succ, this, hl, Option.bind_none, Option.bind_none]
    · refine ⟨(if k = 0 then ‖randn‖⁻¹ • randn else st.v) :: xs, by simp; omega, fun A' h => ?_⟩
      have := h2 A' fun x hx => h x (List.mem_cons_of_mem _ hx)
      have hv := h _ (List.mem_cons_self ..)
      simp only at this ⊢
      rw [lanczosLoop_succ, lanczosLoop_succ, this, hl]
      rw [Option.bind_some, Option.bind_some]
      unfold lanczosStep
      dsimp only
      rw [hv]

/-- C104: a Lanczos run with `ncv` vectors needs at most `ncv` products. -/
theorem lanczos_budget {d : Nat} (eigh eighTri : Eigh) (A : EuclideanSpace ℝ (Fin d) → EuclideanSpace ℝ (Fin d)) (ncv : Nat)
    (tri : Bool) (randn : EuclideanSpace ℝ (Fin d)) :
    DeterminedBy (fun A => fastLanczos eigh eighTri A ncv tri randn) A ncv := by
  obtain ⟨xs, h1, h2⟩ := lanczosLoop_budget A ncv randn ncv
  refine ⟨xs, h1, fun A' h => ?_⟩
  have := h2 A' h
  simp only at this ⊢
  rw [fastLanczos, fastLanczos, this]

theorem repeatLoop_congr (src src' : LanczosSource) (f : LanczosIter → Py (List ℝ × List ℝ)) (left : Nat) :
    ∀ calls n grid avg, (∀ i < left, src' (calls + i) = src (calls + i)) →
      repeatLoop src' f calls n grid avg left = repeatLoop src f calls n grid avg left := by
  induction left with
  | zero => intro calls n grid avg _; cases grid <;> simp only [repeatLoop]
  | succ left ih =>
    intro calls n grid avg h
    have h0 := h 0 (by omega)
    rw [Nat.add_zero] at h0
    rw [repeatLoop, repeatLoop, h0]
    rcases src calls with e | it
    · rfl
    · simp only
      rcases f it with e | ⟨g, density⟩
      · rfl
      · simp only
        exact ih _ _ _ _ fun i hi => by
          have := h (i + 1) (by omega)
          rwa [show calls + (i + 1) = calls + 1 + i by omega] at this

theorem runs_budget {d : Nat} (eigh eighTri : Eigh) (A : EuclideanSpace ℝ (Fin d) → EuclideanSpace ℝ (Fin d)) (ncv : Nat)
    (tri : Bool) (R : Nat → EuclideanSpace ℝ (Fin d)) (calls n : Nat) :
    ∃ xs : List (EuclideanSpace ℝ (Fin d)), xs.length ≤ n * ncv ∧ ∀ A' : EuclideanSpace ℝ (Fin d) → EuclideanSpace ℝ (Fin d),
      (∀ x ∈ xs, A' x = A x) → ∀ i < n, fastLanczos eigh eighTri A' ncv tri (R (calls + i)) =
        fastLanczos eigh eighTri A ncv tri (R (calls + i)) := by
  induction n with
  | zero => exact ⟨[], by simp, fun _ _ i hi => absurd hi (by omega)⟩
  | succ n ih =>
    obtain ⟨xs, l1, h1⟩ := ih
    obtain ⟨ys, l2, h2⟩ := lanczos_budget eigh eighTri A ncv tri (R (calls + n))
    refine ⟨xs ++ ys, by rw [List.length_append, Nat.add_mul, Nat.one_mul]; omega, fun A' h i hi => ?_⟩
    rcases Nat.lt_succ_iff_lt_or_eq.mp hi with hi | rfl
    · exact h1 A' (fun x hx => h x (List.mem_append_left _ hx)) i hi
    · exact h2 A' fun x hx => h x (List.mem_append_right _ hx)

/-- C104: besides the boundaries, for which the eigensolver is asked, the approximate spectrum and log spectrum need at most
`num_repeats * ncv` products. -/
theorem spectrum_budget {d : Nat} (eigh eighTri : Eigh) (eigsh : Eigsh)
    (A : EuclideanSpace ℝ (Fin d) → EuclideanSpace ℝ (Fin d)) (ncv : Nat) (tri : Bool) (R : Nat → EuclideanSpace ℝ (Fin d))
    (calls P n : Nat) (kappa : ℝ) (b : Boundaries) (margin epsilon : ℝ) :
    DeterminedBy (fun A => lanczosSpectrum eigsh (fun i => fastLanczos eigh eighTri A ncv tri (R i)) calls P n kappa b
      margin) A (n * ncv) ∧
    DeterminedBy (fun A => lanczosLogSpectrum eigsh (fun i => fastLanczos eigh eighTri A ncv tri (R i)) calls P n kappa b
      margin epsilon) A (n * ncv) := by
  obtain ⟨xs, l, h⟩ := runs_budget eigh eighTri A ncv tri R calls n
  refine ⟨⟨xs, l, fun A' hA => ?_⟩, ⟨xs, l, fun A' hA => ?_⟩⟩
  · simp only [lanczosSpectrum, Int.toNat_natCast]
    rcases (approximateBoundaries eigsh b).1 with e | b
    · rfl
    · exact repeatLoop_congr _ _ _ _ _ _ _ _ (h A' hA)
  · simp only [lanczosLogSpectrum, Int.toNat_natCast]
    rcases (approximateBoundariesAbs eigsh b).1 with e | b
    · rfl
    · exact repeatLoop_congr _ _ _ _ _ _ _ _ (h A' hA)

/-- Specification: the result `f A` is determined by the shape of `A` and at most `n` products with `A`. -/
def SciDeterminedBy {β : Type _} (f : SciOp α → β) (A : SciOp α) (n : Nat) : Prop :=
  ∃ xs : List (NpVal α), xs.length ≤ n ∧
    ∀ A' : SciOp α, A'.rows = A.rows → A'.cols = A.cols → (∀ x ∈ xs, A'.dot x = A.dot x) → f A' = f A

theorem neumannLoop_budget [Add α] [Sub α] [Mul α] (isNaN : α → Bool) (A : SciOp α) (h : NeumannHyper α) (n : Nat)
    (v result : NpVal α) : SciDeterminedBy (fun A => neumannLoop isNaN A h n v result) A n := by
  induction n generalizing v result with
  | zero => exact ⟨[], by simp, fun _ _ _ _ => rfl⟩
  | succ n ih =>
    rcases hd : A.dot v with e | Av
    · refine ⟨[v], by simp, fun A' _ _ hx => ?_⟩
      simp only [neumannLoop, hx v (by simp), hd]
    · rcases h1 : NpVal.map2 (fun a b => a - h.scale * b) v Av with e | v'
      · refine ⟨[v], by simp, fun A' _ _ hx => ?_⟩
        simp only [neumannLoop, hx v (by simp), hd, h1]
      · rcases h2 : NpVal.map2 (· + ·) result v' with e | result'
        · refine ⟨[v], by simp, fun A' _ _ hx => ?_⟩
          simp only [neumannLoop, hx v (by simp), hd, h1, h2]
        · obtain ⟨xs, l, hxs⟩ := ih v' result'
          refine ⟨v :: xs, by simp; omega, fun A' hr hc hx => ?_⟩
          have := hxs A' hr hc fun x hx' => hx x (List.mem_cons_of_mem _ hx')
          simp only at this
          simp only [neumannLoop, hx v (by simp), hd, h1, h2, this]

theorem matvecImpl_budget [Add α] [Sub α] [Mul α] (isNaN : α → Bool) (A : SciOp α) (h : NeumannHyper α) (x : NpVal α) :
    SciDeterminedBy (fun A => neumannMatvec isNaN A h x) A h.numTerms := by
  obtain ⟨xs, l, hxs⟩ := neumannLoop_budget isNaN A h h.numTerms x x
  refine ⟨xs, l, fun A' hr hc hx => ?_⟩
  have := hxs A' hr hc hx
  simp only at this
  simp only [neumannMatvec, this]

/-- Products of a list of columns. -/
theorem columns_budget (impl : SciOp α → NpVal α → Py (NpVal α)) (rows cols : SciOp α → Nat)
    (hrows : ∀ A A' : SciOp α, A'.rows = A.rows → A'.cols = A.cols → rows A' = rows A ∧ cols A' = cols A) (A : SciOp α)
    (n : Nat) (hn : ∀ x, SciDeterminedBy (fun A => impl A x) A n) (cs : List (List α)) :
    SciDeterminedBy (fun A => pyMapM (SciOp.mulVec ⟨rows A, cols A, impl A, fun _ _ => .error .notImplementedError⟩) cs) A
      (cs.length * n) := by
  induction cs with
  | nil => exact ⟨[], by simp, fun _ _ _ _ => rfl⟩
  | cons c cs ih =>
    obtain ⟨xs, l1, h1⟩ := hn (.vec c)
    obtain ⟨ys, l2, h2⟩ := ih
    refine ⟨xs ++ ys, by rw [List.length_append, List.length_cons, Nat.add_mul, Nat.one_mul]; omega, fun A' hr hc hx => ?_⟩
    have e1 := h1 A' hr hc fun x hx' => hx x (List.mem_append_left _ hx')
    have e2 := h2 A' hr hc fun x hx' => hx x (List.mem_append_right _ hx')
    obtain ⟨r1, r2⟩ := hrows A A' hr hc
    simp only at e1 e2 ⊢
    have e0 : SciOp.mulVec ⟨rows A', cols A', impl A', fun _ _ => .error .notImplementedError⟩ c =
        SciOp.mulVec ⟨rows A, cols A, impl A, fun _ _ => .error .notImplementedError⟩ c := by
      simp only [SciOp.mulVec, SciOp.dot, SciOp.matvec, e1, r1, r2]
    simp only [pyMapM, e0, e2]

theorem dot_vec_congr (L L' : SciOp α) (hr : L'.rows = L.rows) (hc : L'.cols = L.cols) (v : List α)
    (h : L'.matvecImpl (.vec v) = L.matvecImpl (.vec v)) : L'.dot (.vec v) = L.dot (.vec v) := by
  obtain ⟨_, _, _, _⟩ := L
  obtain ⟨_, _, _, _⟩ := L'
  simp only at hr hc h
  subst hr hc
  simp only [SciOp.dot, SciOp.matvec, h]

theorem dot_col_congr (L L' : SciOp α) (hr : L'.rows = L.rows) (hc : L'.cols = L.cols) (r : Nat) (c : List α)
    (h : L'.matvecImpl (.mat r [c]) = L.matvecImpl (.mat r [c])) : L'.dot (.mat r [c]) = L.dot (.mat r [c]) := by
  obtain ⟨_, _, _, _⟩ := L
  obtain ⟨_, _, _, _⟩ := L'
  simp only at hr hc h
  subst hr hc
  simp only [SciOp.dot, SciOp.matvec, h]

theorem dot_mat_congr (L L' : SciOp α) (hc : L'.cols = L.cols) (r : Nat) (cs : List (List α)) (hcs : ¬ ∃ c, cs = [c])
    (h : L'.matmatImpl r cs = L.matmatImpl r cs) : L'.dot (.mat r cs) = L.dot (.mat r cs) := by
  obtain ⟨_, _, _, _⟩ := L
  obtain ⟨_, _, _, _⟩ := L'
  simp only at hc h
  subst hc
  match cs, hcs, h with
  | [], _, h => simp only [SciOp.dot, SciOp.matmat, h]
  | [c], hcs, _ => exact absurd ⟨c, rfl⟩ hcs
  | _ :: _ :: _, _, h => simp only [SciOp.dot, SciOp.matmat, h]

/-- C104: a product of the Neumann inverse with a vector needs at most `num_terms` products, with a matrix at most
`num_terms` per column. -/
theorem neumann_budget [Add α] [Sub α] [Mul α] (isNaN : α → Bool) (A : SciOp α) (h : NeumannHyper α) :
    (∀ v, SciDeterminedBy (fun A => (neumannOp isNaN A h).dot (.vec v)) A h.numTerms) ∧
    (∀ r cs, SciDeterminedBy (fun A => (neumannOp isNaN A h).dot (.mat r cs)) A (cs.length * h.numTerms)) := by
  refine ⟨fun v => ?_, fun r cs => ?_⟩
  · obtain ⟨xs, l, hxs⟩ := matvecImpl_budget isNaN A h (.vec v)
    exact ⟨xs, l, fun A' hr hc hx => dot_vec_congr (neumannOp isNaN A h) (neumannOp isNaN A' h) hr hc v (hxs A' hr hc hx)⟩
  · by_cases h1 : ∃ c, cs = [c]
    · obtain ⟨c, rfl⟩ := h1
      obtain ⟨xs, l, hxs⟩ := matvecImpl_budget isNaN A h (.mat r [c])
      exact ⟨xs, by simpa using l, fun A' hr hc hx =>
        dot_col_congr (neumannOp isNaN A h) (neumannOp isNaN A' h) hr hc r c (hxs A' hr hc hx)⟩
    · obtain ⟨xs, l, hxs⟩ := columns_budget (fun A => neumannMatvec isNaN A h) SciOp.rows SciOp.cols
        (fun _ _ h1 h2 => ⟨h1, h2⟩) A h.numTerms (matvecImpl_budget isNaN A h) cs
      refine ⟨xs, l, fun A' hr hc hx => dot_mat_congr (neumannOp isNaN A h) (neumannOp isNaN A' h) hc r cs h1 ?_⟩
      have := hxs A' hr hc hx
      simp only at this
      simp only [neumannOp, inverseMatmat, this]

/-- C104: a product of a sub-matrix with a vector needs at most one product, with a matrix at most one per column. -/
theorem submatrix_budget [Zero α] (adj : SciOp α) (A : SciOp α) (shape : Nat × Nat) (rowIdxs colIdxs : List PyIdx) :
    (∀ v, SciDeterminedBy (fun A => (SubState.toSci ⟨⟨A, adj⟩, shape, rowIdxs, colIdxs⟩).dot (.vec v)) A 1) ∧
    (∀ r cs, SciDeterminedBy (fun A => (SubState.toSci ⟨⟨A, adj⟩, shape, rowIdxs, colIdxs⟩).dot (.mat r cs)) A cs.length) := by
  have key : ∀ x, SciDeterminedBy (fun A => SubState.matvecImpl ⟨⟨A, adj⟩, shape, rowIdxs, colIdxs⟩ x) A 1 := by
    intro x
    rcases hv : npAssign (List.replicate A.cols 0) colIdxs x with e | v
    · refine ⟨[], by simp, fun A' _ hc _ => ?_⟩
      simp only [SubState.matvecImpl, hc, hv]
    · refine ⟨[.vec v], by simp, fun A' _ hc hx => ?_⟩
      simp only [SubState.matvecImpl, hc, hv, SciOp.mulVec, hx (.vec v) (by simp)]
  refine ⟨fun v => ?_, fun r cs => ?_⟩
  · obtain ⟨xs, l, hxs⟩ := key (.vec v)
    exact ⟨xs, l, fun A' hr hc hx =>
      dot_vec_congr (SubState.toSci ⟨⟨A, adj⟩, shape, rowIdxs, colIdxs⟩)
        (SubState.toSci ⟨⟨A', adj⟩, shape, rowIdxs, colIdxs⟩) rfl rfl v (hxs A' hr hc hx)⟩
  · by_cases h1 : ∃ c, cs = [c]
    · obtain ⟨c, rfl⟩ := h1
      obtain ⟨xs, l, hxs⟩ := key (.mat r [c])
      exact ⟨xs, by simpa using l, fun A' hr hc hx =>
      dot_col_congr (SubState.toSci ⟨⟨A, adj⟩, shape, rowIdxs, colIdxs⟩)
        (SubState.toSci ⟨⟨A', adj⟩, shape, rowIdxs, colIdxs⟩) rfl rfl r c (hxs A' hr hc hx)⟩
    · obtain ⟨xs, l, hxs⟩ := columns_budget (fun A => SubState.matvecImpl ⟨⟨A, adj⟩, shape, rowIdxs, colIdxs⟩)
        (fun _ => shape.1) (fun _ => shape.2) (fun _ _ _ _ => ⟨rfl, rfl⟩) A 1 key cs
      refine ⟨xs, by simpa using l, fun A' hr hc hx =>
      dot_mat_congr (SubState.toSci ⟨⟨A, adj⟩, shape, rowIdxs, colIdxs⟩)
        (SubState.toSci ⟨⟨A', adj⟩, shape, rowIdxs, colIdxs⟩) rfl r cs h1 ?_⟩
      have := hxs A' hr hc hx
      simp only at this
      simp only [SubState.toSci, this]

/-! ## Non-vacuity -/

/-- `streamExt` with a counter of the products. -/
def countedExt {n : Nat} (M : Matrix (Fin n) (Fin n) ℚ) : Ext ℚ ((Nat → Bool) × Nat) where
  bits k w := let r := (streamExt M).bits k w.1; (r.1, r.2, w.2)
  randn k w := let r := (streamExt M).randn k w.1; (r.1, r.2, w.2)
  mul v w := let r := (streamExt M).mul v w.1; (r.1, r.2, w.2 + 1)
  qr := (streamExt M).qr

theorem countedExt_counts {n : Nat} (M : Matrix (Fin n) (Fin n) ℚ) : Counts (countedExt M) Prod.snd :=
  ⟨fun _ _ => rfl, fun _ _ => rfl, fun _ _ => rfl⟩

/-- Three samples with two basis vectors: seven products. -/
example (w : (Nat → Bool) × Nat) :
    (HutchPP.run (countedExt !![1, 2; 3, 4]) [.str "normal", .str "rademacher", .str "normal"]
      ⟨2, 2, .str "rademacher", none, none⟩ w).2.2.2 = w.2 + 7 := by
  have hM : Multiplies (countedExt !![1, 2; 3, 4]) !![1, 2; 3, 4] := fun v w => streamExt_multiplies _ v w.1
  have hE : DrawLengths (countedExt (!![1, 2; 3, 4] : Matrix (Fin 2) (Fin 2) ℚ)) := fun k w =>
    streamExt_lengths !![1, 2; 3, 4] k w.1
  obtain ⟨q, -, hok, -⟩ := hutchpp_run_ready (countedExt !![1, 2; 3, 4]) hE (streamExt_qr !![1, 2; 3, 4]) !![1, 2; 3, 4] hM 2 (by decide)
    (le_refl _) (.str "rademacher") (Or.inl rfl) (.str "normal") [.str "rademacher", .str "normal"]
    (by simp [KnownDist]) w
  exact hutchpp_budget (countedExt !![1, 2; 3, 4]) Prod.snd (countedExt_counts _) [2, 2] 2 (.str "rademacher") _
    rfl _ _ w hok

/-- The bound for the Neumann inverse is not always slack: with one term, the result with `A` is not determined by zero
products. -/
example : ¬ SciDeterminedBy (fun A : SciOp ℤ => (neumannOp (fun _ => false) A ⟨1, 1, false⟩).dot (.vec [1]))
    (denseSci !![0]) 0 := by
  rintro ⟨xs, l, h⟩
  obtain rfl := List.eq_nil_of_length_eq_zero (Nat.le_zero.mp l)
  have := h (denseSci !![1]) rfl rfl (by simp)
  revert this
  decide

end Curvlinops
