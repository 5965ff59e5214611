import Verif.Model.Estimators
import Verif.Lemmas.Moments
import Verif.Props.Submatrix
import Mathlib.Tactic.NormNum
import Mathlib.Tactic.FinCases
import Mathlib.Tactic.Linarith

/-!
# C54–C58, C65: random vectors and stochastic estimators

Expectations are stated over all outcomes of the generator: `w b` is a world in which the generator returns the
bits `b`. For fair bits the expectation is `signMean`, the average over all `2 ^ n` bit vectors; for `randn` it is
the integral with respect to `stdNormal n`, i.i.d. standard normal entries.
-/

namespace Curvlinops

open Matrix MeasureTheory

variable {α W : Type _}

/-- `A @ v` multiplies with the matrix `M` (in every world, without raising). -/
def Multiplies [NonUnitalNonAssocSemiring α] {m n : Nat} (E : Ext α W) (M : Matrix (Fin m) (Fin n) α) : Prop :=
  ∀ (v : Fin n → α) w, (E.mul (List.ofFn v) w).1 = .ok (List.ofFn (M *ᵥ v))

/-- The generator returns the bits `b` in the world `w b`. -/
def DrawsBits {n : Nat} (E : Ext α W) (w : (Fin n → Bool) → W) : Prop :=
  ∀ b, (E.bits n (w b)).1 = List.ofFn b

/-- The generator's `randn` returns `v` in the world `w v`. -/
def DrawsNormal {n : Nat} (E : Ext α W) (w : (Fin n → α) → W) : Prop :=
  ∀ v, (E.randn n (w v)).1 = List.ofFn v

/-- The generator returns as many numbers as requested. -/
def DrawLengths (E : Ext α W) : Prop :=
  ∀ n w, (E.bits n w).1.length = n ∧ (E.randn n w).1.length = n

/-! ## C65 -/

theorem rademacher_ofFn [Ring α] (E : Ext α W) {n : Nat} (b : Fin n → Bool) (w : W)
    (h : (E.bits n w).1 = List.ofFn b) :
    (randomVector E n (.str "rademacher") w).1 = .ok (List.ofFn fun i => (sgn (b i) : α)) := by
  simp only [randomVector, if_true, rademacher, h, List.map_ofFn]
  congr 2
  funext i
  simp only [Function.comp, sgn]
  split_ifs <;> norm_num

theorem normal_ofFn [Ring α] (E : Ext α W) {n : Nat} (v : Fin n → α) (w : W)
    (h : (E.randn n w).1 = List.ofFn v) :
    (randomVector E n (.str "normal") w).1 = .ok (List.ofFn v) := by
  simp [randomVector, normal, h]

/-- C65: for a known name the result is a vector of the requested dimension, for Rademacher with entries `-1` and
`1`; every other name raises `ValueError` and leaves the generator untouched. -/
theorem randomVector_spec [Ring α] (E : Ext α W) (hE : DrawLengths E) (n : Nat) (s : String) (w : W) :
    (s = "rademacher" → ∃ v, (randomVector E n (.str s) w).1 = .ok v ∧ v.length = n ∧
      ∀ x ∈ v, x = -1 ∨ x = 1) ∧
    (s = "normal" → ∃ v, (randomVector E n (.str s) w).1 = .ok v ∧ v.length = n ∧ v = (E.randn n w).1) ∧
    (s ≠ "rademacher" → s ≠ "normal" → randomVector E n (.str s) w = (.error .valueError, w)) := by
  refine ⟨fun h => ?_, fun h => ?_, fun h1 h2 => by simp [randomVector, h1, h2]⟩
  · subst h
    refine ⟨_, rfl, by simp [rademacher, (hE n w).1], fun x hx => ?_⟩
    obtain ⟨b, -, rfl⟩ := List.mem_map.mp hx
    cases b
    · left; simp
    · right; norm_num
  · subst h
    exact ⟨_, rfl, (hE n w).2, rfl⟩

/-- C65: a Rademacher entry is `1` exactly when the generator's trial succeeds, so the entries are as fair and as
independent as the trials. -/
theorem rademacher_entries [Ring α] (E : Ext α W) (n : Nat) (w : W) (i : Nat) :
    (rademacher E n w).1[i]? = ((E.bits n w).1[i]?).map fun b => if b then (1 : α) else -1 := by
  simp only [rademacher, List.getElem?_map]
  cases (E.bits n w).1[i]? with
  | none => rfl
  | some b =>
    cases b
    · simp
    · norm_num

/-- C65: a vector costs exactly one draw: the generator is left as by a single call of `binomial` or `randn`, so that
the next vector is drawn from fresh numbers. -/
theorem randomVector_world [Ring α] (E : Ext α W) (n : Nat) (w : W) :
    (randomVector E n (.str "rademacher") w).2 = (E.bits n w).2 ∧
    (randomVector E n (.str "normal") w).2 = (E.randn n w).2 := ⟨rfl, rfl⟩

/-- C65 (disagreement with the documentation): an argument that is not a string raises `TypeError` rather than
`ValueError`, because formatting the message fails. -/
theorem randomVector_nonStr [Ring α] (E : Ext α W) (n : Nat) (w : W) :
    randomVector E n .nonStr w = (.error .typeError, w) := rfl

/-! ## C54–C56 -/

theorem drawAndMul_eq [Ring α] {m n : Nat} (E : Ext α W) (M : Matrix (Fin m) (Fin n) α) (hM : Multiplies E M)
    (dist : DistArg) (w : W) (v : Fin n → α) (hv : (randomVector E n dist w).1 = .ok (List.ofFn v)) :
    (drawAndMul E n dist w).1 = .ok (List.ofFn v, List.ofFn (M *ᵥ v)) := by
  rcases h : randomVector E n dist w with ⟨r, w'⟩
  rw [h] at hv
  simp only at hv
  subst hv
  have hm := hM v w'
  rcases h' : E.mul (List.ofFn v) w' with ⟨r', w''⟩
  rw [h'] at hm
  simp only at hm
  subst hm
  simp [drawAndMul, h, h']

theorem hutchTrace_eq [Ring α] {n : Nat} (E : Ext α W) (M : Matrix (Fin n) (Fin n) α) (hM : Multiplies E M)
    (dist : DistArg) (w : W) (v : Fin n → α) (hv : (randomVector E n dist w).1 = .ok (List.ofFn v)) :
    (hutchTrace E n dist w).1 = .ok (v ⬝ᵥ (M *ᵥ v)) := by
  have := drawAndMul_eq E M hM dist w v hv
  rcases h : drawAndMul E n dist w with ⟨r, w'⟩
  rw [h] at this
  simp only at this
  subst this
  simp [hutchTrace, h, npDot_ofFn]

theorem hutchDiag_eq [Ring α] {n : Nat} (E : Ext α W) (M : Matrix (Fin n) (Fin n) α) (hM : Multiplies E M)
    (dist : DistArg) (w : W) (v : Fin n → α) (hv : (randomVector E n dist w).1 = .ok (List.ofFn v)) :
    (hutchDiag E n dist w).1 = .ok (List.ofFn fun i => v i * (M *ᵥ v) i) := by
  have := drawAndMul_eq E M hM dist w v hv
  rcases h : drawAndMul E n dist w with ⟨r, w'⟩
  rw [h] at this
  simp only at this
  subst this
  simp only [hutchDiag, h]
  congr 1
  refine List.ext_getElem (by simp) fun i h1 h2 => ?_
  simp

theorem hutchNorm_eq [Ring α] {m n : Nat} (E : Ext α W) (M : Matrix (Fin m) (Fin n) α) (hM : Multiplies E M)
    (dist : DistArg) (w : W) (v : Fin n → α) (hv : (randomVector E n dist w).1 = .ok (List.ofFn v)) :
    (hutchNorm E n dist w).1 = .ok ((M *ᵥ v) ⬝ᵥ (M *ᵥ v)) := by
  have := drawAndMul_eq E M hM dist w v hv
  rcases h : drawAndMul E n dist w with ⟨r, w'⟩
  rw [h] at this
  simp only at this
  subst this
  simp [hutchNorm, h, npDot_ofFn]

/-- C54–C56: every sample draws one vector and multiplies it once, for all three estimators. -/
theorem sample_world [Ring α] (E : Ext α W) (n : Nat) (dist : DistArg) (w : W) (v : List α)
    (hv : (randomVector E n dist w).1 = .ok v) :
    (hutchTrace E n dist w).2 = (E.mul v (randomVector E n dist w).2).2 ∧
    (hutchDiag E n dist w).2 = (E.mul v (randomVector E n dist w).2).2 ∧
    (hutchNorm E n dist w).2 = (E.mul v (randomVector E n dist w).2).2 := by
  have h : (drawAndMul E n dist w).2 = (E.mul v (randomVector E n dist w).2).2 := by
    rcases hr : randomVector E n dist w with ⟨r, w'⟩
    rw [hr] at hv
    simp only at hv
    subst hv
    rcases hm : E.mul v w' with ⟨r | y, w''⟩ <;> simp [drawAndMul, hr, hm]
  rw [← h]
  unfold hutchTrace hutchDiag hutchNorm
  rcases drawAndMul E n dist w with ⟨r | ⟨x, y⟩, w'⟩ <;> exact ⟨rfl, rfl, rfl⟩

/-- C54: the constructors accept exactly the square shapes; all others raise `ValueError`. -/
theorem checkSquare_iff (shape : List Nat) :
    (checkSquare shape = .ok () ↔ ∃ n, shape = [n, n]) ∧
    (checkSquare shape ≠ .ok () → checkSquare shape = .error .valueError) := by
  unfold checkSquare
  constructor
  · match shape with
    | [] => simp
    | [a] => simp
    | [a, b] =>
      by_cases h : a = b
      · subst h; simp
      · simp only [List.length_cons, List.length_nil, List.getElem?_cons_zero, List.getElem?_cons_succ]
        rw [if_pos (Or.inr fun h' => h (Option.some.inj h'))]
        refine ⟨fun h' => by simp at h', fun ⟨n, hn⟩ => ?_⟩
        simp only [List.cons.injEq, and_true] at hn
        exact absurd (hn.1.trans hn.2.symm) h
    | a :: b :: c :: t => simp
  · intro h
    split_ifs at h ⊢ <;> simp_all

/-- C54, Rademacher: every sample succeeds and the expectation is the trace. -/
theorem hutchTrace_rademacher [Field α] [CharZero α] {n : Nat} (E : Ext α W) (M : Matrix (Fin n) (Fin n) α)
    (hM : Multiplies E M) (w : (Fin n → Bool) → W) (hw : DrawsBits E w) :
    ∃ F : (Fin n → Bool) → α, (∀ b, (hutchTrace E n (.str "rademacher") (w b)).1 = .ok (F b)) ∧
      signMean F = M.trace :=
  ⟨_, fun b => hutchTrace_eq E M hM _ _ _ (rademacher_ofFn E b _ (hw b)), signMean_quad M⟩

/-- C54, normal: every sample succeeds, is integrable, and the expectation is the trace. -/
theorem hutchTrace_normal {n : Nat} (E : Ext ℝ W) (M : Matrix (Fin n) (Fin n) ℝ)
    (hM : Multiplies E M) (w : (Fin n → ℝ) → W) (hw : DrawsNormal E w) :
    ∃ F : (Fin n → ℝ) → ℝ, (∀ v, (hutchTrace E n (.str "normal") (w v)).1 = .ok (F v)) ∧
      Integrable F (stdNormal n) ∧ ∫ v, F v ∂stdNormal n = M.trace :=
  ⟨_, fun v => hutchTrace_eq E M hM _ _ _ (normal_ofFn E v _ (hw v)), stdNormal_quad M⟩

/-- C55, Rademacher. -/
theorem hutchDiag_rademacher [Field α] [CharZero α] {n : Nat} (E : Ext α W) (M : Matrix (Fin n) (Fin n) α)
    (hM : Multiplies E M) (w : (Fin n → Bool) → W) (hw : DrawsBits E w) :
    ∃ F : (Fin n → Bool) → Fin n → α,
      (∀ b, (hutchDiag E n (.str "rademacher") (w b)).1 = .ok (List.ofFn (F b))) ∧
      ∀ i, signMean (fun b => F b i) = M i i :=
  ⟨_, fun b => hutchDiag_eq E M hM _ _ _ (rademacher_ofFn E b _ (hw b)), signMean_diag M⟩

/-- C55, normal. -/
theorem hutchDiag_normal {n : Nat} (E : Ext ℝ W) (M : Matrix (Fin n) (Fin n) ℝ)
    (hM : Multiplies E M) (w : (Fin n → ℝ) → W) (hw : DrawsNormal E w) :
    ∃ F : (Fin n → ℝ) → Fin n → ℝ,
      (∀ v, (hutchDiag E n (.str "normal") (w v)).1 = .ok (List.ofFn (F v))) ∧
      ∀ i, Integrable (fun v => F v i) (stdNormal n) ∧ ∫ v, F v i ∂stdNormal n = M i i :=
  ⟨_, fun v => hutchDiag_eq E M hM _ _ _ (normal_ofFn E v _ (hw v)), stdNormal_diag M⟩

/-- C55: for a diagonal matrix every single Rademacher sample is the diagonal. -/
theorem hutchDiag_exact [CommRing α] {n : Nat} (E : Ext α W) (hE : DrawLengths E) (d : Fin n → α)
    (hM : Multiplies E (Matrix.diagonal d)) (w : W) :
    (hutchDiag E n (.str "rademacher") w).1 = .ok (List.ofFn d) := by
  have hlen := (hE n w).1
  have hb : (E.bits n w).1 = List.ofFn fun i : Fin n => (E.bits n w).1[i.1]'(by omega) := by
    refine List.ext_getElem (by simp [hlen]) fun i h1 h2 => by simp
  rw [hutchDiag_eq E _ hM _ _ _ (rademacher_ofFn E _ w hb)]
  congr 2
  funext i
  rw [Matrix.mulVec_diagonal]
  simp only [sgn]
  split_ifs <;> ring

theorem trace_gram [CommRing α] {m n : Nat} (M : Matrix (Fin m) (Fin n) α) :
    (Mᵀ * M).trace = ∑ i, ∑ j, M i j ^ 2 := by
  simp only [Matrix.trace, Matrix.diag_apply, Matrix.mul_apply, Matrix.transpose_apply]
  rw [Finset.sum_comm]
  exact Finset.sum_congr rfl fun _ _ => Finset.sum_congr rfl fun _ _ => by ring

theorem quad_gram [CommRing α] {m n : Nat} (M : Matrix (Fin m) (Fin n) α) (v : Fin n → α) :
    (M *ᵥ v) ⬝ᵥ (M *ᵥ v) = v ⬝ᵥ ((Mᵀ * M) *ᵥ v) := by
  rw [← Matrix.mulVec_mulVec, Matrix.dotProduct_mulVec v Mᵀ, Matrix.vecMul_transpose]

/-- C56, Rademacher, for every (also non-square) matrix. -/
theorem hutchNorm_rademacher [Field α] [CharZero α] {m n : Nat} (E : Ext α W) (M : Matrix (Fin m) (Fin n) α)
    (hM : Multiplies E M) (w : (Fin n → Bool) → W) (hw : DrawsBits E w) :
    ∃ F : (Fin n → Bool) → α, (∀ b, (hutchNorm E n (.str "rademacher") (w b)).1 = .ok (F b)) ∧
      signMean F = ∑ i, ∑ j, M i j ^ 2 := by
  refine ⟨_, fun b => hutchNorm_eq E M hM _ _ _ (rademacher_ofFn E b _ (hw b)), ?_⟩
  simp only [quad_gram]
  rw [signMean_quad, trace_gram]

/-- C56, normal. -/
theorem hutchNorm_normal {m n : Nat} (E : Ext ℝ W) (M : Matrix (Fin m) (Fin n) ℝ)
    (hM : Multiplies E M) (w : (Fin n → ℝ) → W) (hw : DrawsNormal E w) :
    ∃ F : (Fin n → ℝ) → ℝ, (∀ v, (hutchNorm E n (.str "normal") (w v)).1 = .ok (F v)) ∧
      Integrable F (stdNormal n) ∧ ∫ v, F v ∂stdNormal n = ∑ i, ∑ j, M i j ^ 2 := by
  refine ⟨_, fun v => hutchNorm_eq E M hM _ _ _ (normal_ofFn E v _ (hw v)), ?_⟩
  simp only [quad_gram]
  rw [← trace_gram]
  exact stdNormal_quad _

/-! ## C57, C58: Hutch++ -/

/-- Orthonormal columns. -/
def OrthoCols [NonAssocSemiring α] {k n : Nat} (q : Fin k → Fin n → α) : Prop :=
  ∀ i j, q i ⬝ᵥ q j = if i = j then 1 else 0

/-- `numpy.linalg.qr` of a matrix with at most as many columns as rows returns as many orthonormal columns. -/
def QrOrtho [NonAssocSemiring α] (E : Ext α W) (n : Nat) : Prop :=
  ∀ cols : List (List α), (∀ c ∈ cols, c.length = n) → cols.length ≤ n →
    ∃ q : Fin cols.length → Fin n → α, OrthoCols q ∧ E.qr cols = List.ofFn fun i => List.ofFn (q i)

/-- The buffers hold an orthonormal basis and the trace of `M` in its span. -/
def HutchPP.Ready [NonAssocSemiring α] {n : Nat} (s : HutchPP α) (M : Matrix (Fin n) (Fin n) α)
    {k : Nat} (q : Fin k → Fin n → α) : Prop :=
  s.dim = n ∧ OrthoCols q ∧ s.Q = some (List.ofFn fun i => List.ofFn (q i)) ∧
    s.tr = some (∑ i, q i ⬝ᵥ (M *ᵥ q i))

/-- C57: the default basis dimension is 1% of the dimension, at least 1 and at most 10; the constructor raises
`ValueError` exactly for non-square operators and basis dimensions above the dimension. -/
theorem mkHutchPP_spec (n : Nat) (bd : Option Int) (dist : DistArg) :
    (∀ shape : List Nat, (¬ ∃ n, shape = [n, n]) →
      (mkHutchPP shape bd dist : Py (HutchPP α)) = .error .valueError) ∧
    (∀ b, (n : Int) < b → (mkHutchPP [n, n] (some b) dist : Py (HutchPP α)) = .error .valueError) ∧
    (∀ b, b ≤ (n : Int) → (mkHutchPP [n, n] (some b) dist : Py (HutchPP α)) = .ok ⟨n, b, dist, none, none⟩) ∧
    (n < 200 → 0 < n → (mkHutchPP [n, n] none dist : Py (HutchPP α)) = .ok ⟨n, 1, dist, none, none⟩) ∧
    (200 ≤ n → n < 1000 →
      (mkHutchPP [n, n] none dist : Py (HutchPP α)) = .ok ⟨n, (n / 100 : Nat), dist, none, none⟩) ∧
    (1000 ≤ n → (mkHutchPP [n, n] none dist : Py (HutchPP α)) = .ok ⟨n, 10, dist, none, none⟩) := by
  have hsq : checkSquare [n, n] = .ok () := (checkSquare_iff _).1.mpr ⟨n, rfl⟩
  refine ⟨fun shape h => ?_, fun b h => ?_, fun b h => ?_, fun h h0 => ?_, fun h h' => ?_, fun h => ?_⟩
  · have := (checkSquare_iff shape).2 fun h' => h ((checkSquare_iff shape).1.mp h')
    simp [mkHutchPP, this]
  · simp [mkHutchPP, hsq, h]
  · simp [mkHutchPP, hsq, not_lt.mpr h]
  · have : min 10 (max ((n : Int) / 100) 1) = 1 := by omega
    simp only [mkHutchPP, hsq, Option.getD_none, List.getD_cons_succ, List.getD_cons_zero, this]
    rw [if_neg (by omega)]
  · have : min 10 (max ((n : Int) / 100) 1) = ((n / 100 : Nat) : Int) := by omega
    simp only [mkHutchPP, hsq, Option.getD_none, List.getD_cons_succ, List.getD_cons_zero, this]
    rw [if_neg (by omega)]
  · have : min 10 (max ((n : Int) / 100) 1) = 10 := by omega
    simp only [mkHutchPP, hsq, Option.getD_none, List.getD_cons_succ, List.getD_cons_zero, this]
    rw [if_neg (by omega)]

/-- A distribution argument that `random_vector` knows. -/
def KnownDist (d : DistArg) : Prop := d = .str "rademacher" ∨ d = .str "normal"

theorem randomVector_known [Ring α] (E : Ext α W) (hE : DrawLengths E) (n : Nat) (d : DistArg)
    (hd : KnownDist d) (w : W) : ∃ v : Fin n → α, (randomVector E n d w).1 = .ok (List.ofFn v) := by
  have key : ∀ l : List α, l.length = n → ∃ v : Fin n → α, l = List.ofFn v := fun l hl => by
    subst hl
    exact ⟨fun i => l[i], (List.ofFn_getElem (xs := l)).symm⟩
  rcases hd with rfl | rfl
  · obtain ⟨v, hv, hl, -⟩ := (randomVector_spec E hE n "rademacher" w).1 rfl
    obtain ⟨v', rfl⟩ := key v hl
    exact ⟨v', hv⟩
  · obtain ⟨v, hv, hl, -⟩ := (randomVector_spec E hE n "normal" w).2.1 rfl
    obtain ⟨v', rfl⟩ := key v hl
    exact ⟨v', hv⟩

theorem basisLoop_ok [Ring α] {n : Nat} (E : Ext α W) (hE : DrawLengths E) (M : Matrix (Fin n) (Fin n) α)
    (hM : Multiplies E M) (d : DistArg) (hd : KnownDist d) (k : Nat) (w : W) :
    ∃ cols, (basisLoop E n d k w).1 = .ok cols ∧ cols.length = k ∧ ∀ c ∈ cols, c.length = n := by
  induction k generalizing w with
  | zero => exact ⟨[], rfl, rfl, by simp⟩
  | succ k ih =>
    obtain ⟨v, hv⟩ := randomVector_known E hE n d hd w
    have h1 := drawAndMul_eq E M hM d w v hv
    rcases h : drawAndMul E n d w with ⟨r, w'⟩
    rw [h] at h1
    simp only at h1
    subst h1
    obtain ⟨cols, hc, hl, hall⟩ := ih w'
    rcases h' : basisLoop E n d k w' with ⟨r', w''⟩
    rw [h'] at hc
    simp only at hc
    subst hc
    refine ⟨List.ofFn (M *ᵥ v) :: cols, by simp [basisLoop, h, h'], by simp [hl], ?_⟩
    intro c hc
    rcases List.mem_cons.mp hc with rfl | hc
    · simp
    · exact hall c hc

theorem traceLoop_ok [Ring α] {n : Nat} (E : Ext α W) (M : Matrix (Fin n) (Fin n) α) (hM : Multiplies E M)
    (qs : List (Fin n → α)) (t : α) (w : W) :
    (traceLoop E (qs.map List.ofFn) t w).1 = .ok () ∧
    (traceLoop E (qs.map List.ofFn) t w).2.1 = t + (qs.map fun q => q ⬝ᵥ (M *ᵥ q)).sum := by
  induction qs generalizing t w with
  | nil => simp [traceLoop]
  | cons q qs ih =>
    have hm := hM q w
    rcases h : E.mul (List.ofFn q) w with ⟨r, w'⟩
    rw [h] at hm
    simp only at hm
    subst hm
    obtain ⟨h1, h2⟩ := ih (t + npDot (List.ofFn q) (List.ofFn (M *ᵥ q))) w'
    simp only [List.map_cons, traceLoop, h]
    refine ⟨h1, ?_⟩
    rw [h2, npDot_ofFn, List.sum_cons, add_assoc]

/-- C57: the first call on a fresh estimator with a valid basis dimension succeeds and fills both buffers with an
orthonormal basis of the requested dimension and the trace of `M` in its span. -/
theorem hutchpp_setup [Ring α] {n : Nat} (E : Ext α W) (hE : DrawLengths E) (hqr : QrOrtho E n)
    (M : Matrix (Fin n) (Fin n) α) (hM : Multiplies E M) (k : Nat) (hk : 0 < k) (hkn : k ≤ n)
    (d : DistArg) (hd : KnownDist d) (w : W) :
    ∃ (q : Fin k → Fin n → α) (s' : HutchPP α),
      (HutchPP.maybeCompute E ⟨n, k, d, none, none⟩ w).1 = .ok () ∧
      (HutchPP.maybeCompute E ⟨n, k, d, none, none⟩ w).2.1 = s' ∧ s'.Ready M q := by
  obtain ⟨cols, hc, hl, hall⟩ := basisLoop_ok E hE M hM d hd k w
  rcases h : basisLoop E n d k w with ⟨r, w'⟩
  rw [h] at hc
  simp only at hc
  subst hc
  subst hl
  obtain ⟨q, hq, hQ⟩ := hqr cols hall hkn
  have hstack : ∃ a, columnStack cols = .ok a := by
    cases cols with
    | nil => simp at hk
    | cons c cs =>
      refine ⟨_, if_pos ?_⟩
      rw [List.all_eq_true]
      intro x hx
      simp [hall c (by simp), hall x (by simp [hx])]
  obtain ⟨a, ha⟩ := hstack
  have hmap : (List.ofFn fun i => List.ofFn (q i)) = (List.ofFn q).map List.ofFn := by
    rw [List.map_ofFn]; rfl
  have htake : (E.qr cols).take cols.length = (List.ofFn q).map List.ofFn := by
    rw [hQ, List.take_of_length_le (by simp), hmap]
  obtain ⟨h1, h2⟩ := traceLoop_ok E M hM (List.ofFn q) 0 w'
  have hlen : (E.qr cols).length = cols.length := by rw [hQ]; simp
  refine ⟨q, _, ?_, rfl, ?_⟩
  · simp only [HutchPP.maybeCompute, Option.isSome_none, Bool.and_self, Bool.false_eq_true, if_false,
      Int.toNat_natCast, h, ha, htake, h1, hlen, lt_irrefl]
  · simp only [HutchPP.maybeCompute, Option.isSome_none, Bool.and_self, Bool.false_eq_true, if_false,
      Int.toNat_natCast, h, ha, htake, h1, h2, hlen, lt_irrefl]
    refine ⟨rfl, hq, by rw [hQ], ?_⟩
    simp [List.map_ofFn, List.sum_ofFn]

/-- C57: once the buffers are filled no call changes them, or draws anything for the basis: a sample reads the
generator once and multiplies once. -/
theorem hutchpp_cached [Ring α] (E : Ext α W) (s : HutchPP α) (Q : List (List α)) (t : α) (hQ : s.Q = some Q)
    (ht : s.tr = some t) (d : DistArg) (w : W) :
    s.maybeCompute E w = (.ok (), s, w) ∧ (s.sample E d w).2.1 = s := by
  have h : s.maybeCompute E w = (.ok (), s, w) := by simp [HutchPP.maybeCompute, hQ, ht]
  refine ⟨h, ?_⟩
  simp only [HutchPP.sample, h]
  rcases randomVector E s.dim d w with ⟨r, w'⟩
  cases r with
  | error e => rfl
  | ok v =>
    simp only [hQ, ht]
    rcases E.mul (projectOut Q v) w' with ⟨r, w''⟩
    cases r <;> rfl

/-- A sequence of `sample` calls; exceptions are caught by the caller, who goes on. -/
def HutchPP.run [Ring α] (E : Ext α W) : List DistArg → HutchPP α → W → List (Py α) × HutchPP α × W
  | [], s, w => ([], s, w)
  | d :: ds, s, w =>
    let r := s.sample E d w
    let rs := HutchPP.run E ds r.2.1 r.2.2
    (r.1 :: rs.1, rs.2.1, rs.2.2)

/-- C57: the basis and its trace stay the same for any number of further samples. -/
theorem hutchpp_once [Ring α] (E : Ext α W) (s : HutchPP α) (Q : List (List α)) (t : α) (hQ : s.Q = some Q)
    (ht : s.tr = some t) (ds : List DistArg) (w : W) : (HutchPP.run E ds s w).2.1 = s := by
  induction ds generalizing w with
  | nil => rfl
  | cons d ds ih =>
    simp only [HutchPP.run, (hutchpp_cached E s Q t hQ ht d w).2]
    exact ih _

/-- The projection `I - Q Qᵀ`. -/
def complement [CommRing α] {k n : Nat} (q : Fin k → Fin n → α) : Matrix (Fin n) (Fin n) α :=
  1 - (Matrix.of q)ᵀ * Matrix.of q

theorem projectOut_ofFn [CommRing α] {k n : Nat} (q : Fin k → Fin n → α) (v : Fin n → α) :
    projectOut (List.ofFn fun i => List.ofFn (q i)) (List.ofFn v) = List.ofFn (complement q *ᵥ v) := by
  refine List.ext_getElem (by simp [projectOut]) fun i h1 h2 => ?_
  have hi : i < n := by simpa using h2
  have hR : (complement q *ᵥ v) ⟨i, hi⟩ = v ⟨i, hi⟩ - ∑ x, q x ⟨i, hi⟩ * (q x ⬝ᵥ v) := by
    rw [complement, Matrix.sub_mulVec, Matrix.one_mulVec, ← Matrix.mulVec_mulVec]
    rfl
  rw [List.getElem_ofFn, hR]
  simp only [projectOut, List.getElem_map, List.getElem_range, List.map_ofFn, Function.comp_def, npDot_ofFn,
    List.sum_ofFn]
  simp [hi]

theorem orthoCols_mul [CommRing α] {k n : Nat} {q : Fin k → Fin n → α} (hq : OrthoCols q) :
    Matrix.of q * (Matrix.of q)ᵀ = 1 := by
  ext i j
  rw [Matrix.one_apply, ← hq i j]
  rfl

theorem complement_sq [CommRing α] {k n : Nat} {q : Fin k → Fin n → α} (hq : OrthoCols q) :
    complement q * complement q = complement q ∧ (complement q)ᵀ = complement q := by
  have h := orthoCols_mul hq
  constructor
  · simp only [complement]
    have : (Matrix.of q)ᵀ * Matrix.of q * ((Matrix.of q)ᵀ * Matrix.of q) = (Matrix.of q)ᵀ * Matrix.of q := by
      rw [Matrix.mul_assoc, ← Matrix.mul_assoc (Matrix.of q), h, Matrix.one_mul]
    rw [Matrix.mul_sub, Matrix.sub_mul, Matrix.sub_mul, this]
    simp
  · simp [complement, Matrix.transpose_mul]

theorem trace_span [CommRing α] {k n : Nat} (q : Fin k → Fin n → α) (M : Matrix (Fin n) (Fin n) α) :
    ∑ i, q i ⬝ᵥ (M *ᵥ q i) = (M * ((Matrix.of q)ᵀ * Matrix.of q)).trace := by
  rw [← Matrix.mul_assoc, Matrix.trace_mul_comm, ← Matrix.mul_assoc]
  simp only [Matrix.trace, Matrix.diag_apply]
  refine Finset.sum_congr rfl fun i _ => ?_
  rw [Matrix.dotProduct_mulVec]
  rfl

theorem trace_split [CommRing α] {k n : Nat} {q : Fin k → Fin n → α} (hq : OrthoCols q)
    (M : Matrix (Fin n) (Fin n) α) :
    ∑ i, q i ⬝ᵥ (M *ᵥ q i) + (complement q * M * complement q).trace = M.trace := by
  rw [Matrix.trace_mul_comm, ← Matrix.mul_assoc, (complement_sq hq).1, Matrix.trace_mul_comm, trace_span,
    ← Matrix.trace_add, ← Matrix.mul_add, complement, add_sub_cancel, Matrix.mul_one]

theorem quad_complement [CommRing α] {k n : Nat} {q : Fin k → Fin n → α} (hq : OrthoCols q)
    (M : Matrix (Fin n) (Fin n) α) (v : Fin n → α) :
    (complement q *ᵥ v) ⬝ᵥ (M *ᵥ (complement q *ᵥ v)) = v ⬝ᵥ ((complement q * M * complement q) *ᵥ v) := by
  rw [← Matrix.mulVec_mulVec, ← Matrix.mulVec_mulVec, Matrix.dotProduct_mulVec v (complement q),
    ← Matrix.mulVec_transpose, (complement_sq hq).2]

theorem hutchpp_sample_eq [CommRing α] {n k : Nat} (E : Ext α W) (M : Matrix (Fin n) (Fin n) α)
    (hM : Multiplies E M) (s : HutchPP α) (q : Fin k → Fin n → α) (hs : s.Ready M q) (d : DistArg) (w : W)
    (v : Fin n → α) (hv : (randomVector E n d w).1 = .ok (List.ofFn v)) :
    (s.sample E d w).1 =
      .ok (∑ i, q i ⬝ᵥ (M *ᵥ q i) + v ⬝ᵥ ((complement q * M * complement q) *ᵥ v)) := by
  obtain ⟨hdim, hq, hQ, ht⟩ := hs
  simp only [HutchPP.sample, (hutchpp_cached E s _ _ hQ ht d w).1, hdim]
  rcases h : randomVector E n d w with ⟨r, w'⟩
  rw [h] at hv
  simp only at hv
  subst hv
  simp only [hQ, ht, projectOut_ofFn]
  have hm := hM (complement q *ᵥ v) w'
  rcases h' : E.mul (List.ofFn (complement q *ᵥ v)) w' with ⟨r, w''⟩
  rw [h'] at hm
  simp only at hm
  subst hm
  simp only [npDot_ofFn, quad_complement hq]

/-- C57, Rademacher: given the cached basis, the expectation of a sample is the trace. -/
theorem hutchpp_rademacher [Field α] [CharZero α] {n k : Nat} (E : Ext α W) (M : Matrix (Fin n) (Fin n) α)
    (hM : Multiplies E M) (s : HutchPP α) (q : Fin k → Fin n → α) (hs : s.Ready M q)
    (w : (Fin n → Bool) → W) (hw : DrawsBits E w) :
    ∃ F : (Fin n → Bool) → α, (∀ b, (s.sample E (.str "rademacher") (w b)).1 = .ok (F b)) ∧
      signMean F = M.trace := by
  refine ⟨_, fun b => hutchpp_sample_eq E M hM s q hs _ _ _ (rademacher_ofFn E b _ (hw b)), ?_⟩
  rw [← trace_split hs.2.1 M, ← signMean_quad (complement q * M * complement q)]
  unfold signMean
  rw [Finset.sum_add_distrib, add_div]
  congr 1
  simp only [Finset.sum_const, Finset.card_univ, Fintype.card_fun, Fintype.card_bool, Fintype.card_fin, nsmul_eq_mul,
    Nat.cast_pow, Nat.cast_ofNat]
  exact mul_div_cancel_left₀ _ (pow_ne_zero _ two_ne_zero)

/-- C57, normal. -/
theorem hutchpp_normal {n k : Nat} (E : Ext ℝ W) (M : Matrix (Fin n) (Fin n) ℝ)
    (hM : Multiplies E M) (s : HutchPP ℝ) (q : Fin k → Fin n → ℝ) (hs : s.Ready M q)
    (w : (Fin n → ℝ) → W) (hw : DrawsNormal E w) :
    ∃ F : (Fin n → ℝ) → ℝ, (∀ v, (s.sample E (.str "normal") (w v)).1 = .ok (F v)) ∧
      Integrable F (stdNormal n) ∧ ∫ v, F v ∂stdNormal n = M.trace := by
  obtain ⟨hint, hval⟩ := stdNormal_quad (complement q * M * complement q)
  refine ⟨_, fun v => hutchpp_sample_eq E M hM s q hs _ _ _ (normal_ofFn E v _ (hw v)),
    (integrable_const _).add hint, ?_⟩
  rw [integral_add (integrable_const _) hint, hval, integral_const, ← trace_split hs.2.1 M]
  simp

/-- C57: with a basis of full dimension every single sample is exactly the trace. -/
theorem hutchpp_full [CommRing α] {n : Nat} (E : Ext α W) (hE : DrawLengths E) (M : Matrix (Fin n) (Fin n) α)
    (hM : Multiplies E M) (s : HutchPP α) (q : Fin n → Fin n → α) (hs : s.Ready M q) (d : DistArg)
    (hd : KnownDist d) (w : W) : (s.sample E d w).1 = .ok M.trace := by
  obtain ⟨v, hv⟩ := randomVector_known E hE n d hd w
  have h0 : complement q = 0 := by
    rw [complement, mul_eq_one_comm.mp (orthoCols_mul hs.2.1), sub_self]
  have := trace_split hs.2.1 M
  rw [hutchpp_sample_eq E M hM s q hs d w v hv, ← this, h0]
  simp

theorem hutchpp_sample_ok [CommRing α] {n k : Nat} (E : Ext α W) (hE : DrawLengths E)
    (M : Matrix (Fin n) (Fin n) α) (hM : Multiplies E M) (s : HutchPP α) (q : Fin k → Fin n → α)
    (hs : s.Ready M q) (d : DistArg) (hd : KnownDist d) (w : W) : ∃ x, (s.sample E d w).1 = .ok x := by
  obtain ⟨v, hv⟩ := randomVector_known E hE n d hd w
  exact ⟨_, hutchpp_sample_eq E M hM s q hs d w v hv⟩

/-- C57: any non-empty sequence of samples from a fresh estimator succeeds and ends with buffers to which
`hutchpp_rademacher` and `hutchpp_normal` apply: the next sample is unbiased whatever basis was drawn. -/
theorem hutchpp_run_ready [CommRing α] {n : Nat} (E : Ext α W) (hE : DrawLengths E) (hqr : QrOrtho E n)
    (M : Matrix (Fin n) (Fin n) α) (hM : Multiplies E M) (k : Nat) (hk : 0 < k) (hkn : k ≤ n)
    (b : DistArg) (hb : KnownDist b) (d : DistArg) (ds : List DistArg) (hds : ∀ x ∈ d :: ds, KnownDist x) (w : W) :
    ∃ q : Fin k → Fin n → α,
      (HutchPP.run E (d :: ds) ⟨n, k, b, none, none⟩ w).2.1.Ready M q ∧
      (∀ r ∈ (HutchPP.run E (d :: ds) ⟨n, k, b, none, none⟩ w).1, ∃ x, r = .ok x) ∧
      (k = n → ∀ r ∈ (HutchPP.run E (d :: ds) ⟨n, k, b, none, none⟩ w).1, r = .ok M.trace) := by
  obtain ⟨q, s', h1, h2, hs'⟩ := hutchpp_setup E hE hqr M hM k hk hkn b hb w
  rcases hmc : HutchPP.maybeCompute E ⟨n, k, b, none, none⟩ w with ⟨r, s'', w'⟩
  rw [hmc] at h1 h2
  simp only at h1 h2
  subst h1 h2
  have hfirst : HutchPP.sample E ⟨n, k, b, none, none⟩ d w = HutchPP.sample E s'' d w' := by
    conv_rhs => rw [HutchPP.sample, (hutchpp_cached E s'' _ _ hs'.2.2.1 hs'.2.2.2 d w').1]
    rw [HutchPP.sample, hmc]
  have hrun : HutchPP.run E (d :: ds) ⟨n, k, b, none, none⟩ w = HutchPP.run E (d :: ds) s'' w' := by
    simp only [HutchPP.run, hfirst]
  rw [hrun]
  have hall : ∀ (ds : List DistArg), (∀ x ∈ ds, KnownDist x) → ∀ w, ∀ r ∈ (HutchPP.run E ds s'' w).1,
      ∃ d w, KnownDist d ∧ r = (s''.sample E d w).1 := by
    intro ds
    induction ds with
    | nil => intro _ w r hr; simp [HutchPP.run] at hr
    | cons d ds ih =>
      intro h w r hr
      simp only [HutchPP.run, (hutchpp_cached E s'' _ _ hs'.2.2.1 hs'.2.2.2 d w).2, List.mem_cons] at hr
      rcases hr with rfl | hr
      · exact ⟨d, w, h d (by simp), rfl⟩
      · exact ih (fun x hx => h x (by simp [hx])) _ r hr
  refine ⟨q, ?_, fun r hr => ?_, fun hkn' r hr => ?_⟩
  · rw [hutchpp_once E s'' _ _ hs'.2.2.1 hs'.2.2.2]; exact hs'
  · obtain ⟨d', w'', hd', rfl⟩ := hall _ hds w' r hr
    exact hutchpp_sample_ok E hE M hM s'' q hs' d' hd' w''
  · subst hkn'
    obtain ⟨d', w'', hd', rfl⟩ := hall _ hds w' r hr
    exact hutchpp_full E hE M hM s'' q hs' d' hd' w''

/-- C58 (part that holds): when the set-up raises, either nothing was stored, so the next call starts afresh, or the
exception came from the trace loop and both buffers are filled.
Missing for C58: in the second case the next call should recompute, but it does not (`hutchpp_crash_silent`). -/
theorem hutchpp_crash_partial [Ring α] (E : Ext α W) (s : HutchPP α) (w : W)
    (hs : s.Q = none) (e : PyErr) (h : (s.maybeCompute E w).1 = .error e) :
    (s.maybeCompute E w).2.1 = s ∨
      ((∃ cols, (basisLoop E s.dim s.basisDist s.basisDim.toNat w).1 = .ok cols ∧
        (s.maybeCompute E w).2.1.Q = some (E.qr cols)) ∧ (s.maybeCompute E w).2.1.tr.isSome) := by
  simp only [HutchPP.maybeCompute, hs, Option.isSome_none, Bool.false_and, Bool.false_eq_true, if_false] at h ⊢
  rcases hb : basisLoop E s.dim s.basisDist s.basisDim.toNat w with ⟨r, w'⟩
  rw [hb] at h
  cases r with
  | error e' => left; rfl
  | ok cols =>
    simp only at h ⊢
    cases hc : columnStack cols with
    | error e' => left; rfl
    | ok a =>
      right
      rw [hc] at h
      simp only at h ⊢
      rcases ht : (traceLoop E (List.take s.basisDim.toNat (E.qr cols)) 0 w').1 with e' | u
      · simp
      · simp only
        split_ifs <;> simp

/-- C58: if the exception is raised while the random vectors are multiplied, the estimator is unchanged and
recomputes. -/
theorem hutchpp_crash_basis [Ring α] (E : Ext α W) (s : HutchPP α) (w : W) (hs : s.Q = none) (e : PyErr)
    (h : (basisLoop E s.dim s.basisDist s.basisDim.toNat w).1 = .error e) (d : DistArg) :
    (s.sample E d w).1 = .error e ∧ (s.sample E d w).2.1 = s := by
  rcases hb : basisLoop E s.dim s.basisDist s.basisDim.toNat w with ⟨r, w'⟩
  rw [hb] at h
  simp only at h
  subst h
  simp [HutchPP.sample, HutchPP.maybeCompute, hs, hb]

/-- External functions for the crash witness: the identity matrix of dimension 2, whose product raises in its fourth
call; the world counts the calls. The generator returns ones, `qr` the standard basis. -/
def crashExt : Ext ℚ Nat where
  bits n w := (List.replicate n true, w)
  randn n w := (List.replicate n 0, w)
  mul v w := (if w = 3 then .error .runtimeError else .ok v, w + 1)
  qr _ := [[1, 0], [0, 1]]

/-- C58 is false of the code: the product with the second basis vector raises, the caller catches the exception, and
every later sample returns 1 although the trace is 2. -/
theorem hutchpp_crash_silent :
    ∃ s w, (mkHutchPP [2, 2] (some 2) (.str "rademacher") : Py (HutchPP ℚ)) = .ok s ∧
      (HutchPP.run crashExt [.str "rademacher", .str "rademacher", .str "normal"] s w).1 =
        [.error .runtimeError, .ok 1, .ok 1] := by
  refine ⟨⟨2, 2, .str "rademacher", none, none⟩, 0, by rfl, by decide +kernel⟩

/-! ## Examples -/

/-- A world is the stream of random numbers that the generator will return. -/
def streamExt {n : Nat} (M : Matrix (Fin n) (Fin n) ℚ) : Ext ℚ (Nat → Bool) where
  bits k w := (List.ofFn fun i : Fin k => w i, fun i => w (i + k))
  randn k w := (List.ofFn fun i : Fin k => if w i then 2 else -1, fun i => w (i + k))
  mul v w := (.ok (List.ofFn (M *ᵥ fun i => v.getD i 0)), w)
  qr cols := List.ofFn fun i : Fin cols.length => List.ofFn fun j : Fin n => if i.1 = j.1 then 1 else 0

theorem streamExt_multiplies {n : Nat} (M : Matrix (Fin n) (Fin n) ℚ) : Multiplies (streamExt M) M := by
  intro v w
  simp [streamExt]

theorem streamExt_lengths {n : Nat} (M : Matrix (Fin n) (Fin n) ℚ) : DrawLengths (streamExt M) := by
  intro k w
  simp [streamExt]

theorem streamExt_bits {n : Nat} (M : Matrix (Fin n) (Fin n) ℚ) :
    DrawsBits (streamExt M) fun b : Fin n → Bool => fun i => if h : i < n then b ⟨i, h⟩ else false := by
  intro b
  simp [streamExt]

theorem streamExt_qr {n : Nat} (M : Matrix (Fin n) (Fin n) ℚ) : QrOrtho (streamExt M) n := by
  intro cols _ hle
  refine ⟨fun i j => if i.1 = j.1 then 1 else 0, fun i j => ?_, rfl⟩
  have hi : i.1 < n := lt_of_lt_of_le i.2 hle
  rw [dotProduct, Finset.sum_eq_single (⟨i.1, hi⟩ : Fin n)]
  · simp [Fin.ext_iff, eq_comm]
  · intro b _ hb
    have : ¬ i.1 = b.1 := fun h => hb (Fin.ext h.symm)
    simp [this]
  · simp

/-- C57: all samples with a full basis are the trace. -/
example (w : Nat → Bool) :
    (HutchPP.run (streamExt !![1, 2; 3, 4]) [.str "normal", .str "rademacher"]
      ⟨2, 2, .str "rademacher", none, none⟩ w).1 = [.ok 5, .ok 5] := by
  obtain ⟨q, -, -, h⟩ := hutchpp_run_ready (streamExt !![1, 2; 3, 4]) (streamExt_lengths _) (streamExt_qr _)
    !![1, 2; 3, 4] (streamExt_multiplies _) 2 (by decide) (le_refl _) (.str "rademacher") (Or.inl rfl)
    (.str "normal") [.str "rademacher"] (by simp [KnownDist]) w
  have ht : Matrix.trace (!![1, 2; 3, 4] : Matrix (Fin 2) (Fin 2) ℚ) = 5 := by
    simp [Matrix.trace, Fin.sum_univ_two]; norm_num
  rw [ht] at h
  have h1 := h rfl _ (List.mem_cons_self ..)
  have h2 := h rfl _ (List.mem_cons_of_mem _ (List.mem_cons_self ..))
  simp only [Nat.cast_ofNat] at h1 h2
  simp only [HutchPP.run, h1]
  exact congrArg₂ _ rfl (congrArg (· :: []) h2)

/-- C54, C55: a non-symmetric matrix with trace 5. -/
example : ∃ F : (Fin 2 → Bool) → ℚ,
    (∀ b, (hutchTrace (streamExt !![1, 2; 3, 4]) 2 (.str "rademacher")
      (fun i => if h : i < 2 then b ⟨i, h⟩ else false)).1 = .ok (F b)) ∧ signMean F = 5 := by
  obtain ⟨F, h1, h2⟩ := hutchTrace_rademacher (streamExt !![1, 2; 3, 4]) !![1, 2; 3, 4]
    (streamExt_multiplies _) _ (streamExt_bits _)
  exact ⟨F, h1, by rw [h2]; simp [Matrix.trace, Fin.sum_univ_two]; norm_num⟩

/-- C65, C54: two samples in a row use different parts of the stream. -/
example (w : Nat → Bool) : (hutchTrace (streamExt !![1, 2; 3, 4]) 2 (.str "normal")
    (hutchTrace (streamExt !![1, 2; 3, 4]) 2 (.str "rademacher") w).2).2 = fun i => w (i + 2 + 2) := rfl

/-- C55: diagonal matrices are exact in every draw. -/
example (w : Nat → Bool) :
    (hutchDiag (streamExt (Matrix.diagonal ![3, -7])) 2 (.str "rademacher") w).1 = .ok [3, -7] :=
  hutchDiag_exact _ (streamExt_lengths _) _ (streamExt_multiplies _) w

/-- C57: one basis vector, `(1, 0)`; a sample is `1 + v₁ ^ 2 * 4`. -/
example (w : Nat → Bool) :
    ((⟨2, 1, .str "rademacher", some [[1, 0]], some 1⟩ : HutchPP ℚ).sample (streamExt !![1, 2; 3, 4])
      (.str "rademacher") w).1 = .ok 5 := by
  have hs : HutchPP.Ready (⟨2, 1, .str "rademacher", some [[1, 0]], some 1⟩ : HutchPP ℚ) !![1, 2; 3, 4]
      (fun _ : Fin 1 => ![1, 0]) := by
    refine ⟨rfl, fun i j => ?_, rfl, ?_⟩
    · fin_cases i; fin_cases j; simp
    · simp [Matrix.mulVec, dotProduct, Fin.sum_univ_two]
  have hr := rademacher_ofFn (streamExt !![1, 2; 3, 4]) (fun i : Fin 2 => w i) w (by simp [streamExt])
  rw [hutchpp_sample_eq _ _ (streamExt_multiplies _) _ _ hs _ _ _ hr]
  simp [complement, sgn, Matrix.mulVec, Matrix.mul_apply, dotProduct, Fin.sum_univ_two, Matrix.one_apply]
  split_ifs <;> norm_num

/-- C65. -/
example (w : Nat → Bool) : (randomVector (streamExt (1 : Matrix (Fin 1) (Fin 1) ℚ)) 3 (.str "uniform") w) =
    (.error .valueError, w) := (randomVector_spec _ (streamExt_lengths _) 3 "uniform" w).2.2 (by decide) (by decide)

end Curvlinops
