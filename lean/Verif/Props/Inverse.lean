import Verif.Model.Inverse
import Verif.Props.Submatrix
import Verif.Lemmas.Spectral
import Mathlib.Analysis.SpecificLimits.Basic

/-!
# C47 – C49: Neumann, CG and LSMR inverses
-/

namespace Curvlinops

open Matrix Filter Topology

variable {α : Type _}

/-! ## C47 -/

theorem map2_ofFn {n : Nat} (f : α → α → α) (u v : Fin n → α) :
    NpVal.map2 f (.vec (List.ofFn u)) (.vec (List.ofFn v)) = .ok (.vec (List.ofFn fun i => f (u i) (v i))) := by
  have : List.zipWith f (List.ofFn u) (List.ofFn v) = List.ofFn fun i => f (u i) (v i) := by
    refine List.ext_getElem (by simp) fun i h1 h2 => ?_
    simp
  simp [NpVal.map2, this]

/-- Specification: truncated Neumann series for `x`. -/
def neumannSum [CommRing α] {n : Nat} (A : Matrix (Fin n) (Fin n) α) (s : α) (T : Nat) (x : Fin n → α) :
    Fin n → α := s • (∑ k ∈ Finset.range (T + 1), (1 - s • A) ^ k) *ᵥ x

theorem neumannLoop_spec [CommRing α] {n : Nat} (A : SciOp α) (M : Matrix (Fin n) (Fin n) α)
    (hA : VecRep A M) (h : NeumannHyper α) (T : Nat) :
    ∀ v r : Fin n → α, neumannLoop (fun _ => false) A h T (.vec (List.ofFn v)) (.vec (List.ofFn r)) =
      .ok (.vec (List.ofFn (r + ∑ k ∈ Finset.range T, ((1 - h.scale • M) ^ (k + 1)) *ᵥ v))) := by
  induction T with
  | zero => intro v r; simp [neumannLoop]
  | succ T ih =>
    intro v r
    rw [neumannLoop, hA.2.2 v]
    simp only [map2_ofFn]
    have hn : (h.checkNan && NpVal.hasNaN (fun _ => false)
        (.vec (List.ofFn fun i => r i + (v i - h.scale * (M *ᵥ v) i)))) = false := by
      simp [NpVal.hasNaN]
    rw [if_neg (by simp [hn]), ih]
    have hv : (fun i => v i - h.scale * (M *ᵥ v) i) = (1 - h.scale • M) *ᵥ v := by
      rw [Matrix.sub_mulVec, Matrix.one_mulVec, Matrix.smul_mulVec]
      rfl
    have hr : (fun i => r i + (v i - h.scale * (M *ᵥ v) i)) = r + (1 - h.scale • M) *ᵥ v := by
      rw [← hv]; rfl
    rw [hr, hv, Finset.sum_range_succ']
    have hs : ∀ k, ((1 - h.scale • M) ^ (k + 1)) *ᵥ ((1 - h.scale • M) *ᵥ v) =
        ((1 - h.scale • M) ^ (k + 1 + 1)) *ᵥ v := fun k => by
      rw [Matrix.mulVec_mulVec, ← pow_succ]
    simp only [hs, zero_add, pow_one]
    rw [add_assoc, add_comm (_ *ᵥ v)]

theorem neumann_impl [CommRing α] {n : Nat} (A : SciOp α) (M : Matrix (Fin n) (Fin n) α) (hA : VecRep A M)
    (h : NeumannHyper α) (x : Fin n → α) :
    neumannMatvec (fun _ => false) A h (.vec (List.ofFn x)) =
      .ok (.vec (List.ofFn (neumannSum M h.scale h.numTerms x))) := by
  simp only [neumannMatvec, neumannLoop_spec A M hA, NpVal.map1, List.map_ofFn]
  congr 3
  funext i
  simp only [Function.comp_apply, neumannSum, Pi.smul_apply, smul_eq_mul]
  congr 1
  rw [Finset.sum_range_succ', pow_zero, Matrix.add_mulVec, Matrix.one_mulVec, Matrix.sum_mulVec]
  simp only [Pi.add_apply]
  rw [add_comm]

/-- C47: the Neumann inverse multiplies with the truncated Neumann series, for every square matrix, scale and
number of terms. -/
theorem neumann_vec [CommRing α] {n : Nat} (A : SciOp α) (M : Matrix (Fin n) (Fin n) α) (hA : VecRep A M)
    (h : NeumannHyper α) (x : Fin n → α) :
    (neumannOp (fun _ => false) A h).dot (.vec (List.ofFn x)) =
      .ok (.vec (List.ofFn (neumannSum M h.scale h.numTerms x))) :=
  dot_vec_of_impl (by simp [neumannOp, hA.2.1]) (by simp [neumannOp, hA.1]) (neumann_impl A M hA h x)

/-- C47: the residual: `A` times the result is `x - (I - scale A)^(num_terms + 1) x`. -/
theorem neumann_residual [CommRing α] {n : Nat} (M : Matrix (Fin n) (Fin n) α) (s : α) (T : Nat)
    (x : Fin n → α) :
    M *ᵥ neumannSum M s T x = x - ((1 - s • M) ^ (T + 1)) *ᵥ x := by
  have h : (s • M) * (∑ k ∈ Finset.range (T + 1), (1 - s • M) ^ k) = 1 - (1 - s • M) ^ (T + 1) := by
    have := mul_neg_geom_sum (1 - s • M) (T + 1)
    rwa [sub_sub_cancel] at this
  rw [neumannSum, Matrix.mulVec_smul, Matrix.mulVec_mulVec, ← Matrix.smul_mulVec, ← Matrix.smul_mul, h, Matrix.sub_mulVec,
    Matrix.one_mulVec]

/-- C47: for a symmetric matrix whose eigenvalues lie strictly between 0 and 2/scale, the result converges to
`A⁻¹ x`. -/
theorem neumann_converges {n : Nat} (M : Matrix (Fin n) (Fin n) ℝ) (hM : Mᵀ = M) (s : ℝ)
    (hs : ∀ (l : ℝ) (x : Fin n → ℝ), x ≠ 0 → M *ᵥ x = l • x → 0 < s * l ∧ s * l < 2) (x : Fin n → ℝ) :
    IsUnit M.det ∧ Tendsto (fun T => neumannSum M s T x) atTop (𝓝 (M⁻¹ *ᵥ x)) := by
  obtain ⟨U, d, hU, hU', hMd⟩ := exists_eigendecomposition M hM
  have hd : ∀ j, 0 < s * d j ∧ s * d j < 2 := fun j =>
    hs (d j) _ (eigendecomposition_col hU hMd j).2 (eigendecomposition_col hU hMd j).1
  have hB : (1 - s • M) = U * diagonal (fun j => 1 - s * d j) * Uᵀ := by
    have : diagonal (fun j => 1 - s * d j) = (1 : Matrix (Fin n) (Fin n) ℝ) - s • diagonal d := by
      rw [← diagonal_one, ← diagonal_smul, diagonal_sub]; rfl
    rw [this, Matrix.mul_sub, Matrix.sub_mul, Matrix.mul_one, hU', Matrix.mul_smul, Matrix.smul_mul, ← hMd]
  have hdet : IsUnit M.det := by
    rw [isUnit_iff_ne_zero]
    intro h0
    obtain ⟨v, hv, hv0⟩ := Matrix.exists_mulVec_eq_zero_iff.mpr h0
    have := (hs 0 v hv (by rw [hv0, zero_smul])).1
    simp at this
  refine ⟨hdet, ?_⟩
  have hpow : Tendsto (fun T => ((1 - s • M) ^ (T + 1)) *ᵥ x) atTop (𝓝 0) := by
    rw [tendsto_pi_nhds]
    intro i
    have : ∀ T, (((1 - s • M) ^ (T + 1)) *ᵥ x) i =
        ∑ j, U i j * ((1 - s * d j) ^ (T + 1) * (Uᵀ *ᵥ x) j) := by
      intro T
      rw [hB, eigendecomposition_pow _ hU hU', Matrix.mul_assoc, ← Matrix.mulVec_mulVec,
        ← Matrix.mulVec_mulVec]
      simp only [Matrix.mulVec, dotProduct, diagonal_apply, ite_mul, zero_mul, Finset.sum_ite_eq,
        Finset.mem_univ, if_true]
    simp only [this]
    rw [show (0 : Fin n → ℝ) i = ∑ j : Fin n, U i j * (0 * (Uᵀ *ᵥ x) j) by simp]
    refine tendsto_finsetSum _ fun j _ => ((Tendsto.mul_const _ ?_).const_mul _)
    refine (tendsto_pow_atTop_nhds_zero_of_abs_lt_one ?_).comp (tendsto_add_atTop_nat 1)
    have := hd j
    rw [abs_lt]
    constructor <;> linarith
  have hres : ∀ T, neumannSum M s T x = M⁻¹ *ᵥ (x - ((1 - s • M) ^ (T + 1)) *ᵥ x) := by
    intro T
    rw [← neumann_residual, Matrix.mulVec_mulVec, Matrix.nonsing_inv_mul _ hdet, Matrix.one_mulVec]
  simp only [hres]
  have hc : Continuous fun v : Fin n → ℝ => M⁻¹ *ᵥ v := by fun_prop
  have h2 : Tendsto (fun T => x - ((1 - s • M) ^ (T + 1)) *ᵥ x) atTop (𝓝 x) := by
    have := hpow.const_sub x
    rwa [sub_zero] at this
  exact (hc.tendsto x).comp h2

/-- Non-vacuity: eigenvalues 1 and 2 with scale 1/2. -/
example : ∀ (l : ℝ) (x : Fin 2 → ℝ), x ≠ 0 → (!![1, 0; 0, 2] : Matrix (Fin 2) (Fin 2) ℝ) *ᵥ x = l • x →
    0 < (1 / 2) * l ∧ (1 / 2) * l < 2 := by
  intro l x hx h
  have h0 := congrFun h 0
  have h1 := congrFun h 1
  simp [Matrix.mulVec, dotProduct, Fin.sum_univ_two] at h0 h1
  have : x 0 ≠ 0 ∨ x 1 ≠ 0 := by
    by_contra hc
    push Not at hc
    exact hx (funext fun i => by fin_cases i <;> simp [hc.1, hc.2])
  rcases this with h | h
  · have : l = 1 := by
      have : (l - 1) * x 0 = 0 := by linarith
      rcases mul_eq_zero.mp this with h' | h'
      · linarith
      · exact absurd h' h
    subst this; norm_num
  · have : l = 2 := by
      rcases h1 with h' | h'
      · linarith
      · exact absurd h' h
    subst this; norm_num

/-! ## C48 -/

section nan

variable [Add α] [Sub α] [Mul α]

/-- Specification: the terms of the series in an arbitrary arithmetic. -/
def termSeq {n : Nat} (f : (Fin n → α) → Fin n → α) (s : α) (x : Fin n → α) : Nat → Fin n → α
  | 0 => x
  | k + 1 => fun i => termSeq f s x k i - s * f (termSeq f s x k) i

/-- Specification: the partial sums. -/
def sumSeq {n : Nat} (f : (Fin n → α) → Fin n → α) (s : α) (x : Fin n → α) : Nat → Fin n → α
  | 0 => x
  | k + 1 => fun i => sumSeq f s x k i + termSeq f s x (k + 1) i

open Classical in
theorem neumannLoop_nan {n : Nat} (isNaN : α → Bool) (A : SciOp α) (f : (Fin n → α) → Fin n → α)
    (hA : ∀ v, A.dot (.vec (List.ofFn v)) = .ok (.vec (List.ofFn (f v)))) (h : NeumannHyper α)
    (x : Fin n → α) (T : Nat) : ∀ j,
    neumannLoop isNaN A h T (.vec (List.ofFn (termSeq f h.scale x j)))
        (.vec (List.ofFn (sumSeq f h.scale x j))) =
      if h.checkNan = true ∧ ∃ k, j < k ∧ k ≤ j + T ∧ ∃ i, isNaN (sumSeq f h.scale x k i) = true
      then .error .valueError else .ok (.vec (List.ofFn (sumSeq f h.scale x (j + T)))) := by
  induction T with
  | zero =>
    intro j
    rw [neumannLoop, if_neg]
    · rfl
    · rintro ⟨-, k, h1, h2, -⟩; omega
  | succ T ih =>
    intro j
    rw [neumannLoop, hA]
    simp only [map2_ofFn]
    have e1 : (fun i => termSeq f h.scale x j i - h.scale * f (termSeq f h.scale x j) i) =
        termSeq f h.scale x (j + 1) := rfl
    have e2 : (fun i => sumSeq f h.scale x j i +
        (termSeq f h.scale x j i - h.scale * f (termSeq f h.scale x j) i)) =
        sumSeq f h.scale x (j + 1) := rfl
    rw [e1, e2]
    have hn : NpVal.hasNaN isNaN (.vec (List.ofFn (sumSeq f h.scale x (j + 1)))) = true ↔
        ∃ i, isNaN (sumSeq f h.scale x (j + 1) i) = true := by
      simp [NpVal.hasNaN, NpVal.ravel, List.any_eq_true, List.mem_ofFn]
    by_cases hb : h.checkNan = true ∧ ∃ i, isNaN (sumSeq f h.scale x (j + 1) i) = true
    · rw [if_pos (by simp [hb.1, hn.mpr hb.2]), if_pos]
      exact ⟨hb.1, j + 1, by omega, by omega, hb.2⟩
    · rw [if_neg, ih (j + 1)]
      · have hiff : (h.checkNan = true ∧ ∃ k, j + 1 < k ∧ k ≤ j + 1 + T ∧
            ∃ i, isNaN (sumSeq f h.scale x k i) = true) ↔
            (h.checkNan = true ∧ ∃ k, j < k ∧ k ≤ j + (T + 1) ∧
              ∃ i, isNaN (sumSeq f h.scale x k i) = true) := by
          constructor
          · rintro ⟨hc, k, k1, k2, k3⟩
            exact ⟨hc, k, by omega, by omega, k3⟩
          · rintro ⟨hc, k, k1, k2, k3⟩
            refine ⟨hc, k, ?_, by omega, k3⟩
            rcases Nat.lt_or_ge (j + 1) k with h' | h'
            · exact h'
            · have : k = j + 1 := by omega
              subst this
              exact absurd ⟨hc, k3⟩ hb
        rw [if_congr hiff rfl rfl, show j + 1 + T = j + (T + 1) by omega]
      · rw [Bool.and_eq_true, hn]; exact hb

open Classical in
/-- C48: in an arbitrary arithmetic with an arbitrary NaN predicate, the product raises `ValueError` exactly if
the check is on and one of the partial sums after the first, second, ... term contains NaN; otherwise the result
is that of the unchecked computation. -/
theorem neumann_nan_check {n : Nat} (isNaN : α → Bool) (A : SciOp α) (f : (Fin n → α) → Fin n → α)
    (hr : A.rows = n) (hc : A.cols = n)
    (hA : ∀ v, A.dot (.vec (List.ofFn v)) = .ok (.vec (List.ofFn (f v)))) (h : NeumannHyper α)
    (x : Fin n → α) :
    (neumannOp isNaN A h).dot (.vec (List.ofFn x)) =
      if h.checkNan = true ∧ ∃ k, 0 < k ∧ k ≤ h.numTerms ∧ ∃ i, isNaN (sumSeq f h.scale x k i) = true
      then .error .valueError
      else .ok (.vec (List.ofFn fun i => h.scale * sumSeq f h.scale x h.numTerms i)) := by
  have hl := neumannLoop_nan isNaN A f hA h x h.numTerms 0
  simp only [termSeq, sumSeq, Nat.zero_add] at hl
  simp only [SciOp.dot, SciOp.matvec, neumannOp, List.length_ofFn, hc, if_true, neumannMatvec, hl]
  split_ifs with h1
  · rfl
  · simp [NpVal.map1, NpVal.reshapeVec, NpVal.ravel, hr, List.map_ofFn, Function.comp_def]

/-- C48, unchecked reference: with `check_nan = False` the product never raises. -/
theorem neumann_unchecked {n : Nat} (isNaN : α → Bool) (A : SciOp α) (f : (Fin n → α) → Fin n → α)
    (hr : A.rows = n) (hc : A.cols = n)
    (hA : ∀ v, A.dot (.vec (List.ofFn v)) = .ok (.vec (List.ofFn (f v)))) (h : NeumannHyper α)
    (hcheck : h.checkNan = false) (x : Fin n → α) :
    (neumannOp isNaN A h).dot (.vec (List.ofFn x)) =
      .ok (.vec (List.ofFn fun i => h.scale * sumSeq f h.scale x h.numTerms i)) := by
  rw [neumann_nan_check isNaN A f hr hc hA h x, if_neg]
  simp [hcheck]

end nan

/-- A NaN arithmetic on `Option ℤ`: `none` is NaN. -/
instance optAdd : Add (Option ℤ) := ⟨fun a b => a.bind fun a => b.map (a + ·)⟩
instance optSub : Sub (Option ℤ) := ⟨fun a b => a.bind fun a => b.map (a - ·)⟩
instance optMul : Mul (Option ℤ) := ⟨fun a b => a.bind fun a => b.map (a * ·)⟩

/-- An operator on `Option ℤ` that produces NaN from entries above 5, else doubles. -/
def nanSci : SciOp (Option ℤ) where
  rows := 1
  cols := 1
  matvecImpl
    | .vec v => .ok (.vec (v.map fun a => a.bind fun a => if 5 < a then none else some (2 * a)))
    | .mat _ _ => .error .valueError
  matmatImpl _ _ := .error .valueError

/-- Non-vacuity: terms 1, 3, 9, NaN with scale -1: three terms raise with the check, two do not. -/
example : (neumannOp Option.isNone nanSci ⟨3, some (-1), true⟩).dot (.vec [some 1]) = .error .valueError ∧
    (neumannOp Option.isNone nanSci ⟨2, some (-1), true⟩).dot (.vec [some 1]) = .ok (.vec [some (-13)]) ∧
    (neumannOp Option.isNone nanSci ⟨3, some (-1), false⟩).dot (.vec [some 1]) = .ok (.vec [none]) := by
  decide

/-- The vector itself is not checked: NaN in `x` passes if `num_terms = 0`. -/
theorem neumann_zero_terms_unchecked :
    (neumannOp Option.isNone nanSci ⟨0, some 1, true⟩).dot (.vec [none]) = .ok (.vec [none]) := by
  decide

/-! ## C49 -/

section solvers

variable {Obj Info : Type _}

/-- Specification: the arguments of the most recent setter call, none given in the beginning. -/
def lastArgs {Args : Type _} (init : Args) (calls : List Args) : Args := calls.getLast?.getD init

/-- Specification: what SciPy's `cg` must be called with, given the arguments of the setter: each argument under its own
name, and the documented default (`inverse.py:52-60`) for omitted ones. -/
def cgExpected (a : CGArgs Obj) : CGHyper Obj where
  x0 := match a.x0 with | some x0 => x0 | none => none
  tol := match a.tol with | some tol => tol | none => some 1e-5
  maxiter := match a.maxiter with | some maxiter => maxiter | none => none
  M := match a.M with | some M => M | none => none
  callback := match a.callback with | some callback => callback | none => none
  atol := match a.atol with | some atol => atol | none => none

/-- Specification: the same for SciPy's `lsmr` (`inverse.py:110-119`). -/
def lsmrExpected (a : LSMRArgs Obj) : LSMRHyper Obj where
  damp := match a.damp with | some damp => damp | none => 0
  atol := match a.atol with | some atol => atol | none => some 1e-6
  btol := match a.btol with | some btol => btol | none => some 1e-6
  conlim := match a.conlim with | some conlim => conlim | none => some 1e-8
  maxiter := match a.maxiter with | some maxiter => maxiter | none => none
  «show» := match a.show with | some s => s | none => some false
  x0 := match a.x0 with | some x0 => x0 | none => none

theorem setCG_eq (a : CGArgs Obj) : setCG a = cgExpected a := by
  obtain ⟨x0, maxiter, M, callback, atol, tol⟩ := a
  cases x0 <;> cases maxiter <;> cases M <;> cases callback <;> cases atol <;> cases tol <;>
    simp [setCG, cgExpected] <;> norm_num

theorem setLSMR_eq (a : LSMRArgs Obj) : setLSMR a = lsmrExpected a := by
  obtain ⟨damp, atol, btol, conlim, maxiter, s, x0⟩ := a
  cases damp <;> cases atol <;> cases btol <;> cases conlim <;> cases maxiter <;> cases s <;> cases x0 <;>
    simp [setLSMR, lsmrExpected] <;> norm_num

/-- C49 (CG): after any sequence of setter calls, every vector product is SciPy's `cg` with the operator and the
hyper-parameters of the most recent call (defaults for omitted ones). -/
theorem cg_forward (cg : SciOp α → NpVal α → CGHyper Obj → Py (NpVal α × Int)) (A : SciOp α)
    (calls : List (CGArgs Obj)) (x y : List α) (code : Int) (hx : x.length = A.cols) (hy : y.length = A.rows)
    (hcg : cg A (.vec x) (cgExpected (lastArgs {} calls)) = .ok (.vec y, code)) :
    ((calls.foldl CGState.set (mkCG A)).toSci cg).dot (.vec x) = .ok (.vec y) := by
  have key : ∀ (calls : List (CGArgs Obj)) (s : CGState α Obj) (a0 : CGArgs Obj), s.hyper = setCG a0 →
      (calls.foldl CGState.set s).A = s.A ∧
      (calls.foldl CGState.set s).hyper = setCG (lastArgs a0 calls) := by
    intro calls
    induction calls with
    | nil => intro s a0 hs; exact ⟨rfl, hs⟩
    | cons a calls ih =>
      intro s a0 _
      obtain ⟨h1, h2⟩ := ih (s.set a) a rfl
      refine ⟨h1, ?_⟩
      rw [List.foldl_cons, h2]
      simp [lastArgs, List.getLast?_cons]
  obtain ⟨h1, h2⟩ := key calls (mkCG A) {} rfl
  have h1 : (calls.foldl CGState.set (mkCG (Obj := Obj) A)).A = A := h1
  refine dot_vec_of_impl (by simp [CGState.toSci, h1, hx]) (by simp [CGState.toSci, h1, hy]) ?_
  rw [setCG_eq] at h2
  simp [CGState.toSci, h1, h2, hcg]

/-- The documented defaults of CG. -/
theorem cg_defaults : setCG ({} : CGArgs Obj) = ⟨none, none, none, none, none, some (1 / 100000)⟩ := rfl

/-- C49 (LSMR): the same for LSMR; `matvec_with_info` returns SciPy's full answer. -/
theorem lsmr_forward (lsmr : SciOp α → NpVal α → LSMRHyper Obj → Py (NpVal α × Info)) (A : SciOp α)
    (calls : List (LSMRArgs Obj)) (x y : List α) (info : Info) (hx : x.length = A.cols)
    (hy : y.length = A.rows) (hl : lsmr A (.vec x) (lsmrExpected (lastArgs {} calls)) = .ok (.vec y, info)) :
    ((calls.foldl LSMRState.set (mkLSMR A)).toSci lsmr).dot (.vec x) = .ok (.vec y) ∧
    (calls.foldl LSMRState.set (mkLSMR A)).matvecWithInfo lsmr (.vec x) = .ok (.vec y, info) := by
  have key : ∀ (calls : List (LSMRArgs Obj)) (s : LSMRState α Obj) (a0 : LSMRArgs Obj),
      s.hyper = setLSMR a0 → (calls.foldl LSMRState.set s).A = s.A ∧
      (calls.foldl LSMRState.set s).hyper = setLSMR (lastArgs a0 calls) := by
    intro calls
    induction calls with
    | nil => intro s a0 hs; exact ⟨rfl, hs⟩
    | cons a calls ih =>
      intro s a0 _
      obtain ⟨h1, h2⟩ := ih (s.set a) a rfl
      refine ⟨h1, ?_⟩
      rw [List.foldl_cons, h2]
      simp [lastArgs, List.getLast?_cons]
  obtain ⟨h1, h2⟩ := key calls (mkLSMR A) {} rfl
  have h1 : (calls.foldl LSMRState.set (mkLSMR (Obj := Obj) A)).A = A := h1
  rw [setLSMR_eq] at h2
  refine ⟨dot_vec_of_impl (by simp [LSMRState.toSci, h1, hx]) (by simp [LSMRState.toSci, h1, hy]) ?_, ?_⟩
  · simp [LSMRState.toSci, LSMRState.matvecWithInfo, h1, h2, hl]
  · simp [LSMRState.matvecWithInfo, h1, h2, hl]

/-- C49: for all three classes, a product with a matrix with at least two columns is the column-wise vector
product. `mv` is the vector product of the class. -/
theorem inverse_columnwise {n m K : Nat} (hK : 2 ≤ K) (impl : NpVal α → Py (NpVal α))
    (mv : (Fin n → α) → Fin m → α)
    (h : ∀ x, impl (.vec (List.ofFn x)) = .ok (.vec (List.ofFn (mv x)))) (X : Fin K → Fin n → α) :
    (SciOp.mk m n impl (inverseMatmat m n impl)).dot (.mat n (List.ofFn fun k => List.ofFn (X k))) =
      .ok (.mat m (List.ofFn fun k => List.ofFn (mv (X k)))) := by
  have hmap : ∀ (K : Nat) (X : Fin K → Fin n → α),
      pyMapM (SciOp.mulVec ⟨m, n, impl, fun _ _ => .error .notImplementedError⟩)
        (List.ofFn fun k => List.ofFn (X k)) = .ok (List.ofFn fun k => List.ofFn (mv (X k))) := by
    intro K
    induction K with
    | zero => intro X; rfl
    | succ K ih =>
      intro X
      have h0 : SciOp.mulVec ⟨m, n, impl, fun _ _ => .error .notImplementedError⟩ (List.ofFn (X 0)) =
          .ok (List.ofFn (mv (X 0))) := by
        rw [SciOp.mulVec, dot_vec_of_impl (by simp) (by simp) (h (X 0))]; rfl
      rw [List.ofFn_succ, pyMapM, ih fun k => X k.succ, h0, List.ofFn_succ]
  have hdot : (SciOp.mk m n impl (inverseMatmat m n impl)).dot
      (.mat n (List.ofFn fun k => List.ofFn (X k))) =
      inverseMatmat m n impl n (List.ofFn fun k => List.ofFn (X k)) := by
    obtain ⟨K, rfl⟩ : ∃ K', K = K' + 2 := ⟨K - 2, by omega⟩
    rw [List.ofFn_succ, List.ofFn_succ, SciOp.dot]
    · simp [SciOp.matmat]
    · simp
  rw [hdot, inverseMatmat]
  simp only [hmap]
  exact columnStack_ofFn (by omega) fun k => mv (X k)

/-- C47 for matrices with at least two columns. -/
theorem neumann_mat [CommRing α] {n K : Nat} (hK : 2 ≤ K) (A : SciOp α) (M : Matrix (Fin n) (Fin n) α)
    (hA : VecRep A M) (h : NeumannHyper α) (X : Fin K → Fin n → α) :
    (neumannOp (fun _ => false) A h).dot (.mat n (List.ofFn fun k => List.ofFn (X k))) =
      .ok (.mat n (List.ofFn fun k => List.ofFn (neumannSum M h.scale h.numTerms (X k)))) := by
  have := inverse_columnwise hK (neumannMatvec (fun _ => false) A h) _ (neumann_impl A M hA h) X
  simpa [neumannOp, hA.1, hA.2.1] using this

theorem ravel_col (l : List α) : (NpVal.mat l.length [l]).ravel = l := by
  induction l with
  | nil => rfl
  | cons a l ih =>
    simp only [NpVal.ravel] at ih
    simp only [NpVal.ravel, List.length_cons, List.range_succ_eq_map, List.flatMap_cons, List.flatMap_map]
    exact congrArg (a :: ·) ih

theorem neumannLoop_col [CommRing α] {n : Nat} (A : SciOp α) (M : Matrix (Fin n) (Fin n) α)
    (hA : ∀ v : Fin n → α, A.dot (.mat n [List.ofFn v]) = .ok (.mat n [List.ofFn (M *ᵥ v)])) (h : NeumannHyper α)
    (T : Nat) :
    ∀ v r : Fin n → α, neumannLoop (fun _ => false) A h T (.mat n [List.ofFn v]) (.mat n [List.ofFn r]) =
      .ok (.mat n [List.ofFn (r + ∑ k ∈ Finset.range T, ((1 - h.scale • M) ^ (k + 1)) *ᵥ v)]) := by
  have hmap : ∀ (f : α → α → α) (u v : Fin n → α), NpVal.map2 f (.mat n [List.ofFn u]) (.mat n [List.ofFn v]) =
      .ok (.mat n [List.ofFn fun i => f (u i) (v i)]) := by
    intro f u v
    have := map2_ofFn f u v
    simp only [NpVal.map2, List.length_ofFn, if_true, Except.ok.injEq, NpVal.vec.injEq] at this
    simp [NpVal.map2, this]
  induction T with
  | zero => intro v r; simp [neumannLoop]
  | succ T ih =>
    intro v r
    rw [neumannLoop, hA v]
    simp only [hmap]
    have hn : ∀ y : NpVal α, (h.checkNan && NpVal.hasNaN (fun _ => false) y) = false := by
      simp [NpVal.hasNaN]
    have hv : (fun i => v i - h.scale * (M *ᵥ v) i) = (1 - h.scale • M) *ᵥ v := by
      rw [Matrix.sub_mulVec, Matrix.one_mulVec, Matrix.smul_mulVec]
      rfl
    have hr : (fun i => r i + (v i - h.scale * (M *ᵥ v) i)) = r + (1 - h.scale • M) *ᵥ v := by
      rw [← hv]; rfl
    rw [if_neg (by simp [hn]), ih, hr, hv, Finset.sum_range_succ']
    have hs : ∀ k, ((1 - h.scale • M) ^ (k + 1)) *ᵥ ((1 - h.scale • M) *ᵥ v) =
        ((1 - h.scale • M) ^ (k + 1 + 1)) *ᵥ v := fun k => by
      rw [Matrix.mulVec_mulVec, ← pow_succ]
    simp only [hs, zero_add, pow_one]
    rw [add_assoc, add_comm (_ *ᵥ v)]

/-- C47 for matrices with one column, which SciPy hands to `_matvec` as they are. -/
theorem neumann_col [CommRing α] {n : Nat} (A : SciOp α) (M : Matrix (Fin n) (Fin n) α) (hr : A.rows = n)
    (hc : A.cols = n) (hA : ∀ v : Fin n → α, A.dot (.mat n [List.ofFn v]) = .ok (.mat n [List.ofFn (M *ᵥ v)]))
    (h : NeumannHyper α) (x : Fin n → α) :
    (neumannOp (fun _ => false) A h).dot (.mat n [List.ofFn x]) =
      .ok (.mat n [List.ofFn (neumannSum M h.scale h.numTerms x)]) := by
  have himpl : neumannMatvec (fun _ => false) A h (.mat n [List.ofFn x]) =
      .ok (.mat n [List.ofFn (neumannSum M h.scale h.numTerms x)]) := by
    simp only [neumannMatvec, neumannLoop_col A M hA, NpVal.map1, List.map_cons, List.map_nil, List.map_ofFn]
    congr 4
    funext i
    simp only [Function.comp_apply, neumannSum, Pi.smul_apply, smul_eq_mul]
    congr 1
    rw [Finset.sum_range_succ', pow_zero, Matrix.add_mulVec, Matrix.one_mulVec, Matrix.sum_mulVec]
    simp only [Pi.add_apply]
    rw [add_comm]
  have hravel : ∀ y : Fin n → α, (NpVal.mat n [List.ofFn y]).ravel = List.ofFn y := fun y => by
    simpa using ravel_col (List.ofFn y)
  simp only [SciOp.dot, SciOp.matvec, neumannOp, hc, if_true, himpl, NpVal.reshapeCol, hravel, List.length_ofFn, hr]

/-- An operator that triples vectors and matrices. -/
def tripleSci : SciOp ℤ := ⟨2, 2, fun x => .ok (x.map1 (3 * ·)), fun r cs => .ok (NpVal.map1 (3 * ·) (.mat r cs))⟩

/-- Non-vacuity: the operator multiplies matrices with one column, and the series has the expected value. -/
example : (∀ v : Fin 2 → ℤ, tripleSci.dot (.mat 2 [List.ofFn v]) =
      .ok (.mat 2 [List.ofFn (((3 : ℤ) • (1 : Matrix (Fin 2) (Fin 2) ℤ)) *ᵥ v)])) ∧
    (neumannOp (fun _ => false) tripleSci ⟨1, 2, true⟩).dot (.mat 2 [[1, 2]]) = .ok (.mat 2 [[-8, -16]]) := by
  refine ⟨fun v => ?_, by decide⟩
  rw [Matrix.smul_mulVec, Matrix.one_mulVec]
  have h : (NpVal.mat 2 [[3 * v 0, 3 * v 1]]).ravel = [3 * v 0, 3 * v 1] := ravel_col _
  simp [SciOp.dot, SciOp.matvec, tripleSci, NpVal.map1, NpVal.reshapeCol, h]

/-- C49 is violated for LSMR: with the default `conlim = 1e-8` SciPy's stopping rule is met for every condition
number estimate, in particular after the first iteration. -/
theorem lsmr_default_stops (cond : ℚ) (hc : 1 ≤ cond) :
    lsmrConlimStop (setLSMR ({} : LSMRArgs Obj)).conlim cond = true := by
  have h0 : (0 : ℚ) < cond := by linarith
  have h1 : 1 / cond ≤ 1 / (1 / 100000000) := by
    rw [div_le_iff₀ h0]
    norm_num
    linarith
  have h2 : (setLSMR ({} : LSMRArgs Obj)).conlim = some (1 / 100000000) := rfl
  rw [h2]
  unfold lsmrConlimStop
  simp only [Option.getD_some, Bool.and_eq_true, decide_eq_true_eq]
  exact ⟨by norm_num, h1⟩

/-- SciPy's own default `1e8` does not stop for well-conditioned problems. -/
theorem lsmr_scipy_default (cond : ℚ) (hc : 1 ≤ cond) (hc' : cond < 100000000) :
    lsmrConlimStop none cond = false := by
  have h0 : (0 : ℚ) < cond := by linarith
  simp only [lsmrConlimStop, Option.getD_none, Bool.and_eq_false_iff, decide_eq_false_iff_not]
  right
  rw [not_le, div_lt_div_iff₀ (by norm_num) h0]
  linarith

/-- Consequence: whatever multiple of `Aᵀ b` the first iteration gives, it is not `A⁻¹ b` for `A = diag(1, 2)` and
`b = (1, 1)`. -/
theorem lsmr_first_iterate_wrong (t : ℚ) :
    let A : Matrix (Fin 2) (Fin 2) ℚ := !![1, 0; 0, 2]
    let b : Fin 2 → ℚ := ![1, 1]
    A *ᵥ (t • (Aᵀ *ᵥ b)) ≠ b := by
  intro A b h
  have h0 := congrFun h 0
  have h1 := congrFun h 1
  simp [A, b, Matrix.mulVec, dotProduct, Fin.sum_univ_two] at h0 h1
  linarith

/-- Non-vacuity of the forwarding theorems: two setter calls, a solver that returns its argument. -/
example : ((([{ maxiter := some (some 5) }, { tol := some none }] : List (CGArgs Unit)).foldl CGState.set
    (mkCG (denseSci !![1, 2; 3, 4] : SciOp ℤ))).toSci
      (fun _ x h => .ok (x, if h.tol = none ∧ h.maxiter = none then 0 else 1))).dot (.vec [5, 6]) =
    .ok (.vec [5, 6]) := by decide

end solvers

end Curvlinops
