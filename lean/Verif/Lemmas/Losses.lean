import Verif.Spec.Calculus
import Verif.Model.Losses
import Mathlib.Analysis.Calculus.Deriv.Add
import Mathlib.Analysis.Calculus.Deriv.Mul
import Mathlib.Analysis.Calculus.Deriv.Pow
import Mathlib.Analysis.SpecialFunctions.ExpDeriv
import Mathlib.Analysis.SpecialFunctions.Log.Deriv
import Mathlib.Tactic.Linarith
import Mathlib.Tactic.FieldSimp
import Mathlib.Tactic.Ring

/-!
# Derivatives of the losses
-/

namespace Curvlinops

section General

variable {ι : Type _} [DecidableEq ι]

theorem pderiv_eq {F : (ι → ℝ) → ℝ} {i : ι} {x : ι → ℝ} {d : ℝ}
    (h : HasDerivAt (fun t => F (Function.update x i t)) d (x i)) : pderiv F i x = d := h.deriv

/-- A function of coordinate `k` only. -/
theorem pderiv_coord (φ : ℝ → ℝ) (k i : ι) (x : ι → ℝ) :
    pderiv (fun f => φ (f k)) i x = if i = k then deriv φ (x k) else 0 := by
  unfold pderiv
  by_cases h : i = k
  · subst h; simp
  · simp [h, Function.update_of_ne (Ne.symm h)]

/-- Row-wise sums: gradient. -/
theorem pderiv_rows {n C : Nat} (φ : Fin n → (Fin C → ℝ) → ℝ) (k : ℝ) (m : Fin n) (c : Fin C)
    (f : Fin n × Fin C → ℝ) :
    pderiv (fun f : Fin n × Fin C → ℝ => (∑ m, φ m fun c => f (m, c)) / k) (m, c) f =
      pderiv (φ m) c (fun c => f (m, c)) / k := by
  unfold pderiv
  have hrow : ∀ (t : ℝ) (m' : Fin n), (fun c' => Function.update f (m, c) t (m', c')) =
      if m' = m then Function.update (fun c => f (m, c)) c t else fun c => f (m', c) := by
    intro t m'
    funext c'
    by_cases hm : m' = m
    · subst hm
      rw [if_pos rfl]
      by_cases hc : c' = c
      · subst hc; simp
      · rw [Function.update_of_ne hc, Function.update_of_ne (by simp [hc])]
    · rw [if_neg hm, Function.update_of_ne (by simp [hm])]
  have hsum : (fun t => (∑ m', φ m' fun c' => Function.update f (m, c) t (m', c')) / k) = fun t =>
      (φ m (Function.update (fun c => f (m, c)) c t) + ∑ m' ∈ Finset.univ.erase m, φ m' fun c => f (m', c)) / k := by
    funext t
    rw [← Finset.add_sum_erase _ _ (Finset.mem_univ m)]
    congr 2
    · rw [hrow, if_pos rfl]
    · refine Finset.sum_congr rfl fun m' hm' => ?_
      rw [hrow, if_neg (Finset.ne_of_mem_erase hm')]
  rw [hsum, deriv_div_const, deriv_add_const]

/-- Row-wise sums: Hessian. -/
theorem hess_rows {n C : Nat} (φ : Fin n → (Fin C → ℝ) → ℝ) (k : ℝ) (m m' : Fin n) (c c' : Fin C)
    (f : Fin n × Fin C → ℝ) :
    hess (fun f : Fin n × Fin C → ℝ => (∑ m, φ m fun c => f (m, c)) / k) f (m, c) (m', c') =
      if m = m' then hess (φ m) (fun c => f (m, c)) c c' / k else 0 := by
  unfold hess
  have h1 : (fun y : Fin n × Fin C → ℝ =>
      pderiv (fun f : Fin n × Fin C → ℝ => (∑ m, φ m fun c => f (m, c)) / k) (m', c') y) = fun y =>
      (∑ l, (fun l : Fin n => fun r : Fin C → ℝ => if l = m' then pderiv (φ m') c' r else 0) l fun c => y (l, c)) / k := by
    funext y
    rw [pderiv_rows]
    simp
  rw [h1]
  refine (pderiv_rows (fun l : Fin n => fun r : Fin C → ℝ => if l = m' then pderiv (φ m') c' r else 0) k m c f).trans ?_
  by_cases hm : m = m'
  · subst hm; simp
  · simp only [hm, if_false]
    simp [pderiv]

end General

section Terms

variable {C : Nat}

theorem pderiv_sum_coord (φ : Fin C → ℝ → ℝ) (c : Fin C) (f : Fin C → ℝ) :
    pderiv (fun f : Fin C → ℝ => ∑ c, φ c (f c)) c f = deriv (φ c) (f c) := by
  unfold pderiv
  have : (fun t => ∑ c', φ c' (Function.update f c t c')) =
      fun t => φ c t + ∑ c' ∈ Finset.univ.erase c, φ c' (f c') := by
    funext t
    rw [← Finset.add_sum_erase _ _ (Finset.mem_univ c)]
    congr 1
    · simp
    · refine Finset.sum_congr rfl fun c' hc' => ?_
      rw [Function.update_of_ne (Finset.ne_of_mem_erase hc')]
  rw [this, deriv_add_const]

theorem pderiv_mse (y f : Fin C → ℝ) (c : Fin C) : pderiv (termLoss .mse y) c f = 2 * (f c - y c) := by
  have : termLoss .mse y = fun f : Fin C → ℝ => ∑ c, (fun (c : Fin C) (t : ℝ) => (t - y c) ^ 2) c (f c) := rfl
  rw [this]
  refine (pderiv_sum_coord (fun (c : Fin C) (t : ℝ) => (t - y c) ^ 2) c f).trans ?_
  have h : HasDerivAt (fun t : ℝ => (t - y c) ^ 2) (2 * (f c - y c)) (f c) := by
    have h := ((hasDerivAt_id' (f c)).sub_const (y c)).fun_pow 2
    refine h.congr_deriv ?_
    simp
  exact h.deriv

theorem hess_mse (y f : Fin C → ℝ) (c c' : Fin C) :
    hess (termLoss .mse y) f c c' = if c = c' then 2 else 0 := by
  unfold hess
  simp only [pderiv_mse]
  rw [pderiv_coord (fun t => 2 * (t - y c')) c' c f]
  congr 1
  simp

theorem log_sigmoid_hasDerivAt (x : ℝ) : HasDerivAt (fun t => Real.log (Real.sigmoid t)) (1 - Real.sigmoid x) x := by
  have h := (Real.hasDerivAt_sigmoid x).log (Real.sigmoid_pos x).ne'
  have h2 : Real.sigmoid x * (1 - Real.sigmoid x) / Real.sigmoid x = 1 - Real.sigmoid x := by
    field_simp [(Real.sigmoid_pos x).ne']
  rwa [h2] at h

theorem log_one_sub_sigmoid_hasDerivAt (x : ℝ) :
    HasDerivAt (fun t => Real.log (1 - Real.sigmoid t)) (-Real.sigmoid x) x := by
  have hpos : 1 - Real.sigmoid x ≠ 0 := by have := Real.sigmoid_lt_one x; linarith
  have h := ((Real.hasDerivAt_sigmoid x).const_sub 1).log hpos
  have h2 : -(Real.sigmoid x * (1 - Real.sigmoid x)) / (1 - Real.sigmoid x) = -Real.sigmoid x := by
    field_simp
  rwa [h2] at h

theorem pderiv_bce (y f : Fin C → ℝ) (c : Fin C) : pderiv (termLoss .bce y) c f = Real.sigmoid (f c) - y c := by
  have : termLoss .bce y = fun f : Fin C → ℝ => ∑ c, (fun (c : Fin C) (t : ℝ) =>
      -(y c * Real.log (Real.sigmoid t) + (1 - y c) * Real.log (1 - Real.sigmoid t))) c (f c) := rfl
  rw [this]
  refine (pderiv_sum_coord (fun (c : Fin C) (t : ℝ) =>
      -(y c * Real.log (Real.sigmoid t) + (1 - y c) * Real.log (1 - Real.sigmoid t))) c f).trans ?_
  have h := (((log_sigmoid_hasDerivAt (f c)).const_mul (y c)).add
    ((log_one_sub_sigmoid_hasDerivAt (f c)).const_mul (1 - y c))).neg
  have h2 := h.deriv
  have h3 : -(y c * (1 - Real.sigmoid (f c)) + (1 - y c) * -Real.sigmoid (f c)) = Real.sigmoid (f c) - y c := by ring
  rw [h3] at h2
  exact h2

theorem hess_bce (y f : Fin C → ℝ) (c c' : Fin C) :
    hess (termLoss .bce y) f c c' =
      if c = c' then Real.sigmoid (f c) * (1 - Real.sigmoid (f c)) else 0 := by
  unfold hess
  simp only [pderiv_bce]
  rw [pderiv_coord (fun t => Real.sigmoid t - y c') c' c f]
  by_cases h : c = c'
  · subst h
    simp only [if_true]
    exact ((Real.hasDerivAt_sigmoid (f c)).sub_const (y c)).deriv
  · simp [h]

theorem sum_exp_pos (f : Fin C → ℝ) (c : Fin C) : 0 < ∑ c, Real.exp (f c) :=
  Finset.sum_pos (fun _ _ => Real.exp_pos _) ⟨c, Finset.mem_univ c⟩

theorem sum_exp_update_hasDerivAt (f : Fin C → ℝ) (c : Fin C) :
    HasDerivAt (fun t => ∑ c', Real.exp (Function.update f c t c')) (Real.exp (f c)) (f c) := by
  have : (fun t => ∑ c', Real.exp (Function.update f c t c')) =
      fun t => Real.exp t + ∑ c' ∈ Finset.univ.erase c, Real.exp (f c') := by
    funext t
    rw [← Finset.add_sum_erase _ _ (Finset.mem_univ c)]
    congr 1
    · simp
    · refine Finset.sum_congr rfl fun c' hc' => ?_
      rw [Function.update_of_ne (Finset.ne_of_mem_erase hc')]
  rw [this]
  exact (Real.hasDerivAt_exp (f c)).add_const _

theorem update_coord_hasDerivAt (f : Fin C → ℝ) (c k : Fin C) :
    HasDerivAt (fun t => Function.update f c t k) (if c = k then 1 else 0) (f c) := by
  by_cases h : c = k
  · subst h
    simp only [Function.update_self, if_true]
    exact hasDerivAt_id' (f c)
  · simp only [h, if_false, Function.update_of_ne (Ne.symm h)]
    exact hasDerivAt_const _ _

theorem pderiv_ce (y : Fin C) (f : Fin C → ℝ) (c : Fin C) :
    pderiv (termLoss (C := C) .ce y) c f = softmax f c - if c = y then 1 else 0 := by
  refine pderiv_eq ?_
  have he : (fun t => termLoss (C := C) .ce y (Function.update f c t)) = fun t =>
      Real.log (∑ c', Real.exp (Function.update f c t c')) - Function.update f c t y := by
    funext t
    simp only [termLoss]
    rw [Real.log_div (Real.exp_pos _).ne' (sum_exp_pos _ c).ne', Real.log_exp]
    ring
  rw [he]
  have hupd : Function.update f c (f c) = f := Function.update_eq_self c f
  have h1 := (sum_exp_update_hasDerivAt f c).log (by rw [hupd]; exact (sum_exp_pos f c).ne')
  rw [hupd] at h1
  exact h1.sub (update_coord_hasDerivAt f c y)

theorem softmax_hasDerivAt (f : Fin C → ℝ) (c k : Fin C) :
    HasDerivAt (fun t => softmax (Function.update f c t) k)
      ((if c = k then softmax f c else 0) - softmax f c * softmax f k) (f c) := by
  have hupd : Function.update f c (f c) = f := Function.update_eq_self c f
  have hne : ∑ c, Real.exp (f c) ≠ 0 := (sum_exp_pos f c).ne'
  have h := ((update_coord_hasDerivAt f c k).exp).div (sum_exp_update_hasDerivAt f c) (by rw [hupd]; exact hne)
  rw [hupd] at h
  refine h.congr_deriv ?_
  unfold softmax
  by_cases hk : c = k
  · subst hk
    simp only [if_true]
    field_simp
  · simp only [hk, if_false]
    field_simp
    ring

theorem hess_ce (y : Fin C) (f : Fin C → ℝ) (c c' : Fin C) :
    hess (termLoss (C := C) .ce y) f c c' = (if c = c' then softmax f c else 0) - softmax f c * softmax f c' := by
  unfold hess
  simp only [pderiv_ce]
  refine pderiv_eq ?_
  exact (softmax_hasDerivAt f c c').sub_const _

end Terms

end Curvlinops
