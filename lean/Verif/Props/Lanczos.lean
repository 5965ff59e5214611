import Verif.Spec.Spectrum
import Verif.Lemmas.Lanczos
import Verif.Lemmas.Spectral
import Mathlib.Analysis.InnerProductSpace.Spectrum
import Mathlib.LinearAlgebra.Matrix.NonsingularInverse

/-!
# C59, C66: Lanczos iterations
-/

namespace Curvlinops

open scoped InnerProductSpace
open Matrix

variable {d : Nat}

theorem lanczosLoop_succ (A : EuclideanSpace ℝ (Fin d) → EuclideanSpace ℝ (Fin d)) (ncv : Nat)
    (r : EuclideanSpace ℝ (Fin d)) (k : Nat) :
    lanczosLoop A ncv r (k + 1) = (lanczosLoop A ncv r k).bind fun st => lanczosStep A ncv r st k := by
  unfold lanczosLoop
  rw [List.range_succ, List.foldlM_append]
  simp only [List.foldlM_cons, List.foldlM_nil, Option.bind_eq_bind]
  congr 1
  funext st
  cases lanczosStep A ncv r st k <;> rfl

/-- The normalized start vector. -/
noncomputable def startVec (r : EuclideanSpace ℝ (Fin d)) : EuclideanSpace ℝ (Fin d) := ‖r‖⁻¹ • r

section Loop

variable (A : EuclideanSpace ℝ (Fin d) → EuclideanSpace ℝ (Fin d)) (ncv : Nat) (r : EuclideanSpace ℝ (Fin d))

theorem lanczosStep_eq (m : Nat) (st : LanczosState d) (hr : ‖r‖ ≠ 0)
    (ha : st.alphas = (List.range m).map (lanczosAlpha A (startVec r)))
    (hb : st.betas = (List.range m).map fun i => lanczosBeta A (startVec r) (i + 1))
    (hv : m ≠ 0 → st.v = lanczosVec A (startVec r) m ∧ st.vPrev = (lanczosSeq A (startVec r) m).2.1) :
    lanczosStep A ncv r st m =
      if m + 1 = ncv then some ⟨lanczosVec A (startVec r) m, st.vPrev,
        (List.range (m + 1)).map (lanczosAlpha A (startVec r)), st.betas⟩
      else if lanczosBeta A (startVec r) (m + 1) = 0 then none
      else some ⟨lanczosVec A (startVec r) (m + 1), lanczosVec A (startVec r) m,
        (List.range (m + 1)).map (lanczosAlpha A (startVec r)),
        (List.range (m + 1)).map fun i => lanczosBeta A (startVec r) (i + 1)⟩ := by
  have e1 : (if m = 0 then ‖r‖⁻¹ • r else st.v) = lanczosVec A (startVec r) m := by
    by_cases h : m = 0
    · subst h
      rfl
    · rw [if_neg h, (hv h).1]
  have e2 : (if m = 0 then A (lanczosVec A (startVec r) m)
      else A (lanczosVec A (startVec r) m) - st.betas.getD (m - 1) 0 • st.vPrev) = lanczosW A (startVec r) m := by
    by_cases h : m = 0
    · subst h
      rw [if_pos rfl]
      unfold lanczosW
      rw [lanczosBeta_zero, zero_smul, sub_zero]
    · rw [if_neg h, (hv h).2, hb]
      obtain ⟨k, rfl⟩ : ∃ k, m = k + 1 := ⟨m - 1, by omega⟩
      unfold lanczosW
      congr 2
      simp
  unfold lanczosStep
  rw [if_neg (by tauto)]
  simp only [e1, e2]
  have e3 : lanczosW A (startVec r) m - ⟪lanczosW A (startVec r) m, lanczosVec A (startVec r) m⟫_ℝ • lanczosVec A (startVec r) m =
      lanczosRes A (startVec r) m := rfl
  simp only [e3, ha, hb, ← lanczosBeta_succ, ← lanczosVec_succ, List.range_succ, List.map_append, List.map_cons, List.map_nil]
  rfl

/-- The loop before the last iteration. -/
theorem lanczosLoop_eq (hr : ‖r‖ ≠ 0) (k : Nat) (hk : k < ncv) :
    ((∀ i < k, lanczosBeta A (startVec r) (i + 1) ≠ 0) → ∃ st, lanczosLoop A ncv r k = some st ∧
      st.alphas = (List.range k).map (lanczosAlpha A (startVec r)) ∧
      st.betas = (List.range k).map (fun i => lanczosBeta A (startVec r) (i + 1)) ∧
      (k ≠ 0 → st.v = lanczosVec A (startVec r) k ∧ st.vPrev = (lanczosSeq A (startVec r) k).2.1)) ∧
    (¬ (∀ i < k, lanczosBeta A (startVec r) (i + 1) ≠ 0) → lanczosLoop A ncv r k = none) := by
  induction k with
  | zero => exact ⟨fun _ => ⟨_, rfl, rfl, rfl, fun h => absurd rfl h⟩, fun h => absurd (fun i hi => absurd hi (by omega)) h⟩
  | succ k ih =>
    obtain ⟨ih1, ih2⟩ := ih (by omega)
    rw [lanczosLoop_succ]
    by_cases hb : ∀ i < k, lanczosBeta A (startVec r) (i + 1) ≠ 0
    · obtain ⟨st, hst, ha, hbt, hv⟩ := ih1 hb
      rw [hst]
      have hs := lanczosStep_eq A ncv r k st hr ha hbt hv
      rw [if_neg (by omega)] at hs
      simp only [Option.bind_some, hs]
      constructor
      · intro h
        rw [if_neg (h k (by omega))]
        exact ⟨_, rfl, rfl, rfl, fun _ => ⟨rfl, rfl⟩⟩
      · intro h
        rw [if_pos]
        by_contra h0
        refine h fun i hi => ?_
        rcases Nat.lt_or_ge i k with hik | hik
        · exact hb i hik
        · obtain rfl : i = k := by omega
          exact h0
    · rw [ih2 hb]
      exact ⟨fun h => absurd (fun i hi => h i (by omega)) hb, fun _ => rfl⟩

/-- The complete loop: it meets a division by zero, or the arrays contain the coefficients of the recurrence. -/
theorem lanczosLoop_full (hn : 0 < ncv) :
    ((‖r‖ ≠ 0 ∧ ∀ i < ncv - 1, lanczosBeta A (startVec r) (i + 1) ≠ 0) → ∃ st, lanczosLoop A ncv r ncv = some st ∧
      st.alphas = (List.range ncv).map (lanczosAlpha A (startVec r)) ∧
      st.betas = (List.range (ncv - 1)).map (fun i => lanczosBeta A (startVec r) (i + 1))) ∧
    (¬ (‖r‖ ≠ 0 ∧ ∀ i < ncv - 1, lanczosBeta A (startVec r) (i + 1) ≠ 0) → lanczosLoop A ncv r ncv = none) := by
  obtain ⟨k, rfl⟩ : ∃ k, ncv = k + 1 := ⟨ncv - 1, by omega⟩
  simp only [Nat.add_sub_cancel]
  by_cases hr : ‖r‖ ≠ 0
  · obtain ⟨h1, h2⟩ := lanczosLoop_eq A (k + 1) r hr k (by omega)
    rw [lanczosLoop_succ]
    constructor
    · rintro ⟨-, h⟩
      obtain ⟨st, hst, ha, hb, hv⟩ := h1 h
      rw [hst, Option.bind_some, lanczosStep_eq A (k + 1) r k st hr ha hb hv, if_pos rfl]
      exact ⟨_, rfl, rfl, hb⟩
    · intro h
      rw [h2 fun h' => h ⟨hr, h'⟩, Option.bind_none]
  · refine ⟨fun h => absurd h.1 hr, fun _ => ?_⟩
    have h0 : ∀ j, lanczosLoop A (k + 1) r (j + 1) = none := by
      intro j
      induction j with
      | zero =>
        rw [lanczosLoop_succ]
        show lanczosStep A (k + 1) r ⟨0, 0, [], []⟩ 0 = none
        unfold lanczosStep
        exact if_pos ⟨rfl, not_not.mp hr⟩
      | succ j ih => rw [lanczosLoop_succ, ih, Option.bind_none]
    exact h0 k

end Loop

variable (A : EuclideanSpace ℝ (Fin d) →ₗ[ℝ] EuclideanSpace ℝ (Fin d))

/-- C59: if `fast_lanczos` returns for a symmetric operator, there are orthonormal vectors, the first of them the
normalized start vector, in which the operator has a tridiagonal matrix, and the results are an eigendecomposition of
this matrix. -/
theorem fastLanczos_ok (hA : A.IsSymmetric) (eigh eighTri : Eigh) (h1 : EighContract eigh) (h2 : EighContract eighTri)
    (ncv : Nat) (tri : Bool) (r : EuclideanSpace ℝ (Fin d)) (it : LanczosIter)
    (h : fastLanczos eigh eighTri A ncv tri r = .ok it) :
    ∃ V : Nat → EuclideanSpace ℝ (Fin d), 0 < ncv ∧ it.ncv = ncv ∧ r ≠ 0 ∧ V 0 = ‖r‖⁻¹ • r ∧
      (∀ i < ncv, ∀ j < ncv, ⟪V i, V j⟫_ℝ = if i = j then 1 else 0) ∧
      (∀ i < ncv, ∀ j < ncv, i + 1 < j ∨ j + 1 < i → ⟪V i, A (V j)⟫_ℝ = 0) ∧
      (∀ j, j + 1 < ncv → A (V j) = ∑ i ∈ Finset.range ncv, ⟪V i, A (V j)⟫_ℝ • V i) ∧
      IsEigh ncv (fun i j => ⟪V i, A (V j)⟫_ℝ) (it.evals, it.evecs) := by
  unfold fastLanczos at h
  split at h
  · cases h
  rename_i hn
  have hn : 0 < ncv := Nat.pos_of_ne_zero hn
  obtain ⟨l1, l2⟩ := lanczosLoop_full A ncv r hn
  by_cases hb : ‖r‖ ≠ 0 ∧ ∀ i < ncv - 1, lanczosBeta A (startVec r) (i + 1) ≠ 0
  swap
  · rw [l2 hb] at h
    cases h
  obtain ⟨st, hst, ha, hbt⟩ := l1 hb
  rw [hst] at h
  simp only at h
  obtain ⟨hr, hb⟩ := hb
  have hv : ‖startVec r‖ = 1 := by
    unfold startVec
    rw [norm_smul, norm_inv, norm_norm, inv_mul_cancel₀ hr]
  have ho := lanczosVec_orthonormal hA hv (ncv - 1) hb
  have ht := lanczosVec_tridiagonal hA hv (ncv - 1) hb
  have hsymm : ∀ i j, tridiagonal st.alphas st.betas i j = tridiagonal st.alphas st.betas j i := by
    intro i j
    unfold tridiagonal
    by_cases h : i = j
    · subst h; rfl
    · rw [if_neg h, if_neg (Ne.symm h)]
      by_cases h' : i = j + 1
      · rw [if_pos h', if_neg (by omega), if_pos h']
      · rw [if_neg h', if_neg h']
  -- the eigendecomposition
  have hres : ∀ x : Py ((Nat → ℝ) × (Nat → Nat → ℝ)), (x >>= fun p => (Except.ok ⟨ncv, p.1, p.2⟩ : Py LanczosIter)) = .ok it →
      ∃ p, x = .ok p ∧ it = ⟨ncv, p.1, p.2⟩ := by
    intro x hx
    cases x with
    | error e => cases hx
    | ok p => exact ⟨p, rfl, (Except.ok.inj hx).symm⟩
  obtain ⟨p, hp, rfl⟩ := hres _ h
  have hE : IsEigh ncv (tridiagonal st.alphas st.betas) p := by
    cases tri
    · exact h1 _ _ hsymm p hp
    · exact h2 _ _ hsymm p hp
  -- the matrix
  have hT : leading ncv (fun i j => ⟪lanczosVec A (startVec r) i, A (lanczosVec A (startVec r) j)⟫_ℝ) =
      leading ncv (tridiagonal st.alphas st.betas) := by
    ext i j
    simp only [leading, of_apply]
    rw [ht i (by omega) j (by omega)]
    unfold tridiagonal
    have hget : ∀ (m k : Nat) (f : Nat → ℝ), k < m → ((List.range m).map f).getD k 0 = f k := by
      intro m k f hk
      simp [List.getD_eq_getElem?_getD, hk]
    by_cases hij : (i : Nat) = j
    · rw [if_pos hij, if_pos hij, ha, hget _ _ _ i.2]
    · rw [if_neg hij, if_neg hij]
      by_cases h' : (i : Nat) = j + 1
      · rw [if_pos h', if_pos h', hbt, hget _ _ _ (by omega), h']
      · rw [if_neg h', if_neg h']
        by_cases h'' : (j : Nat) = i + 1
        · rw [if_pos h'', if_pos h'', hbt, hget _ _ _ (by omega), h'']
        · rw [if_neg h'', if_neg h'']
  refine ⟨lanczosVec A (startVec r), hn, rfl, norm_ne_zero_iff.mp hr, rfl, fun i hi j hj => ho i (by omega) j (by omega),
    ?_, ?_, ?_, ?_⟩
  · intro i hi j hj hij
    rw [ht i (by omega) j (by omega), if_neg (by omega), if_neg (by omega), if_neg (by omega)]
  · intro j hj
    -- the product is in the span of the vectors
    have hspan : ∃ c : Nat → ℝ, A (lanczosVec A (startVec r) j) =
        ∑ i ∈ Finset.range ncv, c i • lanczosVec A (startVec r) i := by
      have hone : ∀ (k : Nat) (a : ℝ), k < ncv → a • lanczosVec A (startVec r) k =
          ∑ i ∈ Finset.range ncv, (if i = k then a else 0) • lanczosVec A (startVec r) i := by
        intro k a hk
        simp only [ite_smul, zero_smul]
        rw [Finset.sum_ite_eq' (Finset.range ncv) k, if_pos (Finset.mem_range.mpr hk)]
      cases j with
      | zero =>
        refine ⟨fun i => (if i = 0 then lanczosAlpha A (startVec r) 0 else 0) +
          (if i = 1 then lanczosBeta A (startVec r) 1 else 0), ?_⟩
        rw [lanczos_three_term_zero A (startVec r), lanczosRes_eq, hone 0 _ (by omega), hone 1 _ (by omega),
          ← Finset.sum_add_distrib]
        exact Finset.sum_congr rfl fun i _ => (add_smul _ _ _).symm
      | succ j =>
        refine ⟨fun i => ((if i = j then lanczosBeta A (startVec r) (j + 1) else 0) +
          (if i = j + 1 then lanczosAlpha A (startVec r) (j + 1) else 0)) +
          (if i = j + 1 + 1 then lanczosBeta A (startVec r) (j + 1 + 1) else 0), ?_⟩
        rw [lanczos_three_term A (startVec r), lanczosRes_eq, hone j _ (by omega), hone (j + 1) _ (by omega),
          hone (j + 1 + 1) _ (by omega), ← Finset.sum_add_distrib, ← Finset.sum_add_distrib]
        exact Finset.sum_congr rfl fun i _ => by rw [add_smul, add_smul]
    obtain ⟨c, hc⟩ := hspan
    have hcoef : ∀ i ∈ Finset.range ncv, ⟪lanczosVec A (startVec r) i, A (lanczosVec A (startVec r) j)⟫_ℝ = c i := by
      intro i hi
      have hi := Finset.mem_range.mp hi
      rw [hc, inner_sum, Finset.sum_eq_single i]
      · rw [inner_smul_right, ho i (by omega) i (by omega), if_pos rfl, mul_one]
      · intro k hk hki
        have hk := Finset.mem_range.mp hk
        rw [inner_smul_right, ho i (by omega) k (by omega), if_neg (Ne.symm hki), mul_zero]
      · intro h
        exact absurd (Finset.mem_range.mpr hi) h
    rw [Finset.sum_congr rfl fun i hi => by rw [hcoef i hi]]
    exact hc
  · exact hE.1
  · rw [hT]
    exact hE.2

/-- C59: what `fast_lanczos` returns or raises in exact arithmetic, for every operator: it raises `ValueError` if and only if
`ncv = 0` or the iteration breaks down, given that the eigensolvers do not raise. -/
theorem fastLanczos_error_iff (A : EuclideanSpace ℝ (Fin d) → EuclideanSpace ℝ (Fin d)) (eigh eighTri : Eigh)
    (h1 : ∀ n T, ∃ p, eigh n T = .ok p) (h2 : ∀ n T, ∃ p, eighTri n T = .ok p) (ncv : Nat) (tri : Bool)
    (r : EuclideanSpace ℝ (Fin d)) :
    (fastLanczos eigh eighTri A ncv tri r = .error .valueError ∨
      ∃ it, fastLanczos eigh eighTri A ncv tri r = .ok it) ∧
    (fastLanczos eigh eighTri A ncv tri r = .error .valueError ↔
      ncv = 0 ∨ r = 0 ∨ ∃ i < ncv - 1, lanczosRes A (‖r‖⁻¹ • r) i = 0) := by
  unfold fastLanczos
  by_cases hn : ncv = 0
  · rw [if_pos hn]
    exact ⟨Or.inl rfl, ⟨fun _ => Or.inl hn, fun _ => rfl⟩⟩
  rw [if_neg hn]
  obtain ⟨l1, l2⟩ := lanczosLoop_full A ncv r (Nat.pos_of_ne_zero hn)
  by_cases hb : ‖r‖ ≠ 0 ∧ ∀ i < ncv - 1, lanczosBeta A (startVec r) (i + 1) ≠ 0
  · obtain ⟨st, hst, -, -⟩ := l1 hb
    rw [hst]
    obtain ⟨p, hp⟩ : ∃ p, (if tri then eighTri else eigh) ncv (tridiagonal st.alphas st.betas) = .ok p := by
      cases tri
      · exact h1 _ _
      · exact h2 _ _
    simp only [hp, bind, Except.bind]
    refine ⟨Or.inr ⟨_, rfl⟩, ⟨fun h => (by cases h), ?_⟩⟩
    rintro (h | h | ⟨i, hi, h⟩)
    · exact absurd h hn
    · exact absurd (norm_eq_zero.mpr h) hb.1
    · exact absurd (norm_eq_zero.mpr h) (hb.2 i hi)
  · rw [l2 hb]
    refine ⟨Or.inl rfl, ⟨fun _ => Or.inr ?_, fun _ => rfl⟩⟩
    by_cases hr : r = 0
    · exact Or.inl hr
    · right
      by_contra hc
      refine hb ⟨norm_ne_zero_iff.mpr hr, fun i hi h => hc ⟨i, hi, norm_eq_zero.mp h⟩⟩

theorem lanczos_span (v : EuclideanSpace ℝ (Fin d)) (n : Nat) :
    Submodule.span ℝ (Set.range fun k : Fin n => (A ^ (k : Nat)) v) =
      Submodule.span ℝ (Set.range fun k : Fin n => lanczosVec A v k) := by
  -- products stay in the span of one more vector
  have hVmem : ∀ m k, k < m → lanczosVec A v k ∈ Submodule.span ℝ (Set.range fun k : Fin m => lanczosVec A v k) :=
    fun m k hk => Submodule.subset_span ⟨⟨k, hk⟩, rfl⟩
  have hKmem : ∀ m k, k < m → (A ^ k) v ∈ Submodule.span ℝ (Set.range fun k : Fin m => (A ^ (k : Nat)) v) :=
    fun m k hk => Submodule.subset_span ⟨⟨k, hk⟩, rfl⟩
  have hmono : ∀ {m m' : Nat}, m ≤ m' → ∀ f : Nat → EuclideanSpace ℝ (Fin d),
      Submodule.span ℝ (Set.range fun k : Fin m => f k) ≤ Submodule.span ℝ (Set.range fun k : Fin m' => f k) := by
    intro m m' h f
    refine Submodule.span_mono ?_
    rintro _ ⟨k, rfl⟩
    exact ⟨⟨k, by omega⟩, rfl⟩
  have h1 : ∀ k, (A ^ k) v ∈ Submodule.span ℝ (Set.range fun i : Fin (k + 1) => lanczosVec A v i) := by
    intro k
    induction k with
    | zero =>
      rw [pow_zero, Module.End.one_apply]
      exact hVmem 1 0 (by omega)
    | succ k ih =>
      rw [pow_succ', Module.End.mul_apply]
      have hle : Submodule.span ℝ (Set.range fun i : Fin (k + 1) => lanczosVec A v i) ≤
          (Submodule.span ℝ (Set.range fun i : Fin (k + 1 + 1) => lanczosVec A v i)).comap A := by
        rw [Submodule.span_le]
        rintro _ ⟨⟨i, hi⟩, rfl⟩
        rw [SetLike.mem_coe, Submodule.mem_comap]
        simp only
        cases i with
        | zero =>
          rw [lanczos_three_term_zero A v, lanczosRes_eq]
          exact Submodule.add_mem _ (Submodule.smul_mem _ _ (hVmem _ _ (by omega)))
            (Submodule.smul_mem _ _ (hVmem _ _ (by omega)))
        | succ i =>
          rw [lanczos_three_term A v, lanczosRes_eq]
          exact Submodule.add_mem _ (Submodule.add_mem _ (Submodule.smul_mem _ _ (hVmem _ _ (by omega)))
            (Submodule.smul_mem _ _ (hVmem _ _ (by omega)))) (Submodule.smul_mem _ _ (hVmem _ _ (by omega)))
      exact hle ih
  have hstep : ∀ k (x : EuclideanSpace ℝ (Fin d)), x ∈ Submodule.span ℝ (Set.range fun i : Fin k => (A ^ (i : Nat)) v) →
      A x ∈ Submodule.span ℝ (Set.range fun i : Fin (k + 1) => (A ^ (i : Nat)) v) := by
    intro k x hx
    have hle : Submodule.span ℝ (Set.range fun i : Fin k => (A ^ (i : Nat)) v) ≤
        (Submodule.span ℝ (Set.range fun i : Fin (k + 1) => (A ^ (i : Nat)) v)).comap A := by
      rw [Submodule.span_le]
      rintro _ ⟨⟨i, hi⟩, rfl⟩
      rw [SetLike.mem_coe, Submodule.mem_comap]
      simp only
      rw [← Module.End.mul_apply, ← pow_succ']
      exact hKmem _ _ (by omega)
    exact hle hx
  have h2 : ∀ k, ∀ i ≤ k, lanczosVec A v i ∈ Submodule.span ℝ (Set.range fun i : Fin (k + 1) => (A ^ (i : Nat)) v) := by
    intro k
    induction k with
    | zero =>
      intro i hi
      obtain rfl : i = 0 := by omega
      have := hKmem 1 0 (by omega)
      rwa [pow_zero, Module.End.one_apply] at this
    | succ k ih =>
      intro i hi
      rcases Nat.lt_or_ge i (k + 1) with hlt | hge
      · exact hmono (by omega) (fun i => (A ^ i) v) (ih i (by omega))
      · obtain rfl : i = k + 1 := by omega
        have hold := fun i hi => hmono (m' := k + 1 + 1) (by omega) (fun i => (A ^ i) v) (ih i hi)
        rw [lanczosVec_succ]
        refine Submodule.smul_mem _ _ ?_
        unfold lanczosRes lanczosW
        refine Submodule.sub_mem _ (Submodule.sub_mem _ (hstep _ _ (ih k le_rfl)) (Submodule.smul_mem _ _ ?_))
          (Submodule.smul_mem _ _ (hold k le_rfl))
        cases k with
        | zero => exact Submodule.zero_mem _
        | succ k => exact hold k (by omega)
  refine le_antisymm (Submodule.span_le.mpr ?_) (Submodule.span_le.mpr ?_)
  · rintro _ ⟨k, rfl⟩
    exact hmono (show (k : Nat) + 1 ≤ n from k.2) (fun i => lanczosVec A v i) (h1 k)
  · rintro _ ⟨k, rfl⟩
    exact hmono (show (k : Nat) + 1 ≤ n from k.2) (fun i => (A ^ i) v) (h2 k k le_rfl)

/-- C59: for symmetric operators, `fast_lanczos` returns if and only if the drawn vector and its first `ncv - 1` products with
powers of the operator are linearly independent (given that the eigensolvers do not raise). -/
theorem fastLanczos_ok_iff (hA : A.IsSymmetric) (eigh eighTri : Eigh)
    (h1 : ∀ n T, ∃ p, eigh n T = .ok p) (h2 : ∀ n T, ∃ p, eighTri n T = .ok p) (ncv : Nat) (hn : 0 < ncv) (tri : Bool)
    (r : EuclideanSpace ℝ (Fin d)) :
    (∃ it, fastLanczos eigh eighTri A ncv tri r = .ok it) ↔
      LinearIndependent ℝ fun k : Fin ncv => (A ^ (k : Nat)) r := by
  obtain ⟨hor, hiff⟩ := fastLanczos_error_iff (⇑A) eigh eighTri h1 h2 ncv tri r
  have hok : (∃ it, fastLanczos eigh eighTri A ncv tri r = .ok it) ↔
      ¬ fastLanczos eigh eighTri A ncv tri r = .error .valueError := by
    constructor
    · rintro ⟨it, h⟩ h'
      rw [h] at h'
      cases h'
    · exact fun h => hor.resolve_left h
  rw [hok, hiff]
  by_cases hr : r = 0
  · subst hr
    simp only [true_or, or_true, not_true_eq_false, false_iff]
    intro hl
    exact hl.ne_zero ⟨0, hn⟩ (by simp)
  · have hnr : ‖r‖ ≠ 0 := norm_ne_zero_iff.mpr hr
    have hscale : (LinearIndependent ℝ fun k : Fin ncv => (A ^ (k : Nat)) r) ↔
        LinearIndependent ℝ fun k : Fin ncv => (A ^ (k : Nat)) (‖r‖⁻¹ • r) := by
      have : (fun k : Fin ncv => (A ^ (k : Nat)) (‖r‖⁻¹ • r)) =
          (fun _ : Fin ncv => Units.mk0 ‖r‖⁻¹ (inv_ne_zero hnr)) • fun k : Fin ncv => (A ^ (k : Nat)) r := by
        funext k
        simp
      rw [this, LinearIndependent.units_smul_iff]
    rw [hscale, linearIndependent_iff_card_eq_finrank_span, Set.finrank, lanczos_span]
    have hvn : ‖‖r‖⁻¹ • r‖ = 1 := by
      rw [norm_smul, norm_inv, norm_norm, inv_mul_cancel₀ hnr]
    generalize ‖r‖⁻¹ • r = v at hvn
    rw [← Set.finrank, ← linearIndependent_iff_card_eq_finrank_span]
    constructor
    · intro h
      have hon := lanczosVec_orthonormal hA hvn (ncv - 1) fun i hi h0 =>
        h (Or.inr (Or.inr ⟨i, hi, norm_eq_zero.mp h0⟩))
      have : Orthonormal ℝ fun i : Fin ncv => lanczosVec A v i := by
        rw [orthonormal_iff_ite]
        intro i j
        rw [hon i (by omega) j (by omega)]
        simp only [Fin.ext_iff]
      exact this.linearIndependent
    · rintro hl (h | h | ⟨i, hi, h⟩)
      · omega
      · exact hr h
      · refine hl.ne_zero ⟨i + 1, by omega⟩ ?_
        show lanczosVec A v (i + 1) = 0
        rw [lanczosVec_succ, h, smul_zero]

/-- C59: the Rayleigh quotient that a Ritz value is. -/
theorem fastLanczos_ritz (hA : A.IsSymmetric) (eigh eighTri : Eigh) (h1 : EighContract eigh) (h2 : EighContract eighTri)
    (ncv : Nat) (tri : Bool) (r : EuclideanSpace ℝ (Fin d)) (it : LanczosIter)
    (h : fastLanczos eigh eighTri A ncv tri r = .ok it) (j : Nat) (hj : j < ncv) :
    ∃ u : EuclideanSpace ℝ (Fin d), ‖u‖ = 1 ∧ ⟪u, A u⟫_ℝ = it.evals j := by
  obtain ⟨V, -, -, -, -, ho, -, -, hQ, hT⟩ := fastLanczos_ok A hA eigh eighTri h1 h2 ncv tri r it h
  let Q := leading ncv it.evecs
  let T := leading ncv fun i j => ⟪V i, A (V j)⟫_ℝ
  let k : Fin ncv := ⟨j, hj⟩
  have hQ : Qᵀ * Q = 1 := hQ
  have hT : T * Q = Q * diagonal fun j : Fin ncv => it.evals j := hT
  refine ⟨∑ i : Fin ncv, Q i k • V i, ?_, ?_⟩
  · have : ‖∑ i : Fin ncv, Q i k • V i‖ ^ 2 = 1 := by
      rw [← real_inner_self_eq_norm_sq, sum_inner]
      have hterm : ∀ i : Fin ncv, ⟪Q i k • V i, ∑ l : Fin ncv, Q l k • V l⟫_ℝ = Q i k * Q i k := by
        intro i
        rw [inner_sum, Finset.sum_eq_single i]
        · rw [inner_smul_left, inner_smul_right, ho i i.2 i i.2, if_pos rfl]
          simp
        · intro l _ hl
          rw [inner_smul_left, inner_smul_right, ho i i.2 l l.2, if_neg (fun h => hl (Fin.ext h.symm))]
          simp
        · intro h
          exact absurd (Finset.mem_univ _) h
      simp only [hterm]
      have := congrFun (congrFun hQ k) k
      rw [mul_apply, one_apply_eq] at this
      simpa only [transpose_apply] using this
    exact (pow_eq_one_iff_of_nonneg (norm_nonneg _) two_ne_zero).mp this
  · have hexp : ⟪∑ i : Fin ncv, Q i k • V i, A (∑ i : Fin ncv, Q i k • V i)⟫_ℝ = (Qᵀ * (T * Q)) k k := by
      rw [map_sum, sum_inner, mul_apply]
      refine Finset.sum_congr rfl fun i _ => ?_
      rw [inner_sum, mul_apply, transpose_apply, Finset.mul_sum]
      refine Finset.sum_congr rfl fun l _ => ?_
      rw [map_smul, inner_smul_left, inner_smul_right]
      simp only [conj_trivial]
      show Q i k * (Q l k * T i l) = Q i k * (T i l * Q l k)
      ring
    rw [hexp, hT, ← Matrix.mul_assoc, hQ, Matrix.one_mul, diagonal_apply_eq]

/-- Rayleigh quotients lie between bounds on the eigenvalues. -/
theorem rayleigh_between (hA : A.IsSymmetric) (lo hi : ℝ) (hb : ∀ μ, Module.End.HasEigenvalue A μ → lo ≤ μ ∧ μ ≤ hi)
    (u : EuclideanSpace ℝ (Fin d)) (hu : ‖u‖ = 1) : lo ≤ ⟪u, A u⟫_ℝ ∧ ⟪u, A u⟫_ℝ ≤ hi := by
  have hd : Module.finrank ℝ (EuclideanSpace ℝ (Fin d)) = d := by simp
  let b := hA.eigenvectorBasis hd
  have hev : ∀ i, A (b i) = (hA.eigenvalues hd i : ℝ) • b i := fun i => hA.apply_eigenvectorBasis hd i
  have hsum : ⟪u, A u⟫_ℝ = ∑ i, hA.eigenvalues hd i * ⟪b i, u⟫_ℝ ^ 2 := by
    rw [← OrthonormalBasis.sum_inner_mul_inner b u (A u)]
    refine Finset.sum_congr rfl fun i _ => ?_
    rw [← hA, hev, inner_smul_left, real_inner_comm u (b i)]
    simp only [conj_trivial]
    ring
  have hnorm : ∑ i, ⟪b i, u⟫_ℝ ^ 2 = 1 := by
    have := OrthonormalBasis.sum_inner_mul_inner b u u
    rw [real_inner_self_eq_norm_sq, hu, one_pow] at this
    rw [← this]
    refine Finset.sum_congr rfl fun i _ => ?_
    rw [real_inner_comm u (b i), sq]
  have hbd : ∀ i, lo ≤ hA.eigenvalues hd i ∧ hA.eigenvalues hd i ≤ hi := fun i => hb _ (hA.hasEigenvalue_eigenvalues hd i)
  rw [hsum]
  constructor
  · calc lo = ∑ i, lo * ⟪b i, u⟫_ℝ ^ 2 := by rw [← Finset.mul_sum, hnorm, mul_one]
      _ ≤ _ := Finset.sum_le_sum fun i _ => mul_le_mul_of_nonneg_right (hbd i).1 (sq_nonneg _)
  · calc _ ≤ ∑ i, hi * ⟪b i, u⟫_ℝ ^ 2 := Finset.sum_le_sum fun i _ => mul_le_mul_of_nonneg_right (hbd i).2 (sq_nonneg _)
      _ = hi := by rw [← Finset.mul_sum, hnorm, mul_one]

/-- C59: the Ritz values lie between the smallest and the largest eigenvalue of the operator. -/
theorem fastLanczos_evals_between (hA : A.IsSymmetric) (eigh eighTri : Eigh) (h1 : EighContract eigh)
    (h2 : EighContract eighTri) (ncv : Nat) (tri : Bool) (r : EuclideanSpace ℝ (Fin d)) (it : LanczosIter)
    (h : fastLanczos eigh eighTri A ncv tri r = .ok it) (lo hi : ℝ)
    (hb : ∀ μ, Module.End.HasEigenvalue A μ → lo ≤ μ ∧ μ ≤ hi) (j : Nat) (hj : j < ncv) :
    lo ≤ it.evals j ∧ it.evals j ≤ hi := by
  obtain ⟨u, hu, he⟩ := fastLanczos_ritz A hA eigh eighTri h1 h2 ncv tri r it h j hj
  rw [← he]
  exact rayleigh_between A hA lo hi hb u hu

/-- C59: with more Lanczos vectors than dimensions, `fast_lanczos` cannot return (in exact arithmetic). -/
theorem fastLanczos_too_many (hA : A.IsSymmetric) (eigh eighTri : Eigh) (h1 : EighContract eigh)
    (h2 : EighContract eighTri) (ncv : Nat) (tri : Bool) (r : EuclideanSpace ℝ (Fin d)) (it : LanczosIter)
    (h : fastLanczos eigh eighTri A ncv tri r = .ok it) : ncv ≤ d := by
  obtain ⟨V, -, -, -, -, ho, -⟩ := fastLanczos_ok A hA eigh eighTri h1 h2 ncv tri r it h
  have hon : Orthonormal ℝ fun i : Fin ncv => V i := by
    rw [orthonormal_iff_ite]
    intro i j
    rw [ho i i.2 j j.2]
    simp only [Fin.ext_iff]
  have := hon.linearIndependent.fintype_card_le_finrank
  simpa using this

/-- C66: Gauss quadrature. With the weights `evecs[0, :] ** 2` and the nodes `evals`, sums of powers up to
`2 * ncv - 1` are those of the operator at the start vector. -/
theorem fastLanczos_quadrature (hA : A.IsSymmetric) (eigh eighTri : Eigh) (h1 : EighContract eigh)
    (h2 : EighContract eighTri) (ncv : Nat) (tri : Bool) (r : EuclideanSpace ℝ (Fin d)) (it : LanczosIter)
    (h : fastLanczos eigh eighTri A ncv tri r = .ok it) (k : Nat) (hk : k < 2 * ncv) :
    ∑ j ∈ Finset.range ncv, it.evecs 0 j ^ 2 * it.evals j ^ k =
      ⟪‖r‖⁻¹ • r, (A ^ k) (‖r‖⁻¹ • r)⟫_ℝ := by
  obtain ⟨V, hn, -, -, hV0, ho, htri, hspan, hQ, hT⟩ := fastLanczos_ok A hA eigh eighTri h1 h2 ncv tri r it h
  obtain ⟨n, rfl⟩ : ∃ n, ncv = n + 1 := ⟨ncv - 1, by omega⟩
  rw [← hV0]
  let Q := leading (n + 1) it.evecs
  let T := leading (n + 1) fun i j => ⟪V i, A (V j)⟫_ℝ
  have hQ : Qᵀ * Q = 1 := hQ
  have hQ' : Q * Qᵀ = 1 := mul_eq_one_comm.mp hQ
  have hT : T * Q = Q * diagonal fun j : Fin (n + 1) => it.evals j := hT
  have hTt : Tᵀ = T := by
    ext i j
    show ⟪V j, A (V i)⟫_ℝ = ⟪V i, A (V j)⟫_ℝ
    rw [real_inner_comm, hA]
  -- powers of the tridiagonal matrix
  have hpow : ∀ k, T ^ k * Q = Q * diagonal fun j : Fin (n + 1) => it.evals j ^ k := by
    intro k
    induction k with
    | zero => simp
    | succ k ih =>
      rw [pow_succ', Matrix.mul_assoc, ih, ← Matrix.mul_assoc, hT, Matrix.mul_assoc, diagonal_mul_diagonal]
      congr 2
      funext j
      rw [pow_succ']
  have hleft : ∀ k, ∑ j ∈ Finset.range (n + 1), it.evecs 0 j ^ 2 * it.evals j ^ k = (T ^ k) 0 0 := by
    intro k
    have : T ^ k = Q * (diagonal fun j : Fin (n + 1) => it.evals j ^ k) * Qᵀ := by
      rw [← hpow, Matrix.mul_assoc, hQ', Matrix.mul_one]
    rw [this, mul_apply, Finset.sum_range]
    refine Finset.sum_congr rfl fun j _ => ?_
    rw [mul_diagonal, transpose_apply]
    show it.evecs 0 j ^ 2 * it.evals j ^ k = it.evecs 0 j * it.evals j ^ k * it.evecs 0 j
    ring
  -- powers of the operator
  have hsupp : ∀ k : Nat, ∀ i : Fin (n + 1), k < i → (T ^ k) i 0 = 0 := by
    intro k
    induction k with
    | zero =>
      intro i hi
      rw [pow_zero, one_apply_ne]
      intro h
      rw [h] at hi
      exact absurd hi (by simp)
    | succ k ih =>
      intro i hi
      rw [pow_succ', mul_apply]
      refine Finset.sum_eq_zero fun l _ => ?_
      rcases Nat.lt_or_ge k l with hl | hl
      · rw [ih l hl, mul_zero]
      · have : T i l = 0 := htri i i.2 l l.2 (Or.inr (by omega))
        rw [this, zero_mul]
  have hA' : ∀ k, k ≤ n → (A ^ k) (V 0) = ∑ i : Fin (n + 1), (T ^ k) i 0 • V i := by
    intro k
    induction k with
    | zero =>
      intro _
      rw [Finset.sum_eq_single 0]
      · simp
      · intro i _ hi
        rw [pow_zero, one_apply_ne hi, zero_smul]
      · intro h
        exact absurd (Finset.mem_univ _) h
    | succ k ih =>
      intro hk
      rw [pow_succ', Module.End.mul_apply, ih (by omega), map_sum]
      have hterm : ∀ l : Fin (n + 1), A ((T ^ k) l 0 • V l) = ∑ i : Fin (n + 1), (T i l * (T ^ k) l 0) • V i := by
        intro l
        rw [map_smul]
        rcases Nat.lt_or_ge k l with hl | hl
        · rw [hsupp k l hl, zero_smul]
          simp
        · rw [hspan l (by omega), Finset.smul_sum, Finset.sum_range]
          refine Finset.sum_congr rfl fun i _ => ?_
          rw [smul_smul, mul_comm]
          rfl
      simp only [hterm]
      rw [Finset.sum_comm]
      refine Finset.sum_congr rfl fun i _ => ?_
      rw [← Finset.sum_smul, pow_succ', mul_apply]
  have hinner : ∀ a b, a ≤ n → b ≤ n → ⟪(A ^ a) (V 0), (A ^ b) (V 0)⟫_ℝ = (T ^ (a + b)) 0 0 := by
    intro a b ha hb
    rw [hA' a ha, hA' b hb, sum_inner, pow_add, mul_apply]
    refine Finset.sum_congr rfl fun i _ => ?_
    have hsym : (T ^ a) 0 i = (T ^ a) i 0 := by
      rw [← transpose_apply (T ^ a), transpose_pow, hTt]
    rw [inner_sum, Finset.sum_eq_single i, hsym]
    · rw [inner_smul_left, inner_smul_right, ho i i.2 i i.2, if_pos rfl]
      simp
    · intro l _ hl
      rw [inner_smul_left, inner_smul_right, ho i i.2 l l.2, if_neg (fun h => hl (Fin.ext h.symm))]
      simp
    · intro h
      exact absurd (Finset.mem_univ _) h
  have hmove : ∀ a (x y : EuclideanSpace ℝ (Fin d)), ⟪x, (A ^ a) y⟫_ℝ = ⟪(A ^ a) x, y⟫_ℝ := by
    intro a
    induction a with
    | zero => simp
    | succ a ih =>
      intro x y
      rw [pow_succ', Module.End.mul_apply, ← hA, ih, ← Module.End.mul_apply, ← pow_succ, pow_succ']
  rw [hleft]
  rcases Nat.lt_or_ge k (2 * n + 1) with hk' | hk'
  · -- both halves are short enough
    obtain ⟨a, b, rfl, ha, hb⟩ : ∃ a b, k = a + b ∧ a ≤ n ∧ b ≤ n := ⟨k / 2, k - k / 2, by omega, by omega, by omega⟩
    rw [← hinner a b ha hb, pow_add, Module.End.mul_apply, ← hmove]
  · obtain rfl : k = n + (1 + n) := by omega
    rw [pow_add A, pow_add A, Module.End.mul_apply, Module.End.mul_apply, hmove, pow_one, hA' n le_rfl]
    rw [pow_add, pow_add, pow_one, mul_apply, map_sum, sum_inner]
    refine Finset.sum_congr rfl fun i _ => ?_
    have hsym : (T ^ n) 0 i = (T ^ n) i 0 := by
      rw [← transpose_apply (T ^ n), transpose_pow, hTt]
    rw [hsym, mul_apply, Finset.mul_sum, inner_sum]
    refine Finset.sum_congr rfl fun l _ => ?_
    rw [map_smul, inner_smul_left, inner_smul_right]
    simp only [conj_trivial]
    show (T ^ n) i 0 * (T i l * (T ^ n) l 0) = (T ^ n) i 0 * ((T ^ n) l 0 * T i l)
    ring

/-- The weights are those of a probability distribution. -/
theorem fastLanczos_weights (hA : A.IsSymmetric) (eigh eighTri : Eigh) (h1 : EighContract eigh)
    (h2 : EighContract eighTri) (ncv : Nat) (tri : Bool) (r : EuclideanSpace ℝ (Fin d)) (it : LanczosIter)
    (h : fastLanczos eigh eighTri A ncv tri r = .ok it) : ∑ j ∈ Finset.range it.ncv, it.evecs 0 j ^ 2 = 1 := by
  obtain ⟨V, hn, hit, hr, hV0, ho, -⟩ := fastLanczos_ok A hA eigh eighTri h1 h2 ncv tri r it h
  have := fastLanczos_quadrature A hA eigh eighTri h1 h2 ncv tri r it h 0 (by omega)
  simp only [pow_zero, mul_one, Module.End.one_apply] at this
  rw [hit, this, ← hV0, ho 0 hn 0 hn, if_pos rfl]

/-! ## Examples -/

/-- There are eigensolvers that satisfy the contract and never raise. -/
theorem exists_eigh : ∃ eigh : Eigh, EighContract eigh ∧ ∀ n T, ∃ p, eigh n T = .ok p := by
  classical
  have hex : ∀ n T, ∃ p : (Nat → ℝ) × (Nat → Nat → ℝ), (∀ i j, T i j = T j i) → IsEigh n T p := by
    intro n T
    by_cases hs : ∀ i j, T i j = T j i
    · obtain ⟨U, e, h1, h2, h3⟩ := exists_eigendecomposition (leading n T) (by
        ext i j
        exact hs j i)
      refine ⟨(fun j => if h : j < n then e ⟨j, h⟩ else 0, fun i j => if h : i < n ∧ j < n then U ⟨i, h.1⟩ ⟨j, h.2⟩ else 0),
        fun _ => ?_⟩
      have e1 : leading n (fun i j => if h : i < n ∧ j < n then U ⟨i, h.1⟩ ⟨j, h.2⟩ else 0) = U := by
        ext i j
        simp [leading]
      have e2 : (fun j : Fin n => if h : (j : Nat) < n then e ⟨j, h⟩ else 0) = e := by
        funext j
        simp
      unfold IsEigh
      simp only [e1, e2]
      refine ⟨h1, ?_⟩
      rw [h3, Matrix.mul_assoc, h1, Matrix.mul_one]
    · exact ⟨(fun _ => 0, fun _ _ => 0), fun h => absurd h hs⟩
  choose f hf using hex
  exact ⟨fun n T => .ok (f n T), fun n T hs r hr => Except.ok.inj hr ▸ hf n T hs, fun n T => ⟨_, rfl⟩⟩

/-- The reflection that exchanges the two coordinates. -/
noncomputable def swapMap : EuclideanSpace ℝ (Fin 2) →ₗ[ℝ] EuclideanSpace ℝ (Fin 2) := toEuclideanLin !![0, 1; 1, 0]

theorem swapMap_symmetric : swapMap.IsSymmetric := by
  unfold swapMap
  rw [isSymmetric_toEuclideanLin_iff]
  ext i j
  fin_cases i <;> fin_cases j <;> simp

/-- Two Lanczos vectors for the reflection: the theorems apply, and `evals` are between -1 and 1. -/
example : ∃ eigh it, EighContract eigh ∧
    fastLanczos eigh eigh swapMap 2 false (EuclideanSpace.single 0 1) = .ok it ∧
    (∑ j ∈ Finset.range 2, it.evecs 0 j ^ 2 * it.evals j ^ 2 = 1) := by
  obtain ⟨eigh, hc, ht⟩ := exists_eigh
  obtain ⟨hor, hiff⟩ := fastLanczos_error_iff swapMap eigh eigh ht ht 2 false (EuclideanSpace.single 0 1)
  have hsw : swapMap (EuclideanSpace.single 0 1) = EuclideanSpace.single 1 1 := by
    ext i
    fin_cases i <;> simp [swapMap, toLpLin_apply]
  have hne : ¬ fastLanczos eigh eigh swapMap 2 false (EuclideanSpace.single 0 1) = .error .valueError := by
    rw [hiff]
    rintro (h | h | ⟨i, hi, h⟩)
    · cases h
    · simpa using congrArg (fun v : EuclideanSpace ℝ (Fin 2) => v 0) h
    · obtain rfl : i = 0 := by omega
      have := congrArg (fun v : EuclideanSpace ℝ (Fin 2) => v 1) h
      simp [lanczosRes, lanczosW, lanczosAlpha, lanczosVec, lanczosBeta, lanczosSeq, hsw] at this
  obtain ⟨it, hit⟩ := hor.resolve_left hne
  refine ⟨eigh, it, hc, hit, ?_⟩
  rw [fastLanczos_quadrature swapMap swapMap_symmetric eigh eigh hc hc 2 false _ it hit 2 (by omega)]
  have hsw' : swapMap (EuclideanSpace.single 1 1) = EuclideanSpace.single 0 1 := by
    ext i
    fin_cases i <;> simp [swapMap, toLpLin_apply]
  simp [pow_two, hsw, hsw']

/-- C59, breakdown: for multiples of the identity, `fast_lanczos` with more than one vector raises whatever is drawn (in exact
arithmetic). -/
theorem fastLanczos_scalar_raises (c : ℝ) (eigh eighTri : Eigh) (h1 : ∀ n T, ∃ p, eigh n T = .ok p)
    (h2 : ∀ n T, ∃ p, eighTri n T = .ok p) (ncv : Nat) (hn : 2 ≤ ncv) (tri : Bool) (r : EuclideanSpace ℝ (Fin d)) :
    fastLanczos eigh eighTri (fun v => c • v) ncv tri r = .error .valueError := by
  rw [(fastLanczos_error_iff (fun v => c • v) eigh eighTri h1 h2 ncv tri r).2]
  by_cases hr : r = 0
  · exact Or.inr (Or.inl hr)
  · refine Or.inr (Or.inr ⟨0, by omega, ?_⟩)
    have hv : ‖‖r‖⁻¹ • r‖ = 1 := by
      rw [norm_smul, norm_inv, norm_norm, inv_mul_cancel₀ (norm_ne_zero_iff.mpr hr)]
    generalize ‖r‖⁻¹ • r = v at hv
    simp [lanczosRes, lanczosW, lanczosAlpha, lanczosVec, lanczosBeta, lanczosSeq, inner_smul_left,
      hv]

end Curvlinops
