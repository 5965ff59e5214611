import Verif.Model.UtilityRounding
import Verif.Props.HutchPPRounding
import Verif.Props.DeflationInexact

/-!
# C139: sub-matrices, outer products and deflated operators in floating point arithmetic
-/

namespace Curvlinops

open scoped _root_.Matrix

variable {ρ : Rounding} {m n d k : Nat}

/-- `L @ x` succeeds for every 1d array of floating point numbers, and every entry has accuracy `g` relative to the bounds `M'` on the entries of `M`. -/
def SciWithin (g : ℝ) (L : SciOp (Fl ρ)) (M M' : Matrix (Fin m) (Fin n) ℝ) : Prop :=
  L.rows = m ∧ L.cols = n ∧ ∀ x : Fin n → Fl ρ, ∃ y : Fin m → Fl ρ, L.dot (.vec (List.ofFn x)) = .ok (.vec (List.ofFn y)) ∧
    ∀ i, Within g (y i) (∑ j, M i j * (x j).val) (∑ j, M' i j * |(x j).val|)

theorem SciWithin.mulVec {g : ℝ} {L : SciOp (Fl ρ)} {M M' : Matrix (Fin m) (Fin n) ℝ} (h : SciWithin g L M M') (x : Fin n → Fl ρ) :
    ∃ y : Fin m → Fl ρ, L.mulVec (List.ofFn x) = .ok (List.ofFn y) ∧
      ∀ i, Within g (y i) (∑ j, M i j * (x j).val) (∑ j, M' i j * |(x j).val|) := by
  obtain ⟨y, h1, h2⟩ := h.2.2 x
  exact ⟨y, by simp [SciOp.mulVec, h1, NpVal.ravel], h2⟩

theorem SciWithin.mono {g h : ℝ} {L : SciOp (Fl ρ)} {M M' : Matrix (Fin m) (Fin n) ℝ} (hL : SciWithin g L M M') (hgh : g ≤ h) :
    SciWithin h L M M' := by
  refine ⟨hL.1, hL.2.1, fun x => ?_⟩
  obtain ⟨y, h1, h2⟩ := hL.2.2 x
  exact ⟨y, h1, fun i => (h2 i).mono hgh⟩

/-- The estimators of C135 and C136 can be used with such an operator. -/
theorem SciWithin.multiplies {g : ℝ} {L : SciOp (Fl ρ)} {M M' : Matrix (Fin m) (Fin n) ℝ} (h : SciWithin g L M M') {W : Type _} (E : Ext (Fl ρ) W) :
    MultipliesWithin g (E.withOp L) M M' := fun v _ => h.mulVec v

/-! ## Sub-matrices -/

/-- **C139** (sub-matrices): taking sub-matrices adds no rounding errors: with zeros in the other positions, the accuracy of the operator is that of the
sub-matrix. -/
theorem submatrix_within {l : Nat} {g : ℝ} (P : SciPair (Fl ρ)) {M M' : Matrix (Fin m) (Fin n) ℝ} (hM : SciWithin g P.op M M') (rowIdx : Fin k → Fin m)
    (colIdx : Fin l → Fin n) (hrow : Function.Injective rowIdx) (hcol : Function.Injective colIdx) :
    ∃ s, mkSubmatrix P (idxList rowIdx) (idxList colIdx) = .ok s ∧
      SciWithin g s.toSci (M.submatrix rowIdx colIdx) (M'.submatrix rowIdx colIdx) := by
  refine ⟨_, mkSubmatrix_ok P hM.1 hM.2.1 rowIdx colIdx hrow hcol, rfl, rfl, fun x => ?_⟩
  obtain ⟨v, h1, h2, h3⟩ := npScatter_spec colIdx hcol x (List.replicate n (0 : Fl ρ)) (by simp)
  have hv : ∀ c, (∀ i, colIdx i ≠ c) → v c = 0 := fun c hc => by rw [h3 c hc]; simp
  obtain ⟨y, hy, hyw⟩ := hM.mulVec v
  refine ⟨fun i => y (rowIdx i), dot_vec_of_impl (by simp [SubState.toSci]) (by simp [SubState.toSci]) ?_, fun i => ?_⟩
  · show SubState.matvecImpl _ _ = _
    unfold SubState.matvecImpl
    simp only [hM.2.1, npAssign_idxList, h1, hy, npGather_ofFn]
  · have aux : ∀ (a : Fin n → ℝ) (f : Fl ρ → ℝ), f 0 = 0 → ∑ j, a (colIdx j) * f (x j) = ∑ c, a c * f (v c) := by
      intro a f hf
      have : ∑ j, a (colIdx j) * f (x j) = ∑ c ∈ Finset.univ.image colIdx, a c * f (v c) := by
        rw [Finset.sum_image fun a _ b _ hab => hcol hab]
        simp [h2]
      rw [this]
      refine Finset.sum_subset (Finset.subset_univ _) fun c _ hcc => ?_
      rw [hv c fun j hj => hcc (Finset.mem_image.mpr ⟨j, Finset.mem_univ j, hj⟩), hf, mul_zero]
    have := hyw (rowIdx i)
    rw [← aux (M (rowIdx i)) Fl.val rfl, ← aux (M' (rowIdx i)) (fun t => |t.val|) (by simp)] at this
    exact this

/-! ## Outer products -/

/-- The real numbers in an array. -/
def flVals (V : Fin d → Fin k → Fl ρ) : Matrix (Fin d) (Fin k) ℝ := Matrix.of fun i j => (V i j).val

/-- Their absolute values. -/
def flAbs (V : Fin d → Fin k → Fl ρ) : Matrix (Fin d) (Fin k) ℝ := Matrix.of fun i j => |(V i j).val|

theorem outerMatrix_row (c : Fin k → ℝ) (V : Matrix (Fin d) (Fin k) ℝ) (i : Fin d) (x : Fin d → ℝ) :
    ∑ j, outerMatrix c V i j * x j = ∑ l, V i l * (c l * ∑ j, V j l * x j) := by
  simp only [outerMatrix, Matrix.sum_apply, Matrix.smul_apply, Matrix.vecMulVec_apply, smul_eq_mul, Finset.sum_mul, Finset.mul_sum]
  rw [Finset.sum_comm]
  exact Finset.sum_congr rfl fun _ _ => Finset.sum_congr rfl fun _ _ => by ring

/-- **C139** (entries): whatever the order of the contractions is. -/
theorem outerEntryFl_within (σ : FlSum ρ) (c : Fin k → Fl ρ) (V : Fin d → Fin k → Fl ρ) (x : Fin d → Fl ρ) (i : Fin d) (path : OuterPath) :
    Within ((1 + ρ.u) ^ (d + k + 1))
      (outerEntryFl σ (List.ofFn c) (List.ofFn fun j => List.ofFn fun i => V i j) (List.ofFn x) i path)
      (∑ j, outerMatrix (fun l => (c l).val) (flVals V) i j * (x j).val) (∑ j, outerMatrix (fun l => |(c l).val|) (flAbs V) i j * |(x j).val|) := by
  have eg : ((List.ofFn fun j => List.ofFn fun i => V i j).map fun a => a.getD i 0) = List.ofFn fun l => V i l := by
    rw [List.map_ofFn]
    congr 1
    funext l
    simp
  have ez : List.zipWith (fun cj a => a.getD i 0 * cj) (List.ofFn c) (List.ofFn fun j => List.ofFn fun i => V i j) = List.ofFn fun l => V i l * c l := by
    refine List.ext_getElem (by simp) fun j h1 h2 => ?_
    simp
  have hdot : ∀ l, Within ((1 + ρ.u) ^ d) (npDotFl σ (List.ofFn fun i => V i l) (List.ofFn x)) (∑ j, (V j l).val * (x j).val)
      (∑ j, |(V j l).val| * |(x j).val|) := fun l => by
    have := npDotFl_within σ le_rfl (fun i => V i l) x _ _ _ _ (fun j => within_val (V j l)) (fun j => within_val (x j))
    rwa [one_mul, one_mul] at this
  have hscale : ∀ i l, Within (1 + ρ.u) (V i l * c l) ((V i l).val * (c l).val) (|(V i l).val| * |(c l).val|) := fun i l => by
    have := (within_val (V i l)).mul le_rfl (within_val (c l))
    rwa [one_mul, one_mul] at this
  have hu : 1 ≤ 1 + ρ.u := by linarith [ρ.nonneg]
  cases path with
  | inner =>
    have e : List.zipWith (fun cj a => cj * npDotFl σ a (List.ofFn x)) (List.ofFn c) (List.ofFn fun j => List.ofFn fun i => V i j) =
        List.ofFn fun l => c l * npDotFl σ (List.ofFn fun i => V i l) (List.ofFn x) := by
      refine List.ext_getElem (by simp) fun j h1 h2 => ?_
      simp
    simp only [outerEntryFl, eg, e]
    have h1 : ∀ l, Within ((1 + ρ.u) ^ (d + 1)) (c l * npDotFl σ (List.ofFn fun i => V i l) (List.ofFn x))
        ((c l).val * ∑ j, (V j l).val * (x j).val) (|(c l).val| * ∑ j, |(V j l).val| * |(x j).val|) := fun l => by
      have := (within_val (c l)).mul le_rfl (hdot l)
      rwa [one_mul, ← pow_succ] at this
    have h2 := npDotFl_within σ le_rfl (fun l => V i l) _ _ _ _ _ (fun l => within_val (V i l)) h1
    rw [one_mul, ← pow_add] at h2
    rw [outerMatrix_row, outerMatrix_row, show d + k + 1 = d + 1 + k by omega]
    exact h2
  | outer =>
    have e : ((List.ofFn fun j => List.ofFn fun i => V i j).map fun a => npDotFl σ a (List.ofFn x)) =
        List.ofFn fun l => npDotFl σ (List.ofFn fun i => V i l) (List.ofFn x) := by
      rw [List.map_ofFn]
      rfl
    simp only [outerEntryFl, ez, e]
    have h2 := npDotFl_within σ hu (fun l => V i l * c l) _ _ _ _ _ (fun l => hscale i l) hdot
    rw [← pow_succ', ← pow_add] at h2
    rw [outerMatrix_row, outerMatrix_row, show d + k + 1 = d + 1 + k by omega]
    simp only [mul_assoc] at h2
    exact h2
  | first =>
    have e : List.zipWith (fun cj a => npDotFl σ (a.map (· * cj)) (List.ofFn x)) (List.ofFn c) (List.ofFn fun j => List.ofFn fun i => V i j) =
        List.ofFn fun l => npDotFl σ (List.ofFn fun i => V i l * c l) (List.ofFn x) := by
      refine List.ext_getElem (by simp) fun j h1 h2 => ?_
      simp only [List.getElem_zipWith, List.getElem_ofFn, List.map_ofFn]
      rfl
    simp only [outerEntryFl, eg, e]
    have h1 : ∀ l, Within ((1 + ρ.u) ^ (d + 1)) (npDotFl σ (List.ofFn fun i => V i l * c l) (List.ofFn x))
        (∑ j, (V j l).val * (c l).val * (x j).val) (∑ j, |(V j l).val| * |(c l).val| * |(x j).val|) := fun l => by
      have := npDotFl_within σ hu (fun i => V i l * c l) x _ _ _ _ (fun j => hscale j l) (fun j => within_val (x j))
      rwa [mul_one, ← pow_succ'] at this
    have h2 := npDotFl_within σ le_rfl (fun l => V i l) _ _ _ _ _ (fun l => within_val (V i l)) h1
    rw [one_mul, ← pow_add] at h2
    rw [outerMatrix_row, outerMatrix_row, show d + k + 1 = d + 1 + k by omega]
    have ea : ∀ (c : ℝ) (a y : Fin d → ℝ), ∑ j, a j * c * y j = c * ∑ j, a j * y j := fun c a y => by
      rw [Finset.mul_sum]
      exact Finset.sum_congr rfl fun _ _ => by ring
    simp only [ea] at h2
    exact h2
  | matrix =>
    have e : ((List.range (List.ofFn x).length).map fun k' => npDotFl σ (List.ofFn fun l => V i l * c l)
        ((List.ofFn fun j => List.ofFn fun i => V i j).map fun a => a.getD k' 0)) =
        List.ofFn fun j : Fin d => npDotFl σ (List.ofFn fun l => V i l * c l) (List.ofFn fun l => V j l) := by
      refine List.ext_getElem (by simp) fun j h1 h2 => ?_
      have hj : j < d := by simpa using h2
      simp only [List.getElem_map, List.getElem_range, List.getElem_ofFn, List.map_ofFn]
      congr 2
      funext l
      simp [hj]
    simp only [outerEntryFl, ez, e]
    have h1 : ∀ j : Fin d, Within ((1 + ρ.u) ^ (k + 1)) (npDotFl σ (List.ofFn fun l => V i l * c l) (List.ofFn fun l => V j l))
        (∑ l, (V i l).val * (c l).val * (V j l).val) (∑ l, |(V i l).val| * |(c l).val| * |(V j l).val|) := fun j => by
      have := npDotFl_within σ hu (fun l => V i l * c l) (fun l => V j l) _ _ _ _ (fun l => hscale i l) (fun l => within_val (V j l))
      rwa [mul_one, ← pow_succ'] at this
    have h2 := npDotFl_within σ (one_le_pow_u (k + 1)) _ x _ _ _ _ h1 (fun j => within_val (x j))
    rw [mul_one, ← pow_add] at h2
    have eo : ∀ (c : Fin k → ℝ) (V : Matrix (Fin d) (Fin k) ℝ) (j : Fin d), outerMatrix c V i j = ∑ l, V i l * c l * V j l := fun c V j => by
      simp only [outerMatrix, Matrix.sum_apply, Matrix.smul_apply, Matrix.vecMulVec_apply, smul_eq_mul]
      exact Finset.sum_congr rfl fun _ _ => by ring
    simp only [eo]
    rw [show d + k + 1 = k + 1 + d by omega]
    exact h2

/-- **C139** (outer products): `d + k + 1` roundings for vectors with `d` entries and `k` terms. -/
theorem outerFl_within (σ : FlSum ρ) (path : OuterPath) (c : Fin k → Fl ρ) (V : Fin d → Fin k → Fl ρ) :
    SciWithin ((1 + ρ.u) ^ (d + k + 1)) ((outerState c (Matrix.of V)).toSciFl σ path) (outerMatrix (fun l => (c l).val) (flVals V))
      (outerMatrix (fun l => |(c l).val|) (flAbs V)) := by
  refine ⟨rfl, rfl, fun x => ⟨fun i => outerEntryFl σ (List.ofFn c) (List.ofFn fun j => List.ofFn fun i => V i j) (List.ofFn x) i path,
    dot_vec_of_impl (by simp [OuterState.toSciFl, outerState]) (by simp [OuterState.toSciFl, outerState]) ?_,
    fun i => outerEntryFl_within σ c V x i path⟩⟩
  simp only [OuterState.toSciFl, OuterState.matvecFl, outerState_stretch]
  simp only [outerState]
  congr 2
  refine List.ext_getElem (by simp) fun i h1 h2 => ?_
  simp

/-- **C139**: a single coefficient is used for all columns, and a single column with all coefficients. -/
theorem outerFl_stretched (σ : FlSum ρ) (path : OuterPath) :
    (∀ (c : Fl ρ) (V : Fin d → Fin k → Fl ρ), ∃ s, mkOuter d [c] (List.ofFn fun j => List.ofFn fun i => V i j) = .ok s ∧
      SciWithin ((1 + ρ.u) ^ (d + k + 1)) (s.toSciFl σ path) (outerMatrix (fun _ => c.val) (flVals V)) (outerMatrix (fun _ => |c.val|) (flAbs V))) ∧
    ∀ (c : Fin k → Fl ρ) (a : Fin d → Fl ρ), ∃ s, mkOuter d (List.ofFn c) [List.ofFn a] = .ok s ∧
      SciWithin ((1 + ρ.u) ^ (d + k + 1)) (s.toSciFl σ path) (outerMatrix (fun l => (c l).val) (flVals fun i (_ : Fin k) => a i))
        (outerMatrix (fun l => |(c l).val|) (flAbs fun i (_ : Fin k) => a i)) := by
  constructor
  · intro c V
    refine ⟨_, if_pos (Or.inr (Or.inl rfl)), ?_⟩
    have h := outerFl_within σ path (fun _ => c) V
    have : OuterState.matvecFl σ path ⟨d, [c], List.ofFn fun j => List.ofFn fun i => V i j⟩ =
        (outerState (fun _ => c) (Matrix.of V)).matvecFl σ path := by
      funext x
      cases x with
      | mat => rfl
      | vec x =>
        simp only [OuterState.matvecFl, outerState_stretch]
        have hr : OuterState.rank ⟨d, [c], List.ofFn fun j => List.ofFn fun i => V i j⟩ = k := by simp [OuterState.rank]
        rw [hr, npStretch_single, npStretch_of_length (by simp)]
        simp only [outerState, List.ofFn_const, Matrix.of_apply]
    have e : OuterState.toSciFl σ path ⟨d, [c], List.ofFn fun j => List.ofFn fun i => V i j⟩ =
        (outerState (fun _ => c) (Matrix.of V)).toSciFl σ path := by
      simp only [OuterState.toSciFl, this]
      rfl
    rwa [e]
  · intro c a
    refine ⟨_, if_pos (Or.inr (Or.inr rfl)), ?_⟩
    have h := outerFl_within σ path c (fun i (_ : Fin k) => a i)
    have : OuterState.matvecFl σ path ⟨d, List.ofFn c, [List.ofFn a]⟩ =
        (outerState c (Matrix.of fun i (_ : Fin k) => a i)).matvecFl σ path := by
      funext x
      cases x with
      | mat => rfl
      | vec x =>
        simp only [OuterState.matvecFl, outerState_stretch]
        have hr : OuterState.rank ⟨d, List.ofFn c, [List.ofFn a]⟩ = k := by
          simp only [OuterState.rank, List.length_ofFn, List.length_cons, List.length_nil]
          split <;> omega
        rw [hr, npStretch_single, npStretch_of_length (by simp)]
        simp only [outerState, Matrix.of_apply, List.ofFn_const]
    have e : OuterState.toSciFl σ path ⟨d, List.ofFn c, [List.ofFn a]⟩ =
        (outerState c (Matrix.of fun i (_ : Fin k) => a i)).toSciFl σ path := by
      simp only [OuterState.toSciFl, this]
      rfl
    rwa [e]

/-- Products with matrices raise, as without rounding. -/
theorem outerFl_matrix_raises (σ : FlSum ρ) (path : OuterPath) (s : OuterState (Fl ρ)) (r : Nat) (cs : List (List (Fl ρ))) :
    (s.toSciFl σ path).dot (.mat r cs) = .error .valueError := by
  have hm : ∀ cs, SciOp.defaultMatmat s.dim s.dim (s.matvecFl σ path) r cs = .error .valueError := by
    intro cs
    cases cs with
    | nil => rfl
    | cons a as =>
      simp only [SciOp.defaultMatmat, pyMapM, SciOp.matvec, OuterState.matvecFl]
      simp
  match cs with
  | [] =>
    simp only [SciOp.dot, SciOp.matmat, OuterState.toSciFl, hm]
    simp
  | [a] =>
    show (if r = s.dim then _ else _) = _
    by_cases h : r = s.dim
    · rw [if_pos h]
      rfl
    · rw [if_neg h]
  | a :: b :: as =>
    simp only [SciOp.dot, SciOp.matmat, OuterState.toSciFl, hm]
    simp

/-- **C139** (projectors): for any columns, orthonormal or not, accuracy relative to `A Aᵀ`. -/
theorem projectorFl_within (σ : FlSum ρ) (path : OuterPath) (V : Fin d → Fin k → Fl ρ) :
    SciWithin ((1 + ρ.u) ^ (d + k + 1)) ((mkProjectorFl d (List.ofFn fun j => List.ofFn fun i => V i j)).toSciFl σ path) (flVals V * (flVals V)ᵀ)
      (flAbs V * (flAbs V)ᵀ) := by
  have h := outerFl_within σ path (fun _ => 1) V
  have e : ∀ V : Matrix (Fin d) (Fin k) ℝ, outerMatrix (fun _ => (1 : ℝ)) V = V * Vᵀ := fun V => by
    rw [outerMatrix_eq]
    simp
  simp only [Fl.val_one, abs_one, e] at h
  have e2 : mkProjectorFl d (List.ofFn fun j => List.ofFn fun i => V i j) = outerState (fun _ => 1) (Matrix.of V) := by
    simp only [mkProjectorFl, outerState, List.length_ofFn]
    congr 1
    exact (List.ofFn_const _ _).symm
  rwa [e2]

/-! ## Arithmetic of operators -/

theorem scaled_within {g : ℝ} {A : SciOp (Fl ρ)} {M M' : Matrix (Fin m) (Fin n) ℝ} (hA : SciWithin g A M M') (c : Fl ρ) :
    SciWithin (g * (1 + ρ.u)) (A.scaled c) (c.val • M) (|c.val| • M') := by
  obtain ⟨a1, a2, a3⟩ := hA
  refine ⟨a1, a2, fun x => ?_⟩
  obtain ⟨y, hy, hyw⟩ := a3 x
  refine ⟨fun i => c * y i, dot_vec_of_impl (by simp [SciOp.scaled, a2]) (by simp [SciOp.scaled, a1]) ?_, fun i => ?_⟩
  · have h1 : A.matvec (.vec (List.ofFn x)) = _ := hy
    simp only [SciOp.scaled, h1, NpVal.map1, List.map_ofFn]
    rfl
  · have := (within_val c).mul le_rfl (hyw i)
    rw [one_mul] at this
    simpa only [Matrix.smul_apply, smul_eq_mul, mul_assoc, ← Finset.mul_sum] using this

theorem add_within' {g : ℝ} {A B : SciOp (Fl ρ)} {M M' N N' : Matrix (Fin m) (Fin n) ℝ} (hA : SciWithin g A M M') (hB : SciWithin g B N N') :
    ∃ S, A.add B = .ok S ∧ SciWithin (g * (1 + ρ.u)) S (M + N) (M' + N') := by
  obtain ⟨a1, a2, a3⟩ := hA
  obtain ⟨b1, b2, b3⟩ := hB
  refine ⟨A.sumOf B, if_pos ⟨a1.trans b1.symm, a2.trans b2.symm⟩, a1, a2, fun x => ?_⟩
  obtain ⟨y, hy, hyw⟩ := a3 x
  obtain ⟨z, hz, hzw⟩ := b3 x
  refine ⟨fun i => y i + z i, dot_vec_of_impl (by simp [SciOp.sumOf, a2]) (by simp [SciOp.sumOf, a1]) ?_, fun i => ?_⟩
  · have h1 : A.matvec (.vec (List.ofFn x)) = _ := hy
    have h2 : B.matvec (.vec (List.ofFn x)) = _ := hz
    simp only [SciOp.sumOf, h1, h2]
    simp only [NpVal.map2, List.length_ofFn, if_true, zipWith_ofFn]
  · have := (hyw i).add (hzw i)
    simpa only [Matrix.add_apply, add_mul, Finset.sum_add_distrib] using this

/-- `aslinearoperator(delta * sparse.eye(n))`: one rounding. -/
theorem damping_within (δ : Fl ρ) : SciWithin (1 + ρ.u) (dampingOp n δ) (δ.val • (1 : Matrix (Fin n) (Fin n) ℝ)) (|δ.val| • 1) := by
  refine ⟨rfl, rfl, fun x => ⟨fun i => δ * x i, dot_vec_of_impl (by simp [dampingOp]) (by simp [dampingOp]) ?_, fun i => ?_⟩⟩
  · simp only [dampingOp, NpVal.map1, List.map_ofFn]
    rfl
  · have := (within_val δ).mul le_rfl (within_val (x i))
    rw [one_mul, one_mul] at this
    simpa [Matrix.smul_apply, Matrix.one_apply] using this

/-- **C139** (damping): `A + δ I`. -/
theorem damped_within {g : ℝ} (hg : 1 ≤ g) {A : SciOp (Fl ρ)} {M M' : Matrix (Fin n) (Fin n) ℝ} (hA : SciWithin g A M M') (δ : Fl ρ) :
    ∃ S, dampedSci A δ = .ok S ∧ SciWithin (g * (1 + ρ.u) ^ 2) S (M + δ.val • 1) (M' + |δ.val| • 1) := by
  have hu := ρ.nonneg
  have h1 : SciWithin (g * (1 + ρ.u)) A M M' := hA.mono (le_mul_of_one_le_right (by linarith) (by linarith))
  have h2 : SciWithin (g * (1 + ρ.u)) (dampingOp n δ) (δ.val • (1 : Matrix (Fin n) (Fin n) ℝ)) (|δ.val| • 1) :=
    (damping_within δ).mono (le_mul_of_one_le_left (by linarith) hg)
  obtain ⟨S, h3, h4⟩ := add_within' h1 h2
  refine ⟨S, by rw [dampedSci, hA.1]; exact h3, ?_⟩
  rwa [mul_assoc, ← pow_two] at h4

/-- **C139** (deflation): the deflated operator has the accuracy of the operator, with `d + k + 3` more roundings, relative to `|M| + ∑ |cⱼ| |vⱼ| |vⱼ|ᵀ`: where
the terms cancel, it can be inaccurate. -/
theorem deflateFl_within (hρ : SignsExact ρ) (σ : FlSum ρ) (path : OuterPath) {g : ℝ} (hg : 1 ≤ g) {A : SciOp (Fl ρ)} {M M' : Matrix (Fin d) (Fin d) ℝ}
    (hA : SciWithin g A M M') (c : Fin k → Fl ρ) (V : Fin d → Fin k → Fl ρ) :
    ∃ D, deflateFl σ path A d (List.ofFn c) (List.ofFn fun j => List.ofFn fun i => V i j) = .ok D ∧
      SciWithin (g * (1 + ρ.u) ^ (d + k + 3)) D (M - outerMatrix (fun l => (c l).val) (flVals V))
        (M' + outerMatrix (fun l => |(c l).val|) (flAbs V)) := by
  have hneg : (Fl.of ρ (-1)).val = -1 := hρ.2
  have h1 : SciWithin (g * (1 + ρ.u) ^ (d + k + 2)) A M M' := hA.mono (le_mul_of_one_le_right (by linarith) (one_le_pow_u _))
  have h2 := scaled_within (outerFl_within σ path c V) (Fl.of ρ (-1))
  rw [← pow_succ, hneg, abs_neg, abs_one, neg_one_smul, one_smul] at h2
  have h3 := h2.mono (h := g * (1 + ρ.u) ^ (d + k + 2)) (le_mul_of_one_le_left (by have := one_le_pow_u (ρ := ρ) (d + k + 2); linarith) hg)
  obtain ⟨D, h4, h5⟩ := add_within' h1 h3
  refine ⟨D, h4, ?_⟩
  rwa [mul_assoc, ← pow_succ, ← sub_eq_add_neg] at h5

/-- An array of eigenvectors with another number of rows is refused. -/
theorem deflateFl_shape (σ : FlSum ρ) (path : OuterPath) (A : SciOp (Fl ρ)) (r : Nat) (hr : A.rows ≠ r) (evals : List (Fl ρ))
    (evecs : List (List (Fl ρ))) : deflateFl σ path A r evals evecs = .error .valueError := by
  unfold deflateFl SciOp.add
  exact if_neg fun h => hr h.1

/-- **C139** (trace): Hutchinson's estimate on the deflated operator plus the removed numbers, in floating point, for columns that are neither eigenvectors
nor exactly unit vectors: the bias consists of the rounding errors and of the errors of the norms. -/
theorem deflatedFl_trace (hρ : SignsExact ρ) (σ : FlSum ρ) (path : OuterPath) {g : ℝ} (hg : 1 ≤ g) {A : SciOp (Fl ρ)} {M M' : Matrix (Fin d) (Fin d) ℝ}
    (hA : SciWithin g A M M') (c : Fin k → Fl ρ) (V : Fin d → Fin k → Fl ρ) {W : Type _} (E : Ext (Fl ρ) W) (w : (Fin d → Bool) → W)
    (hw : DrawsBits E w) :
    ∃ D, deflateFl σ path A d (List.ofFn c) (List.ofFn fun j => List.ofFn fun i => V i j) = .ok D ∧ ∃ F : (Fin d → Bool) → Fl ρ,
      (∀ b, (hutchTraceFl σ (E.withOp D) d (.str "rademacher") (w b)).1 = .ok (F b)) ∧
      |signMean (fun b => (F b).val) + ∑ j, (c j).val - M.trace| ≤
        (g * (1 + ρ.u) ^ (2 * d + k + 3) - 1) * ∑ i, ∑ j, (M' i j + ∑ l, |(c l).val| * (|(V i l).val| * |(V j l).val|)) +
          ∑ j, |(c j).val| * |1 - ∑ i, (V i j).val ^ 2| := by
  obtain ⟨D, hD, hDw⟩ := deflateFl_within hρ σ path hg hA c V
  obtain ⟨F, hF, hb⟩ := hutchTraceFl_rademacher hρ σ (E.withOp D) (one_le_mul_of_one_le_of_one_le hg (one_le_pow_u _)) _ _ (hDw.multiplies E) w hw
  refine ⟨D, hD, F, hF, ?_⟩
  have ht : (M - outerMatrix (fun l => (c l).val) (flVals V)).trace = M.trace - ∑ j, (c j).val * ∑ i, (V i j).val ^ 2 := by
    rw [Matrix.trace_sub]
    congr 1
    simp only [outerMatrix, Matrix.trace_sum, Matrix.trace_smul, Matrix.trace_vecMulVec, smul_eq_mul, dotProduct, flVals, Matrix.of_apply, pow_two]
  rw [ht] at hb
  have h1 : |∑ j, (c j).val * (1 - ∑ i, (V i j).val ^ 2)| ≤ ∑ j, |(c j).val| * |1 - ∑ i, (V i j).val ^ 2| :=
    (Finset.abs_sum_le_sum_abs _ _).trans (le_of_eq (Finset.sum_congr rfl fun _ _ => abs_mul _ _))
  have h2 : signMean (fun b => (F b).val) + ∑ j, (c j).val - M.trace =
      (signMean (fun b => (F b).val) - (M.trace - ∑ j, (c j).val * ∑ i, (V i j).val ^ 2)) + ∑ j, (c j).val * (1 - ∑ i, (V i j).val ^ 2) := by
    simp only [mul_sub, mul_one, Finset.sum_sub_distrib]
    ring
  rw [h2]
  refine (abs_add_le _ _).trans (add_le_add (hb.trans (le_of_eq ?_)) h1)
  rw [show 2 * d + k + 3 = d + k + 3 + d by omega, pow_add _ (d + k + 3) d, ← mul_assoc]
  simp only [Matrix.add_apply, outerMatrix, Matrix.sum_apply, Matrix.smul_apply, Matrix.vecMulVec_apply, smul_eq_mul, flAbs, Matrix.of_apply]

/-! ## Example: in `float64`, `3 I` without the pair with eigenvalue `3` and the first coordinate vector -/

theorem natCast_binary (p a : Nat) (h : a ≤ 2 ^ (p + 1)) : ((a : Nat) : Fl (binaryFloat p)).val = a := binary_natCast p a h

example (σ : FlSum (binaryFloat 52)) (path : OuterPath) :
    ∃ D, deflateFl σ path (dampingOp 2 (3 : Nat)) 2 [((3 : Nat) : Fl (binaryFloat 52))] [[1, 0]] = .ok D ∧ ∃ F : (Fin 2 → Bool) → Fl (binaryFloat 52),
      (∀ b, (hutchTraceFl σ (triExt.withOp D) 2 (.str "rademacher") (List.ofFn b)).1 = .ok (F b)) ∧
      |signMean (fun b => (F b).val) + 3 - 6| ≤ 1 / 10 ^ 14 := by
  have h3 : ((3 : Nat) : Fl (binaryFloat 52)).val = 3 := by
    have := natCast_binary 52 3 (by norm_num)
    exact_mod_cast this
  have hg : 1 ≤ 1 + (binaryFloat 52).u := by linarith [(binaryFloat 52).nonneg]
  have hw : DrawsBits triExt (List.ofFn : (Fin 2 → Bool) → List Bool) := fun b => rfl
  obtain ⟨D, hD, F, hF, h⟩ := deflatedFl_trace (signsExact_binary 52) σ path hg (damping_within ((3 : Nat) : Fl (binaryFloat 52)))
    (fun _ : Fin 1 => ((3 : Nat) : Fl (binaryFloat 52))) (fun i _ => if i = 0 then 1 else 0) triExt (List.ofFn : (Fin 2 → Bool) → List Bool) hw
  refine ⟨D, by simpa [List.ofFn_succ] using hD, F, hF, ?_⟩
  have ht : ((3 : ℝ) • (1 : Matrix (Fin 2) (Fin 2) ℝ)).trace = 6 := by simp [Matrix.trace_smul]; norm_num
  rw [h3, ht] at h
  simp only [Finset.univ_unique, Finset.sum_const, Finset.card_singleton, one_smul, Fin.sum_univ_two] at h
  refine h.trans ?_
  norm_num [binaryFloat, Matrix.one_apply]

end Curvlinops
