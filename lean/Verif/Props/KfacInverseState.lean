import Verif.Lemmas.KfacInverseLoop
import Verif.Props.KfacStateDict
import Mathlib.Tactic.FieldSimp
import Mathlib.Tactic.Linarith
import Mathlib.Tactic.Positivity

/-!
# C42 (repetitions), C43 – C46: damping, cache, state dictionaries and failures of the KFAC inverse
-/

namespace Curvlinops

variable {Θ B G : Type}

/-! ## C43: damping values -/

/-- The mean of the eigenvalues. -/
noncomputable def Factor.eigMean (M : Factor ℝ) : ℝ := (∑ i ∈ Finset.range M.dim, M.mat i i) / M.dim

/-- C43 for factors with positive mean eigenvalue and `damping ≥ 0`: the documented formula
(Martens and Grosse, 2015, section 6.3), both values are at least `min_damping`, and their product is the damping if
`min_damping` is not active. (Missing: zero factors, see `heuristicDamping_zero_input`, `heuristicDamping_zero_gradient`.) -/
theorem heuristicDamping_partial (cfg : InvCfg) (d : ℝ) (hh : cfg.heuristic = true) (hd : cfg.damping = .value d)
    (h0 : 0 ≤ d) (A B : Factor ℝ) (hA : 0 < A.eigMean) (hB : 0 < B.eigMean) :
    ∃ a b : ℝ, computeDamping cfg (some A) (some B) = .ok (.fin a, .fin b) ∧
      a = max (Real.sqrt (d * (A.eigMean / B.eigMean))) cfg.minDamping ∧
      b = max (Real.sqrt (d * (B.eigMean / A.eigMean))) cfg.minDamping ∧
      cfg.minDamping ≤ a ∧ cfg.minDamping ≤ b ∧
      (cfg.minDamping ≤ Real.sqrt (d * (A.eigMean / B.eigMean)) →
        cfg.minDamping ≤ Real.sqrt (d * (B.eigMean / A.eigMean)) → a * b = d) := by
  have hdA : A.dim ≠ 0 := by
    intro h
    simp [Factor.eigMean, h] at hA
  have hdB : B.dim ≠ 0 := by
    intro h
    simp [Factor.eigMean, h] at hB
  have eA : A.trace / A.dim = A.eigMean := rfl
  have eB : B.trace / B.dim = B.eigMean := rfl
  have hr : 0 < Real.sqrt (A.eigMean / B.eigMean) := Real.sqrt_pos.mpr (by positivity)
  have e1 : Real.sqrt d * Real.sqrt (A.eigMean / B.eigMean) = Real.sqrt (d * (A.eigMean / B.eigMean)) :=
    (Real.sqrt_mul h0 _).symm
  have e2 : Real.sqrt d / Real.sqrt (A.eigMean / B.eigMean) = Real.sqrt (d * (B.eigMean / A.eigMean)) := by
    rw [← Real.sqrt_div h0]
    congr 1
    field_simp
  have hm : ∀ x m : ℝ, (FNum.fin x).pyMax m = .fin (max x m) := by
    intro x m
    unfold FNum.pyMax
    simp only
    split
    · rw [max_eq_right (by linarith)]
    · rw [max_eq_left (by linarith)]
  refine ⟨_, _, ?_, rfl, rfl, le_max_right _ _, le_max_right _ _, ?_⟩
  · unfold computeDamping
    simp only [hh, hd, eA, eB]
    rw [if_pos ⟨hdA, hdB, hA.le, hB⟩, if_neg (not_lt.mpr h0)]
    simp only [FNum.div, if_neg hr.ne', e1, e2, hm]
  · intro h1 h2
    rw [max_eq_left h1, max_eq_left h2, ← Real.sqrt_mul (by positivity)]
    have : d * (A.eigMean / B.eigMean) * (d * (B.eigMean / A.eigMean)) = d ^ 2 := by
      field_simp
    rw [this, Real.sqrt_sq h0]

/-- C43: without heuristics the given value or tuple is used. -/
theorem plainDamping (cfg : InvCfg) (hh : cfg.heuristic = false) (aaT ggT : Option (Factor ℝ)) :
    (∀ d, cfg.damping = .value d → computeDamping cfg aaT ggT = .ok (.fin d, .fin d)) ∧
    ∀ a g, cfg.damping = .pair a g → computeDamping cfg aaT ggT = .ok (.fin a, .fin g) := by
  constructor
  · intro d hd
    unfold computeDamping
    rw [hh, hd]
    rfl
  · intro a g hd
    unfold computeDamping
    rw [hh, hd]
    rfl

/-- Heuristics are not used for a layer without input covariance, i.e. without weight. -/
theorem heuristicDamping_bias (cfg : InvCfg) (d : ℝ) (hd : cfg.damping = .value d) (ggT : Option (Factor ℝ)) :
    computeDamping cfg none ggT = .ok (.fin d, .fin d) := by
  unfold computeDamping
  rw [hd]
  cases cfg.heuristic <;> rfl

/-- C43 is violated: for a zero input covariance (all inputs of a layer without bias are zero) the damping of the
gradient covariance is infinite, or `nan` if the damping is zero, whatever `min_damping` is. -/
theorem heuristicDamping_zero_input (cfg : InvCfg) (d : ℝ) (hh : cfg.heuristic = true) (hd : cfg.damping = .value d)
    (h0 : 0 ≤ d) (A B : Factor ℝ) (hdim : A.dim ≠ 0) (hA : A.eigMean = 0) (hB : 0 < B.eigMean) :
    computeDamping cfg (some A) (some B) = .ok (.fin (max 0 cfg.minDamping), if d = 0 then .nan else .inf) := by
  have hdB : B.dim ≠ 0 := by
    intro h
    simp [Factor.eigMean, h] at hB
  have eA : A.trace / A.dim = 0 := hA
  have eB : B.trace / B.dim = B.eigMean := rfl
  unfold computeDamping
  simp only [hh, hd, eA, eB]
  rw [if_pos ⟨hdim, hdB, le_refl _, hB⟩, if_neg (not_lt.mpr h0)]
  simp only [zero_div, Real.sqrt_zero, mul_zero, FNum.div, if_true, Real.sqrt_eq_zero h0, FNum.pyMax]
  congr 2
  · split
    · rw [max_eq_right (by linarith)]
    · rw [max_eq_left (by linarith)]
  · by_cases hz : d = 0
    · rw [if_pos hz]
    · rw [if_neg hz]

/-- The consequence: no finite matrix is decomposed, and what happens is up to PyTorch's treatment of matrices with
infinite entries. -/
theorem heuristicDamping_zero_input_cholesky (la : LinAlg) (dt : FloatType) (cfg : InvCfg) (d : ℝ) (hh : cfg.heuristic = true)
    (hd : cfg.damping = .value d) (h0 : 0 ≤ d) (A B : Factor ℝ) (hdim : A.dim ≠ 0) (hA : A.eigMean = 0)
    (hB : 0 < B.eigMean) :
    ∃ a g, computeDamping cfg (some A) (some B) = .ok (a, g) ∧ dampedCholesky la dt B g = la.choleskyNonFinite dt := by
  refine ⟨_, _, heuristicDamping_zero_input cfg d hh hd h0 A B hdim hA hB, ?_⟩
  split <;> rfl

/-- C43 is violated: if the mean eigenvalue of the gradient covariance is not positive (e.g. all gradients are zero), the
damping is used for both factors, even if it is smaller than `min_damping`. -/
theorem heuristicDamping_zero_gradient (cfg : InvCfg) (d : ℝ) (hd : cfg.damping = .value d) (A B : Factor ℝ)
    (hB : B.eigMean ≤ 0) : computeDamping cfg (some A) (some B) = .ok (.fin d, .fin d) := by
  have eB : B.trace / B.dim = B.eigMean := rfl
  unfold computeDamping
  rw [hd]
  cases cfg.heuristic with
  | false => rfl
  | true =>
    simp only [eB]
    rw [if_neg]
    · rfl
    · rintro ⟨-, -, -, h⟩
      exact absurd h (not_lt.mpr hB)

/-- A negative damping with heuristics raises `ValueError`. -/
theorem heuristicDamping_negative (cfg : InvCfg) (d : ℝ) (hh : cfg.heuristic = true) (hd : cfg.damping = .value d)
    (h0 : d < 0) (A B : Factor ℝ) (hdim : A.dim ≠ 0) (hA : 0 ≤ A.eigMean) (hB : 0 < B.eigMean) :
    computeDamping cfg (some A) (some B) = .error .valueError := by
  have hdB : B.dim ≠ 0 := by
    intro h
    simp [Factor.eigMean, h] at hB
  have eA : A.trace / A.dim = A.eigMean := rfl
  have eB : B.trace / B.dim = B.eigMean := rfl
  unfold computeDamping
  simp only [hh, hd, eA, eB]
  rw [if_pos ⟨hdim, hdB, hA, hB⟩, if_pos h0]

/-- Settings for the examples: heuristic damping 4 with `min_damping = 1/10`. -/
noncomputable def heurCfg (d : ℝ) : InvCfg := ⟨.value d, true, 1 / 10, false, true, true⟩

theorem eigMean_one (x : ℝ) : Factor.eigMean ⟨1, fun _ _ => x⟩ = x := by simp [Factor.eigMean]

/-- Mean eigenvalues 9 and 1, damping 4: the dampings are 6 and 2/3. -/
example : computeDamping (heurCfg 4) (some ⟨1, fun _ _ => 9⟩) (some ⟨1, fun _ _ => 1⟩) = .ok (.fin 6, .fin (2 / 3)) := by
  obtain ⟨a, b, h, ha, hb, -⟩ := heuristicDamping_partial (heurCfg 4) 4 rfl rfl (by norm_num) ⟨1, fun _ _ => 9⟩
    ⟨1, fun _ _ => 1⟩ (by rw [eigMean_one]; norm_num) (by rw [eigMean_one]; norm_num)
  rw [h, ha, hb]
  simp only [eigMean_one, heurCfg]
  have e1 : Real.sqrt (4 * (9 / 1)) = 6 := by
    rw [show (4 * (9 / 1) : ℝ) = 6 ^ 2 by norm_num, Real.sqrt_sq (by norm_num)]
  have e2 : Real.sqrt (4 * (1 / 9)) = 2 / 3 := by
    rw [show (4 * (1 / 9) : ℝ) = (2 / 3) ^ 2 by norm_num, Real.sqrt_sq (by norm_num)]
  rw [e1, e2, max_eq_left (by norm_num), max_eq_left (by norm_num)]

/-- A layer whose inputs are zero: infinite damping. -/
example : computeDamping (heurCfg 4) (some ⟨1, fun _ _ => 0⟩) (some ⟨1, fun _ _ => 1⟩) = .ok (.fin (1 / 10), .inf) := by
  have h := heuristicDamping_zero_input (heurCfg 4) 4 rfl rfl (by norm_num) ⟨1, fun _ _ => 0⟩ ⟨1, fun _ _ => 1⟩
    (by norm_num) (eigMean_one 0) (by rw [eigMean_one]; norm_num)
  rw [h, if_neg (by norm_num)]
  simp only [heurCfg]
  rw [max_eq_right (by norm_num)]

/-- Zero gradients: the damping 1/100 is smaller than `min_damping = 1/10`. -/
example : computeDamping (heurCfg (1 / 100)) (some ⟨1, fun _ _ => 1⟩) (some ⟨1, fun _ _ => 0⟩) =
    .ok (.fin (1 / 100), .fin (1 / 100)) :=
  heuristicDamping_zero_gradient (heurCfg (1 / 100)) (1 / 100) rfl _ _ (eigMean_one 0).le

/-! ## C44: the cache -/

/-- The loop's outcome and list do not depend on the `cache` setting and on what has been cached. -/
theorem invLoop_transparent (la : LinAlg) (cfg : InvCfg) (c : Bool) (dt : FloatType) (sep : Bool)
    (inCov gradCov : Dict (Factor ℝ)) (mapping : Dict (Dict Nat)) (X : List (Tensor ℝ)) (k k' : Dict KInv)
    (hk : CacheOk la cfg dt inCov gradCov k) (hk' : CacheOk la cfg dt inCov gradCov k') :
    (invLoop la cfg dt sep inCov gradCov mapping X k).1 =
      (invLoop la { cfg with cache := c } dt sep inCov gradCov mapping X k').1 ∧
    (invLoop la cfg dt sep inCov gradCov mapping X k).2.1 =
      (invLoop la { cfg with cache := c } dt sep inCov gradCov mapping X k').2.1 ∧
    CacheOk la cfg dt inCov gradCov (invLoop la cfg dt sep inCov gradCov mapping X k).2.2 ∧
    CacheOk la cfg dt inCov gradCov (invLoop la { cfg with cache := c } dt sep inCov gradCov mapping X k').2.2 := by
  induction mapping generalizing X k k' with
  | nil => exact ⟨rfl, rfl, hk, hk'⟩
  | cons e rest ih =>
    obtain ⟨name, pos⟩ := e
    have h1 := computeOrGet_fst la cfg dt inCov gradCov k hk name
    have h1' := computeOrGet_fst la { cfg with cache := c } dt inCov gradCov k' hk' name
    have h2 := computeOrGet_cache la cfg dt inCov gradCov k hk name
    have h2' := computeOrGet_cache la { cfg with cache := c } dt inCov gradCov k' hk' name
    have hs : computeInverseFactors la { cfg with cache := c } dt (inCov.get name) (gradCov.get name) =
      computeInverseFactors la cfg dt (inCov.get name) (gradCov.get name) := rfl
    rw [hs] at h1'
    have h2' : CacheOk la cfg dt inCov gradCov (computeOrGet la { cfg with cache := c } dt inCov gradCov k' name).2 := h2'
    simp only [invLoop]
    rcases hr : computeOrGet la cfg dt inCov gradCov k name with ⟨o, k₁⟩
    rcases hr' : computeOrGet la { cfg with cache := c } dt inCov gradCov k' name with ⟨o', k₁'⟩
    rw [hr] at h1 h2
    rw [hr'] at h1' h2'
    simp only at h1 h1' h2 h2'
    rw [← h1] at h1'
    subst h1'
    cases o' with
    | error e => exact ⟨rfl, rfl, h2, h2'⟩
    | ok inv =>
      have hl : invLayer { cfg with cache := c } sep inv X pos = invLayer cfg sep inv X pos := rfl
      simp only [hl]
      cases invLayer cfg sep inv X pos with
      | error e => exact ⟨rfl, rfl, h2, h2'⟩
      | ok ws => exact ih _ _ _ h2 h2'

/-- A state in which KFAC's factors are those of `A` (or will be, when they are computed), and the cached inverses belong
to them. -/
def InvOk (w : KWorld Θ B G) (la : LinAlg) (cfg : InvCfg) (dt : FloatType) (A : KState Θ) (st : KInvState Θ) : Prop :=
  ensureKfac w none st.A = (.ok (), A) ∧ CacheOk la cfg dt A.inCov A.gradCov st.cache

theorem ensureKfac_idem (w : KWorld Θ B G) (A : KState Θ) (h : (A.inCov.isEmpty && A.gradCov.isEmpty) = false) :
    ensureKfac w none A = (.ok (), A) := by
  unfold ensureKfac
  rw [if_neg (by simp [h])]

theorem matmat_transparent (w : KWorld Θ B G) (la : LinAlg) (dt : FloatType) (A : KState Θ)
    (hne : (A.inCov.isEmpty && A.gradCov.isEmpty) = false) (cfg : InvCfg) (c : Bool) (A₀ A₀' : KState Θ) (k k' : Dict KInv)
    (h : InvOk w la cfg dt A ⟨A₀, cfg, k⟩) (h' : InvOk w la cfg dt A ⟨A₀', { cfg with cache := c }, k'⟩)
    (X : List (Tensor ℝ)) :
    let r := KInvState.matmat w la dt none X ⟨A₀, cfg, k⟩
    let r' := KInvState.matmat w la dt none X ⟨A₀', { cfg with cache := c }, k'⟩
    r.1 = r'.1 ∧ r.2.cfg = cfg ∧ r'.2.cfg = { cfg with cache := c } ∧ InvOk w la cfg dt A r.2 ∧ InvOk w la cfg dt A r'.2 := by
  obtain ⟨h1, h2, h3, h4⟩ := invLoop_transparent la cfg c dt A.cfg.sep A.inCov A.gradCov w.mapping X k k' h.2 h'.2
  have hi := ensureKfac_idem w A hne
  simp only [KInvState.matmat, h.1, h'.1]
  rcases hr : invLoop la cfg dt A.cfg.sep A.inCov A.gradCov w.mapping X k with ⟨o, Y, k₁⟩
  rcases hr' : invLoop la { cfg with cache := c } dt A.cfg.sep A.inCov A.gradCov w.mapping X k' with ⟨o', Y', k₁'⟩
  rw [hr] at h1 h2 h3
  rw [hr'] at h1 h2 h4
  simp only at h1 h2 h3 h4
  subst h1 h2
  cases o with
  | error e => exact ⟨rfl, rfl, rfl, ⟨hi, h3⟩, ⟨hi, h4⟩⟩
  | ok u => exact ⟨rfl, rfl, rfl, ⟨hi, h3⟩, ⟨hi, h4⟩⟩

/-- C44: for every sequence of products the results are the same with and without cache, and (C42) each of them is the
result of the product on the new operator. The factors of `A` are those that KFAC has or computes first. -/
theorem kfacInverse_cache_transparent (w : KWorld Θ B G) (la : LinAlg) (dt : FloatType) (A₀ A : KState Θ)
    (hens : ensureKfac w none A₀ = (.ok (), A)) (hne : (A.inCov.isEmpty && A.gradCov.isEmpty) = false) (cfg : InvCfg)
    (c : Bool) (Xs : List (List (Tensor ℝ))) :
    (KInvState.run w la dt Xs ⟨A₀, cfg, []⟩).1 = (KInvState.run w la dt Xs ⟨A₀, { cfg with cache := c }, []⟩).1 ∧
    (KInvState.run w la dt Xs ⟨A₀, cfg, []⟩).1 =
      Xs.map fun X => (KInvState.matmat w la dt none X ⟨A₀, cfg, []⟩).1.1 := by
  have h0 : ∀ c, InvOk w la cfg dt A ⟨A₀, { cfg with cache := c }, []⟩ := fun c => ⟨hens, CacheOk.nil _ _ _ _ _⟩
  -- every operator in such a state gives the results of the new operator
  have key : ∀ (c : Bool) (Xs : List (List (Tensor ℝ))) (st : KInvState Θ), st.cfg = { cfg with cache := c } →
      InvOk w la cfg dt A st →
      (KInvState.run w la dt Xs st).1 = Xs.map fun X => (KInvState.matmat w la dt none X ⟨A₀, cfg, []⟩).1.1 := by
    intro c Xs
    induction Xs with
    | nil => intros; rfl
    | cons X Xs ih =>
      intro st hcfg hst
      obtain ⟨A', cfg', k⟩ := st
      simp only at hcfg
      subst hcfg
      obtain ⟨h1, -, h3, -, h5⟩ := matmat_transparent w la dt A hne cfg c A₀ A' [] k (h0 cfg.cache) hst X
      simp only [KInvState.run, List.map_cons]
      rw [ih _ h3 h5]
      exact congrArg (· :: _) (congrArg Prod.fst h1).symm
  have e1 := key cfg.cache Xs ⟨A₀, cfg, []⟩ rfl (h0 cfg.cache)
  have e2 := key c Xs ⟨A₀, { cfg with cache := c }, []⟩ rfl (h0 c)
  exact ⟨e1.trans e2.symm, e1⟩

/-- Fresh KFAC: the assumptions of C44 hold. -/
example (la : LinAlg) (dt : FloatType) (cfg : InvCfg) (X Y : List (Tensor ℝ)) :
    (KInvState.run unitWorld la dt [X, Y, X] ⟨unitState, { cfg with cache := true }, []⟩).1 =
      (KInvState.run unitWorld la dt [X, Y, X] ⟨unitState, { cfg with cache := false }, []⟩).1 :=
  (kfacInverse_cache_transparent unitWorld la dt unitState _ (ensureKfac_fresh _ _ unitState_fresh)
    (by simp only [KState.computed]; rw [factors_nonempty _ _ unitWorld_good, Bool.and_false])
    { cfg with cache := true } false _).1

/-! ## C46: failing decompositions -/

/-- C46: which decompositions are tried. -/
theorem invertFactor_attempts (la : LinAlg) (retry : Bool) (dt : FloatType) (M : Factor ℝ) (d : FNum) :
    ((dampedCholesky la dt M d = .error .runtimeError ∧ retry = true ∧ dt ≠ .float64) →
      (invertFactor la retry dt M d).2 = [dt, .float64]) ∧
    (¬(dampedCholesky la dt M d = .error .runtimeError ∧ retry = true ∧ dt ≠ .float64) →
      (invertFactor la retry dt M d).2 = [dt]) := by
  unfold invertFactor
  constructor
  · rintro ⟨hc, hr⟩
    rw [hc]
    simp only
    rw [if_pos (by simpa using hr)]
    cases dampedCholesky la .float64 M d <;> rfl
  · intro h
    rcases hc : dampedCholesky la dt M d with e | L
    · cases e <;> try rfl
      simp only
      rw [if_neg fun h' => h ⟨hc, by simpa using h'⟩]
    · rfl

/-- C46: the outcome is that of the last decomposition that was tried. -/
theorem invertFactor_outcome (la : LinAlg) (retry : Bool) (dt : FloatType) (M : Factor ℝ) (d : FNum) :
    (invertFactor la retry dt M d).1 =
      match dampedCholesky la ((invertFactor la retry dt M d).2.getLastD dt) M d with
      | .ok L => .ok (la.choleskyInverse L)
      | .error e => .error e := by
  unfold invertFactor
  rcases hc : dampedCholesky la dt M d with e | L
  · cases e <;> simp only [List.getLastD, List.getLast_singleton, hc]
    split
    · rcases hc' : dampedCholesky la .float64 M d with e | L <;> simp [hc']
    · simp [hc]
  · simp [hc]

/-- C46: an error of a decomposition is raised, for the input covariance and, if this is inverted, for the gradient
covariance. -/
theorem computeInverseFactors_error (la : LinAlg) (cfg : InvCfg) (dt : FloatType) (aaT ggT : Option (Factor ℝ)) (a g : FNum)
    (hex : cfg.exact = false) (hd : computeDamping cfg aaT ggT = .ok (a, g)) (e : PyErr) :
    computeInverseFactors la cfg dt aaT ggT = .error e ↔
      (∃ A, aaT = some A ∧ (invertFactor la cfg.retry dt A a).1 = .error e) ∨
      ((∀ A, aaT = some A → ∃ N, (invertFactor la cfg.retry dt A a).1 = .ok N) ∧
        ∃ C, ggT = some C ∧ (invertFactor la cfg.retry dt C g).1 = .error e) := by
  unfold computeInverseFactors
  rw [hex]
  simp only [Bool.false_eq_true, if_false, hd, bind, Except.bind]
  cases aaT with
  | none =>
    cases ggT with
    | none => simp [optM]
    | some C =>
      simp only [optM]
      cases hC : (invertFactor la cfg.retry dt C g).1 <;> simp [hC]
  | some A =>
    simp only [optM]
    cases hA : (invertFactor la cfg.retry dt A a).1 with
    | error e' => simp [hA]
    | ok N =>
      cases ggT with
      | none => simp [hA]
      | some C =>
        simp only
        cases hC : (invertFactor la cfg.retry dt C g).1 <;> simp [hA, hC]

/-- C46: nothing is cached for a layer whose inversion fails. -/
theorem invLoop_failing_not_cached (la : LinAlg) (cfg : InvCfg) (dt : FloatType) (sep : Bool) (inCov gradCov : Dict (Factor ℝ))
    (mapping : Dict (Dict Nat)) (X : List (Tensor ℝ)) (k : Dict KInv) (name : String) (e : PyErr)
    (hf : computeInverseFactors la cfg dt (inCov.get name) (gradCov.get name) = .error e) :
    (invLoop la cfg dt sep inCov gradCov mapping X k).2.2.get name = k.get name := by
  induction mapping generalizing X k with
  | nil => rfl
  | cons m rest ih =>
    obtain ⟨n, pos⟩ := m
    have hk : (computeOrGet la cfg dt inCov gradCov k n).2.get name = k.get name := by
      unfold computeOrGet
      cases hc : k.get n with
      | some inv => rfl
      | none =>
        simp only
        by_cases hn : n = name
        · subst hn
          rw [hf]
        · cases computeInverseFactors la cfg dt (inCov.get n) (gradCov.get n) with
          | error e => rfl
          | ok inv =>
            simp only
            split
            · rw [Dict.get_set, if_neg (Ne.symm hn)]
            · rfl
    simp only [invLoop]
    rcases hr : computeOrGet la cfg dt inCov gradCov k n with ⟨_ | inv, k₁⟩
    · rw [hr] at hk
      exact hk
    · rw [hr] at hk
      simp only
      cases invLayer cfg sep inv X pos with
      | error e => exact hk
      | ok ws => exact (ih _ _).trans hk

theorem invLoop_append (la : LinAlg) (cfg : InvCfg) (dt : FloatType) (sep : Bool) (inCov gradCov : Dict (Factor ℝ))
    (pre post : Dict (Dict Nat)) (X X' : List (Tensor ℝ)) (k k' : Dict KInv)
    (h : invLoop la cfg dt sep inCov gradCov pre X k = (.ok (), X', k')) :
    invLoop la cfg dt sep inCov gradCov (pre ++ post) X k = invLoop la cfg dt sep inCov gradCov post X' k' := by
  induction pre generalizing X k with
  | nil =>
    simp only [invLoop, Prod.mk.injEq, true_and] at h
    obtain ⟨rfl, rfl⟩ := h
    rfl
  | cons m rest ih =>
    obtain ⟨n, pos⟩ := m
    simp only [invLoop, List.cons_append] at h ⊢
    rcases hr : computeOrGet la cfg dt inCov gradCov k n with ⟨_ | inv, k₁⟩
    · rw [hr] at h
      simp at h
    · rw [hr] at h
      simp only at h ⊢
      cases hl : invLayer cfg sep inv X pos with
      | error e => rw [hl] at h; simp at h
      | ok ws =>
        rw [hl] at h
        exact ih _ _ h

/-- C46 for the product: if the layers `pre` are processed without error and then the inversion for the layer `name` (not
cached before) fails, the product raises its error. Nothing is cached for `name`, nor for the layers after it. -/
theorem kfacInverse_failure (w : KWorld Θ B G) (la : LinAlg) (dt : FloatType) (st : KInvState Θ) (A : KState Θ)
    (hens : ensureKfac w none st.A = (.ok (), A)) (pre post : Dict (Dict Nat)) (name : String) (pos : Dict Nat)
    (hmap : w.mapping = pre ++ (name, pos) :: post) (X X' : List (Tensor ℝ)) (k : Dict KInv)
    (hpre : invLoop la st.cfg dt A.cfg.sep A.inCov A.gradCov pre X st.cache = (.ok (), X', k))
    (hn : st.cache.get name = none) (e : PyErr)
    (hf : computeInverseFactors la st.cfg dt (A.inCov.get name) (A.gradCov.get name) = .error e) :
    (st.matmat w la dt none X).1.1 = .error e ∧ (st.matmat w la dt none X).2.cache = k ∧ k.get name = none := by
  have hk : k.get name = none := by
    have := invLoop_failing_not_cached la st.cfg dt A.cfg.sep A.inCov A.gradCov pre X st.cache name e hf
    rw [hpre] at this
    exact this.trans hn
  have hl : invLoop la st.cfg dt A.cfg.sep A.inCov A.gradCov w.mapping X st.cache = (.error e, X', k) := by
    rw [hmap, invLoop_append _ _ _ _ _ _ _ _ _ _ _ _ hpre]
    simp only [invLoop, computeOrGet, hk, hf]
  simp only [KInvState.matmat, hens, hl]
  exact ⟨trivial, trivial, hk⟩

/-- Routines that fail in single precision only. -/
def flakyLinAlg : LinAlg :=
  ⟨fun dt M => if dt = .float64 then .ok M else .error .runtimeError, fun _ => .error .runtimeError, id,
    fun _ => .error .runtimeError⟩

example (M : Factor ℝ) : invertFactor flakyLinAlg true .lower M (.fin 1) = (.ok (M.addDiag 1), [.lower, .float64]) := rfl
example (M : Factor ℝ) : invertFactor flakyLinAlg false .lower M (.fin 1) = (.error .runtimeError, [.lower]) := rfl
example (M : Factor ℝ) : invertFactor flakyLinAlg true .float64 M (.fin 1) = (.ok (M.addDiag 1), [.float64]) := rfl
example (M : Factor ℝ) : invertFactor flakyLinAlg true .lower M .inf = (.error .runtimeError, [.lower, .float64]) := rfl

/-- Without retrying, the product with the unit example raises, and nothing is cached. -/
example (X : List (Tensor ℝ)) :
    let st : KInvState Unit := ⟨unitState, ⟨.value 1, false, 0, false, true, false⟩, []⟩
    (st.matmat unitWorld flakyLinAlg .lower none X).1.1 = .error .runtimeError ∧
    (st.matmat unitWorld flakyLinAlg .lower none X).2.cache = [] := by
  intro st
  obtain ⟨A, hA⟩ := (factors_complete unitWorld unitState unitWorld_good).2 ⟨"lin", [("weight", 0)], 1, 1, 1⟩
    (by simp [unitWorld]) rfl
  obtain ⟨C, hC⟩ := (factors_complete unitWorld unitState unitWorld_good).1 ⟨"lin", [("weight", 0)], 1, 1, 1⟩
    (by simp [unitWorld])
  have := kfacInverse_failure unitWorld flakyLinAlg .lower st _ (ensureKfac_fresh _ _ unitState_fresh) [] [] "lin"
    [("weight", 0)] rfl X X [] rfl rfl .runtimeError (by
      refine (computeInverseFactors_error _ _ _ _ _ (.fin 1) (.fin 1) rfl
        ((plainDamping _ rfl _ _).1 1 rfl) _).2 (Or.inl ⟨A, hA, rfl⟩))
  exact ⟨this.1, this.2.1⟩

/-! ## C45: construction and state dictionaries -/

/-- C45: when construction raises, and what is constructed otherwise. -/
theorem kInvInit_spec (isKfac : Bool) (A : KState Θ) (cfg : InvCfg) :
    (kInvInit isKfac A cfg = .error .valueError ↔
      isKfac = false ∨ (cfg.heuristic = true ∧ cfg.exact = true) ∨
        ((cfg.heuristic = true ∨ cfg.exact = true) ∧ ∃ a g, cfg.damping = .pair a g)) ∧
    ∀ r, kInvInit isKfac A cfg = r → r = .error .valueError ∨ r = .ok ⟨A, cfg, []⟩ := by
  obtain ⟨d, h, m, ex, c, r⟩ := cfg
  constructor
  · cases isKfac <;> cases h <;> cases ex <;> cases d <;> simp [kInvInit, Damping.isTuple]
  · intro r hr
    subst hr
    unfold kInvInit
    split
    · exact Or.inl rfl
    · split
      · exact Or.inl rfl
      · split
        · exact Or.inl rfl
        · exact Or.inr rfl

theorem invMatmat_same (w : KWorld Θ B G) (la : LinAlg) (dt : FloatType) (f : Fault) (X : List (Tensor ℝ)) (A A' : KState Θ)
    (h : SameState A A') (cfg : InvCfg) (k : Dict KInv) :
    ∃ A₁ A₁' k₁, (KInvState.matmat w la dt f X ⟨A, cfg, k⟩).1 = (KInvState.matmat w la dt f X ⟨A', cfg, k⟩).1 ∧
      (KInvState.matmat w la dt f X ⟨A, cfg, k⟩).2 = ⟨A₁, cfg, k₁⟩ ∧
      (KInvState.matmat w la dt f X ⟨A', cfg, k⟩).2 = ⟨A₁', cfg, k₁⟩ ∧ SameState A₁ A₁' := by
  obtain ⟨m, hm⟩ := ensureKfac_same w f A' A.traversals
  rw [← h.eq] at hm
  simp only [KInvState.matmat, hm]
  rcases ensureKfac w f A' with ⟨_ | u, A₁⟩
  · exact ⟨_, _, _, rfl, rfl, rfl, rfl⟩
  · simp only
    rcases invLoop la cfg dt A₁.cfg.sep A₁.inCov A₁.gradCov w.mapping X k with ⟨_ | _, X', k₁⟩
    · exact ⟨_, _, _, rfl, rfl, rfl, rfl⟩
    · exact ⟨_, _, _, rfl, rfl, rfl, rfl⟩

theorem invRun_same (w : KWorld Θ B G) (la : LinAlg) (dt : FloatType) (Xs : List (List (Tensor ℝ))) (A A' : KState Θ)
    (h : SameState A A') (cfg : InvCfg) (k : Dict KInv) :
    (KInvState.run w la dt Xs ⟨A, cfg, k⟩).1 = (KInvState.run w la dt Xs ⟨A', cfg, k⟩).1 := by
  induction Xs generalizing A A' k with
  | nil => rfl
  | cons X Xs ih =>
    obtain ⟨A₁, A₁', k₁, h1, h2, h3, h4⟩ := invMatmat_same w la dt none X A A' h cfg k
    simp only [KInvState.run, h1, h2, h3]
    rw [ih _ _ h4]

/-- C45, round trip: load the state dictionary of `o` into `o'`, whose KFAC operator has the same loss function and passes
the check of its own keys. Settings and cached inverses are those of `o`, and every sequence of products has the same
results. (Missing: KFAC operators that reject the state dictionary, see `invLoad_bias_only_raises`.) -/
theorem invLoad_stateDict_partial (w : KWorld Θ B G) (la : LinAlg) (dt : FloatType) (heap : KHeap) (ih : InvHeap)
    (o o' : KInvObj Θ) (hloss : o'.A.attrs.cfg.loss = o.A.attrs.cfg.loss)
    (hred : o'.A.attrs.cfg.mean = o.A.attrs.cfg.mean) (hC : o'.A.attrs.cfg.C = o.A.attrs.cfg.C)
    (hhooks : o'.A.attrs.hooks = o.A.attrs.hooks) (hkeys : keysMismatch w (heap o'.A.ref) = false) :
    let r := o'.load w heap o.stateDict
    r.1 = .ok () ∧ r.2.cfg = o.cfg ∧ (r.2.value heap ih).cache = ih o.ref ∧ (o.value heap ih).cache = ih o.ref ∧
    (∀ cs, (kRun w (r.2.A.value heap) cs).1 = (kRun w (o.A.value heap) cs).1) ∧
    ∀ Xs, ((r.2.value heap ih).run w la dt Xs).1 = ((o.value heap ih).run w la dt Xs).1 := by
  have hl := load_stateDict_partial w heap o.A o'.A hloss hred hC hhooks hkeys
  have hs := (load_stateDict_same w heap o.A o'.A hloss hred hC hhooks hkeys).2
  rcases hr : o'.A.load w heap o.A.stateDict with ⟨_ | u, A⟩
  · rw [hr] at hl
    exact absurd hl.1 (by simp)
  · rw [hr] at hl hs
    simp only [KInvObj.load, KInvObj.stateDict, hr]
    exact ⟨trivial, trivial, rfl, rfl, hl.2, fun Xs => invRun_same w la dt Xs _ _ hs _ _⟩

/-- C45 for `from_state_dict` with a KFAC operator that has not computed its factors. -/
theorem invFromStateDict_roundtrip (w : KWorld Θ B G) (la : LinAlg) (dt : FloatType) (heap : KHeap) (ih : InvHeap)
    (o : KInvObj Θ) (hcfg : kInvInit true (o.A.value heap) o.cfg = .ok ⟨o.A.value heap, o.cfg, []⟩) (A : KObj Θ) (ref : Nat)
    (hloss : A.attrs.cfg.loss = o.A.attrs.cfg.loss) (hred : A.attrs.cfg.mean = o.A.attrs.cfg.mean)
    (hC : A.attrs.cfg.C = o.A.attrs.cfg.C) (hhooks : A.attrs.hooks = o.A.attrs.hooks) (hA : heap A.ref = ([], [])) :
    ∃ o', invFromStateDict w heap o.stateDict A ref = (.ok (), some o') ∧ o'.cfg = o.cfg ∧
      (o'.value heap ih).cache = ih o.ref ∧
      ∀ Xs, ((o'.value heap ih).run w la dt Xs).1 = ((o.value heap ih).run w la dt Xs).1 := by
  have hi : kInvInit true (A.value heap) o.cfg = .ok ⟨A.value heap, o.cfg, []⟩ := by
    rcases (kInvInit_spec true (A.value heap) o.cfg).2 _ rfl with h | h
    · have := (kInvInit_spec true (o.A.value heap) o.cfg).1.2 ((kInvInit_spec true (A.value heap) o.cfg).1.1 h)
      rw [hcfg] at this
      cases this
    · exact h
  obtain ⟨h1, h2, h3, -, -, h4⟩ := invLoad_stateDict_partial w la dt heap ih o ⟨A, o.cfg, ref⟩ hloss hred hC hhooks
    (by simp only [hA]; rfl)
  refine ⟨(KInvObj.load w heap o.stateDict ⟨A, o.cfg, ref⟩).2, ?_, h2, h3, h4⟩
  unfold invFromStateDict
  have : kInvInit true (A.value heap) ⟨o.stateDict.damping, o.stateDict.heuristic, o.stateDict.minDamping,
    o.stateDict.exact, o.stateDict.cache, o.stateDict.retry⟩ = .ok ⟨A.value heap, o.cfg, []⟩ := hi
  rw [this]
  simp only [h1]

/-- `load_state_dict` of KFAC takes over the parameters before it looks at anything else. -/
theorem load_model (w : KWorld Θ B G) (heap : KHeap) (sd : StateDict Θ) (o : KObj Θ) :
    (o.load w heap sd).2.attrs.model = sd.model := by
  simp only [KObj.load]
  split_ifs <;> rfl

/-- If KFAC rejects its part, the error is raised, and settings and cache of the inverse are unchanged; the parameters of
the model are already those of the state dictionary. -/
theorem invLoad_error (w : KWorld Θ B G) (heap : KHeap) (sd : InvStateDict Θ) (o : KInvObj Θ) (e : PyErr)
    (h : (o.A.load w heap sd.A).1 = .error e) :
    (o.load w heap sd).1 = .error e ∧ (o.load w heap sd).2.cfg = o.cfg ∧ (o.load w heap sd).2.ref = o.ref ∧
    (o.load w heap sd).2.A.attrs.model = sd.A.model ∧ (o.load w heap sd).2.A = (o.A.load w heap sd.A).2 := by
  have hm := load_model w heap sd.A o.A
  unfold KInvObj.load
  rcases hr : o.A.load w heap sd.A with ⟨e' | u, A⟩
  · rw [hr] at h
    simp only [Except.error.injEq] at h
    subst h
    rw [hr] at hm
    exact ⟨rfl, rfl, rfl, hm, rfl⟩
  · rw [hr] at h
    cases h

/-- C45 is violated: if KFAC has a bias-only layer (and another layer with a weight), and its factors have been computed,
the inverse rejects its own state dictionary. -/
theorem invLoad_bias_only_raises (w : KWorld Θ B G) (heap : KHeap) (o : KInvObj Θ) (s : KState Θ) (hg : w.Good s.cfg)
    (hf : heap o.A.ref = w.factors s) (l l' : KLayer) (hl : l ∈ w.layers) (hw : l.pos.has "weight" = true)
    (hl' : l' ∈ w.layers) (hw' : l'.pos.has "weight" = false) : (o.load w heap o.stateDict).1 = .error .valueError :=
  (invLoad_error w heap o.stateDict o _ (load_bias_only_raises w heap o.A s hg hf l l' hl hw hl' hw')).1

/-- The violation in a concrete case. -/
example (cfg : InvCfg) : (KInvObj.load biasWorld (fun _ => biasWorld.factors unitState)
    (KInvObj.stateDict ⟨⟨unitState, 0⟩, cfg, 0⟩) ⟨⟨unitState, 0⟩, cfg, 0⟩).1 = .error .valueError :=
  invLoad_bias_only_raises biasWorld _ ⟨⟨unitState, 0⟩, cfg, 0⟩ unitState biasWorld_good rfl
    ⟨"lin", [("weight", 0)], 1, 1, 1⟩ ⟨"out", [("bias", 1)], 1, 1, 1⟩ (by simp [biasWorld]) rfl (by simp [biasWorld]) rfl

/-- A round trip in the unit world. -/
example (la : LinAlg) (dt : FloatType) (ih : InvHeap) (Xs : List (List (Tensor ℝ))) :
    let o : KInvObj Unit := ⟨⟨unitState.computed unitWorld, 0⟩, ⟨.pair 1 2, false, 0, false, true, true⟩, 0⟩
    let heap : KHeap := fun n => if n = 0 then unitWorld.factors unitState else ([], [])
    ∃ o', invFromStateDict unitWorld heap o.stateDict ⟨unitState, 1⟩ 1 = (.ok (), some o') ∧ o'.cfg = o.cfg ∧
      ((o'.value heap ih).run unitWorld la dt Xs).1 = ((o.value heap ih).run unitWorld la dt Xs).1 := by
  intro o heap
  obtain ⟨o', h1, h2, -, h3⟩ := invFromStateDict_roundtrip unitWorld la dt heap ih o rfl ⟨unitState, 1⟩ 1 rfl rfl rfl rfl rfl
  exact ⟨o', h1, h2, h3 Xs⟩

end Curvlinops
