import Verif.Model.KfacUpdates
import Verif.Props.KfacInverseFresh
import Verif.Props.Estimators
import Verif.Props.SpectrumAverages
import Verif.Lemmas.FourthMoments

/-!
# C86: objects that cache results, and parameters that change
-/

namespace Curvlinops

open Matrix MeasureTheory

variable {Θ B G : Type}

/-- The call makes the operator compute its factors if they are not there. -/
def KCall.Computes (c : KCall) : Prop := ∀ b, c ≠ .userForward b

/-- The calls among the moves. -/
def callsOf : List (KMove Θ) → List KCall
  | [] => []
  | .update _ :: ms => callsOf ms
  | .call c :: ms => c :: callsOf ms

/-- The parameters at the end. -/
def lastModel (θ : Θ) : List (KMove Θ) → Θ
  | [] => θ
  | .update θ' :: ms => lastModel θ' ms
  | .call _ :: ms => lastModel θ ms

/-- The parameters at the first call that computes. -/
def firstModel (θ : Θ) : List (KMove Θ) → Θ
  | [] => θ
  | .update θ' :: ms => firstModel θ' ms
  | .call (.userForward _) :: ms => firstModel θ ms
  | .call _ :: _ => θ

theorem ensureKfac_model (w : KWorld Θ B G) (s : KState Θ) (θ : Θ) (h : (s.inCov.isEmpty && s.gradCov.isEmpty) = false) :
    ensureKfac w none s = (.ok (), s) ∧
    ensureKfac w none { s with model := θ } = (.ok (), { s with model := θ }) := by
  unfold ensureKfac
  simp [h]

theorem readProperty_model {γ : Type _} (w : KWorld Θ B G) (s : KState Θ) (θ : Θ)
    (h : (s.inCov.isEmpty && s.gradCov.isEmpty) = false) (get : KState Θ → Option γ) (set : KState Θ → γ → KState Θ)
    (loop : KState Θ → γ × Option PyErr) (hg : get { s with model := θ } = get s)
    (hs : ∀ v, set { s with model := θ } v = { set s v with model := θ })
    (hl : loop { s with model := θ } = loop s) :
    readProperty w get set loop none { s with model := θ } =
      ((readProperty w get set loop none s).1, { (readProperty w get set loop none s).2 with model := θ }) := by
  obtain ⟨h1, h2⟩ := ensureKfac_model w s θ h
  unfold readProperty
  rw [hg]
  cases get s with
  | some v => rfl
  | none =>
    simp only [h1, h2, hl]
    rcases loop s with ⟨v, _ | e⟩ <;> simp only [hs]

/-- Once there are factors, calls do not look at the parameters. -/
theorem kStep_model (w : KWorld Θ B G) (s : KState Θ) (θ : Θ) (h : (s.inCov.isEmpty && s.gradCov.isEmpty) = false)
    (c : KCall) :
    kStep w { s with model := θ } none c = ((kStep w s none c).1, { (kStep w s none c).2 with model := θ }) := by
  obtain ⟨h1, h2⟩ := ensureKfac_model w s θ h
  cases c with
  | matmat M => simp only [kStep, wrap, KState.matmat, h1, h2]
  | trace =>
    simp only [kStep, wrap, KState.readTrace]
    rw [readProperty_model w s θ h _ _ _ rfl (fun _ => rfl) rfl]
  | det =>
    simp only [kStep, wrap, KState.readDet]
    rw [readProperty_model w s θ h _ _ _ rfl (fun _ => rfl) rfl]
  | logdet =>
    simp only [kStep, wrap, KState.readLogdet]
    rw [readProperty_model w s θ h _ _ _ rfl (fun _ => rfl) rfl]
  | frobenius =>
    simp only [kStep, wrap, KState.readFrob]
    rw [readProperty_model w s θ h _ _ _ rfl (fun _ => rfl) rfl]
  | userForward b => rfl

theorem Settled.nonempty {w : KWorld Θ B G} {s₀ s : KState Θ} (hg : w.Good s₀.cfg) (h : Settled w s₀ s) :
    (s.inCov.isEmpty && s.gradCov.isEmpty) = false := by
  rw [h.gradCov, factors_nonempty w s₀ hg]
  simp

theorem kStep_gradCov (w : KWorld Θ B G) (s s' : KState Θ) (h : ensureKfac w none s = (.ok (), s')) (hn : s.IsFresh ∨ s' = s)
    (c : KCall) (hc : c.Computes) : (kStep w s none c).2.gradCov = s'.gradCov := by
  have hk : ∀ {γ : Type} (get : KState Θ → Option γ) (set : KState Θ → γ → KState Θ) (loop : KState Θ → γ × Option PyErr),
      (s.IsFresh → get s = none) → (∀ v, (set s' v).gradCov = s'.gradCov) →
      (readProperty w get set loop none s).2.gradCov = s'.gradCov := by
    intro γ get set loop h0 hset
    unfold readProperty
    cases hg : get s with
    | some v =>
      rcases hn with hn | hn
      · rw [h0 hn] at hg
        cases hg
      · rw [hn]
    | none =>
      simp only [h]
      rcases loop s' with ⟨v, _ | e⟩ <;> exact hset v
  cases c with
  | matmat M => simp only [kStep, wrap, KState.matmat, h]
  | trace => exact hk KState.trace _ (KState.traceLoop w) (fun hf => hf.trace) fun _ => rfl
  | det => exact hk KState.det _ (KState.detLoop w) (fun hf => hf.det) fun _ => rfl
  | logdet => exact hk KState.logdet _ (KState.logdetLoop w) (fun hf => hf.logdet) fun _ => rfl
  | frobenius => exact hk KState.frob _ (KState.frobLoop w) (fun hf => hf.frob) fun _ => rfl
  | userForward b => exact absurd rfl (hc b)

/-- A call that computes leaves a settled operator. -/
theorem kStep_computes {w : KWorld Θ B G} {s₀ s : KState Θ} (hf : s₀.IsFresh) (hg : w.Good s₀.cfg)
    (h : s = s₀ ∨ Settled w s₀ s) (c : KCall) (hc : c.Computes) : Settled w s₀ (kStep w s none c).2 := by
  rcases (kStep_settled hf hg h c).2 with h2 | h2
  · have hgr : (kStep w s none c).2.gradCov = (w.factors s₀).2 := by
      rcases h with rfl | h
      · exact kStep_gradCov w s _ (ensureKfac_fresh w s hf) (Or.inl hf) c hc
      · rw [kStep_gradCov w s _ (h.ensure hg none) (Or.inr rfl) c hc, h.gradCov]
    rw [h2, hf.gradCov] at hgr
    have := factors_nonempty w s₀ hg
    rw [← hgr] at this
    cases this
  · exact h2

theorem moveRun_settled (w : KWorld Θ B G) (s₀ : KState Θ) (hf : s₀.IsFresh) (hg : w.Good s₀.cfg)
    (ms : List (KMove Θ)) (s : KState Θ) (θ : Θ) (h : Settled w s₀ s) :
    (moveRun w ms { s with model := θ }).1 = (callsOf ms).map (fun c => (kStep w s₀ none c).1) ∧
    (moveRun w ms { s with model := θ }).2.model = lastModel θ ms ∧
    (moveRun w ms { s with model := θ }).2.traversals = 1 := by
  induction ms generalizing s θ with
  | nil => exact ⟨rfl, rfl, h.traversals⟩
  | cons m ms ih =>
    cases m with
    | update θ' => exact ih s θ' h
    | call c =>
      obtain ⟨e1, -⟩ := kStep_settled hf hg (Or.inr h) c
      have e3 : Settled w s₀ (kStep w s none c).2 := by
        by_cases hc : c.Computes
        · exact kStep_computes hf hg (Or.inr h) c hc
        · obtain ⟨b, rfl⟩ : ∃ b, c = .userForward b := by
            by_contra h
            exact hc fun b hb => h ⟨b, hb⟩
          rw [show (kStep w s none (.userForward b)).2 = userForward w b s from rfl, userForward_none w b s h.hooks]
          exact h
      obtain ⟨i1, i2, i3⟩ := ih _ θ e3
      simp only [moveRun, kStep_model w s θ (h.nonempty hg) c, callsOf, List.map_cons, lastModel]
      exact ⟨by rw [i1, e1], i2, i3⟩

/-- C86, what KFAC returns when parameters change: all calls, before and after the changes, return what they would return
on a new operator at the parameters of the first call that computed the factors. The data are traversed at most once. -/
theorem kfac_updates (w : KWorld Θ B G) (s₀ : KState Θ) (hf : s₀.IsFresh) (hg : w.Good s₀.cfg) (ms : List (KMove Θ)) :
    (moveRun w ms s₀).1 =
      (callsOf ms).map (fun c => (kStep w { s₀ with model := firstModel s₀.model ms } none c).1) ∧
    (moveRun w ms s₀).2.model = lastModel s₀.model ms ∧
    (moveRun w ms s₀).2.traversals ≤ 1 := by
  induction ms generalizing s₀ with
  | nil => exact ⟨rfl, rfl, by simp [moveRun, hf.traversals]⟩
  | cons m ms ih =>
    cases m with
    | update θ =>
      exact ih { s₀ with model := θ } ⟨hf.inCov, hf.gradCov, hf.trace, hf.det, hf.logdet, hf.frob, hf.hooks,
        hf.traversals⟩ hg
    | call c =>
      by_cases hc : c.Computes
      · have hfm : firstModel s₀.model (.call c :: ms) = s₀.model := by
          cases c <;> first | rfl | exact absurd rfl (hc _)
        have hs := kStep_computes hf hg (Or.inl rfl) c hc
        obtain ⟨i1, i2, i3⟩ := moveRun_settled w s₀ hf hg ms _ s₀.model hs
        have he : { (kStep w s₀ none c).2 with model := s₀.model } = (kStep w s₀ none c).2 := by
          rw [← hs.model]
        rw [he] at i1 i2 i3
        rw [hfm]
        simp only [moveRun, callsOf, List.map_cons, lastModel]
        exact ⟨by rw [i1], i2, i3.le⟩
      · obtain ⟨b, rfl⟩ : ∃ b, c = .userForward b := by
          by_contra h
          exact hc fun b hb => h ⟨b, hb⟩
        have hu : (kStep w s₀ none (.userForward b)).2 = s₀ := userForward_none w b s₀ hf.hooks
        obtain ⟨i1, i2, i3⟩ := ih s₀ hf hg
        simp only [moveRun, callsOf, List.map_cons, lastModel, hu]
        exact ⟨by rw [i1]; rfl, i2, i3⟩

/-- C86 for KFAC if no parameters change after the first call that computes: everything refers to the present parameters.
(Missing: changes after that, which remain unnoticed, see `kfac_updates_stale`.) -/
theorem kfac_present_partial (w : KWorld Θ B G) (s₀ : KState Θ) (hf : s₀.IsFresh) (hg : w.Good s₀.cfg)
    (before : List (KMove Θ)) (after : List KCall) (hb : ∀ c ∈ callsOf before, ¬ c.Computes) :
    (moveRun w (before ++ after.map KMove.call) s₀).1 = (callsOf before ++ after).map
      (fun c => (kStep w { s₀ with model := lastModel s₀.model before } none c).1) := by
  have h1 : callsOf (before ++ after.map KMove.call) = callsOf before ++ after := by
    have ha : ∀ l : List KCall, callsOf (l.map (KMove.call (Θ := Θ))) = l := by
      intro l
      induction l with
      | nil => rfl
      | cons c l ih => simp [callsOf, ih]
    clear hb
    induction before with
    | nil => exact ha after
    | cons m ms ih => cases m <;> simp [callsOf, ih]
  have h2 : ∀ θ, firstModel θ (before ++ after.map KMove.call) = lastModel θ before := by
    clear h1
    induction before with
    | nil =>
      intro θ
      induction after with
      | nil => rfl
      | cons c cs ih => cases c <;> first | rfl | exact ih
    | cons m ms ih =>
      intro θ
      cases m with
      | update θ' => exact ih hb θ'
      | call c =>
        have hc := hb c (by simp [callsOf])
        have ih := ih (fun c h => hb c (by simp [callsOf, h]))
        cases c <;> first | exact ih θ | exact absurd (fun b h => by cases h) hc
  rw [(kfac_updates w s₀ hf hg _).1, h1, h2]

/-- C86 is violated by KFAC: after a call that computes, later calls ignore all changes of the parameters. -/
theorem kfac_updates_stale (w : KWorld Θ B G) (s₀ : KState Θ) (hf : s₀.IsFresh) (hg : w.Good s₀.cfg) (c : KCall)
    (hc : c.Computes) (ms : List (KMove Θ)) :
    (moveRun w (.call c :: ms) s₀).1 = (c :: callsOf ms).map (fun c => (kStep w s₀ none c).1) := by
  have := (kfac_updates w s₀ hf hg (.call c :: ms)).1
  rw [this]
  have hfm : firstModel s₀.model (.call c :: ms) = s₀.model := by
    cases c <;> first | rfl | exact absurd rfl (hc _)
  rw [hfm]
  rfl

/-! ## Hutch++ -/

section Hutch

variable {α W : Type}

/-- C86 for Hutch++ when the matrix of the operator changes from `M` to `M'` after the basis has been cached: the samples
are those of an estimator of `M'` with the same basis, plus a constant, the change of the trace in the span of the basis. -/
theorem hutchpp_changed [CommRing α] {n k : Nat} (E : Ext α W) (M M' : Matrix (Fin n) (Fin n) α) (hM : Multiplies E M')
    (s : HutchPP α) (q : Fin k → Fin n → α) (hs : s.Ready M q) (d : DistArg) (w : W) (v : Fin n → α)
    (hv : (randomVector E n d w).1 = .ok (List.ofFn v)) :
    ∃ x, (s.sample E d w).1 = .ok (x + ∑ i, q i ⬝ᵥ ((M - M') *ᵥ q i)) ∧
      ({ s with tr := some (∑ i, q i ⬝ᵥ (M' *ᵥ q i)) }.sample E d w).1 = .ok x := by
  obtain ⟨hdim, hq, hQ, ht⟩ := hs
  have h' : HutchPP.Ready { s with tr := some (∑ i, q i ⬝ᵥ (M' *ᵥ q i)) } M' q := ⟨hdim, hq, hQ, rfl⟩
  refine ⟨_, ?_, hutchpp_sample_eq E M' hM _ q h' d w v hv⟩
  have hc := hutchpp_cached E s _ _ hQ ht d w
  rcases hr : randomVector E n d w with ⟨r, w'⟩
  rw [hr] at hv
  simp only at hv
  subst hv
  simp only [HutchPP.sample, hc.1, hdim, hr, hQ, ht, projectOut_ofFn]
  have hm := hM (complement q *ᵥ v) w'
  rcases hmul : E.mul (List.ofFn (complement q *ᵥ v)) w' with ⟨r, w''⟩
  rw [hmul] at hm
  simp only at hm
  subst hm
  simp only
  congr 1
  rw [npDot_ofFn, quad_complement hq]
  have : ∑ i, q i ⬝ᵥ ((M - M') *ᵥ q i) = ∑ i, q i ⬝ᵥ (M *ᵥ q i) - ∑ i, q i ⬝ᵥ (M' *ᵥ q i) := by
    rw [← Finset.sum_sub_distrib]
    exact Finset.sum_congr rfl fun i _ => by rw [Matrix.sub_mulVec, dotProduct_sub]
  rw [this]
  ring

/-- C86 is violated by Hutch++: after the change, the mean of the samples with Rademacher vectors is the trace of the new
matrix plus the change in the span of the basis. -/
theorem hutchpp_changed_rademacher [Field α] [CharZero α] {n k : Nat} (E : Ext α W) (M M' : Matrix (Fin n) (Fin n) α)
    (hM : Multiplies E M') (s : HutchPP α) (q : Fin k → Fin n → α) (hs : s.Ready M q)
    (w : (Fin n → Bool) → W) (hw : DrawsBits E w) :
    ∃ F : (Fin n → Bool) → α, (∀ b, (s.sample E (.str "rademacher") (w b)).1 = .ok (F b)) ∧
      signMean F = M'.trace + ∑ i, q i ⬝ᵥ ((M - M') *ᵥ q i) := by
  have h := fun b => hutchpp_changed E M M' hM s q hs _ _ _ (rademacher_ofFn E b _ (hw b))
  choose F h1 h2 using h
  obtain ⟨F', g1, g2⟩ := hutchpp_rademacher E M' hM { s with tr := some (∑ i, q i ⬝ᵥ (M' *ᵥ q i)) } q
    ⟨hs.1, hs.2.1, hs.2.2.1, rfl⟩ w hw
  have hF : F = F' := by
    funext b
    have := (h2 b).symm.trans (g1 b)
    exact Except.ok.inj this
  refine ⟨_, h1, ?_⟩
  rw [signMean_add, signMean_const, ← g2, hF]

/-- The same for normal vectors. -/
theorem hutchpp_changed_normal {n k : Nat} (E : Ext ℝ W) (M M' : Matrix (Fin n) (Fin n) ℝ)
    (hM : Multiplies E M') (s : HutchPP ℝ) (q : Fin k → Fin n → ℝ) (hs : s.Ready M q)
    (w : (Fin n → ℝ) → W) (hw : DrawsNormal E w) :
    ∃ F : (Fin n → ℝ) → ℝ, (∀ v, (s.sample E (.str "normal") (w v)).1 = .ok (F v)) ∧
      Integrable F (stdNormal n) ∧ ∫ v, F v ∂stdNormal n = M'.trace + ∑ i, q i ⬝ᵥ ((M - M') *ᵥ q i) := by
  have h := fun v => hutchpp_changed E M M' hM s q hs _ _ _ (normal_ofFn E v _ (hw v))
  choose F h1 h2 using h
  obtain ⟨F', g1, g2, g3⟩ := hutchpp_normal E M' hM { s with tr := some (∑ i, q i ⬝ᵥ (M' *ᵥ q i)) } q
    ⟨hs.1, hs.2.1, hs.2.2.1, rfl⟩ w hw
  have hF : F = F' := by
    funext v
    exact Except.ok.inj ((h2 v).symm.trans (g1 v))
  subst hF
  refine ⟨_, h1, g2.add (integrable_const _), ?_⟩
  rw [integral_add g2 (integrable_const _), g3]
  simp

end Hutch

/-! ## Cached spectra -/

/-- C86 is violated by the cached spectra: when the operator has changed (now the iterations come from `src'`), a request
for at most as many repetitions as are cached returns the density of the former operator, and every larger request
averages over the former iterations and new ones. -/
theorem cachedSpectrum_changed (src src' : LanczosSource) (f : LanczosIter → Py (List ℝ × List ℝ)) (st : SpectrumCache)
    (n : Nat) :
    (n ≤ st.iters.length → cachedSpectrum src' f st n = cachedSpectrum src f st n) ∧
    (st.iters.length ≤ n → ∀ l, (getLanczosIters src' st n).1 = .ok l → ∃ new, l = st.iters ++ new ∧
      new.length = n - st.iters.length ∧ ∀ i (hi : i < new.length), src' (st.calls + i) = .ok new[i]) := by
  constructor
  · intro h
    have hm : ((n : Int) - st.iters.length).toNat = 0 := by omega
    unfold cachedSpectrum getLanczosIters
    rw [hm]
    rfl
  · intro h l hl
    obtain ⟨new, h1, h2, h3⟩ := getLanczosIters_spec src' st n
    rw [hl] at h3
    rcases h3 with ⟨a, b, c, -⟩ | ⟨e, a, -⟩
    · refine ⟨new, ?_, c, h2⟩
      rw [Except.ok.inj a, List.take_of_length_le]
      simp
      omega
    · cases a

/-! ## Examples and counterexamples -/

/-- As `unitWorld`, but inputs and gradients are the model. -/
def modelWorld : KWorld (List KDatum) Unit Unit :=
  ⟨[⟨"lin", [("weight", 0)], 1, 1, 1⟩], [(), ()], fun _ => (), fun θ _ g _ => (θ, g)⟩

/-- A datum with gradient `0`. -/
def flatDatum : KDatum := ⟨fun _ _ _ => 1, fun _ _ _ _ _ => 0, fun _ _ _ => 0, fun _ _ _ => 0⟩

/-- A new operator. -/
def modelState (θ : List KDatum) : KState (List KDatum) := KState.fresh θ stateCfg 0 (1, 1) false

theorem modelState_fresh (θ : List KDatum) : (modelState θ).IsFresh := ⟨rfl, rfl, rfl, rfl, rfl, rfl, rfl, rfl⟩

theorem modelWorld_good : modelWorld.Good stateCfg :=
  ⟨by simp [modelWorld], by simp [modelWorld], by simp [modelWorld], by simp [stateCfg], by simp [stateCfg], by simp [stateCfg]⟩

theorem flat_gradCov : gradCovariance stateCfg ⟨"lin", [("weight", 0)], 1, 1, 1⟩ [flatDatum] 0 = ⟨1, fun _ _ => 0⟩ := by
  refine congrArg (Factor.mk 1) ?_
  funext i j
  simp [gram, gradRows, stateCfg, outputGrad, cotangent, correction, flatDatum]

theorem flat_inputCov : inputCovariance stateCfg ⟨"lin", [("weight", 0)], 1, 1, 1⟩ [flatDatum] = ⟨1, fun _ _ => 1 / 2⟩ := by
  refine congrArg (Factor.mk 1) ?_
  funext i j
  simp [gram, inputRows, stateCfg, KLayer.joint, Dict.has, flatDatum]

/-- The traces of KFAC at the two models. -/
theorem model_traces : (kStep modelWorld (modelState [unitDatum]) none .trace).1 = .ok (.number 2) ∧
    (kStep modelWorld (modelState [flatDatum]) none .trace).1 = .ok (.number 0) := by
  have hb : ∀ (θ : List KDatum) (x : ℝ), inputCovariance stateCfg ⟨"lin", [("weight", 0)], 1, 1, 1⟩ θ = ⟨1, fun _ _ => 1 / 2⟩ →
      gradCovariance stateCfg ⟨"lin", [("weight", 0)], 1, 1, 1⟩ θ 0 = ⟨1, fun _ _ => x⟩ →
      modelWorld.events θ stateCfg 1 () =
      [KEvent.input "lin" ⟨1, fun _ _ => 1 / 2⟩, KEvent.grad "lin" ⟨1, fun _ _ => x⟩,
       KEvent.input "lin" ⟨1, fun _ _ => 1 / 2⟩, KEvent.grad "lin" ⟨1, fun _ _ => x⟩] := by
    intro θ x h1 h2
    have h3 : batchEvents stateCfg modelWorld.layers θ =
      [.input "lin" (inputCovariance stateCfg ⟨"lin", [("weight", 0)], 1, 1, 1⟩ θ),
        .grad "lin" (gradCovariance stateCfg ⟨"lin", [("weight", 0)], 1, 1, 1⟩ θ 0)] := rfl
    have : modelWorld.batches θ stateCfg () modelWorld.data = [θ, θ] := rfl
    unfold KWorld.events
    rw [this]
    simp only [List.flatMap_cons, List.flatMap_nil, List.append_nil, h3, h1, h2]
    rfl
  have hm : modelWorld.mapping = [("lin", [("weight", 0)])] := rfl
  have hsep : stateCfg.sep = true := rfl
  constructor
  · have := hb _ _ unit_inputCov unit_gradCov
    simp [kStep, wrap, KState.readTrace, readProperty, ensureKfac, computeKfac, modelState, KState.fresh,
      KState.reset, this, applyEvent, addCov, Dict.get, Dict.set, KState.traceLoop, accPartial, Dict.getE,
      accPartial.paramsLoop, hm, hsep, Factor.trace, matTrace]
    norm_num
  · have := hb _ _ flat_inputCov flat_gradCov
    simp [kStep, wrap, KState.readTrace, readProperty, ensureKfac, computeKfac, modelState, KState.fresh,
      KState.reset, this, applyEvent, addCov, Dict.get, Dict.set, KState.traceLoop, accPartial, Dict.getE,
      accPartial.paramsLoop, hm, hsep, Factor.trace, matTrace]

/-- C86 is violated: the trace is read, the parameters change, and the trace is read again: it remains 2, although that of
a new operator is 0. If the trace is not read before the change, it is 0. -/
theorem kfac_updates_witness :
    (moveRun modelWorld [.call .trace, .update [flatDatum], .call .trace] (modelState [unitDatum])).1 =
      [.ok (.number 2), .ok (.number 2)] ∧
    (moveRun modelWorld [.call (.userForward [unitDatum]), .update [flatDatum], .call .trace, .call .trace]
      (modelState [unitDatum])).1 = [.ok .none, .ok (.number 0), .ok (.number 0)] ∧
    (kStep modelWorld (modelState [flatDatum]) none .trace).1 = .ok (.number 0) := by
  obtain ⟨t1, t2⟩ := model_traces
  refine ⟨?_, ?_, t2⟩
  · rw [kfac_updates_stale modelWorld _ (modelState_fresh _) modelWorld_good .trace (fun b h => by cases h)]
    simp [callsOf, t1]
  · have := kfac_present_partial modelWorld (modelState [unitDatum]) (modelState_fresh _) modelWorld_good
      [.call (.userForward [unitDatum]), .update [flatDatum]] [.trace, .trace]
      (by intro c hc; obtain rfl : c = .userForward [unitDatum] := by simpa [callsOf] using hc
          exact fun h => h _ rfl)
    simp only [List.map_cons, List.map_nil, List.cons_append, List.nil_append, callsOf] at this
    rw [this]
    show [.ok .none, (kStep modelWorld (modelState [flatDatum]) none .trace).1,
      (kStep modelWorld (modelState [flatDatum]) none .trace).1] = _
    rw [t2]

/-- Hutch++ with the basis `e₁` for the identity, after the operator has become zero: the mean of the samples is 1 instead
of 0. -/
theorem hutchpp_changed_witness :
    ∃ F : (Fin 2 → Bool) → ℚ, (∀ b, ((⟨2, 1, .str "rademacher", some [[1, 0]], some 1⟩ : HutchPP ℚ).sample
        (streamExt (0 : Matrix (Fin 2) (Fin 2) ℚ)) (.str "rademacher")
        (fun i => if h : i < 2 then b ⟨i, h⟩ else false)).1 = .ok (F b)) ∧ signMean F = 1 ∧
      (0 : Matrix (Fin 2) (Fin 2) ℚ).trace = 0 := by
  let q : Fin 1 → Fin 2 → ℚ := fun _ => ![1, 0]
  have hr : (⟨2, 1, .str "rademacher", some [[1, 0]], some 1⟩ : HutchPP ℚ).Ready (1 : Matrix (Fin 2) (Fin 2) ℚ) q := by
    refine ⟨rfl, ?_, by simp [q], by simp [q]⟩
    intro i j
    simp [q, Subsingleton.elim i j]
  obtain ⟨F, h1, h2⟩ := hutchpp_changed_rademacher (streamExt (0 : Matrix (Fin 2) (Fin 2) ℚ)) 1 0
    (streamExt_multiplies _) _ q hr _ (streamExt_bits _)
  refine ⟨F, h1, ?_, by simp⟩
  rw [h2]
  simp [q]

/-- Two cached iterations; the new operator's iterations have no Ritz values. -/
example (a b : LanczosIter) : (getLanczosIters (fun _ => .ok ⟨0, fun _ => 0, fun _ _ => 0⟩) ⟨[a, b], 2⟩ (3 : Nat)).1 =
    .ok [a, b, ⟨0, fun _ => 0, fun _ _ => 0⟩] := by
  have h : ∃ l, (getLanczosIters (fun _ => .ok ⟨0, fun _ => 0, fun _ _ => 0⟩) ⟨[a, b], 2⟩ (3 : Nat)).1 = .ok l := by
    exact ⟨_, rfl⟩
  obtain ⟨l, hl⟩ := h
  obtain ⟨new, h1, h2, h3⟩ := (cachedSpectrum_changed (fun _ => .ok a) _ (fun _ => .ok ([], [])) ⟨[a, b], 2⟩ 3).2 (by simp) l hl
  rw [hl, h1]
  match new, h2, h3 with
  | [x], _, h3 =>
    have := h3 0 (by simp)
    simp only [List.getElem_cons_zero] at this
    rw [← Except.ok.inj this]
    rfl

end Curvlinops
