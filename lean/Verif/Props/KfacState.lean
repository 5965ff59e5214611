import Verif.Model.KfacState
import Verif.Props.KfacFactors

/-!
# C32, C33: caching and interruptions of KFAC
-/

namespace Curvlinops

variable {Θ B G : Type}

/-! ## The loops of the properties -/

theorem accPartial_eq {γ : Type _} (sep : Bool) (inCov gradCov : Dict (Factor ℝ))
    (joint weight : Factor ℝ → Factor ℝ → γ → γ) (other : Factor ℝ → γ → γ) (mapping : Dict (Dict Nat)) (acc : γ) :
    accLoop sep inCov gradCov joint weight other mapping acc =
      match accPartial sep inCov gradCov joint weight other mapping acc with
      | (v, none) => .ok v
      | (_, some e) => .error e := by
  have hp : ∀ name B ps acc, accLoop.paramsLoop inCov weight other name B ps acc =
      match accPartial.paramsLoop inCov weight other name B ps acc with
      | (v, none) => .ok v
      | (_, some e) => .error e := by
    intro name B ps
    induction ps with
    | nil => intro acc; rfl
    | cons p ps ih =>
      intro acc
      obtain ⟨p, n⟩ := p
      simp only [accLoop.paramsLoop, accPartial.paramsLoop]
      split
      · cases inCov.getE name with
        | error e => rfl
        | ok A => exact ih _
      · exact ih _
  induction mapping generalizing acc with
  | nil => rfl
  | cons e rest ih =>
    obtain ⟨name, pos⟩ := e
    simp only [accLoop, accPartial]
    cases gradCov.getE name with
    | error e => rfl
    | ok B =>
      simp only
      split
      · cases inCov.getE name with
        | error e => rfl
        | ok A => exact ih _
      · rw [hp]
        rcases accPartial.paramsLoop inCov weight other name B pos acc with ⟨v, _ | e⟩
        · exact ih _
        · rfl

/-- If the factors of all layers are there, the loops do not raise. -/
theorem accPartial_complete {γ : Type _} (sep : Bool) (inCov gradCov : Dict (Factor ℝ))
    (joint weight : Factor ℝ → Factor ℝ → γ → γ) (other : Factor ℝ → γ → γ) (layers : List KLayer)
    (hg : ∀ l ∈ layers, ∃ B, gradCov.get l.name = some B)
    (hi : ∀ l ∈ layers, l.pos.has "weight" = true → ∃ A, inCov.get l.name = some A) (acc : γ) :
    (accPartial sep inCov gradCov joint weight other (layers.map fun l => (l.name, l.pos)) acc).2 = none := by
  induction layers generalizing acc with
  | nil => rfl
  | cons l ls ih =>
    have ih := ih (fun l hl => hg l (by simp [hl])) (fun l hl => hi l (by simp [hl]))
    obtain ⟨B, hB⟩ := hg l (by simp)
    have hl := hi l (by simp)
    simp only [List.map_cons, accPartial, Dict.getE, hB]
    split
    · rename_i h
      simp only [Bool.and_eq_true] at h
      obtain ⟨A, hA⟩ := hl h.1.2
      simp only [hA]
      exact ih _
    · have hps : ∀ (ps : Dict Nat), (∀ e ∈ ps, e ∈ l.pos) → ∀ acc,
          (accPartial.paramsLoop inCov weight other l.name B ps acc).2 = none := by
        intro ps
        induction ps with
        | nil => intro _ _; rfl
        | cons p ps ihp =>
          intro hmem acc
          obtain ⟨p, n⟩ := p
          have ihp := ihp fun e he => hmem e (by simp [he])
          simp only [accPartial.paramsLoop, Dict.getE]
          split
          · rename_i hw
            subst hw
            obtain ⟨A, hA⟩ := hl (by
              simp only [Dict.has, List.any_eq_true]
              exact ⟨_, hmem ("weight", n) (by simp), by simp⟩)
            simp only [hA]
            exact ihp _
          · exact ihp _
      have := hps l.pos (fun _ h => h) acc
      rcases h : accPartial.paramsLoop inCov weight other l.name B l.pos acc with ⟨v, _ | e⟩
      · simp only
        exact ih v
      · rw [h] at this
        cases this

/-! ## The factors -/

/-- C32: computing the factors (again) forgets the properties that were computed from earlier factors: whatever values were
cached before, outcome and state afterwards are the same as without cached values. -/
theorem computeKfac_forgets_properties (w : KWorld Θ B G) (fault : Fault) (s : KState Θ) (t d f : Option ℝ)
    (l : Option FLog) :
    computeKfac w fault { s with trace := t, det := d, logdet := l, frob := f } =
      computeKfac w fault { s with trace := none, det := none, logdet := none, frob := none } := by
  rcases fault with _ | ⟨k, e⟩ <;> rfl

/-- The factors that an uninterrupted computation from a new operator yields. -/
noncomputable def KWorld.factors (w : KWorld Θ B G) (s : KState Θ) : Dict (Factor ℝ) × Dict (Factor ℝ) :=
  kfacFactors s.cfg w.layers (w.batches s.model s.cfg (w.seeded s.seed) w.data)

theorem events_one (w : KWorld Θ B G) (s : KState Θ) :
    (w.events s.model s.cfg 1 (w.seeded s.seed)).foldl applyEvent ([], []) = w.factors s := by
  unfold KWorld.factors kfacFactors KWorld.events
  rw [foldl_batches]
  congr 1
  refine List.flatMap_congr fun b _ => ?_
  induction batchEvents s.cfg w.layers b with
  | nil => rfl
  | cons e es ih => simp

theorem batches_ne_nil (w : KWorld Θ B G) (θ : Θ) (cfg : KfacCfg) (g : G) (h : w.data ≠ []) :
    w.batches θ cfg g w.data ≠ [] := by
  cases hd : w.data with
  | nil => exact absurd hd h
  | cons b bs => simp [KWorld.batches]

/-- A usable operator: named layers, data, and sensible settings. -/
structure KWorld.Good (w : KWorld Θ B G) (cfg : KfacCfg) : Prop where
  names : (w.layers.map KLayer.name).Nodup
  layers : w.layers ≠ []
  data : w.data ≠ []
  T : cfg.T ≠ 0
  C : cfg.C ≠ 0
  mc : cfg.mcSamples ≠ 0

theorem factors_complete (w : KWorld Θ B G) (s : KState Θ) (h : w.Good s.cfg) :
    (∀ l ∈ w.layers, ∃ B, (w.factors s).2.get l.name = some B) ∧
    (∀ l ∈ w.layers, l.pos.has "weight" = true → ∃ A, (w.factors s).1.get l.name = some A) := by
  have hb := batches_ne_nil w s.model s.cfg (w.seeded s.seed) h.data
  exact ⟨fun l hl => ⟨_, kfac_grad_factor s.cfg w.layers h.names _ hb h.T h.C h.mc l hl⟩,
    fun l hl hw => ⟨_, kfac_input_factor s.cfg w.layers h.names _ hb l hl hw⟩⟩

theorem factors_nonempty (w : KWorld Θ B G) (s : KState Θ) (h : w.Good s.cfg) : (w.factors s).2.isEmpty = false := by
  obtain ⟨l, hl⟩ := List.exists_mem_of_ne_nil _ h.layers
  obtain ⟨B, hB⟩ := (factors_complete w s h).1 l hl
  cases hd : (w.factors s).2 with
  | nil => rw [hd] at hB; cases hB
  | cons => rfl

/-! ## C32 -/

/-- The state after an uninterrupted computation. -/
noncomputable def KState.computed (w : KWorld Θ B G) (s : KState Θ) : KState Θ :=
  { s with inCov := (w.factors s).1, gradCov := (w.factors s).2, traversals := 1 }

/-- The operator is new. -/
structure KState.IsFresh (s : KState Θ) : Prop where
  inCov : s.inCov = []
  gradCov : s.gradCov = []
  trace : s.trace = none
  det : s.det = none
  logdet : s.logdet = none
  frob : s.frob = none
  hooks : s.hooks = 0
  traversals : s.traversals = 0

theorem computeKfac_fresh (w : KWorld Θ B G) (s : KState Θ) (h : s.IsFresh) :
    computeKfac w none s = (.ok (), s.computed w) := by
  have e := events_one w s
  obtain ⟨model, cfg, seed, shape, progressbar, inCov, gradCov, trace, det, logdet, frob, hooks, traversals⟩ := s
  obtain ⟨h1, h2, h3, h4, h5, h6, h7, h8⟩ := h
  simp only at h1 h2 h3 h4 h5 h6 h7 h8
  subst h1 h2 h3 h4 h5 h6 h7 h8
  simp only [computeKfac, KState.reset, KState.computed, Nat.zero_add, Nat.sub_self]
  simp only at e
  rw [e]

theorem ensureKfac_fresh (w : KWorld Θ B G) (s : KState Θ) (h : s.IsFresh) :
    ensureKfac w none s = (.ok (), s.computed w) := by
  unfold ensureKfac
  rw [h.inCov, h.gradCov]
  simpa using computeKfac_fresh w s h

/-- The states that uninterrupted calls reach from a new operator `s₀`. -/
structure Settled (w : KWorld Θ B G) (s₀ s : KState Θ) : Prop where
  model : s.model = s₀.model
  cfg : s.cfg = s₀.cfg
  seed : s.seed = s₀.seed
  inCov : s.inCov = (w.factors s₀).1
  gradCov : s.gradCov = (w.factors s₀).2
  hooks : s.hooks = 0
  traversals : s.traversals = 1
  trace : s.trace = none ∨ s.trace = some (KState.traceLoop w (s₀.computed w)).1
  det : s.det = none ∨ s.det = some (KState.detLoop w (s₀.computed w)).1
  logdet : s.logdet = none ∨ s.logdet = some (KState.logdetLoop w (s₀.computed w)).1
  frob : s.frob = none ∨ s.frob = some (KState.frobLoop w (s₀.computed w)).1

theorem Settled.computed (w : KWorld Θ B G) (s₀ : KState Θ) (h : s₀.IsFresh) : Settled w s₀ (s₀.computed w) where
  model := rfl
  cfg := rfl
  seed := rfl
  inCov := rfl
  gradCov := rfl
  hooks := h.hooks
  traversals := rfl
  trace := Or.inl h.trace
  det := Or.inl h.det
  logdet := Or.inl h.logdet
  frob := Or.inl h.frob

theorem Settled.ensure {w : KWorld Θ B G} {s₀ s : KState Θ} (hg : w.Good s₀.cfg) (h : Settled w s₀ s) (f : Fault) :
    ensureKfac w f s = (.ok (), s) := by
  unfold ensureKfac
  rw [h.gradCov, factors_nonempty w s₀ hg]
  simp

theorem loops_complete (w : KWorld Θ B G) (s₀ : KState Θ) (hg : w.Good s₀.cfg) :
    (KState.traceLoop w (s₀.computed w)).2 = none ∧ (KState.detLoop w (s₀.computed w)).2 = none ∧
    (KState.logdetLoop w (s₀.computed w)).2 = none ∧ (KState.frobLoop w (s₀.computed w)).2 = none := by
  obtain ⟨h1, h2⟩ := factors_complete w s₀ hg
  refine ⟨accPartial_complete _ _ _ _ _ _ _ h1 h2 _, accPartial_complete _ _ _ _ _ _ _ h1 h2 _,
    accPartial_complete _ _ _ _ _ _ _ h1 h2 _, ?_⟩
  have h3 := accPartial_complete s₀.cfg.sep _ _ (fun A B acc => acc + A.squares * B.squares)
    (fun A B acc => acc + B.squares * A.squares) (fun B acc => acc + B.squares * 1) w.layers h1 h2 (0 : ℝ)
  have hm : w.mapping.isEmpty = false := by
    unfold KWorld.mapping
    cases hl : w.layers with
    | nil => exact absurd hl hg.layers
    | cons => rfl
  unfold KState.frobLoop
  rw [hm]
  have h3' : (accPartial (s₀.computed w).cfg.sep (s₀.computed w).inCov (s₀.computed w).gradCov
    (fun A B acc => acc + A.squares * B.squares)
    (fun A B acc => acc + B.squares * A.squares) (fun B acc => acc + B.squares * 1) w.mapping (0 : ℝ)).2 = none := h3
  rcases h : accPartial (s₀.computed w).cfg.sep (s₀.computed w).inCov (s₀.computed w).gradCov
    (fun A B acc => acc + A.squares * B.squares)
    (fun A B acc => acc + B.squares * A.squares) (fun B acc => acc + B.squares * 1) w.mapping (0 : ℝ) with ⟨v, _ | e⟩
  · rfl
  · rw [h] at h3'
    cases h3'

/-- Reading a property in a settled state. -/
theorem readProperty_settled {γ : Type _} {w : KWorld Θ B G} {s₀ s : KState Θ} (hf : s₀.IsFresh) (hg : w.Good s₀.cfg)
    (h : Settled w s₀ s) (get : KState Θ → Option γ) (set : KState Θ → γ → KState Θ) (loop : KState Θ → γ × Option PyErr)
    (h0 : get s₀ = none) (hc : (loop (s₀.computed w)).2 = none) (hloop : loop s = loop (s₀.computed w))
    (hget : get s = none ∨ get s = some (loop (s₀.computed w)).1) (f : Fault) :
    (readProperty w get set loop f s).1 = (readProperty w get set loop none s₀).1 ∧
    ((readProperty w get set loop f s).2 = s ∨ (readProperty w get set loop f s).2 = set s (loop (s₀.computed w)).1) ∧
    (readProperty w get set loop none s₀).2 = set (s₀.computed w) (loop (s₀.computed w)).1 := by
  have e0 : readProperty w get set loop none s₀ = (.ok (loop (s₀.computed w)).1,
      set (s₀.computed w) (loop (s₀.computed w)).1) := by
    unfold readProperty
    rw [h0]
    simp only [ensureKfac_fresh w s₀ hf]
    rcases hl : loop (s₀.computed w) with ⟨v, _ | e⟩
    · rfl
    · rw [hl] at hc
      cases hc
  rw [e0]
  unfold readProperty
  rcases hget with hget | hget
  · rw [hget]
    simp only [h.ensure hg, hloop]
    rcases hl : loop (s₀.computed w) with ⟨v, _ | e⟩
    · simp
    · rw [hl] at hc
      cases hc
  · rw [hget]
    exact ⟨rfl, Or.inl rfl, rfl⟩

theorem userForward_none (w : KWorld Θ B G) (batch : List KDatum) (s : KState Θ) (h : s.hooks = 0) :
    userForward w batch s = s := by
  have e : (((w.layers.filter fun l => l.pos.has "weight").map fun l =>
      KEvent.input l.name (inputCovariance s.cfg l batch)).flatMap fun e => List.replicate s.hooks e) = [] := by
    rw [h]
    simp
  unfold userForward
  rw [e]
  rfl

/-- One call from a new or settled operator: the value is that on a new operator. -/
theorem kStep_settled {w : KWorld Θ B G} {s₀ s : KState Θ} (hf : s₀.IsFresh) (hg : w.Good s₀.cfg)
    (h : s = s₀ ∨ Settled w s₀ s) (c : KCall) :
    (kStep w s none c).1 = (kStep w s₀ none c).1 ∧
    ((kStep w s none c).2 = s₀ ∨ Settled w s₀ (kStep w s none c).2) := by
  obtain ⟨c1, c2, c3, c4⟩ := loops_complete w s₀ hg
  have hS := Settled.computed w s₀ hf
  rcases h with rfl | h
  · refine ⟨rfl, ?_⟩
    cases c with
    | matmat M =>
      refine Or.inr ?_
      simp only [kStep, wrap, KState.matmat, ensureKfac_fresh w s hf]
      exact hS
    | trace =>
      refine Or.inr ?_
      simp only [kStep, wrap, KState.readTrace]
      rw [(readProperty_settled hf hg hS KState.trace _ (KState.traceLoop w) hf.trace c1 rfl (Or.inl hf.trace) none).2.2]
      exact { hS with trace := Or.inr rfl }
    | det =>
      refine Or.inr ?_
      simp only [kStep, wrap, KState.readDet]
      rw [(readProperty_settled hf hg hS KState.det _ (KState.detLoop w) hf.det c2 rfl (Or.inl hf.det) none).2.2]
      exact { hS with det := Or.inr rfl }
    | logdet =>
      refine Or.inr ?_
      simp only [kStep, wrap, KState.readLogdet]
      rw [(readProperty_settled hf hg hS KState.logdet _ (KState.logdetLoop w) hf.logdet c3 rfl (Or.inl hf.logdet)
        none).2.2]
      exact { hS with logdet := Or.inr rfl }
    | frobenius =>
      refine Or.inr ?_
      simp only [kStep, wrap, KState.readFrob]
      rw [(readProperty_settled hf hg hS KState.frob _ (KState.frobLoop w) hf.frob c4 rfl (Or.inl hf.frob) none).2.2]
      exact { hS with frob := Or.inr rfl }
    | userForward b =>
      exact Or.inl (userForward_none w b s hf.hooks)
  · cases c with
    | matmat M =>
      simp only [kStep, wrap, KState.matmat, ensureKfac_fresh w s₀ hf, h.ensure hg]
      refine ⟨?_, Or.inr h⟩
      rw [h.cfg, h.inCov, h.gradCov]
      rfl
    | trace =>
      have hl : KState.traceLoop w s = KState.traceLoop w (s₀.computed w) := by
        unfold KState.traceLoop; rw [h.cfg, h.inCov, h.gradCov]; rfl
      obtain ⟨e1, e2, -⟩ := readProperty_settled hf hg h KState.trace (fun s v => { s with trace := some v }) _
        hf.trace c1 hl h.trace none
      simp only [kStep, wrap, KState.readTrace]
      refine ⟨by rw [e1], Or.inr ?_⟩
      rcases e2 with e2 | e2 <;> rw [e2]
      · exact h
      · exact { h with trace := Or.inr rfl }
    | det =>
      have hl : KState.detLoop w s = KState.detLoop w (s₀.computed w) := by
        unfold KState.detLoop; rw [h.cfg, h.inCov, h.gradCov]; rfl
      obtain ⟨e1, e2, -⟩ := readProperty_settled hf hg h KState.det (fun s v => { s with det := some v }) _
        hf.det c2 hl h.det none
      simp only [kStep, wrap, KState.readDet]
      refine ⟨by rw [e1], Or.inr ?_⟩
      rcases e2 with e2 | e2 <;> rw [e2]
      · exact h
      · exact { h with det := Or.inr rfl }
    | logdet =>
      have hl : KState.logdetLoop w s = KState.logdetLoop w (s₀.computed w) := by
        unfold KState.logdetLoop; rw [h.cfg, h.inCov, h.gradCov]; rfl
      obtain ⟨e1, e2, -⟩ := readProperty_settled hf hg h KState.logdet (fun s v => { s with logdet := some v }) _
        hf.logdet c3 hl h.logdet none
      simp only [kStep, wrap, KState.readLogdet]
      refine ⟨by rw [e1], Or.inr ?_⟩
      rcases e2 with e2 | e2 <;> rw [e2]
      · exact h
      · exact { h with logdet := Or.inr rfl }
    | frobenius =>
      have hl : KState.frobLoop w s = KState.frobLoop w (s₀.computed w) := by
        unfold KState.frobLoop; rw [h.cfg, h.inCov, h.gradCov]; rfl
      obtain ⟨e1, e2, -⟩ := readProperty_settled hf hg h KState.frob (fun s v => { s with frob := some v }) _
        hf.frob c4 hl h.frob none
      simp only [kStep, wrap, KState.readFrob]
      refine ⟨by rw [e1], Or.inr ?_⟩
      rcases e2 with e2 | e2 <;> rw [e2]
      · exact h
      · exact { h with frob := Or.inr rfl }
    | userForward b =>
      refine ⟨rfl, Or.inr ?_⟩
      show Settled w s₀ (userForward w b s)
      rw [userForward_none w b s h.hooks]
      exact h

/-- C32: in every sequence of products, property reads and uses of the model, without interruptions, each call returns
what it returns as first call on a new operator; the data are traversed at most once, no hooks remain. -/
theorem kfac_history (w : KWorld Θ B G) (s₀ : KState Θ) (hf : s₀.IsFresh) (hg : w.Good s₀.cfg) (calls : List KCall) :
    (kRun w s₀ (calls.map fun c => (c, none))).1 = calls.map (fun c => (kStep w s₀ none c).1) ∧
    (kRun w s₀ (calls.map fun c => (c, none))).2.traversals ≤ 1 ∧
    (kRun w s₀ (calls.map fun c => (c, none))).2.hooks = 0 := by
  suffices ∀ s, (s = s₀ ∨ Settled w s₀ s) →
      (kRun w s (calls.map fun c => (c, none))).1 = calls.map (fun c => (kStep w s₀ none c).1) ∧
      ((kRun w s (calls.map fun c => (c, none))).2 = s₀ ∨ Settled w s₀ (kRun w s (calls.map fun c => (c, none))).2) by
    obtain ⟨h1, h2⟩ := this s₀ (Or.inl rfl)
    refine ⟨h1, ?_⟩
    rcases h2 with h2 | h2
    · rw [h2, hf.traversals, hf.hooks]; exact ⟨by simp, rfl⟩
    · exact ⟨h2.traversals.le, h2.hooks⟩
  induction calls with
  | nil => exact fun s hs => ⟨rfl, hs⟩
  | cons c cs ih =>
    intro s hs
    obtain ⟨e1, e2⟩ := kStep_settled hf hg hs c
    obtain ⟨i1, i2⟩ := ih _ e2
    simp only [List.map_cons, kRun]
    exact ⟨by rw [i1, e1], i2⟩

/-! ## C33 -/

/-- C33, part: an interrupted first call raises the exception. (What is missing is that later calls recompute the
factors or raise, which is false: see `kfac_interrupted_used`.) -/
theorem kfac_interrupted_raises_partial (w : KWorld Θ B G) (s₀ : KState Θ) (hf : s₀.IsFresh) (k : Nat) (e : PyErr)
    (c : KCall) (hc : ∀ b, c ≠ .userForward b) : (kStep w s₀ (some (k, e)) c).1 = .error e := by
  have h : ∃ s, ensureKfac w (some (k, e)) s₀ = (.error e, s) := by
    unfold ensureKfac
    rw [hf.inCov, hf.gradCov]
    exact ⟨_, rfl⟩
  obtain ⟨s, hs⟩ := h
  cases c with
  | matmat M => simp only [kStep, wrap, KState.matmat, hs]
  | trace => simp only [kStep, wrap, KState.readTrace, readProperty, hf.trace, hs]
  | det => simp only [kStep, wrap, KState.readDet, readProperty, hf.det, hs]
  | logdet => simp only [kStep, wrap, KState.readLogdet, readProperty, hf.logdet, hs]
  | frobenius => simp only [kStep, wrap, KState.readFrob, readProperty, hf.frob, hs]
  | userForward b => exact absurd rfl (hc b)

theorem applyEvent_nonempty (es : List KEvent) (st : Dict (Factor ℝ) × Dict (Factor ℝ))
    (h : (st.1.isEmpty && st.2.isEmpty) = false) :
    ((es.foldl applyEvent st).1.isEmpty && (es.foldl applyEvent st).2.isEmpty) = false := by
  have hset : ∀ (d : Dict (Factor ℝ)) n f, (d.set n f).isEmpty = false := by
    intro d n f
    cases d with
    | nil => rfl
    | cons e d =>
      simp only [Dict.set]
      split <;> rfl
  have hadd : ∀ (d : Dict (Factor ℝ)) n f, (addCov d n f).isEmpty = false := by
    intro d n f
    unfold addCov
    split <;> exact hset _ _ _
  induction es generalizing st with
  | nil => exact h
  | cons e es ih =>
    refine ih _ ?_
    cases e <;> simp [applyEvent, hset, hadd]

/-- C33 is violated at every crash point: whatever the position of the exception, the hooks of the interrupted
computation remain on the model; and if at least one update had been made, the operator keeps the incomplete factors
for good: no later call computes them again, however many calls are made. -/
theorem kfac_interrupted_used (w : KWorld Θ B G) (s₀ : KState Θ) (hf : s₀.IsFresh) (k : Nat) (e : PyErr)
    (c : KCall) (hc : ∀ b, c ≠ .userForward b) :
    (kStep w s₀ (some (k, e)) c).2.hooks = 1 ∧
    (0 < k → w.events s₀.model s₀.cfg 1 (w.seeded s₀.seed) ≠ [] → ∀ calls : List KCall,
      (kRun w (kStep w s₀ (some (k, e)) c).2 (calls.map fun c => (c, none))).2.traversals = 1 ∧
      (kRun w (kStep w s₀ (some (k, e)) c).2 (calls.map fun c => (c, none))).2.hooks = 1) := by
  -- the state after the interruption
  let d := ((w.events s₀.model s₀.cfg 1 (w.seeded s₀.seed)).take k).foldl applyEvent ([], [])
  let s₁ : KState Θ := { s₀ with inCov := d.1, gradCov := d.2, hooks := 1, traversals := 1 }
  have hs : ensureKfac w (some (k, e)) s₀ = (.error e, s₁) := by
    obtain ⟨model, cfg, seed, shape, progressbar, inCov, gradCov, trace, det, logdet, frob, hooks, traversals⟩ := s₀
    obtain ⟨h1, h2, h3, h4, h5, h6, h7, h8⟩ := hf
    simp only at h1 h2 h3 h4 h5 h6 h7 h8
    subst h1 h2 h3 h4 h5 h6 h7 h8
    rfl
  have hstep : (kStep w s₀ (some (k, e)) c).2 = s₁ := by
    cases c with
    | matmat M => simp only [kStep, wrap, KState.matmat, hs]
    | trace => simp only [kStep, wrap, KState.readTrace, readProperty, hf.trace, hs]
    | det => simp only [kStep, wrap, KState.readDet, readProperty, hf.det, hs]
    | logdet => simp only [kStep, wrap, KState.readLogdet, readProperty, hf.logdet, hs]
    | frobenius => simp only [kStep, wrap, KState.readFrob, readProperty, hf.frob, hs]
    | userForward b => exact absurd rfl (hc b)
  rw [hstep]
  refine ⟨rfl, fun hk hev calls => ?_⟩
  have hne : (s₁.inCov.isEmpty && s₁.gradCov.isEmpty) = false := by
    show (d.1.isEmpty && d.2.isEmpty) = false
    cases hes : w.events s₀.model s₀.cfg 1 (w.seeded s₀.seed) with
    | nil => exact absurd hes hev
    | cons x xs =>
      simp only [d, hes]
      obtain ⟨k, rfl⟩ : ∃ k', k = k' + 1 := ⟨k - 1, by omega⟩
      rw [List.take_succ_cons, List.foldl_cons]
      refine applyEvent_nonempty _ _ ?_
      cases x <;> rfl
  suffices ∀ s : KState Θ, s.traversals = 1 → s.hooks = 1 → (s.inCov.isEmpty && s.gradCov.isEmpty) = false →
      (kRun w s (calls.map fun c => (c, none))).2.traversals = 1 ∧
      (kRun w s (calls.map fun c => (c, none))).2.hooks = 1 from this s₁ rfl rfl hne
  clear hne hstep hs
  induction calls with
  | nil => exact fun s h1 h2 _ => ⟨h1, h2⟩
  | cons c cs ih =>
    intro s h1 h2 h3
    have hens : ensureKfac w none s = (.ok (), s) := by
      unfold ensureKfac
      rw [h3]
      simp
    have hprop : ∀ {γ : Type} (get : KState Θ → Option γ) (set : KState Θ → γ → KState Θ) (loop : KState Θ → γ × Option PyErr),
        (readProperty w get set loop none s).2 = s ∨ ∃ v, (readProperty w get set loop none s).2 = set s v := by
      intro γ get set loop
      unfold readProperty
      rw [hens]
      cases get s with
      | some v => exact Or.inl rfl
      | none =>
        rcases hl : loop s with ⟨v, _ | e⟩
        · exact Or.inr ⟨v, by simp only [hl]⟩
        · exact Or.inr ⟨v, by simp only [hl]⟩
    simp only [List.map_cons, kRun]
    cases c with
    | matmat M =>
      simp only [kStep, wrap, KState.matmat, hens]
      exact ih s h1 h2 h3
    | trace =>
      rcases hprop KState.trace (fun s v => { s with trace := some v }) (KState.traceLoop w) with h | ⟨v, h⟩ <;>
      · simp only [kStep, wrap, KState.readTrace, h]
        exact ih _ h1 h2 h3
    | det =>
      rcases hprop KState.det (fun s v => { s with det := some v }) (KState.detLoop w) with h | ⟨v, h⟩ <;>
      · simp only [kStep, wrap, KState.readDet, h]
        exact ih _ h1 h2 h3
    | logdet =>
      rcases hprop KState.logdet (fun s v => { s with logdet := some v }) (KState.logdetLoop w) with h | ⟨v, h⟩ <;>
      · simp only [kStep, wrap, KState.readLogdet, h]
        exact ih _ h1 h2 h3
    | frobenius =>
      rcases hprop KState.frob (fun s v => { s with frob := some v }) (KState.frobLoop w) with h | ⟨v, h⟩ <;>
      · simp only [kStep, wrap, KState.readFrob, h]
        exact ih _ h1 h2 h3
    | userForward b =>
      exact ih (userForward w b s) h1 h2 (applyEvent_nonempty _ _ h3)

/-! ## Examples and counterexamples -/

/-- Settings: empirical Fisher, two data. -/
def stateCfg : KfacCfg :=
  { fisher := .empirical, approx := .expand, loss := .mse, mean := false, mcSamples := 1, N := 2, T := 1, C := 1, sep := true }

/-- A datum with input, Jacobian and gradient `1`. -/
def unitDatum : KDatum := ⟨fun _ _ _ => 1, fun _ _ _ _ _ => 1, fun _ _ _ => 1, fun _ _ _ => 1⟩

/-- One linear layer with one weight, two mini-batches of one datum. -/
def unitWorld : KWorld Unit (List KDatum) Unit :=
  ⟨[⟨"lin", [("weight", 0)], 1, 1, 1⟩], [[unitDatum], [unitDatum]], fun _ => (), fun _ _ g b => (b, g)⟩

/-- A new operator. -/
def unitState : KState Unit := KState.fresh () stateCfg 0 (1, 1) false

theorem unitState_fresh : unitState.IsFresh := ⟨rfl, rfl, rfl, rfl, rfl, rfl, rfl, rfl⟩

theorem unitWorld_good : unitWorld.Good stateCfg :=
  ⟨by simp [unitWorld], by simp [unitWorld], by simp [unitWorld], by simp [stateCfg], by simp [stateCfg], by simp [stateCfg]⟩

example (M : List (Tensor ℝ)) :
    (kRun unitWorld unitState ([KCall.trace, .matmat M, .trace, .det].map fun c => (c, none))).1 =
      [KCall.trace, .matmat M, .trace, .det].map (fun c => (kStep unitWorld unitState none c).1) :=
  (kfac_history unitWorld unitState unitState_fresh unitWorld_good _).1

/-- The updates of one mini-batch of the example. -/
theorem unitEvents : batchEvents stateCfg unitWorld.layers [unitDatum] =
    [.input "lin" (inputCovariance stateCfg ⟨"lin", [("weight", 0)], 1, 1, 1⟩ [unitDatum]),
      .grad "lin" (gradCovariance stateCfg ⟨"lin", [("weight", 0)], 1, 1, 1⟩ [unitDatum] 0)] := by
  rfl

theorem unit_inputCov : inputCovariance stateCfg ⟨"lin", [("weight", 0)], 1, 1, 1⟩ [unitDatum] = ⟨1, fun _ _ => 1 / 2⟩ := by
  refine congrArg (Factor.mk 1) ?_
  funext i j
  simp [gram, inputRows, stateCfg, KLayer.joint, Dict.has, unitDatum]

theorem unit_gradCov : gradCovariance stateCfg ⟨"lin", [("weight", 0)], 1, 1, 1⟩ [unitDatum] 0 = ⟨1, fun _ _ => 1⟩ := by
  refine congrArg (Factor.mk 1) ?_
  funext i j
  simp [gram, gradRows, stateCfg, outputGrad, cotangent, correction, unitDatum]

/-- C33 is violated: the trace of KFAC is 2. If the first read of the trace is interrupted after the first mini-batch,
the second read returns `1/2`, without an exception. If it is interrupted before the first mini-batch, the second read
returns `8`, since the hooks of both attempts accumulate. -/
theorem kfac_interrupted_witness (e : PyErr) :
    (kStep unitWorld unitState none .trace).1 = .ok (.number 2) ∧
    (kRun unitWorld unitState [(.trace, some (2, e)), (.trace, none)]).1 = [.error e, .ok (.number (1 / 2))] ∧
    (kRun unitWorld unitState [(.trace, some (0, e)), (.trace, none)]).1 = [.error e, .ok (.number 8)] := by
  have hb : ∀ h, unitWorld.events () stateCfg h () =
      (List.replicate h (KEvent.input "lin" ⟨1, fun _ _ => 1 / 2⟩) ++
        List.replicate h (KEvent.grad "lin" ⟨1, fun _ _ => 1⟩)) ++
      (List.replicate h (KEvent.input "lin" ⟨1, fun _ _ => 1 / 2⟩) ++
        List.replicate h (KEvent.grad "lin" ⟨1, fun _ _ => 1⟩)) := by
    intro h
    have : unitWorld.batches () stateCfg () unitWorld.data = [[unitDatum], [unitDatum]] := rfl
    unfold KWorld.events
    rw [this]
    simp only [List.flatMap_cons, List.flatMap_nil, List.append_nil, unitEvents, unit_inputCov, unit_gradCov]
  have hm : unitWorld.mapping = [("lin", [("weight", 0)])] := rfl
  have hsep : stateCfg.sep = true := rfl
  refine ⟨?_, ?_, ?_⟩
  all_goals
    simp [kRun, kStep, wrap, KState.readTrace, readProperty, ensureKfac, computeKfac, unitState, KState.fresh,
      KState.reset, hb, applyEvent, addCov, Dict.get, Dict.set, KState.traceLoop, accPartial, Dict.getE,
      accPartial.paramsLoop, hm, hsep, Factor.trace, matTrace, List.replicate]
  all_goals norm_num

/-- Non-vacuity: stale values are not returned after the factors have been computed. -/
example : (KState.readFrob unitWorld none (computeKfac unitWorld none { unitState with frob := some 7 }).2).1 =
    (KState.readFrob unitWorld none (computeKfac unitWorld none unitState).2).1 :=
  congrArg (fun r => (KState.readFrob unitWorld none r.2).1)
    (computeKfac_forgets_properties unitWorld none unitState none none (some 7) none)

end Curvlinops
