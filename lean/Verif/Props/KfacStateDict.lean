import Verif.Model.KfacStateDict
import Verif.Props.KfacState

/-!
# C39, C40: state dictionaries of KFAC
-/

namespace Curvlinops

variable {Θ B G : Type}

/-! ## The number of traversals does not influence calls -/

/-- Equal up to the number of traversals (which is not an attribute of the Python object). -/
def SameState (s t : KState Θ) : Prop := { s with traversals := 0 } = { t with traversals := 0 }

theorem ensureKfac_same (w : KWorld Θ B G) (f : Fault) (s : KState Θ) (n : Nat) :
    ∃ m, ensureKfac w f { s with traversals := n } =
      ((ensureKfac w f s).1, { (ensureKfac w f s).2 with traversals := m }) := by
  unfold ensureKfac
  simp only
  split
  · refine ⟨n + 1, ?_⟩
    unfold computeKfac
    rcases f with _ | ⟨k, e⟩ <;> rfl
  · exact ⟨n, rfl⟩

theorem readProperty_same {γ : Type _} (w : KWorld Θ B G) (get : KState Θ → Option γ) (set : KState Θ → γ → KState Θ)
    (loop : KState Θ → γ × Option PyErr) (hget : ∀ (s : KState Θ) n, get { s with traversals := n } = get s)
    (hset : ∀ (s : KState Θ) v n, set { s with traversals := n } v = { set s v with traversals := n })
    (hloop : ∀ (s : KState Θ) n, loop { s with traversals := n } = loop s) (f : Fault) (s : KState Θ) (n : Nat) :
    ∃ m, readProperty w get set loop f { s with traversals := n } =
      ((readProperty w get set loop f s).1, { (readProperty w get set loop f s).2 with traversals := m }) := by
  obtain ⟨m, hm⟩ := ensureKfac_same w f s n
  unfold readProperty
  rw [hget]
  cases get s with
  | some v => exact ⟨n, rfl⟩
  | none =>
    rcases he : ensureKfac w f s with ⟨_ | _, s'⟩
    · rw [he] at hm
      simp only [hm]
      exact ⟨m, rfl⟩
    · rw [he] at hm
      simp only [hm, hloop]
      refine ⟨m, ?_⟩
      rcases loop s' with ⟨v, _ | e⟩
      · exact congrArg (Prod.mk _) (hset s' v m)
      · exact congrArg (Prod.mk _) (hset s' v m)

theorem kStep_same (w : KWorld Θ B G) (f : Fault) (c : KCall) (s : KState Θ) (n : Nat) :
    ∃ m, kStep w { s with traversals := n } f c = ((kStep w s f c).1, { (kStep w s f c).2 with traversals := m }) := by
  cases c with
  | matmat M =>
    obtain ⟨m, hm⟩ := ensureKfac_same w f s n
    refine ⟨m, ?_⟩
    simp only [kStep, wrap, KState.matmat, hm]
    rcases ensureKfac w f s with ⟨_ | _, s'⟩ <;> rfl
  | trace =>
    obtain ⟨m, hm⟩ := readProperty_same w KState.trace (fun s v => { s with trace := some v }) (KState.traceLoop w)
      (fun _ _ => rfl) (fun _ _ _ => rfl) (fun _ _ => rfl) f s n
    exact ⟨m, by simp only [kStep, wrap, KState.readTrace, hm]⟩
  | det =>
    obtain ⟨m, hm⟩ := readProperty_same w KState.det (fun s v => { s with det := some v }) (KState.detLoop w)
      (fun _ _ => rfl) (fun _ _ _ => rfl) (fun _ _ => rfl) f s n
    exact ⟨m, by simp only [kStep, wrap, KState.readDet, hm]⟩
  | logdet =>
    obtain ⟨m, hm⟩ := readProperty_same w KState.logdet (fun s v => { s with logdet := some v }) (KState.logdetLoop w)
      (fun _ _ => rfl) (fun _ _ _ => rfl) (fun _ _ => rfl) f s n
    exact ⟨m, by simp only [kStep, wrap, KState.readLogdet, hm]⟩
  | frobenius =>
    obtain ⟨m, hm⟩ := readProperty_same w KState.frob (fun s v => { s with frob := some v }) (KState.frobLoop w)
      (fun _ _ => rfl) (fun _ _ _ => rfl) (fun _ _ => rfl) f s n
    exact ⟨m, by simp only [kStep, wrap, KState.readFrob, hm]⟩
  | userForward b => exact ⟨n, rfl⟩

theorem SameState.eq {s t : KState Θ} (h : SameState s t) : s = { t with traversals := s.traversals } := by
  obtain ⟨model, cfg, seed, shape, progressbar, inCov, gradCov, trace, det, logdet, frob, hooks, traversals⟩ := s
  simp only [SameState, KState.mk.injEq] at h
  obtain ⟨h1, h2, h3, h4, h5, h6, h7, h8, h9, h10, h11, h12, -⟩ := h
  simp only [h1, h2, h3, h4, h5, h6, h7, h8, h9, h10, h11, h12]

theorem kRun_same (w : KWorld Θ B G) (cs : List (KCall × Fault)) (s t : KState Θ) (h : SameState s t) :
    (kRun w s cs).1 = (kRun w t cs).1 ∧ SameState (kRun w s cs).2 (kRun w t cs).2 := by
  induction cs generalizing s t with
  | nil => exact ⟨rfl, h⟩
  | cons c cs ih =>
    obtain ⟨m, hm⟩ := kStep_same w c.2 c.1 t s.traversals
    rw [← h.eq] at hm
    obtain ⟨i1, i2⟩ := ih (kStep w s c.2 c.1).2 (kStep w t c.2 c.1).2 (by rw [hm]; rfl)
    simp only [kRun]
    exact ⟨by rw [i1, hm], i2⟩

/-! ## Keys -/

theorem mem_keyList_set {β : Type _} (d : Dict β) (n k : String) (v : β) (h : k ∈ (d.set n v).keyList) :
    k = n ∨ k ∈ d.keyList := by
  induction d with
  | nil => simpa [Dict.set, Dict.keyList] using h
  | cons e d ih =>
    simp only [Dict.set] at h
    split at h
    · simp only [Dict.keyList, List.map_cons, List.mem_cons] at h ⊢
      rcases h with h | h
      · exact Or.inl h
      · exact Or.inr (Or.inr h)
    · simp only [Dict.keyList, List.map_cons, List.mem_cons] at h ⊢
      rcases h with h | h
      · exact Or.inr (Or.inl h)
      · rcases ih h with h | h
        · exact Or.inl h
        · exact Or.inr (Or.inr h)

theorem mem_keyList_addCov (d : Dict (Factor ℝ)) (n k : String) (v : Factor ℝ) (h : k ∈ (addCov d n v).keyList) :
    k = n ∨ k ∈ d.keyList := by
  unfold addCov at h
  split at h <;> exact mem_keyList_set _ _ _ _ h

theorem foldl_applyEvent_keys (es : List KEvent) (st : Dict (Factor ℝ) × Dict (Factor ℝ)) (k : String) :
    (k ∈ (es.foldl applyEvent st).1.keyList → k ∈ st.1.keyList ∨ ∃ c, KEvent.input k c ∈ es) ∧
    (k ∈ (es.foldl applyEvent st).2.keyList →
      k ∈ st.2.keyList ∨ ∃ c, KEvent.grad k c ∈ es ∨ KEvent.setGrad k c ∈ es) := by
  induction es generalizing st with
  | nil => exact ⟨Or.inl, Or.inl⟩
  | cons e es ih =>
    obtain ⟨i1, i2⟩ := ih (applyEvent st e)
    rw [List.foldl_cons]
    refine ⟨fun h => ?_, fun h => ?_⟩
    · rcases i1 h with h | ⟨c, h⟩
      · cases e with
        | input n f =>
          rcases mem_keyList_addCov _ _ _ _ h with rfl | h
          · exact Or.inr ⟨f, by simp⟩
          · exact Or.inl h
        | grad n f => exact Or.inl h
        | setGrad n f => exact Or.inl h
      · exact Or.inr ⟨c, by simp [h]⟩
    · rcases i2 h with h | ⟨c, h⟩
      · cases e with
        | input n f => exact Or.inl h
        | grad n f =>
          rcases mem_keyList_addCov _ _ _ _ h with rfl | h
          · exact Or.inr ⟨f, by simp⟩
          · exact Or.inl h
        | setGrad n f =>
          rcases mem_keyList_set _ _ _ _ h with rfl | h
          · exact Or.inr ⟨f, by simp⟩
          · exact Or.inl h
      · refine Or.inr ⟨c, ?_⟩
        rcases h with h | h <;> simp [h]

theorem mem_keyList_of_get {β : Type _} (d : Dict β) (k : String) (v : β) (h : d.get k = some v) : k ∈ d.keyList := by
  induction d with
  | nil => cases h
  | cons e d ih =>
    obtain ⟨n, x⟩ := e
    simp only [Dict.get, List.lookup] at h
    simp only [Dict.keyList, List.map_cons, List.mem_cons]
    split at h
    · rename_i he
      exact Or.inl (by simpa using he)
    · exact Or.inr (ih h)

/-- The keys of the computed factors: layers with a weight, respectively all layers. -/
theorem factors_keys (w : KWorld Θ B G) (s : KState Θ) (h : w.Good s.cfg) (k : String) :
    (k ∈ (w.factors s).1.keyList ↔ ∃ l ∈ w.layers, l.pos.has "weight" = true ∧ l.name = k) ∧
    (k ∈ (w.factors s).2.keyList ↔ k ∈ w.mapping.keyList) := by
  have hm : w.mapping.keyList = w.layers.map KLayer.name := by
    simp [Dict.keyList, KWorld.mapping, Function.comp_def]
  obtain ⟨c1, c2⟩ := factors_complete w s h
  have hev := foldl_applyEvent_keys (w.events s.model s.cfg 1 (w.seeded s.seed)) ([], []) k
  rw [events_one] at hev
  have hmem : ∀ e ∈ w.events s.model s.cfg 1 (w.seeded s.seed), ∃ b, e ∈ batchEvents s.cfg w.layers b := by
    intro e he
    simp only [KWorld.events, List.mem_flatMap, List.mem_replicate] at he
    obtain ⟨b, -, e', he', -, rfl⟩ := he
    exact ⟨b, he'⟩
  refine ⟨⟨fun hk => ?_, ?_⟩, ⟨fun hk => ?_, fun hk => ?_⟩⟩
  · rcases hev.1 hk with hk | ⟨c, hc⟩
    · cases hk
    · obtain ⟨b, hb⟩ := hmem _ hc
      simp only [batchEvents, List.mem_append, List.mem_map, List.mem_filter, KEvent.input.injEq] at hb
      rcases hb with ⟨l, ⟨hl, hw⟩, rfl, -⟩ | hb
      · exact ⟨l, hl, hw, rfl⟩
      · unfold backwardEvents at hb
        split at hb
        · simp at hb
        · simp at hb
  · rintro ⟨l, hl, hw, rfl⟩
    obtain ⟨A, hA⟩ := c2 l hl hw
    exact mem_keyList_of_get _ _ _ hA
  · rw [hm, List.mem_map]
    rcases hev.2 hk with hk | ⟨c, hc⟩
    · cases hk
    · rcases hc with hc | hc <;>
      · obtain ⟨b, hb⟩ := hmem _ hc
        simp only [batchEvents, List.mem_append, List.mem_map, List.mem_filter] at hb
        rcases hb with ⟨l, -, hl⟩ | hb
        · cases hl
        · unfold backwardEvents at hb
          split at hb
          · simp only [List.mem_map] at hb
            obtain ⟨l, hl, he⟩ := hb
            cases he <;> exact ⟨l, hl, rfl⟩
          · simp only [List.mem_flatMap, List.mem_map, List.mem_reverse] at hb
            obtain ⟨_, _, l, hl, he⟩ := hb
            cases he <;> exact ⟨l, hl, rfl⟩
  · rw [hm, List.mem_map] at hk
    obtain ⟨l, hl, rfl⟩ := hk
    obtain ⟨A, hA⟩ := c1 l hl
    exact mem_keyList_of_get _ _ _ hA

theorem sameKeys_iff (a b : List String) : sameKeys a b = true ↔ ∀ k, k ∈ a ↔ k ∈ b := by
  simp only [sameKeys, Bool.and_eq_true, List.all_eq_true, List.contains_iff_mem]
  exact ⟨fun ⟨h1, h2⟩ k => ⟨h1 k, h2 k⟩, fun h => ⟨fun k => (h k).1, fun k => (h k).2⟩⟩

theorem keysMismatch_empty (w : KWorld Θ B G) : keysMismatch w ([], []) = false := rfl

/-- Computed factors pass the check if every layer has a weight. -/
theorem keysMismatch_computed (w : KWorld Θ B G) (s : KState Θ) (h : w.Good s.cfg)
    (hw : ∀ l ∈ w.layers, l.pos.has "weight" = true) : keysMismatch w (w.factors s) = false := by
  have h1 : sameKeys (w.factors s).1.keyList w.mapping.keyList = true := by
    rw [sameKeys_iff]
    intro k
    rw [(factors_keys w s h k).1]
    simp only [Dict.keyList, KWorld.mapping, List.map_map, Function.comp_def, List.mem_map]
    exact ⟨fun ⟨l, hl, _, he⟩ => ⟨l, hl, he⟩, fun ⟨l, hl, he⟩ => ⟨l, hl, hw l hl, he⟩⟩
  have h2 : sameKeys (w.factors s).2.keyList w.mapping.keyList = true := by
    rw [sameKeys_iff]
    exact fun k => (factors_keys w s h k).2
  unfold keysMismatch
  rw [h1, h2]
  simp

/-! ## C39 -/

/-- Loading succeeds, and the states agree up to the number of traversals. -/
theorem load_stateDict_same (w : KWorld Θ B G) (heap : KHeap) (o o' : KObj Θ)
    (hloss : o'.attrs.cfg.loss = o.attrs.cfg.loss) (hred : o'.attrs.cfg.mean = o.attrs.cfg.mean)
    (hC : o'.attrs.cfg.C = o.attrs.cfg.C) (hhooks : o'.attrs.hooks = o.attrs.hooks)
    (hkeys : keysMismatch w (heap o'.ref) = false) :
    (o'.load w heap o.stateDict).1 = .ok () ∧
    SameState ((o'.load w heap o.stateDict).2.value heap) (o.value heap) := by
  have e : o'.load w heap o.stateDict = (.ok (), ⟨{ o.attrs with
      inCov := o'.attrs.inCov, gradCov := o'.attrs.gradCov, traversals := o'.attrs.traversals }, o.ref⟩) := by
    obtain ⟨⟨model, ⟨f, a, l, mn, mc, N, T, C, sep⟩, seed, shape, progressbar, inCov, gradCov, trace, det, logdet, frob,
      hooks, traversals⟩, ref⟩ := o
    obtain ⟨⟨model', ⟨f', a', l', mn', mc', N', T', C', sep'⟩, seed', shape', progressbar', inCov', gradCov', trace',
      det', logdet', frob', hooks', traversals'⟩, ref'⟩ := o'
    simp only at hloss hred hC hhooks hkeys
    subst hloss hred hC hhooks
    simp [KObj.load, KObj.stateDict, hkeys]
  rw [e]
  exact ⟨rfl, rfl⟩

/-- C39, round trip: load the state dictionary of the operator `o` into `o'`, which has the same loss function, on whose
layers the check of its own keys passes (see `keysMismatch_empty`, `keysMismatch_computed`). Then every sequence of
calls has the same results on both. -/
theorem load_stateDict_partial (w : KWorld Θ B G) (heap : KHeap) (o o' : KObj Θ)
    (hloss : o'.attrs.cfg.loss = o.attrs.cfg.loss) (hred : o'.attrs.cfg.mean = o.attrs.cfg.mean)
    (hC : o'.attrs.cfg.C = o.attrs.cfg.C) (hhooks : o'.attrs.hooks = o.attrs.hooks)
    (hkeys : keysMismatch w (heap o'.ref) = false) :
    (o'.load w heap o.stateDict).1 = .ok () ∧
    ∀ cs, (kRun w ((o'.load w heap o.stateDict).2.value heap) cs).1 = (kRun w (o.value heap) cs).1 := by
  obtain ⟨h1, h2⟩ := load_stateDict_same w heap o o' hloss hred hC hhooks hkeys
  exact ⟨h1, fun cs => (kRun_same w cs _ _ h2).1⟩

/-- C39 for `from_state_dict`: whatever calls had been made on `o` (its hooks must have been removed, i.e. no computation
was interrupted), the restored operator's results agree with those of `o` in every sequence of calls. -/
theorem fromStateDict_roundtrip (w : KWorld Θ B G) (heap : KHeap) (o : KObj Θ) (model : Θ) (ref : Nat)
    (hhooks : o.attrs.hooks = 0) (href : heap ref = ([], [])) :
    (fromStateDict w heap o.stateDict model o.attrs.cfg.C ref).1 = .ok () ∧
    ∀ cs, (kRun w ((fromStateDict w heap o.stateDict model o.attrs.cfg.C ref).2.value heap) cs).1 =
      (kRun w (o.value heap) cs).1 := by
  refine load_stateDict_partial w heap o _ rfl rfl rfl hhooks.symm ?_
  show keysMismatch w (heap ref) = false
  rw [href]
  rfl

/-- C39: a state dictionary with another loss function or reduction raises `ValueError`. Everything but the model's
parameters is unchanged. (The claim that nothing changes is false, see `load_mismatch_changes_model`.) -/
theorem load_mismatch_partial (w : KWorld Θ B G) (heap : KHeap) (sd : StateDict Θ) (o : KObj Θ)
    (h : sd.lossType ≠ o.attrs.cfg.loss ∨ sd.lossMean ≠ o.attrs.cfg.mean) :
    (o.load w heap sd).1 = .error .valueError ∧
    ∃ θ, (o.load w heap sd).2 = { o with attrs := { o.attrs with model := θ } } := by
  unfold KObj.load
  simp only
  by_cases h1 : o.attrs.cfg.loss ≠ sd.lossType
  · rw [if_pos h1]
    exact ⟨rfl, _, rfl⟩
  · rw [if_neg h1]
    have h2 : sd.lossMean ≠ o.attrs.cfg.mean := by
      rcases h with h | h
      · exact absurd (fun h' => h h'.symm) h1
      · exact h
    rw [if_pos h2]
    exact ⟨rfl, _, rfl⟩

/-- C39 is violated: when the state dictionary is rejected because of the loss function, the model already has the
parameters of the state dictionary. -/
theorem load_mismatch_changes_model (w : KWorld Θ B G) (heap : KHeap) (sd : StateDict Θ) (o : KObj Θ)
    (h : sd.lossType ≠ o.attrs.cfg.loss ∨ sd.lossMean ≠ o.attrs.cfg.mean) :
    (o.load w heap sd).1 = .error .valueError ∧ (o.load w heap sd).2.attrs.model = sd.model := by
  refine ⟨(load_mismatch_partial w heap sd o h).1, ?_⟩
  unfold KObj.load
  simp only
  split
  · rfl
  · split
    · rfl
    · split <;> rfl

/-- C39 is violated: the keys in the state dictionary are not looked at. An operator without factors accepts every
state dictionary with its loss function, whatever its factors are called. -/
theorem load_wrong_keys_accepted (w : KWorld Θ B G) (heap : KHeap) (sd : StateDict Θ) (o : KObj Θ)
    (hloss : sd.lossType = o.attrs.cfg.loss) (hred : sd.lossMean = o.attrs.cfg.mean) (ho : heap o.ref = ([], [])) :
    (o.load w heap sd).1 = .ok () ∧ ((o.load w heap sd).2.value heap).inCov = (heap sd.ref).1 ∧
    ((o.load w heap sd).2.value heap).gradCov = (heap sd.ref).2 := by
  simp only [KObj.load, hloss, hred, ho, keysMismatch_empty, ne_eq, not_true_eq_false, if_false, Bool.false_eq_true]
  exact ⟨trivial, rfl, rfl⟩

/-- C39 is violated: once the factors are computed, an operator with a bias-only layer (and another layer with a weight)
rejects every state dictionary, in particular its own. -/
theorem load_bias_only_raises (w : KWorld Θ B G) (heap : KHeap) (o : KObj Θ) (s : KState Θ) (hg : w.Good s.cfg)
    (hf : heap o.ref = w.factors s) (l l' : KLayer) (hl : l ∈ w.layers) (hw : l.pos.has "weight" = true)
    (hl' : l' ∈ w.layers) (hw' : l'.pos.has "weight" = false) : (o.load w heap o.stateDict).1 = .error .valueError := by
  have hname : ∀ l₁ ∈ w.layers, ∀ l₂ ∈ w.layers, l₁.name = l₂.name → l₁ = l₂ := fun l₁ h₁ l₂ h₂ he =>
    List.inj_on_of_nodup_map hg.names h₁ h₂ he
  have h1 : sameKeys (w.factors s).1.keyList w.mapping.keyList = false := by
    rw [Bool.eq_false_iff]
    intro h
    rw [sameKeys_iff] at h
    have hk : l'.name ∈ (w.factors s).1.keyList :=
      (h _).2 (by simp only [Dict.keyList, KWorld.mapping, List.map_map, Function.comp_def]; exact List.mem_map_of_mem hl')
    obtain ⟨l₁, hl₁, hw₁, he⟩ := (factors_keys w s hg _).1.1 hk
    rw [hname l₁ hl₁ l' hl' he, hw'] at hw₁
    cases hw₁
  have h2 : (w.factors s).1.isEmpty = false := by
    obtain ⟨A, hA⟩ := (factors_complete w s hg).2 l hl hw
    cases hd : (w.factors s).1 with
    | nil => rw [hd] at hA; cases hA
    | cons => rfl
  have hk : keysMismatch w (heap o.ref) = true := by
    rw [hf]
    unfold keysMismatch
    rw [h1, h2]
    rfl
  unfold KObj.load KObj.stateDict
  simp only [ne_eq, not_true_eq_false, if_false]
  rw [if_pos hk]

/-! ## C40 -/

/-- A call on an operator without hooks whose dictionaries are not both empty leaves the dictionaries alone. -/
theorem kStep_keeps_factors (w : KWorld Θ B G) (s : KState Θ) (f : Fault) (c : KCall) (hh : s.hooks = 0)
    (hne : (s.inCov.isEmpty && s.gradCov.isEmpty) = false) :
    (kStep w s f c).2.inCov = s.inCov ∧ (kStep w s f c).2.gradCov = s.gradCov ∧ (kStep w s f c).2.hooks = 0 := by
  have hens : ensureKfac w f s = (.ok (), s) := by
    unfold ensureKfac
    rw [hne]
    simp
  have hprop : ∀ {γ : Type} (get : KState Θ → Option γ) (set : KState Θ → γ → KState Θ)
      (loop : KState Θ → γ × Option PyErr), (readProperty w get set loop f s).2 = s ∨
        ∃ v, (readProperty w get set loop f s).2 = set s v := by
    intro γ get set loop
    unfold readProperty
    rw [hens]
    cases get s with
    | some v => exact Or.inl rfl
    | none =>
      rcases hl : loop s with ⟨v, _ | e⟩
      · exact Or.inr ⟨v, by simp only [hl]⟩
      · exact Or.inr ⟨v, by simp only [hl]⟩
  cases c with
  | matmat M =>
    simp only [kStep, wrap, KState.matmat, hens]
    exact ⟨by trivial, by trivial, hh⟩
  | trace =>
    rcases hprop KState.trace (fun s v => { s with trace := some v }) (KState.traceLoop w) with h | ⟨v, h⟩ <;>
    · simp only [kStep, wrap, KState.readTrace, h]
      exact ⟨by trivial, by trivial, hh⟩
  | det =>
    rcases hprop KState.det (fun s v => { s with det := some v }) (KState.detLoop w) with h | ⟨v, h⟩ <;>
    · simp only [kStep, wrap, KState.readDet, h]
      exact ⟨by trivial, by trivial, hh⟩
  | logdet =>
    rcases hprop KState.logdet (fun s v => { s with logdet := some v }) (KState.logdetLoop w) with h | ⟨v, h⟩ <;>
    · simp only [kStep, wrap, KState.readLogdet, h]
      exact ⟨by trivial, by trivial, hh⟩
  | frobenius =>
    rcases hprop KState.frob (fun s v => { s with frob := some v }) (KState.frobLoop w) with h | ⟨v, h⟩ <;>
    · simp only [kStep, wrap, KState.readFrob, h]
      exact ⟨by trivial, by trivial, hh⟩
  | userForward b =>
    show (userForward w b s).inCov = _ ∧ (userForward w b s).gradCov = _ ∧ (userForward w b s).hooks = 0
    rw [userForward_none w b s hh]
    exact ⟨by trivial, by trivial, hh⟩

/-- An uninterrupted call leaves no hooks. -/
theorem kStep_hooks (w : KWorld Θ B G) (s : KState Θ) (c : KCall) (hh : s.hooks = 0) : (kStep w s none c).2.hooks = 0 := by
  have hens : ∃ s', ensureKfac w none s = (.ok (), s') ∧ s'.hooks = 0 := by
    unfold ensureKfac
    split
    · exact ⟨_, rfl, by simp [KState.reset, hh]⟩
    · exact ⟨s, rfl, hh⟩
  obtain ⟨s', he, hs'⟩ := hens
  have hprop : ∀ {γ : Type} (get : KState Θ → Option γ) (set : KState Θ → γ → KState Θ)
      (loop : KState Θ → γ × Option PyErr), (readProperty w get set loop none s).2 = s ∨
        ∃ v, (readProperty w get set loop none s).2 = set s' v := by
    intro γ get set loop
    unfold readProperty
    rw [he]
    cases get s with
    | some v => exact Or.inl rfl
    | none =>
      rcases hl : loop s' with ⟨v, _ | e⟩
      · exact Or.inr ⟨v, by simp only [hl]⟩
      · exact Or.inr ⟨v, by simp only [hl]⟩
  cases c with
  | matmat M =>
    simp only [kStep, wrap, KState.matmat, he]
    exact hs'
  | trace =>
    simp only [kStep, wrap, KState.readTrace]
    rcases hprop KState.trace (fun s v => { s with trace := some v }) (KState.traceLoop w) with h | ⟨v, h⟩ <;> rw [h]
    · exact hh
    · exact hs'
  | det =>
    simp only [kStep, wrap, KState.readDet]
    rcases hprop KState.det (fun s v => { s with det := some v }) (KState.detLoop w) with h | ⟨v, h⟩ <;> rw [h]
    · exact hh
    · exact hs'
  | logdet =>
    simp only [kStep, wrap, KState.readLogdet]
    rcases hprop KState.logdet (fun s v => { s with logdet := some v }) (KState.logdetLoop w) with h | ⟨v, h⟩ <;> rw [h]
    · exact hh
    · exact hs'
  | frobenius =>
    simp only [kStep, wrap, KState.readFrob]
    rcases hprop KState.frob (fun s v => { s with frob := some v }) (KState.frobLoop w) with h | ⟨v, h⟩ <;> rw [h]
    · exact hh
    · exact hs'
  | userForward b =>
    show (userForward w b s).hooks = 0
    rw [userForward_none w b s hh]
    exact hh

/-- No hooks are installed for any operator. -/
def KSys.NoHooks (s : KSys Θ B G) : Prop := ∀ p ∈ s.ops, p.2.attrs.hooks = 0

/-- The step is not an interrupted call. -/
def SysCall.Uninterrupted : SysCall Θ → Prop
  | .call _ _ f => f = none
  | .load _ _ => True

/-- The step is not on operator `j`. -/
def SysCall.NotOn (j : Nat) : SysCall Θ → Prop
  | .call i _ _ => i ≠ j
  | .load i _ => i ≠ j

theorem load_hooks (w : KWorld Θ B G) (heap : KHeap) (sd : StateDict Θ) (o : KObj Θ) :
    (o.load w heap sd).2.attrs.hooks = o.attrs.hooks := by
  unfold KObj.load
  simp only
  split
  · rfl
  · split
    · rfl
    · split <;> rfl

theorem KSys.step_keeps (s : KSys Θ B G) (c : SysCall Θ) (hs : s.NoHooks) (hc : c.Uninterrupted) (ref : Nat)
    (hne : ((s.heap ref).1.isEmpty && (s.heap ref).2.isEmpty) = false) :
    (s.step c).NoHooks ∧ (s.step c).heap ref = s.heap ref := by
  cases c with
  | call i c f =>
    have hf : f = none := hc
    subst hf
    unfold KSys.step
    simp only
    cases hi : s.ops[i]? with
    | none => exact ⟨hs, rfl⟩
    | some p =>
      obtain ⟨w, o⟩ := p
      have ho : o.attrs.hooks = 0 := hs (w, o) (List.mem_of_getElem? hi)
      simp only [KObj.call]
      refine ⟨fun p hp => ?_, ?_⟩
      · rcases List.mem_or_eq_of_mem_set hp with hp | rfl
        · exact hs p hp
        · exact kStep_hooks w _ c ho
      · by_cases hr : ref = o.ref
        · subst hr
          rw [Function.update_self]
          obtain ⟨h1, h2, -⟩ := kStep_keeps_factors w (o.value s.heap) none c ho hne
          rw [h1, h2]
          rfl
        · rw [Function.update_of_ne hr]
  | load i sd =>
    unfold KSys.step
    simp only
    cases hi : s.ops[i]? with
    | none => exact ⟨hs, rfl⟩
    | some p =>
      obtain ⟨w, o⟩ := p
      have ho : o.attrs.hooks = 0 := hs (w, o) (List.mem_of_getElem? hi)
      refine ⟨fun p hp => ?_, rfl⟩
      rcases List.mem_or_eq_of_mem_set hp with hp | rfl
      · exact hs p hp
      · exact (load_hooks w _ sd o).trans ho

theorem KSys.step_other (s : KSys Θ B G) (c : SysCall Θ) (j : Nat) (hc : c.NotOn j) : (s.step c).ops[j]? = s.ops[j]? := by
  cases c with
  | call i c f =>
    have hij : i ≠ j := hc
    unfold KSys.step
    simp only
    cases s.ops[i]? with
    | none => rfl
    | some p => simp only [List.getElem?_set_ne hij]
  | load i sd =>
    have hij : i ≠ j := hc
    unfold KSys.step
    simp only
    cases s.ops[i]? with
    | none => rfl
    | some p => simp only [List.getElem?_set_ne hij]

/-- C40 for state dictionaries that contain factors: no uninterrupted history of calls and loads, on any operators
(which may share the dictionaries), changes the factors in the state dictionary. (For state dictionaries without factors
this is false, see `state_dict_filled`.) -/
theorem state_dict_snapshot_partial (s : KSys Θ B G) (hs : s.NoHooks) (sd : StateDict Θ)
    (hne : ((s.heap sd.ref).1.isEmpty && (s.heap sd.ref).2.isEmpty) = false) (cs : List (SysCall Θ))
    (hcs : ∀ c ∈ cs, c.Uninterrupted) : (s.run cs).heap sd.ref = s.heap sd.ref ∧ (s.run cs).NoHooks := by
  unfold KSys.run
  induction cs generalizing s with
  | nil => exact ⟨rfl, hs⟩
  | cons c cs ih =>
    obtain ⟨h1, h2⟩ := s.step_keeps c hs (hcs c (by simp)) sd.ref hne
    obtain ⟨i1, i2⟩ := ih (s.step c) h1 (by rw [h2]; exact hne) fun c hc => hcs c (by simp [hc])
    exact ⟨by rw [List.foldl_cons, i1, h2], by rw [List.foldl_cons]; exact i2⟩

/-- C40 for operators with factors: an operator is not affected by an uninterrupted history of calls and loads on other
operators, even if they share its dictionaries. In particular this holds for an operator restored from a state
dictionary that contained factors. -/
theorem restored_independent_partial (s : KSys Θ B G) (hs : s.NoHooks) (j : Nat) (w : KWorld Θ B G) (o : KObj Θ)
    (hj : s.ops[j]? = some (w, o)) (hne : ((s.heap o.ref).1.isEmpty && (s.heap o.ref).2.isEmpty) = false)
    (cs : List (SysCall Θ)) (hcs : ∀ c ∈ cs, c.Uninterrupted) (hother : ∀ c ∈ cs, c.NotOn j) :
    (s.run cs).ops[j]? = some (w, o) ∧ o.value (s.run cs).heap = o.value s.heap := by
  constructor
  · unfold KSys.run
    clear hne hcs hs
    induction cs generalizing s with
    | nil => exact hj
    | cons c cs ih =>
      rw [List.foldl_cons]
      exact ih (s.step c) ((s.step_other c j (hother c (by simp))).trans hj) fun c hc => hother c (by simp [hc])
  · have h : (s.run cs).heap o.ref = s.heap o.ref := (state_dict_snapshot_partial s hs o.stateDict hne cs hcs).1
    unfold KObj.value
    rw [h]

/-- C40 is violated: a state dictionary taken from a new operator contains no factors; after any uninterrupted product or
property read on the operator, it contains the factors. -/
theorem state_dict_filled (w : KWorld Θ B G) (heap : KHeap) (o : KObj Θ) (hf : (o.value heap).IsFresh)
    (hg : w.Good o.attrs.cfg) (c : KCall) (hc : ∀ b, c ≠ .userForward b) :
    heap o.stateDict.ref = ([], []) ∧
    (o.call w heap c none).2.1 o.stateDict.ref = w.factors (o.value heap) ∧ w.factors (o.value heap) ≠ ([], []) := by
  have h0 := factors_nonempty w (o.value heap) hg
  have hS := kStep_settled hf hg (Or.inl rfl) c
  refine ⟨Prod.ext hf.inCov hf.gradCov, ?_, fun h => by rw [h] at h0; cases h0⟩
  show Function.update heap o.ref _ o.ref = _
  rw [Function.update_self]
  have hset : Settled w (o.value heap) (kStep w (o.value heap) none c).2 := by
    obtain ⟨c1, c2, c3, c4⟩ := loops_complete w (o.value heap) hg
    rcases hS.2 with h | h
    · exfalso
      -- the computation has happened
      have hg0 : (kStep w (o.value heap) none c).2.gradCov = (w.factors (o.value heap)).2 := by
        have hSc := Settled.computed w (o.value heap) hf
        cases c with
        | matmat M => simp only [kStep, wrap, KState.matmat, ensureKfac_fresh w _ hf]; rfl
        | trace =>
          simp only [kStep, wrap, KState.readTrace]
          rw [(readProperty_settled hf hg hSc KState.trace _ (KState.traceLoop w) hf.trace c1 rfl (Or.inl hf.trace) none).2.2]
          rfl
        | det =>
          simp only [kStep, wrap, KState.readDet]
          rw [(readProperty_settled hf hg hSc KState.det _ (KState.detLoop w) hf.det c2 rfl (Or.inl hf.det) none).2.2]
          rfl
        | logdet =>
          simp only [kStep, wrap, KState.readLogdet]
          rw [(readProperty_settled hf hg hSc KState.logdet _ (KState.logdetLoop w) hf.logdet c3 rfl (Or.inl hf.logdet)
            none).2.2]
          rfl
        | frobenius =>
          simp only [kStep, wrap, KState.readFrob]
          rw [(readProperty_settled hf hg hSc KState.frob _ (KState.frobLoop w) hf.frob c4 rfl (Or.inl hf.frob) none).2.2]
          rfl
        | userForward b => exact absurd rfl (hc b)
      rw [h, hf.gradCov] at hg0
      rw [← hg0] at h0
      cases h0
    · exact h
  rw [hset.inCov, hset.gradCov]

/-- C40 is violated: an operator `o'` that is restored from the state dictionary of the new operator `o` (possibly with
other data, `w'`) is not independent of `o`: after any product or property read on `o` it has the factors of `o`, and it
never computes its own. -/
theorem restored_gets_factors (w w' : KWorld Θ B G) (heap : KHeap) (o : KObj Θ) (hf : (o.value heap).IsFresh)
    (hg : w.Good o.attrs.cfg) (c : KCall) (hc : ∀ b, c ≠ .userForward b) (model : Θ) (ref : Nat)
    (href : heap ref = ([], [])) :
    let o' := (fromStateDict w' heap o.stateDict model o.attrs.cfg.C ref).2
    let heap' := (o.call w heap c none).2.1
    (o'.value heap).gradCov = [] ∧ (o'.value heap').inCov = (w.factors (o.value heap)).1 ∧
    (o'.value heap').gradCov = (w.factors (o.value heap)).2 ∧
    ∀ f, ensureKfac w' f (o'.value heap') = (.ok (), o'.value heap') := by
  obtain ⟨h1, h2, h3⟩ := state_dict_filled w heap o hf hg c hc
  have hr : (fromStateDict w' heap o.stateDict model o.attrs.cfg.C ref).2.ref = o.ref := by
    have hk : keysMismatch w' (heap ref) = false := by rw [href]; rfl
    simp [fromStateDict, KObj.load, KObj.stateDict, hk, KState.fresh]
  intro o' heap'
  have hv : ∀ h : KHeap, (o'.value h).inCov = (h o.ref).1 ∧ (o'.value h).gradCov = (h o.ref).2 := by
    intro h
    show (h o'.ref).1 = _ ∧ (h o'.ref).2 = _
    rw [hr]
    exact ⟨rfl, rfl⟩
  have h2' : heap' o.ref = w.factors (o.value heap) := h2
  refine ⟨(hv heap).2.trans hf.gradCov, (hv heap').1.trans (by rw [h2']), (hv heap').2.trans (by rw [h2']), fun f => ?_⟩
  unfold ensureKfac
  rw [(hv heap').1, (hv heap').2, h2', factors_nonempty w (o.value heap) hg]
  simp

/-! ## Examples and counterexamples -/

/-- A heap where all dictionaries are empty. -/
def emptyHeap : KHeap := fun _ => ([], [])

/-- A new operator. -/
def unitObj : KObj Unit := ⟨unitState, 0⟩

/-- The round trip, after the trace has been read: results of the restored operator and of the original agree. -/
example (M : List (Tensor ℝ)) :
    let r := unitObj.call unitWorld emptyHeap .trace none
    (fromStateDict unitWorld r.2.1 r.2.2.stateDict () 1 1).1 = .ok () ∧
    (kRun unitWorld ((fromStateDict unitWorld r.2.1 r.2.2.stateDict () 1 1).2.value r.2.1)
        [(.trace, none), (.matmat M, none), (.det, none)]).1 =
      (kRun unitWorld (r.2.2.value r.2.1) [(.trace, none), (.matmat M, none), (.det, none)]).1 := by
  intro r
  have hh : r.2.2.attrs.hooks = 0 := kStep_hooks unitWorld unitState .trace rfl
  have hC : r.2.2.attrs.cfg.C = 1 := by
    have := kStep_settled unitState_fresh unitWorld_good (Or.inl rfl) .trace
    rcases this.2 with h | h
    · show (kStep unitWorld unitState none .trace).2.cfg.C = 1
      rw [h]
      rfl
    · show (kStep unitWorld unitState none .trace).2.cfg.C = 1
      rw [h.cfg]
      rfl
  obtain ⟨h1, h2⟩ := fromStateDict_roundtrip unitWorld r.2.1 r.2.2 () 1 hh rfl
  rw [hC] at h1 h2
  exact ⟨h1, h2 _⟩

/-- Another data set, with only one mini-batch. -/
def halfWorld : KWorld Unit (List KDatum) Unit := { unitWorld with data := [[unitDatum]] }

theorem unitWorld_events (h : Nat) (g : Unit) : unitWorld.events () stateCfg h g =
    (List.replicate h (KEvent.input "lin" ⟨1, fun _ _ => 1 / 2⟩) ++
      List.replicate h (KEvent.grad "lin" ⟨1, fun _ _ => 1⟩)) ++
    (List.replicate h (KEvent.input "lin" ⟨1, fun _ _ => 1 / 2⟩) ++
      List.replicate h (KEvent.grad "lin" ⟨1, fun _ _ => 1⟩)) := by
  have : unitWorld.batches () stateCfg g unitWorld.data = [[unitDatum], [unitDatum]] := rfl
  unfold KWorld.events
  rw [this]
  simp only [List.flatMap_cons, List.flatMap_nil, List.append_nil, unitEvents, unit_inputCov, unit_gradCov]

theorem halfWorld_events (h : Nat) (g : Unit) : halfWorld.events () stateCfg h g =
    List.replicate h (KEvent.input "lin" ⟨1, fun _ _ => 1 / 2⟩) ++
      List.replicate h (KEvent.grad "lin" ⟨1, fun _ _ => 1⟩) := by
  have h1 : halfWorld.batches () stateCfg g halfWorld.data = [[unitDatum]] := rfl
  have h2 : halfWorld.layers = unitWorld.layers := rfl
  unfold KWorld.events
  rw [h1, h2]
  simp only [List.flatMap_cons, List.flatMap_nil, List.append_nil, unitEvents, unit_inputCov, unit_gradCov]

/-- C40 is violated, with numbers: an operator is restored, with its own data, from the state dictionary of a new
operator. Its trace is `1/2`. But if the trace of the original operator is read first, it returns the latter's `2`. -/
theorem restored_witness :
    let o' := (fromStateDict halfWorld emptyHeap unitObj.stateDict () 1 1).2
    (o'.call halfWorld emptyHeap .trace none).1 = .ok (.number (1 / 2)) ∧
    (o'.call halfWorld (unitObj.call unitWorld emptyHeap .trace none).2.1 .trace none).1 = .ok (.number 2) := by
  intro o'
  have ho' : o' = ⟨unitState, 0⟩ := rfl
  rw [ho']
  have hm : unitWorld.mapping = [("lin", [("weight", 0)])] := rfl
  have hm' : halfWorld.mapping = [("lin", [("weight", 0)])] := rfl
  have hsep : stateCfg.sep = true := rfl
  constructor
  · simp [KObj.call, KObj.value, emptyHeap, kStep, wrap, KState.readTrace, readProperty, ensureKfac, computeKfac,
      unitState, KState.fresh, KState.reset, halfWorld_events, applyEvent, addCov, Dict.get, Dict.set, KState.traceLoop,
      accPartial, Dict.getE, accPartial.paramsLoop, hm', hsep, Factor.trace, matTrace]
  · simp [KObj.call, KObj.value, unitObj, emptyHeap, kStep, wrap, KState.readTrace, readProperty, ensureKfac,
      computeKfac, unitState, KState.fresh, KState.reset, unitWorld_events, applyEvent, addCov, Dict.get, Dict.set,
      KState.traceLoop, accPartial, Dict.getE, accPartial.paramsLoop, hm, hm', hsep, Factor.trace, matTrace]
    norm_num

/-- A state dictionary of an operator on other layers. -/
def otherHeap : KHeap := fun n =>
  if n = 1 then ([("other", ⟨1, fun _ _ => 1⟩)], [("other", ⟨1, fun _ _ => 1⟩)]) else ([], [])

/-- C39 is violated, with numbers: a state dictionary whose factors belong to other layers is accepted, and the trace
then raises `KeyError`. -/
theorem load_wrong_keys_witness :
    let sd : StateDict Unit := { unitObj.stateDict with ref := 1 }
    (unitObj.load unitWorld otherHeap sd).1 = .ok () ∧
    ((unitObj.load unitWorld otherHeap sd).2.call unitWorld otherHeap .trace none).1 = .error .keyError := by
  intro sd
  refine ⟨(load_wrong_keys_accepted unitWorld otherHeap sd unitObj rfl rfl rfl).1, ?_⟩
  have hl : (unitObj.load unitWorld otherHeap sd).2 = ⟨unitState, 1⟩ := rfl
  have hm : unitWorld.mapping = [("lin", [("weight", 0)])] := rfl
  rw [hl]
  simp [KObj.call, KObj.value, otherHeap, kStep, wrap, KState.readTrace, readProperty, ensureKfac, unitState,
    KState.fresh, Dict.get, List.lookup, KState.traceLoop, accPartial, Dict.getE, hm]

/-- A layer with a weight and a layer of which only the bias is considered. -/
def biasWorld : KWorld Unit (List KDatum) Unit :=
  ⟨[⟨"lin", [("weight", 0)], 1, 1, 1⟩, ⟨"out", [("bias", 1)], 1, 1, 1⟩], [[unitDatum]], fun _ => (), fun _ _ g b => (b, g)⟩

theorem biasWorld_good : biasWorld.Good stateCfg :=
  ⟨by simp [biasWorld], by simp [biasWorld], by simp [biasWorld], by simp [stateCfg], by simp [stateCfg], by simp [stateCfg]⟩

/-- C39 is violated: after the trace has been read, loading the operator's own state dictionary raises. -/
theorem load_bias_only_witness :
    let r := unitObj.call biasWorld emptyHeap .trace none
    (r.2.2.load biasWorld r.2.1 r.2.2.stateDict).1 = .error .valueError := by
  intro r
  refine load_bias_only_raises biasWorld r.2.1 r.2.2 unitState biasWorld_good ?_ ⟨"lin", [("weight", 0)], 1, 1, 1⟩
    ⟨"out", [("bias", 1)], 1, 1, 1⟩ (by simp [biasWorld]) rfl (by simp [biasWorld]) rfl
  exact (state_dict_filled biasWorld emptyHeap unitObj unitState_fresh biasWorld_good .trace (by simp)).2.1

/-- Two operators that share factors: the one keeps them whatever happens to the other. -/
example (M : List (Tensor ℝ)) (sd : StateDict Unit) :
    let r := unitObj.call unitWorld emptyHeap .trace none
    let s : KSys Unit (List KDatum) Unit := ⟨r.2.1, [(unitWorld, r.2.2), (halfWorld, r.2.2)]⟩
    r.2.2.value (s.run [.call 0 (.matmat M) none, .call 0 .det none, .load 0 sd]).heap = r.2.2.value s.heap := by
  intro r s
  have hh : r.2.2.attrs.hooks = 0 := kStep_hooks unitWorld unitState .trace rfl
  refine (restored_independent_partial s ?_ 1 halfWorld r.2.2 rfl ?_ _ ?_ ?_).2
  · intro p hp
    simp only [s, List.mem_cons, List.not_mem_nil, or_false] at hp
    rcases hp with rfl | rfl <;> exact hh
  · have h := (state_dict_filled unitWorld emptyHeap unitObj unitState_fresh unitWorld_good .trace (by simp)).2.1
    show (List.isEmpty (r.2.1 unitObj.stateDict.ref).1 && List.isEmpty (r.2.1 unitObj.stateDict.ref).2) = false
    rw [h, factors_nonempty unitWorld (unitObj.value emptyHeap) unitWorld_good]
    simp
  · intro c hc
    simp only [List.mem_cons, List.not_mem_nil, or_false] at hc
    rcases hc with rfl | rfl | rfl <;> trivial
  · intro c hc
    simp only [List.mem_cons, List.not_mem_nil, or_false] at hc
    rcases hc with rfl | rfl | rfl <;> simp [SysCall.NotOn]

end Curvlinops
