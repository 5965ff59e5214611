import Verif.Model.KfacHooks
import Verif.Props.KfacSelection

/-!
# C93: KFAC of networks that evaluate a layer any number of times
-/

namespace Curvlinops

/-! ## Forward passes -/

/-- A call after which the forward pass goes on: a hooked layer has one positional input if it has a weight, and an output
that requires a gradient. -/
def CallFine (layers : List KLayer) (c : LayerCall) : Prop :=
  ∀ l ∈ layers, l.name = c.layer → (l.pos.has "weight" = true → c.inputs = 1) ∧ c.tracked = true

/-- The evaluations of a layer in the forward pass on a batch. -/
def HookBatch.callsOf (b : HookBatch) (l : KLayer) : List LayerCall := b.calls.filter fun c => decide (c.layer = l.name)

/-- The evaluations of a layer that the network's output depends on. -/
def HookBatch.reachedOf (b : HookBatch) (l : KLayer) : List LayerCall :=
  (b.callsOf l).filter fun c => c.reached

theorem hookedLayer_some {layers : List KLayer} {c : LayerCall} {l : KLayer} (h : hookedLayer layers c = some l) :
    l ∈ layers ∧ l.name = c.layer := by
  refine ⟨List.mem_of_find?_eq_some h, ?_⟩
  have := List.find?_some h
  simpa using this

theorem hookedLayer_none {layers : List KLayer} {c : LayerCall} (h : hookedLayer layers c = none) :
    ∀ l ∈ layers, l.name ≠ c.layer := by
  intro l hl
  have := List.find?_eq_none.mp h l hl
  simpa using this

theorem name_inj {layers : List KLayer} (hnd : (layers.map KLayer.name).Nodup) {l m : KLayer} (hl : l ∈ layers)
    (hm : m ∈ layers) (h : l.name = m.name) : l = m := by
  obtain ⟨i, hi, rfl⟩ := List.mem_iff_getElem.mp hl
  obtain ⟨j, hj, rfl⟩ := List.mem_iff_getElem.mp hm
  have := (hnd.getElem_inj_iff (i := i) (j := j) (hi := by simpa using hi) (hj := by simpa using hj)).mp (by simpa using h)
  subst this
  rfl

theorem hookedLayer_eq {layers : List KLayer} (hnd : (layers.map KLayer.name).Nodup) {c : LayerCall} {l : KLayer}
    (hl : l ∈ layers) (h : c.layer = l.name) : hookedLayer layers c = some l := by
  cases hm : hookedLayer layers c with
  | none => exact absurd h.symm (hookedLayer_none hm l hl)
  | some m =>
    have := hookedLayer_some hm
    rw [name_inj hnd this.1 hl (this.2.trans h)]

/-- The update that an evaluation makes in the forward pass. -/
noncomputable def fwdEvent (cfg : KfacCfg) (layers : List KLayer) (data : List KDatum) (c : LayerCall) : Option KEvent :=
  match hookedLayer layers c with
  | none => none
  | some l => if l.pos.has "weight" then some (.input l.name (inputCovariance cfg (c.view l) data)) else none

/-- The tensor hook of an evaluation. -/
def fwdHook (layers : List KLayer) (c : LayerCall) : Option (KLayer × LayerCall) :=
  (hookedLayer layers c).map fun l => (l, c)

theorem forwardPass_fine (cfg : KfacCfg) (layers : List KLayer) (data : List KDatum) (cs : List LayerCall)
    (h : ∀ c ∈ cs, CallFine layers c) :
    forwardPass cfg layers data cs = (cs.filterMap (fwdEvent cfg layers data), cs.filterMap (fwdHook layers), none) := by
  induction cs with
  | nil => rfl
  | cons c cs ih =>
    have ih := ih fun c hc => h c (List.mem_cons_of_mem _ hc)
    unfold forwardPass
    cases hl : hookedLayer layers c with
    | none => simp [ih, fwdEvent, fwdHook, hl]
    | some l =>
      obtain ⟨hmem, hname⟩ := hookedLayer_some hl
      obtain ⟨h1, h2⟩ := h c (by simp) l hmem hname
      have hcond : ¬(l.pos.has "weight" = true ∧ c.inputs ≠ 1) := fun hc => hc.2 (h1 hc.1)
      simp only [hcond, if_false, h2, if_true, ih]
      by_cases hw : l.pos.has "weight" = true <;> simp [fwdEvent, fwdHook, hl, hw]

/-- A call that ends the forward pass. -/
theorem forwardPass_bad (cfg : KfacCfg) (layers : List KLayer) (hnd : (layers.map KLayer.name).Nodup) (data : List KDatum)
    (cs cs' : List LayerCall) (c : LayerCall) (hcs : ∀ c ∈ cs, CallFine layers c) (l : KLayer) (hl : l ∈ layers)
    (hc : c.layer = l.name) (hbad : (l.pos.has "weight" = true ∧ c.inputs ≠ 1) ∨ c.tracked = false) :
    (forwardPass cfg layers data (cs ++ c :: cs')).2.2 =
      some (if l.pos.has "weight" = true ∧ c.inputs ≠ 1 then .valueError else .runtimeError) := by
  induction cs with
  | nil =>
    rw [List.nil_append]
    unfold forwardPass
    rw [hookedLayer_eq hnd hl hc]
    by_cases h1 : l.pos.has "weight" = true ∧ c.inputs ≠ 1
    · simp [h1]
    · have h2 : c.tracked = false := by tauto
      simp [h1, h2]
  | cons d cs ih =>
    have ih := ih fun c hc => hcs c (List.mem_cons_of_mem _ hc)
    rw [List.cons_append]
    unfold forwardPass
    cases hd : hookedLayer layers d with
    | none => exact ih
    | some m =>
      obtain ⟨hmem, hname⟩ := hookedLayer_some hd
      obtain ⟨h1, h2⟩ := hcs d (by simp) m hmem hname
      have hcond : ¬(m.pos.has "weight" = true ∧ d.inputs ≠ 1) := fun hc => hc.2 (h1 hc.1)
      simp only [hcond, if_false, h2, if_true]
      exact ih

/-! ## Backward passes -/

theorem retainGraph_eq (cfg : KfacCfg) (hf : cfg.fisher ≠ .forwardOnly) (k : Nat) (hk : k < numPasses cfg) :
    retainGraph cfg k = decide (k + 1 < numPasses cfg) := by
  unfold numPasses at *
  unfold retainGraph
  cases h : cfg.fisher with
  | type2 =>
    simp only [h] at hk ⊢
    by_cases h' : k + 1 < cfg.C
    · simp only [h', decide_true, decide_eq_true_eq]
      omega
    · simp only [h', decide_false, decide_eq_false_iff_not]
      omega
  | mc =>
    simp only [h] at hk ⊢
    by_cases h' : k + 1 < cfg.mcSamples
    · simp only [h', decide_true, decide_eq_true_eq]
      omega
    · simp only [h', decide_false, decide_eq_false_iff_not]
      omega
  | empirical => simp only [h] at hk ⊢; simp
  | forwardOnly => exact absurd h hf

theorem backwardPasses_used (cfg : KfacCfg) (hf : cfg.fisher ≠ .forwardOnly) (b : HookBatch) (hu : b.used = true)
    (hooks : List (KLayer × LayerCall)) (n j : Nat) (hj : j + n = numPasses cfg) :
    backwardPasses cfg b hooks (List.range' j n) false =
      ((List.range' j n).flatMap (tensorHooks cfg b.data hooks), decide (n ≠ 0), none) := by
  induction n generalizing j with
  | zero => simp [backwardPasses]
  | succ n ih =>
    rw [List.range'_succ, backwardPasses]
    have hr := retainGraph_eq cfg hf j (by omega)
    simp only [autogradGrad, hu, hr, if_true, Bool.false_eq_true, if_false]
    by_cases hn : n = 0
    · subst hn
      have : ¬(j + 1 < numPasses cfg) := by omega
      simp [this, backwardPasses]
    · have : j + 1 < numPasses cfg := by omega
      simp only [this, decide_true, Bool.not_true, ih (j + 1) (by omega), List.flatMap_cons]
      simp [hn]

theorem backwardPasses_unused (cfg : KfacCfg) (b : HookBatch) (hu : b.used = false) (hooks : List (KLayer × LayerCall))
    (hn : numPasses cfg ≠ 0) :
    (backwardPasses cfg b hooks (List.range (numPasses cfg)) false).2.2 = some .runtimeError := by
  obtain ⟨n, hn⟩ := Nat.exists_eq_succ_of_ne_zero hn
  rw [hn, List.range_eq_range', List.range'_succ, backwardPasses]
  simp [autogradGrad, hu]

/-! ## One batch -/

/-- A batch that raises no exception: all calls are fine, and the network's output depends on all parameters (or there is no
backward pass). -/
def BatchFine (cfg : KfacCfg) (layers : List KLayer) (b : HookBatch) : Prop :=
  (∀ c ∈ b.calls, CallFine layers c) ∧ (numPasses cfg = 0 ∨ b.used = true)

theorem hookBatch_fine (cfg : KfacCfg) (layers : List KLayer) (b : HookBatch) (h : BatchFine cfg layers b) :
    hookBatch cfg layers b =
      (b.calls.filterMap (fwdEvent cfg layers b.data) ++ (if cfg.fisher = .forwardOnly then
          layers.map fun l => .setGrad l.name ⟨l.dout, fun i j => if i = j then 1 else 0⟩
        else (List.range (numPasses cfg)).flatMap (tensorHooks cfg b.data (b.calls.filterMap (fwdHook layers)))),
        decide (numPasses cfg ≠ 0), none) := by
  unfold hookBatch
  rw [forwardPass_fine cfg layers b.data b.calls h.1]
  by_cases hf : cfg.fisher = .forwardOnly
  · have hn : numPasses cfg = 0 := by simp [numPasses, hf]
    simp [hf, hn]
  · have hback : backwardPasses cfg b (b.calls.filterMap (fwdHook layers)) (List.range (numPasses cfg)) false =
        ((List.range (numPasses cfg)).flatMap (tensorHooks cfg b.data (b.calls.filterMap (fwdHook layers))),
          decide (numPasses cfg ≠ 0), none) := by
      rcases h.2 with hn | hu
      · rw [hn]
        rfl
      · rw [List.range_eq_range']
        exact backwardPasses_used cfg hf b hu _ _ _ (by omega)
    cases hf' : cfg.fisher
    all_goals first
      | exact absurd hf' hf
      | (simp only [hback]; simp)

/-- C93: the computation graph of a batch is released by the last backward pass, and not before. -/
theorem graph_released (cfg : KfacCfg) (layers : List KLayer) (b : HookBatch) (h : BatchFine cfg layers b) :
    (hookBatch cfg layers b).2.1 = decide (numPasses cfg ≠ 0) := by
  rw [hookBatch_fine cfg layers b h]

theorem exists_first_bad {γ : Type _} (P : γ → Prop) (l : List γ) (h : ¬∀ x ∈ l, P x) :
    ∃ l₁ x l₂, l = l₁ ++ x :: l₂ ∧ (∀ y ∈ l₁, P y) ∧ ¬P x := by
  induction l with
  | nil => simp at h
  | cons a l ih =>
    by_cases ha : P a
    · obtain ⟨l₁, x, l₂, rfl, h1, h2⟩ := ih fun hall => h (by simpa using ⟨ha, hall⟩)
      exact ⟨a :: l₁, x, l₂, rfl, by simpa using ⟨ha, h1⟩, h2⟩
    · exact ⟨[], a, l, rfl, by simp, ha⟩

theorem hookBatch_bad (cfg : KfacCfg) (layers : List KLayer) (hnd : (layers.map KLayer.name).Nodup) (b : HookBatch)
    (h : ¬BatchFine cfg layers b) : ∃ e, (hookBatch cfg layers b).2.2 = some e := by
  by_cases hc : ∀ c ∈ b.calls, CallFine layers c
  · have hn : numPasses cfg ≠ 0 := fun hn => h ⟨hc, .inl hn⟩
    have hu : b.used = false := by
      cases hu : b.used with
      | false => rfl
      | true => exact absurd ⟨hc, .inr hu⟩ h
    refine ⟨.runtimeError, ?_⟩
    unfold hookBatch
    rw [forwardPass_fine cfg layers b.data b.calls hc]
    have hb := backwardPasses_unused cfg b hu (b.calls.filterMap (fwdHook layers)) hn
    cases hf : cfg.fisher
    all_goals first
      | exact hb
      | exact absurd (by simp [numPasses, hf]) hn
  · obtain ⟨l₁, c, l₂, hcalls, hpre, hbad⟩ := exists_first_bad _ _ hc
    unfold CallFine at hbad
    push Not at hbad
    obtain ⟨l, hl, hname, hbad⟩ := hbad
    have hbad' : (l.pos.has "weight" = true ∧ c.inputs ≠ 1) ∨ c.tracked = false := by
      by_cases h1 : l.pos.has "weight" = true ∧ c.inputs ≠ 1
      · exact .inl h1
      · refine .inr ?_
        have := hbad fun hw => by
          by_contra hi
          exact h1 ⟨hw, hi⟩
        simpa using this
    have := forwardPass_bad cfg layers hnd b.data l₁ l₂ c hpre l hl hname.symm hbad'
    rw [← hcalls] at this
    refine ⟨if l.pos.has "weight" = true ∧ c.inputs ≠ 1 then .valueError else .runtimeError, ?_⟩
    unfold hookBatch
    simp only [this]

/-! ## The loop -/

theorem hookLoop_fine (cfg : KfacCfg) (layers : List KLayer) (batches : List HookBatch)
    (h : ∀ b ∈ batches, BatchFine cfg layers b) (d : Dict (Factor ℝ) × Dict (Factor ℝ)) :
    hookLoop cfg layers batches d =
      (.ok (), (batches.flatMap fun b => (hookBatch cfg layers b).1).foldl applyEvent d) := by
  induction batches generalizing d with
  | nil => rfl
  | cons b bs ih =>
    have hb : (hookBatch cfg layers b).2.2 = none := by rw [hookBatch_fine cfg layers b (h b (by simp))]
    rw [hookLoop]
    simp only [hb]
    rw [ih fun b hb => h b (List.mem_cons_of_mem _ hb), List.flatMap_cons, List.foldl_append]

theorem hookLoop_append (cfg : KfacCfg) (layers : List KLayer) (batches rest : List HookBatch)
    (h : ∀ b ∈ batches, BatchFine cfg layers b) (d : Dict (Factor ℝ) × Dict (Factor ℝ)) :
    hookLoop cfg layers (batches ++ rest) d = hookLoop cfg layers rest (hookLoop cfg layers batches d).2 := by
  induction batches generalizing d with
  | nil => rfl
  | cons b bs ih =>
    have hb : (hookBatch cfg layers b).2.2 = none := by rw [hookBatch_fine cfg layers b (h b (by simp))]
    rw [List.cons_append, hookLoop, hookLoop]
    simp only [hb]
    exact ih (fun b hb => h b (List.mem_cons_of_mem _ hb)) _

/-- C93: the factors are computed without exception iff in every batch, every evaluation of a layer with a weight has exactly
one positional input, every evaluation of a layer has an output that requires a gradient, and the network's output depends on
all parameters (the last only if there are backward passes). In particular, no backward pass ever meets a released graph. -/
theorem hooks_succeed_iff (cfg : KfacCfg) (layers : List KLayer) (hnd : (layers.map KLayer.name).Nodup)
    (batches : List HookBatch) (d : Dict (Factor ℝ) × Dict (Factor ℝ)) :
    (hookLoop cfg layers batches d).1 = .ok () ↔ ∀ b ∈ batches, BatchFine cfg layers b := by
  constructor
  · intro h
    by_contra hbad
    obtain ⟨l₁, b, l₂, rfl, hpre, hb⟩ := exists_first_bad _ _ hbad
    obtain ⟨e, he⟩ := hookBatch_bad cfg layers hnd b hb
    rw [hookLoop_append cfg layers l₁ _ hpre, hookLoop] at h
    simp [he] at h
  · intro h
    rw [hookLoop_fine cfg layers batches h d]

/-- C93: which exception an evaluation raises. Without the right number of positional inputs: `ValueError`; if the output
requires no gradient: `RuntimeError`. -/
theorem hooks_call_exception (cfg : KfacCfg) (layers : List KLayer) (hnd : (layers.map KLayer.name).Nodup)
    (pre post : List HookBatch) (hpre : ∀ b ∈ pre, BatchFine cfg layers b) (b : HookBatch) (cs cs' : List LayerCall)
    (c : LayerCall) (hb : b.calls = cs ++ c :: cs') (hcs : ∀ c ∈ cs, CallFine layers c) (l : KLayer) (hl : l ∈ layers)
    (hc : c.layer = l.name) (hbad : (l.pos.has "weight" = true ∧ c.inputs ≠ 1) ∨ c.tracked = false) (M : List (Tensor ℝ)) :
    hookMatmat cfg layers (pre ++ b :: post) M =
      .error (if l.pos.has "weight" = true ∧ c.inputs ≠ 1 then .valueError else .runtimeError) := by
  have hf := forwardPass_bad cfg layers hnd b.data cs cs' c hcs l hl hc hbad
  rw [← hb] at hf
  unfold hookMatmat
  rw [hookLoop_append cfg layers pre _ hpre, hookLoop]
  have : (hookBatch cfg layers b).2.2 = some (if l.pos.has "weight" = true ∧ c.inputs ≠ 1 then .valueError else .runtimeError) := by
    unfold hookBatch
    simp only [hf]
  simp only [this]

/-- C93: `RuntimeError` if the network's output does not depend on some parameter, unless there is no backward pass. -/
theorem hooks_unused_exception (cfg : KfacCfg) (layers : List KLayer) (hn : numPasses cfg ≠ 0) (pre post : List HookBatch)
    (hpre : ∀ b ∈ pre, BatchFine cfg layers b) (b : HookBatch) (hcs : ∀ c ∈ b.calls, CallFine layers c)
    (hu : b.used = false) (M : List (Tensor ℝ)) :
    hookMatmat cfg layers (pre ++ b :: post) M = .error .runtimeError := by
  have hb : (hookBatch cfg layers b).2.2 = some .runtimeError := by
    unfold hookBatch
    rw [forwardPass_fine cfg layers b.data b.calls hcs]
    have hb := backwardPasses_unused cfg b hu (b.calls.filterMap (fwdHook layers)) hn
    cases hf : cfg.fisher
    all_goals first
      | exact hb
      | exact absurd (by simp [numPasses, hf]) hn
  unfold hookMatmat
  rw [hookLoop_append cfg layers pre _ hpre, hookLoop]
  simp only [hb]

/-! ## What an exception leaves behind -/

theorem forwardPass_bad_events (cfg : KfacCfg) (layers : List KLayer) (hnd : (layers.map KLayer.name).Nodup)
    (data : List KDatum) (cs cs' : List LayerCall) (c : LayerCall) (hcs : ∀ c ∈ cs, CallFine layers c) (l : KLayer)
    (hl : l ∈ layers) (hc : c.layer = l.name) (hbad : (l.pos.has "weight" = true ∧ c.inputs ≠ 1) ∨ c.tracked = false) :
    (forwardPass cfg layers data (cs ++ c :: cs')).1 =
      (if l.pos.has "weight" = true ∧ c.inputs ≠ 1 then cs else cs ++ [c]).filterMap (fwdEvent cfg layers data) := by
  induction cs with
  | nil =>
    rw [List.nil_append]
    unfold forwardPass
    rw [hookedLayer_eq hnd hl hc]
    by_cases h1 : l.pos.has "weight" = true ∧ c.inputs ≠ 1
    · simp [h1]
    · have h2 : c.tracked = false := by tauto
      simp only [h1, if_false, h2, Bool.false_eq_true]
      by_cases hw : l.pos.has "weight" = true <;> simp [fwdEvent, hookedLayer_eq hnd hl hc, hw]
  | cons d cs ih =>
    have ih := ih fun c hc => hcs c (List.mem_cons_of_mem _ hc)
    rw [List.cons_append]
    unfold forwardPass
    cases hd : hookedLayer layers d with
    | none =>
      simp only [ih]
      split_ifs <;> simp [fwdEvent, hd]
    | some m =>
      obtain ⟨hmem, hname⟩ := hookedLayer_some hd
      obtain ⟨h1, h2⟩ := hcs d (by simp) m hmem hname
      have hcond : ¬(m.pos.has "weight" = true ∧ d.inputs ≠ 1) := fun hc => hc.2 (h1 hc.1)
      simp only [hcond, if_false, h2, if_true, ih]
      by_cases hw : m.pos.has "weight" = true <;> split_ifs <;> simp [fwdEvent, hd, hw]

theorem fwdEvent_second (cfg : KfacCfg) (layers : List KLayer) (data : List KDatum) (cs : List LayerCall)
    (d : Dict (Factor ℝ) × Dict (Factor ℝ)) :
    ((cs.filterMap (fwdEvent cfg layers data)).foldl applyEvent d).2 = d.2 := by
  induction cs generalizing d with
  | nil => rfl
  | cons c cs ih =>
    rw [List.filterMap_cons]
    cases he : fwdEvent cfg layers data c with
    | none => exact ih d
    | some e =>
      rw [List.foldl_cons, ih]
      unfold fwdEvent at he
      cases hl : hookedLayer layers c with
      | none => simp [hl] at he
      | some l =>
        simp only [hl] at he
        split_ifs at he
        simp only [Option.some.injEq] at he
        subst he
        rfl

/-- Updates of gradient factors. -/
theorem gradEvents_first (es : List KEvent) (h : ∀ e ∈ es, (∃ n F, e = .grad n F) ∨ ∃ n F, e = .setGrad n F)
    (d : Dict (Factor ℝ) × Dict (Factor ℝ)) : (es.foldl applyEvent d).1 = d.1 := by
  induction es generalizing d with
  | nil => rfl
  | cons e es ih =>
    rw [List.foldl_cons, ih fun e he => h e (List.mem_cons_of_mem _ he)]
    rcases h e (by simp) with ⟨n, F, rfl⟩ | ⟨n, F, rfl⟩ <;> rfl

theorem hookBatch_first (cfg : KfacCfg) (layers : List KLayer) (b : HookBatch) (h : BatchFine cfg layers b)
    (d : Dict (Factor ℝ) × Dict (Factor ℝ)) :
    ((hookBatch cfg layers b).1.foldl applyEvent d).1 =
      ((b.calls.filterMap (fwdEvent cfg layers b.data)).foldl applyEvent d).1 := by
  rw [hookBatch_fine cfg layers b h, List.foldl_append]
  refine gradEvents_first _ ?_ _
  intro e he
  split_ifs at he
  · obtain ⟨l, -, rfl⟩ := List.mem_map.mp he
    exact .inr ⟨_, _, rfl⟩
  · obtain ⟨k, -, he⟩ := List.mem_flatMap.mp he
    unfold tensorHooks at he
    obtain ⟨x, -, rfl⟩ := List.mem_map.mp he
    exact .inl ⟨_, _, rfl⟩

theorem batches_first (cfg : KfacCfg) (layers : List KLayer) (pre : List HookBatch)
    (hpre : ∀ b ∈ pre, BatchFine cfg layers b) (b : HookBatch) (hb : BatchFine cfg layers b)
    (d : Dict (Factor ℝ) × Dict (Factor ℝ)) :
    (hookLoop cfg layers (pre ++ [b]) d).2.1 =
      ((b.calls.filterMap (fwdEvent cfg layers b.data)).foldl applyEvent (hookLoop cfg layers pre d).2).1 := by
  rw [hookLoop_append cfg layers pre _ hpre, hookLoop_fine cfg layers [b] (by simpa using hb)]
  simp only [List.flatMap_cons, List.flatMap_nil, List.append_nil]
  exact hookBatch_first cfg layers b hb _

/-- C93: what an exception in the forward pass leaves behind. The input factors are those of a run that ends, without
exception, with the evaluations before the one that raised (including this one if its output requires no gradient); the
gradient factors are those of the earlier batches. -/
theorem hooks_call_leaves (cfg : KfacCfg) (layers : List KLayer) (hnd : (layers.map KLayer.name).Nodup)
    (pre post : List HookBatch) (hpre : ∀ b ∈ pre, BatchFine cfg layers b) (b : HookBatch) (cs cs' : List LayerCall)
    (c : LayerCall) (hb : b.calls = cs ++ c :: cs') (hcs : ∀ c ∈ cs, CallFine layers c) (l : KLayer) (hl : l ∈ layers)
    (hc : c.layer = l.name) (hbad : (l.pos.has "weight" = true ∧ c.inputs ≠ 1) ∨ c.tracked = false)
    (d : Dict (Factor ℝ) × Dict (Factor ℝ)) :
    (hookLoop cfg layers (pre ++ b :: post) d).2 =
      ((hookLoop cfg layers (pre ++ [⟨b.data, if l.pos.has "weight" = true ∧ c.inputs ≠ 1 then cs
          else cs ++ [{ c with tracked := true }], true⟩]) d).2.1, (hookLoop cfg layers pre d).2.2) := by
  have hev := forwardPass_bad_events cfg layers hnd b.data cs cs' c hcs l hl hc hbad
  have hex := forwardPass_bad cfg layers hnd b.data cs cs' c hcs l hl hc hbad
  rw [← hb] at hev hex
  have hfine : BatchFine cfg layers ⟨b.data, if l.pos.has "weight" = true ∧ c.inputs ≠ 1 then cs
      else cs ++ [{ c with tracked := true }], true⟩ := by
    refine ⟨?_, .inr rfl⟩
    by_cases h1 : l.pos.has "weight" = true ∧ c.inputs ≠ 1
    · simpa only [h1, ne_eq, not_false_eq_true, and_self, if_true] using hcs
    · simp only [h1, if_false]
      intro x hx
      rcases List.mem_append.mp hx with hx | hx
      · exact hcs x hx
      · obtain rfl := List.mem_singleton.mp hx
        intro m hm hname
        obtain rfl : m = l := name_inj hnd hm hl (hname.trans hc)
        exact ⟨fun hw => by by_contra hi; exact h1 ⟨hw, hi⟩, rfl⟩
  rw [batches_first cfg layers pre hpre _ hfine, hookLoop_append cfg layers pre _ hpre, hookLoop]
  have hbev : (hookBatch cfg layers b).1 = (forwardPass cfg layers b.data b.calls).1 := by
    unfold hookBatch
    simp only [hex]
  have hbex : (hookBatch cfg layers b).2.2 = some (if l.pos.has "weight" = true ∧ c.inputs ≠ 1 then .valueError
      else .runtimeError) := by
    unfold hookBatch
    simp only [hex]
  simp only [hbex, hbev, hev]
  have hsame : (if l.pos.has "weight" = true ∧ c.inputs ≠ 1 then cs else cs ++ [c]).filterMap (fwdEvent cfg layers b.data) =
      (if l.pos.has "weight" = true ∧ c.inputs ≠ 1 then cs else cs ++ [{ c with tracked := true }]).filterMap
        (fwdEvent cfg layers b.data) := by
    split_ifs
    · rfl
    · rw [List.filterMap_append, List.filterMap_append]
      rfl
  rw [hsame]
  exact Prod.ext rfl (fwdEvent_second cfg layers b.data _ _)

/-- C93: what the exception for unused parameters leaves behind: the complete input factors up to this batch, and in the
gradient factors only the first backward pass of this batch. -/
theorem hooks_unused_leaves (cfg : KfacCfg) (layers : List KLayer) (hn : numPasses cfg ≠ 0) (pre post : List HookBatch)
    (hpre : ∀ b ∈ pre, BatchFine cfg layers b) (b : HookBatch) (hcs : ∀ c ∈ b.calls, CallFine layers c)
    (hu : b.used = false) (d : Dict (Factor ℝ) × Dict (Factor ℝ)) :
    (hookLoop cfg layers (pre ++ b :: post) d).2 =
      (tensorHooks cfg b.data (b.calls.filterMap (fwdHook layers)) 0).foldl applyEvent
        ((hookLoop cfg layers (pre ++ [{ b with used := true }]) d).2.1, (hookLoop cfg layers pre d).2.2) := by
  have hback : backwardPasses cfg b (b.calls.filterMap (fwdHook layers)) (List.range (numPasses cfg)) false =
      (tensorHooks cfg b.data (b.calls.filterMap (fwdHook layers)) 0, !retainGraph cfg 0, some .runtimeError) := by
    obtain ⟨n, hn⟩ := Nat.exists_eq_succ_of_ne_zero hn
    rw [hn, List.range_eq_range', List.range'_succ, backwardPasses]
    simp [autogradGrad, hu]
  have hbatch : hookBatch cfg layers b = (b.calls.filterMap (fwdEvent cfg layers b.data) ++
      tensorHooks cfg b.data (b.calls.filterMap (fwdHook layers)) 0, !retainGraph cfg 0, some .runtimeError) := by
    unfold hookBatch
    rw [forwardPass_fine cfg layers b.data b.calls hcs]
    cases hf : cfg.fisher
    all_goals first
      | (simp only [hback]; done)
      | exact absurd (by simp [numPasses, hf]) hn
  rw [batches_first cfg layers pre hpre { b with used := true } ⟨hcs, .inr rfl⟩, hookLoop_append cfg layers pre _ hpre, hookLoop]
  simp only [hbatch, List.foldl_append]
  congr 1
  exact Prod.ext rfl (fwdEvent_second cfg layers b.data _ _)

/-! ## The factors -/

theorem filterMap_filter_map {β γ : Type _} {f : β → Option γ} {p : β → Bool} {g : β → γ}
    (h1 : ∀ x, p x = true → f x = some (g x)) (h2 : ∀ x, ¬p x = true → f x = none) (l : List β) :
    l.filterMap f = (l.filter p).map g := by
  induction l with
  | nil => rfl
  | cons x l ih =>
    by_cases hx : p x = true
    · simp [h1 x hx, hx, ih]
    · simp [h2 x hx, hx, ih]

theorem hookBatch_inUpd (cfg : KfacCfg) (layers : List KLayer) (hnd : (layers.map KLayer.name).Nodup) (b : HookBatch)
    (h : BatchFine cfg layers b) (l : KLayer) (hl : l ∈ layers) (hw : l.pos.has "weight" = true) :
    (hookBatch cfg layers b).1.filterMap (inUpd l.name) =
      ((b.callsOf l).map fun c => inputCovariance cfg (c.view l) b.data).map Upd.add := by
  rw [hookBatch_fine cfg layers b h, List.filterMap_append]
  have h2 : (if cfg.fisher = .forwardOnly then
          layers.map fun l => KEvent.setGrad l.name ⟨l.dout, fun i j => if i = j then 1 else 0⟩
        else (List.range (numPasses cfg)).flatMap (tensorHooks cfg b.data (b.calls.filterMap (fwdHook layers)))).filterMap
      (inUpd l.name) = [] := by
    rw [List.filterMap_eq_nil_iff]
    intro e he
    split at he
    · obtain ⟨m, _, rfl⟩ := List.mem_map.mp he
      rfl
    · obtain ⟨k, _, he⟩ := List.mem_flatMap.mp he
      obtain ⟨m, _, rfl⟩ := List.mem_map.mp he
      rfl
  rw [h2, List.append_nil, List.filterMap_filterMap, List.map_map, HookBatch.callsOf]
  refine filterMap_filter_map (fun c hc => ?_) (fun c hc => ?_) _
  · rw [fwdEvent, hookedLayer_eq hnd hl (by simpa using hc)]
    simp [hw, inUpd]
  · unfold fwdEvent
    cases hm : hookedLayer layers c with
    | none => rfl
    | some m =>
      have hne : m.name ≠ l.name := fun h => (by simpa using hc : c.layer ≠ l.name) ((hookedLayer_some hm).2.symm.trans h)
      by_cases hmw : m.pos.has "weight" = true <;> simp [hmw, inUpd, hne]

theorem hookBatch_gradUpd (cfg : KfacCfg) (hf : cfg.fisher ≠ .forwardOnly) (layers : List KLayer)
    (hnd : (layers.map KLayer.name).Nodup) (b : HookBatch) (h : BatchFine cfg layers b) (l : KLayer) (hl : l ∈ layers) :
    (hookBatch cfg layers b).1.filterMap (gradUpd l.name) =
      ((List.range (numPasses cfg)).flatMap fun k => (b.reachedOf l).reverse.map fun c =>
        gradCovariance cfg (c.view l) b.data k).map Upd.add := by
  rw [hookBatch_fine cfg layers b h, List.filterMap_append]
  have h1 : (b.calls.filterMap (fwdEvent cfg layers b.data)).filterMap (gradUpd l.name) = [] := by
    rw [List.filterMap_eq_nil_iff]
    intro e he
    obtain ⟨c, _, hc⟩ := List.mem_filterMap.mp he
    unfold fwdEvent at hc
    cases hm : hookedLayer layers c with
    | none => simp [hm] at hc
    | some m =>
      simp only [hm] at hc
      split at hc
      · obtain rfl := Option.some.inj hc
        rfl
      · exact absurd hc (by simp)
  rw [h1, List.nil_append, if_neg hf, filterMap_flatMap, List.map_flatMap]
  refine List.flatMap_congr fun k _ => ?_
  unfold tensorHooks
  rw [List.filterMap_map, List.filterMap_reverse, List.map_reverse, List.map_reverse]
  congr 1
  rw [List.map_map, HookBatch.reachedOf, HookBatch.callsOf, List.filter_filter]
  have hfm : (b.calls.filterMap (fwdHook layers)).filter (fun h => h.2.reached) =
      b.calls.filterMap fun c => if c.reached then fwdHook layers c else none := by
    induction b.calls with
    | nil => rfl
    | cons c cs ih =>
      rw [List.filterMap_cons, List.filterMap_cons]
      unfold fwdHook at ih ⊢
      cases hm : hookedLayer layers c <;> cases hr : c.reached <;> simp [hr, ih]
  rw [hfm, List.filterMap_filterMap]
  refine filterMap_filter_map (fun c hc => ?_) (fun c hc => ?_) _
  · obtain ⟨h1, h2⟩ : c.reached = true ∧ c.layer = l.name := by simpa using hc
    simp [h1, fwdHook, hookedLayer_eq hnd hl h2, gradUpd]
  · cases hr : c.reached with
    | false => simp
    | true =>
      unfold fwdHook
      cases hm : hookedLayer layers c with
      | none => simp
      | some m =>
        have hne : m.name ≠ l.name := fun h => (by simpa [hr] using hc : c.layer ≠ l.name)
          ((hookedLayer_some hm).2.symm.trans h)
        simp [gradUpd, hne]

theorem hookBatch_setUpd (cfg : KfacCfg) (hf : cfg.fisher = .forwardOnly) (layers : List KLayer)
    (hnd : (layers.map KLayer.name).Nodup) (b : HookBatch) (h : BatchFine cfg layers b) (l : KLayer) (hl : l ∈ layers) :
    (hookBatch cfg layers b).1.filterMap (gradUpd l.name) = [Upd.set ⟨l.dout, fun i j => if i = j then 1 else 0⟩] := by
  rw [hookBatch_fine cfg layers b h, List.filterMap_append]
  have h1 : (b.calls.filterMap (fwdEvent cfg layers b.data)).filterMap (gradUpd l.name) = [] := by
    rw [List.filterMap_eq_nil_iff]
    intro e he
    obtain ⟨c, _, hc⟩ := List.mem_filterMap.mp he
    unfold fwdEvent at hc
    cases hm : hookedLayer layers c with
    | none => simp [hm] at hc
    | some m =>
      simp only [hm] at hc
      split at hc
      · obtain rfl := Option.some.inj hc
        rfl
      · exact absurd hc (by simp)
  rw [h1, List.nil_append, if_pos hf]
  exact filterMap_map_unique _ l hl hnd _ _ _ (by simp [gradUpd]) fun m hm => by simp [gradUpd, hm]

theorem calls_sum_flatMap {β : Type _} (l : List β) (f : β → List ℝ) : (l.flatMap f).sum = (l.map fun x => (f x).sum).sum := by
  induction l with
  | nil => rfl
  | cons x l ih => rw [List.flatMap_cons, List.sum_append, ih, List.map_cons, List.sum_cons]

theorem list_sum_swap {β γ : Type _} (l : List β) (l' : List γ) (f : β → γ → ℝ) :
    (l.map fun x => (l'.map fun y => f x y).sum).sum = (l'.map fun y => (l.map fun x => f x y).sum).sum := by
  induction l with
  | nil => simp
  | cons x l ih =>
    simp only [List.map_cons, List.sum_cons, ih]
    rw [← List.sum_map_add]

/-- The covariances of one evaluation, summed over the backward passes. -/
theorem passes_sum (cfg : KfacCfg) (hf : cfg.fisher ≠ .forwardOnly) (hT : cfg.T ≠ 0) (hC : cfg.C ≠ 0)
    (hmc : cfg.mcSamples ≠ 0) (l : KLayer) (b : List KDatum) (i j : Nat) :
    ((List.range (numPasses cfg)).map fun k => (gradCovariance cfg l b k).mat i j).sum = specGradFactor cfg l b i j := by
  have h := kfac_grad_factor cfg [l] (by simp) [b] (by simp) hT hC hmc l (by simp)
  rw [kfacFactors, foldl_batches, foldl_grad_get, kfacFactors_gradUpd cfg hf [l] (by simp) [b] l (by simp)] at h
  have hn : numPasses cfg ≠ 0 := by
    unfold numPasses
    cases hf' : cfg.fisher <;> simp_all
  rw [show Dict.get (([], []) : Dict (Factor ℝ) × Dict (Factor ℝ)).2 l.name = none from rfl,
    foldl_add_upd_none _ l.dout (by simpa using hn) (by
      intro f hf
      simp only [List.flatMap_cons, List.flatMap_nil, List.append_nil, List.mem_map] at hf
      obtain ⟨k, _, rfl⟩ := hf
      rfl)] at h
  have h' := congrArg (fun o : Option (Factor ℝ) => (o.map fun f => f.mat i j).getD 0) h
  simpa [List.map_map, Function.comp_def] using h'

/-- The covariance of the inputs of one evaluation. -/
theorem input_sum (cfg : KfacCfg) (l : KLayer) (hw : l.pos.has "weight" = true) (b : List KDatum) :
    inputCovariance cfg l b = ⟨l.din + (if l.joint cfg then 1 else 0), specInputFactor cfg l b⟩ := by
  have h := kfac_input_factor cfg [l] (by simp) [b] (by simp) l (by simp) hw
  rw [kfacFactors, foldl_batches, foldl_input_get, kfacFactors_inUpd cfg [l] (by simp) [b] l (by simp) hw] at h
  rw [show Dict.get (([], []) : Dict (Factor ℝ) × Dict (Factor ℝ)).1 l.name = none from rfl] at h
  simpa [Upd.apply] using h

/-- All evaluations of a layer, with the data of the batch. -/
def hookCalls (batches : List HookBatch) (l : KLayer) : List (List KDatum × LayerCall) :=
  batches.flatMap fun b => (b.callsOf l).map fun c => (b.data, c)

/-- All evaluations of a layer that the network's output depends on, with the data of the batch. -/
def hookReached (batches : List HookBatch) (l : KLayer) : List (List KDatum × LayerCall) :=
  batches.flatMap fun b => (b.reachedOf l).map fun c => (b.data, c)

/-- C93: the input factor of a layer with a weight is the sum, over all its evaluations in all batches, of the input factor of
the single evaluation; if the layer is never evaluated, there is none. -/
theorem hooks_input_factor (cfg : KfacCfg) (layers : List KLayer) (hnd : (layers.map KLayer.name).Nodup)
    (batches : List HookBatch) (h : ∀ b ∈ batches, BatchFine cfg layers b) (l : KLayer) (hl : l ∈ layers)
    (hw : l.pos.has "weight" = true) :
    (hookLoop cfg layers batches ([], [])).2.1.get l.name =
      if hookCalls batches l = [] then none
      else some ⟨l.din + (if l.joint cfg then 1 else 0), fun i j =>
        ((hookCalls batches l).map fun e => specInputFactor cfg (e.2.view l) e.1 i j).sum⟩ := by
  rw [hookLoop_fine cfg layers batches h, foldl_input_get, filterMap_flatMap]
  rw [show Dict.get (([], []) : Dict (Factor ℝ) × Dict (Factor ℝ)).1 l.name = none from rfl]
  have h1 : (batches.flatMap fun b => (hookBatch cfg layers b).1.filterMap (inUpd l.name)) =
      ((hookCalls batches l).map fun e => inputCovariance cfg (e.2.view l) e.1).map Upd.add := by
    rw [hookCalls, List.map_map, List.map_flatMap]
    refine List.flatMap_congr fun b hb => ?_
    rw [hookBatch_inUpd cfg layers hnd b (h b hb) l hl hw, List.map_map, List.map_map]
    rfl
  rw [h1]
  by_cases hne : hookCalls batches l = []
  · rw [hne, if_pos rfl]
    rfl
  · rw [if_neg hne]
    have hin : ∀ e : List KDatum × LayerCall, inputCovariance cfg (e.2.view l) e.1 =
        ⟨l.din + (if l.joint cfg then 1 else 0), specInputFactor cfg (e.2.view l) e.1⟩ := fun e =>
      input_sum cfg (e.2.view l) hw e.1
    rw [foldl_add_upd_none _ (l.din + (if l.joint cfg then 1 else 0)) (by simpa using hne) (by
      intro f hf
      obtain ⟨e, _, rfl⟩ := List.mem_map.mp hf
      rw [hin])]
    congr 2
    funext i j
    rw [List.map_map]
    congr 1
    refine List.map_congr_left fun e _ => ?_
    rw [Function.comp_apply, hin]

/-- C93: the gradient factor of a layer is the sum, over all its evaluations in all batches that the network's output depends
on, of the gradient factor of the single evaluation; if there is no such evaluation, there is none. -/
theorem hooks_grad_factor (cfg : KfacCfg) (hf : cfg.fisher ≠ .forwardOnly) (hT : cfg.T ≠ 0) (hC : cfg.C ≠ 0)
    (hmc : cfg.mcSamples ≠ 0) (layers : List KLayer) (hnd : (layers.map KLayer.name).Nodup)
    (batches : List HookBatch) (h : ∀ b ∈ batches, BatchFine cfg layers b) (l : KLayer) (hl : l ∈ layers) :
    (hookLoop cfg layers batches ([], [])).2.2.get l.name =
      if hookReached batches l = [] then none
      else some ⟨l.dout, fun i j => ((hookReached batches l).map fun e => specGradFactor cfg (e.2.view l) e.1 i j).sum⟩ := by
  rw [hookLoop_fine cfg layers batches h, foldl_grad_get, filterMap_flatMap]
  rw [show Dict.get (([], []) : Dict (Factor ℝ) × Dict (Factor ℝ)).2 l.name = none from rfl]
  have h1 : (batches.flatMap fun b => (hookBatch cfg layers b).1.filterMap (gradUpd l.name)) =
      (batches.flatMap fun b => (List.range (numPasses cfg)).flatMap fun k => (b.reachedOf l).reverse.map fun c =>
        gradCovariance cfg (c.view l) b.data k).map Upd.add := by
    rw [List.map_flatMap]
    exact List.flatMap_congr fun b hb => hookBatch_gradUpd cfg hf layers hnd b (h b hb) l hl
  rw [h1]
  have hn : numPasses cfg ≠ 0 := by
    unfold numPasses
    cases hf' : cfg.fisher <;> simp_all
  by_cases hne : hookReached batches l = []
  · rw [if_pos hne]
    have : ∀ b ∈ batches, b.reachedOf l = [] := by
      intro b hb
      have := List.flatMap_eq_nil_iff.mp hne b hb
      simpa using this
    have : (batches.flatMap fun b => (List.range (numPasses cfg)).flatMap fun k => (b.reachedOf l).reverse.map fun c =>
        gradCovariance cfg (c.view l) b.data k) = [] := by
      rw [List.flatMap_eq_nil_iff]
      intro b hb
      rw [this b hb]
      simp
    rw [this]
    rfl
  · rw [if_neg hne, foldl_add_upd_none _ l.dout (by
      intro h0
      refine hne (List.flatMap_eq_nil_iff.mpr fun b hb => ?_)
      have h0 := List.flatMap_eq_nil_iff.mp h0 b hb
      have h0 := List.flatMap_eq_nil_iff.mp h0 0 (List.mem_range.mpr (Nat.pos_of_ne_zero hn))
      simpa using h0) (by
      intro f hf
      obtain ⟨b, _, hf⟩ := List.mem_flatMap.mp hf
      obtain ⟨k, _, hf⟩ := List.mem_flatMap.mp hf
      obtain ⟨c, _, rfl⟩ := List.mem_map.mp hf
      rfl)]
    congr 2
    funext i j
    have hsum : ∀ b : HookBatch, (((List.range (numPasses cfg)).flatMap fun k => (b.reachedOf l).reverse.map fun c =>
        gradCovariance cfg (c.view l) b.data k).map fun f => f.mat i j).sum =
        ((b.reachedOf l).map fun c => specGradFactor cfg (c.view l) b.data i j).sum := by
      intro b
      rw [List.map_flatMap, calls_sum_flatMap]
      simp only [List.map_map, Function.comp_def, List.map_reverse, List.sum_reverse]
      rw [list_sum_swap]
      congr 1
      exact List.map_congr_left fun c _ => passes_sum cfg hf hT hC hmc (c.view l) b.data i j
    rw [List.map_flatMap, calls_sum_flatMap, hookReached, List.map_flatMap, calls_sum_flatMap]
    congr 1
    refine List.map_congr_left fun b _ => ?_
    rw [hsum b, List.map_map]
    rfl

/-- C93: with `fisher_type='forward-only'`, the gradient factor of every layer is the identity as soon as there is a batch,
whether or not the layer is evaluated. -/
theorem hooks_forward_only (cfg : KfacCfg) (hf : cfg.fisher = .forwardOnly) (layers : List KLayer)
    (hnd : (layers.map KLayer.name).Nodup) (batches : List HookBatch) (hne : batches ≠ [])
    (h : ∀ b ∈ batches, BatchFine cfg layers b) (l : KLayer) (hl : l ∈ layers) :
    (hookLoop cfg layers batches ([], [])).2.2.get l.name = some ⟨l.dout, fun i j => if i = j then 1 else 0⟩ := by
  rw [hookLoop_fine cfg layers batches h, foldl_grad_get, filterMap_flatMap]
  generalize Dict.get (([], []) : Dict (Factor ℝ) × Dict (Factor ℝ)).2 l.name = o
  induction batches generalizing o with
  | nil => exact absurd rfl hne
  | cons b bs ih =>
    rw [List.flatMap_cons, List.foldl_append, hookBatch_setUpd cfg hf layers hnd b (h b (by simp)) l hl]
    have ha : [Upd.set ⟨l.dout, fun i j => if i = j then (1 : ℝ) else 0⟩].foldl Upd.apply o =
        some ⟨l.dout, fun i j => if i = j then 1 else 0⟩ := by cases o <;> rfl
    rw [ha]
    by_cases hbs : bs = []
    · subst hbs
      rfl
    · exact ih hbs (fun b hb => h b (List.mem_cons_of_mem _ hb)) _

/-! ## Layers that are not evaluated -/

theorem pyMapM_ok_mem {β γ : Type _} (f : β → Py γ) : ∀ (l : List β) (out : List γ), pyMapM f l = .ok out →
    ∀ x ∈ l, ∃ y, f x = .ok y
  | [], _, _, x, hx => by simp at hx
  | a :: l, out, h, x, hx => by
    unfold pyMapM at h
    cases ha : f a with
    | error e => simp [ha] at h
    | ok y =>
      cases hl : pyMapM f l with
      | error e => simp [ha, hl] at h
      | ok ys =>
        rcases List.mem_cons.mp hx with rfl | hx
        · exact ⟨y, ha⟩
        · exact pyMapM_ok_mem f l ys hl x hx

theorem getE_ok {β : Type _} {d : Dict β} {k : String} {t : β} (h : d.getE k = .ok t) : d.get k = some t := by
  unfold Dict.getE at h
  cases hd : d.get k with
  | none => simp [hd] at h
  | some u => simpa [hd] using h

/-- A layer's part of the product reads its gradient factor, and its input factor if the layer has a weight. -/
theorem layerProduct_reads (sep : Bool) (inCov gradCov : Dict (Factor ℝ)) (M : List (Tensor ℝ)) (name : String)
    (pos : Dict Nat) (ws : List (Nat × Tensor ℝ)) (h : layerProduct sep inCov gradCov M name pos = .ok ws) :
    (pos ≠ [] → gradCov.get name ≠ none) ∧ (pos.has "weight" = true → inCov.get name ≠ none) := by
  have key : ∀ ws, pyMapM (fun e : String × Nat => do
      let m ← listGet M e.2
      let B ← gradCov.getE name
      if e.1 = "weight" then do
        let A ← inCov.getE name
        let w ← weightProduct A B m
        .ok (e.2, w)
      else do
        let b ← mulLeft B m
        .ok (e.2, b)) pos = .ok ws →
      (pos ≠ [] → gradCov.get name ≠ none) ∧ (pos.has "weight" = true → inCov.get name ≠ none) := by
    intro ws h
    have hm := pyMapM_ok_mem _ _ _ h
    constructor
    · intro hp hg
      obtain ⟨e, ps, rfl⟩ := List.exists_cons_of_ne_nil hp
      obtain ⟨y, hy⟩ := hm e (by simp)
      cases h1 : listGet M e.2 with
      | error e => simp [h1, bind, Except.bind] at hy
      | ok m => simp [h1, Dict.getE, hg, bind, Except.bind] at hy
    · intro hw hi
      have : ∃ e ∈ pos, e.1 = "weight" := by
        unfold Dict.has at hw
        simpa using hw
      obtain ⟨e, he, hew⟩ := this
      obtain ⟨y, hy⟩ := hm e he
      cases h1 : listGet M e.2 with
      | error e => simp [h1, bind, Except.bind] at hy
      | ok m =>
        cases h2 : gradCov.getE name with
        | error e => simp [h1, h2, bind, Except.bind] at hy
        | ok B =>
          have h3 : inCov.getE name = .error .keyError := by simp [Dict.getE, hi]
          simp [h1, h2, hew, h3, bind, Except.bind] at hy
  unfold layerProduct at h
  split at h
  · rename_i wp bp hw hb
    cases h1 : listGet M wp with
    | error e => simp [h1, bind, Except.bind] at h
    | ok Mw =>
      cases h2 : listGet M bp with
      | error e => simp [h1, h2, bind, Except.bind] at h
      | ok Mb =>
        cases h3 : inCov.getE name with
        | error e => simp [h1, h2, h3, bind, Except.bind] at h
        | ok A =>
          cases h4 : gradCov.getE name with
          | error e => simp [h1, h2, h3, h4, bind, Except.bind] at h
          | ok B => exact ⟨fun _ => by simp [getE_ok h4], fun _ => by simp [getE_ok h3]⟩
  · exact key _ h

/-- C93: a product does not succeed if a layer with a weight is not evaluated in any batch, or if the network's output depends
on no evaluation of some layer (and there are backward passes). This also holds if the parameters are used otherwise. -/
theorem hooks_missing (cfg : KfacCfg) (layers : List KLayer) (hnd : (layers.map KLayer.name).Nodup)
    (batches : List HookBatch) (l : KLayer) (hl : l ∈ layers) (hpos : l.pos ≠ []) (hT : cfg.T ≠ 0) (hC : cfg.C ≠ 0)
    (hmc : cfg.mcSamples ≠ 0)
    (hmiss : (l.pos.has "weight" = true ∧ hookCalls batches l = []) ∨
      (cfg.fisher ≠ .forwardOnly ∧ hookReached batches l = [])) (M Y : List (Tensor ℝ)) :
    hookMatmat cfg layers batches M ≠ .ok Y := by
  intro h
  unfold hookMatmat at h
  cases hr : (hookLoop cfg layers batches ([], [])).1 with
  | error e => simp [hr] at h
  | ok u =>
    have hfine := (hooks_succeed_iff cfg layers hnd batches ([], [])).mp hr
    simp only [hr] at h
    unfold kfacMatmat at h
    cases hp : pyMapM (fun e : String × Dict Nat => layerProduct cfg.sep (hookLoop cfg layers batches ([], [])).2.1
        (hookLoop cfg layers batches ([], [])).2.2 M e.1 e.2) (layers.map fun l => (l.name, l.pos)) with
    | error e => simp [hp, bind, Except.bind] at h
    | ok ws =>
      obtain ⟨y, hy⟩ := pyMapM_ok_mem _ _ _ hp (l.name, l.pos) (List.mem_map.mpr ⟨l, hl, rfl⟩)
      obtain ⟨h1, h2⟩ := layerProduct_reads _ _ _ _ _ _ _ hy
      rcases hmiss with ⟨hw, hc⟩ | ⟨hf, hc⟩
      · exact h2 hw (by rw [hooks_input_factor cfg layers hnd batches hfine l hl hw, if_pos hc])
      · exact h1 hpos (by rw [hooks_grad_factor cfg hf hT hC hmc layers hnd batches hfine l hl, if_pos hc])

/-! ## The same forward pass in all batches -/

theorem specInputFactor_append (cfg : KfacCfg) (l : KLayer) (a b : List KDatum) (i j : Nat) :
    specInputFactor cfg l (a ++ b) i j = specInputFactor cfg l a i j + specInputFactor cfg l b i j := by
  unfold specInputFactor
  cases cfg.approx <;> simp [mul_add]

theorem specGradFactor_append (cfg : KfacCfg) (hf : cfg.fisher ≠ .forwardOnly) (l : KLayer) (a b : List KDatum) (i j : Nat) :
    specGradFactor cfg l (a ++ b) i j = specGradFactor cfg l a i j + specGradFactor cfg l b i j := by
  unfold specGradFactor
  cases hf' : cfg.fisher <;> cases cfg.approx <;> first
    | exact absurd hf' hf
    | simp [mul_add]

theorem specInputFactor_nil (cfg : KfacCfg) (l : KLayer) (i j : Nat) : specInputFactor cfg l [] i j = 0 := by
  unfold specInputFactor
  cases cfg.approx <;> simp

theorem specGradFactor_nil (cfg : KfacCfg) (hf : cfg.fisher ≠ .forwardOnly) (l : KLayer) (i j : Nat) :
    specGradFactor cfg l [] i j = 0 := by
  unfold specGradFactor
  cases hf' : cfg.fisher <;> cases cfg.approx <;> first
    | exact absurd hf' hf
    | simp

theorem uniform_sum (spec : LayerCall → List KDatum → ℝ) (hnil : ∀ c, spec c [] = 0)
    (happ : ∀ c a b, spec c (a ++ b) = spec c a + spec c b) (sel : HookBatch → List LayerCall) (cs : List LayerCall)
    (batches : List HookBatch) (h : ∀ b ∈ batches, sel b = cs) :
    ((batches.flatMap fun b => (sel b).map fun c => (b.data, c)).map fun e => spec e.2 e.1).sum =
      (cs.map fun c => spec c (batches.flatMap HookBatch.data)).sum := by
  induction batches with
  | nil => simp [hnil]
  | cons b bs ih =>
    have ih := ih fun b hb => h b (List.mem_cons_of_mem _ hb)
    rw [List.flatMap_cons, List.map_append, List.sum_append, ih, h b (by simp), List.flatMap_cons, List.map_map]
    simp only [happ]
    rw [List.sum_map_add]
    rfl

/-- C93: if the forward pass evaluates the same modules in all batches, the input factor is the sum over the evaluations of the
layer of the input factor for all data. In particular, it does not depend on the batches. -/
theorem hooks_uniform_input (cfg : KfacCfg) (layers : List KLayer) (hnd : (layers.map KLayer.name).Nodup)
    (batches : List HookBatch) (hne : batches ≠ []) (h : ∀ b ∈ batches, BatchFine cfg layers b) (cs : List LayerCall)
    (hcs : ∀ b ∈ batches, b.calls = cs) (l : KLayer) (hl : l ∈ layers) (hw : l.pos.has "weight" = true)
    (hev : ∃ c ∈ cs, c.layer = l.name) :
    (hookLoop cfg layers batches ([], [])).2.1.get l.name =
      some ⟨l.din + (if l.joint cfg then 1 else 0), fun i j => ((cs.filter fun c => decide (c.layer = l.name)).map fun c =>
        specInputFactor cfg (c.view l) (batches.flatMap HookBatch.data) i j).sum⟩ := by
  rw [hooks_input_factor cfg layers hnd batches h l hl hw, if_neg]
  · congr 2
    funext i j
    refine uniform_sum (fun c d => specInputFactor cfg (c.view l) d i j) (fun c => specInputFactor_nil _ _ _ _)
      (fun c a b => specInputFactor_append _ _ _ _ _ _) (fun b => b.callsOf l) _ batches fun b hb => ?_
    rw [HookBatch.callsOf, hcs b hb]
  · intro h0
    obtain ⟨b, bs, rfl⟩ := List.exists_cons_of_ne_nil hne
    obtain ⟨c, hc, hcl⟩ := hev
    have := List.flatMap_eq_nil_iff.mp h0 b (by simp)
    rw [List.map_eq_nil_iff, HookBatch.callsOf, hcs b (by simp), List.filter_eq_nil_iff] at this
    exact this c hc (by simpa using hcl)

/-- C93: the same for the gradient factor, with the evaluations that the network's output depends on. -/
theorem hooks_uniform_grad (cfg : KfacCfg) (hf : cfg.fisher ≠ .forwardOnly) (hT : cfg.T ≠ 0) (hC : cfg.C ≠ 0)
    (hmc : cfg.mcSamples ≠ 0) (layers : List KLayer) (hnd : (layers.map KLayer.name).Nodup)
    (batches : List HookBatch) (hne : batches ≠ []) (h : ∀ b ∈ batches, BatchFine cfg layers b) (cs : List LayerCall)
    (hcs : ∀ b ∈ batches, b.calls = cs) (l : KLayer) (hl : l ∈ layers)
    (hev : ∃ c ∈ cs, c.layer = l.name ∧ c.reached = true) :
    (hookLoop cfg layers batches ([], [])).2.2.get l.name =
      some ⟨l.dout, fun i j => ((cs.filter fun c => c.reached && decide (c.layer = l.name)).map fun c =>
        specGradFactor cfg (c.view l) (batches.flatMap HookBatch.data) i j).sum⟩ := by
  have hsel : ∀ b ∈ batches, b.reachedOf l = cs.filter fun c => c.reached && decide (c.layer = l.name) := by
    intro b hb
    rw [HookBatch.reachedOf, HookBatch.callsOf, hcs b hb, List.filter_filter]
  rw [hooks_grad_factor cfg hf hT hC hmc layers hnd batches h l hl, if_neg]
  · congr 2
    funext i j
    exact uniform_sum (fun c d => specGradFactor cfg (c.view l) d i j) (fun c => specGradFactor_nil _ hf _ _ _)
      (fun c a b => specGradFactor_append _ hf _ _ _ _ _) (fun b => b.reachedOf l) _ batches hsel
  · intro h0
    obtain ⟨b, bs, rfl⟩ := List.exists_cons_of_ne_nil hne
    obtain ⟨c, hc, hcl, hcr⟩ := hev
    have := List.flatMap_eq_nil_iff.mp h0 b (by simp)
    rw [List.map_eq_nil_iff, hsel b (by simp), List.filter_eq_nil_iff] at this
    exact this c hc (by simp [hcl, hcr])

/-! ## One evaluation per layer -/

/-- The evaluation of a layer in a network that evaluates every layer once. -/
def KLayer.call (l : KLayer) : LayerCall := ⟨l.name, l.name, l.S, 1, true, true⟩

/-- C93: if every layer is evaluated exactly once in each forward pass (in any order, and besides other modules), with one
input and an output that the network's output depends on, the factors are those of the simpler model. -/
theorem hooks_once (cfg : KfacCfg) (hT : cfg.T ≠ 0) (hC : cfg.C ≠ 0) (hmc : cfg.mcSamples ≠ 0) (layers : List KLayer)
    (hnd : (layers.map KLayer.name).Nodup) (batches : List HookBatch) (hne : batches ≠ [])
    (hu : ∀ b ∈ batches, b.used = true)
    (honce : ∀ b ∈ batches, ∀ l ∈ layers, b.callsOf l = [l.call]) :
    (hookLoop cfg layers batches ([], [])).1 = .ok () ∧ ∀ l ∈ layers,
      (l.pos.has "weight" = true → (hookLoop cfg layers batches ([], [])).2.1.get l.name =
        (kfacFactors cfg layers (batches.map HookBatch.data)).1.get l.name) ∧
      (hookLoop cfg layers batches ([], [])).2.2.get l.name =
        (kfacFactors cfg layers (batches.map HookBatch.data)).2.get l.name := by
  have hfine : ∀ b ∈ batches, BatchFine cfg layers b := by
    refine fun b hb => ⟨fun c hc l hl hn => ?_, .inr (hu b hb)⟩
    have : c ∈ b.callsOf l := List.mem_filter.mpr ⟨hc, by simpa using hn.symm⟩
    rw [honce b hb l hl, List.mem_singleton] at this
    rw [this]
    exact ⟨fun _ => rfl, rfl⟩
  have hflat : (batches.map HookBatch.data).flatten = batches.flatMap HookBatch.data := by
    rw [List.flatMap_def]
  refine ⟨(hooks_succeed_iff cfg layers hnd batches _).mpr hfine, fun l hl => ⟨fun hw => ?_, ?_⟩⟩
  · rw [hooks_input_factor cfg layers hnd batches hfine l hl hw,
      kfac_input_factor cfg layers hnd _ (by simpa using hne) l hl hw, if_neg]
    · congr 2
      funext i j
      rw [hflat]
      have := uniform_sum (fun c d => specInputFactor cfg (c.view l) d i j) (fun c => specInputFactor_nil _ _ _ _)
        (fun c a b => specInputFactor_append _ _ _ _ _ _) (fun b => b.callsOf l) [l.call] batches fun b hb => honce b hb l hl
      simpa [hookCalls, KLayer.call, LayerCall.view] using this
    · intro h0
      obtain ⟨b, bs, rfl⟩ := List.exists_cons_of_ne_nil hne
      have := List.flatMap_eq_nil_iff.mp h0 b (by simp)
      rw [honce b (by simp) l hl] at this
      simp at this
  · rw [kfac_grad_factor cfg layers hnd _ (by simpa using hne) hT hC hmc l hl]
    by_cases hf : cfg.fisher = .forwardOnly
    · rw [hooks_forward_only cfg hf layers hnd batches hne hfine l hl]
      congr 2
      funext i j
      simp [specGradFactor, hf]
    · have hr : ∀ b ∈ batches, b.reachedOf l = [l.call] := fun b hb => by
        rw [HookBatch.reachedOf, honce b hb l hl]
        rfl
      rw [hooks_grad_factor cfg hf hT hC hmc layers hnd batches hfine l hl, if_neg]
      · congr 2
        funext i j
        rw [hflat]
        have := uniform_sum (fun c d => specGradFactor cfg (c.view l) d i j) (fun c => specGradFactor_nil _ hf _ _ _)
          (fun c a b => specGradFactor_append _ hf _ _ _ _ _) (fun b => b.reachedOf l) [l.call] batches hr
        simpa [hookReached, KLayer.call, LayerCall.view] using this
      · intro h0
        obtain ⟨b, bs, rfl⟩ := List.exists_cons_of_ne_nil hne
        have := List.flatMap_eq_nil_iff.mp h0 b (by simp)
        rw [hr b (by simp)] at this
        simp at this

/-! ## Several evaluations and several positions -/

/-- The `r`-th evaluation of a layer that is evaluated at one position after the other. -/
def positionCall (l : KLayer) (key : Nat → String) (r : Nat) : LayerCall := ⟨l.name, key r, 1, 1, true, true⟩

/-- The evaluations see the positions of the layer. -/
def SeesPositions (l : KLayer) (key : Nat → String) (d : KDatum) : Prop :=
  ∀ r < l.S, d.x (key r) 0 = d.x l.name r ∧ d.jac (key r) 0 = d.jac l.name r

theorem positions_input (cfg : KfacCfg) (l : KLayer) (hS : l.S ≠ 0) (key : Nat → String) (data : List KDatum)
    (hd : ∀ d ∈ data, SeesPositions l key d) (i j : Nat) :
    (((List.range l.S).map (positionCall l key)).map fun c => specInputFactor cfg (c.view l) data i j).sum =
      l.S * specInputFactor { cfg with approx := .expand } l data i j := by
  have hS' : (l.S : ℝ) ≠ 0 := by exact_mod_cast hS
  have h1 : ∀ r < l.S, specInputFactor cfg ((positionCall l key r).view l) data i j =
      1 / (cfg.N : ℝ) * (data.map fun d => specInputVec cfg l d r i * specInputVec cfg l d r j).sum := by
    intro r hr
    have hvec : ∀ d ∈ data, ∀ i, specInputVec cfg ((positionCall l key r).view l) d 0 i = specInputVec cfg l d r i := by
      intro d hdm i
      have := (hd d hdm r hr).1
      simp only [specInputVec, positionCall, LayerCall.view, this]
      rfl
    have hmean : ∀ d ∈ data, ∀ i, specMeanInput cfg ((positionCall l key r).view l) d i = specInputVec cfg l d r i := by
      intro d hdm i
      have := (hd d hdm r hr).1
      simp only [specMeanInput, specInputVec, positionCall, LayerCall.view, this, Finset.range_one, Finset.sum_singleton,
        Nat.cast_one, div_one]
      rfl
    unfold specInputFactor
    cases cfg.approx with
    | expand =>
      simp only [show ((positionCall l key r).view l).S = 1 from rfl, Finset.range_one, Finset.sum_singleton, Nat.cast_one,
        mul_one]
      congr 2
      exact List.map_congr_left fun d hdm => by rw [hvec d hdm, hvec d hdm]
    | reduce =>
      dsimp only
      congr 2
      exact List.map_congr_left fun d hdm => by rw [hmean d hdm, hmean d hdm]
  rw [List.map_map]
  have h2 : (List.range l.S).map ((fun c : LayerCall => specInputFactor cfg (c.view l) data i j) ∘ positionCall l key) =
      (List.range l.S).map fun r =>
        1 / (cfg.N : ℝ) * (data.map fun d => specInputVec cfg l d r i * specInputVec cfg l d r j).sum :=
    List.map_congr_left fun r hr => h1 r (List.mem_range.mp hr)
  rw [h2, list_sum_map_mul_left, list_sum_comm_range]
  unfold specInputFactor
  simp only [sum_range_list]
  rw [show (l.S : ℝ) * (1 / (cfg.N * l.S : ℝ) * (data.map fun d => ∑ s ∈ Finset.range l.S,
      specInputVec { cfg with approx := .expand } l d s i * specInputVec { cfg with approx := .expand } l d s j).sum) =
    (l.S : ℝ) * (1 / (cfg.N * l.S : ℝ)) * (data.map fun d => ∑ s ∈ Finset.range l.S,
      specInputVec { cfg with approx := .expand } l d s i * specInputVec { cfg with approx := .expand } l d s j).sum by ring]
  congr 1
  rw [one_div, one_div, mul_inv, mul_comm, mul_assoc, inv_mul_cancel₀ hS', mul_one]

theorem positions_grad (cfg : KfacCfg) (hf : cfg.fisher ≠ .forwardOnly) (l : KLayer) (key : Nat → String)
    (data : List KDatum) (hd : ∀ d ∈ data, SeesPositions l key d) (i j : Nat) :
    (((List.range l.S).map (positionCall l key)).map fun c => specGradFactor cfg (c.view l) data i j).sum =
      specGradFactor { cfg with approx := .expand } l data i j := by
  have hspec : ∀ (a : KfacApprox) (m : KLayer), specGradFactor { cfg with approx := a } m data i j =
      specGradScale cfg * (data.map fun d => ((specCotangents cfg d).map fun v => match a with
        | .expand => ∑ s ∈ Finset.range m.S, specGradVec cfg m d v s i * specGradVec cfg m d v s j
        | .reduce => (∑ s ∈ Finset.range m.S, specGradVec cfg m d v s i) *
            ∑ s ∈ Finset.range m.S, specGradVec cfg m d v s j).sum).sum := by
    intro a m
    obtain ⟨fisher, approx, loss, mean, mc, N, T, C, sep⟩ := cfg
    cases fisher <;> cases a <;> first
      | exact absurd rfl hf
      | rfl
  have h1 : ∀ r < l.S, specGradFactor cfg ((positionCall l key r).view l) data i j =
      specGradScale cfg * (data.map fun d => ((specCotangents cfg d).map fun v =>
        specGradVec cfg l d v r i * specGradVec cfg l d v r j).sum).sum := by
    intro r hr
    have hvec : ∀ d ∈ data, ∀ v o, specGradVec cfg ((positionCall l key r).view l) d v 0 o = specGradVec cfg l d v r o := by
      intro d hdm v o
      have := (hd d hdm r hr).2
      simp only [specGradVec, positionCall, LayerCall.view, this]
    have := hspec cfg.approx ((positionCall l key r).view l)
    rw [show ({ cfg with approx := cfg.approx } : KfacCfg) = cfg from rfl] at this
    rw [this]
    congr 2
    refine List.map_congr_left fun d hdm => ?_
    congr 1
    refine List.map_congr_left fun v _ => ?_
    cases cfg.approx <;> simp only [show ((positionCall l key r).view l).S = 1 from rfl, Finset.range_one,
      Finset.sum_singleton, hvec d hdm]
  rw [List.map_map]
  have h2 : (List.range l.S).map ((fun c : LayerCall => specGradFactor cfg (c.view l) data i j) ∘ positionCall l key) =
      (List.range l.S).map fun r => specGradScale cfg * (data.map fun d => ((specCotangents cfg d).map fun v =>
        specGradVec cfg l d v r i * specGradVec cfg l d v r j).sum).sum :=
    List.map_congr_left fun r hr => h1 r (List.mem_range.mp hr)
  rw [h2, list_sum_map_mul_left, list_sum_comm_range, hspec .expand l]
  congr 2
  refine List.map_congr_left fun d _ => ?_
  rw [list_sum_comm_range]
  congr 1

/-- C93: a layer that is evaluated at its `S` positions one after the other, instead of once at all positions, has the same
gradient factor and `S` times the input factor that KFAC-expand computes for the latter, whatever `kfac_approx`. So KFAC
depends on how the same network is written. -/
theorem hooks_positions (cfg : KfacCfg) (hf : cfg.fisher ≠ .forwardOnly) (hT : cfg.T ≠ 0) (hC : cfg.C ≠ 0)
    (hmc : cfg.mcSamples ≠ 0) (layers : List KLayer) (hnd : (layers.map KLayer.name).Nodup)
    (batches : List HookBatch) (hne : batches ≠ []) (h : ∀ b ∈ batches, BatchFine cfg layers b) (cs : List LayerCall)
    (hcs : ∀ b ∈ batches, b.calls = cs) (l : KLayer) (hl : l ∈ layers) (hw : l.pos.has "weight" = true) (hS : l.S ≠ 0)
    (key : Nat → String) (hkey : (cs.filter fun c => decide (c.layer = l.name)) = (List.range l.S).map (positionCall l key))
    (hd : ∀ b ∈ batches, ∀ d ∈ b.data, SeesPositions l key d) :
    ∃ A A' B : Factor ℝ,
      (hookLoop cfg layers batches ([], [])).2.1.get l.name = some A ∧
      (kfacFactors { cfg with approx := .expand } layers (batches.map HookBatch.data)).1.get l.name = some A' ∧
      (hookLoop cfg layers batches ([], [])).2.2.get l.name = some B ∧
      (kfacFactors { cfg with approx := .expand } layers (batches.map HookBatch.data)).2.get l.name = some B ∧
      A.dim = A'.dim ∧ ∀ i j, A.mat i j = l.S * A'.mat i j := by
  have hflat : (batches.map HookBatch.data).flatten = batches.flatMap HookBatch.data := by
    rw [List.flatMap_def]
  have hd' : ∀ d ∈ batches.flatMap HookBatch.data, SeesPositions l key d := by
    intro d hdm
    obtain ⟨b, hb, hdb⟩ := List.mem_flatMap.mp hdm
    exact hd b hb d hdb
  have h0 : positionCall l key 0 ∈ cs.filter fun c => decide (c.layer = l.name) := by
    rw [hkey]
    exact List.mem_map.mpr ⟨0, List.mem_range.mpr (Nat.pos_of_ne_zero hS), rfl⟩
  have h0' := List.mem_filter.mp h0
  have hkey' : (cs.filter fun c => c.reached && decide (c.layer = l.name)) = (List.range l.S).map (positionCall l key) := by
    rw [← List.filter_filter, hkey, List.filter_eq_self]
    intro c hc
    obtain ⟨r, _, rfl⟩ := List.mem_map.mp hc
    rfl
  refine ⟨_, _, _, hooks_uniform_input cfg layers hnd batches hne h cs hcs l hl hw ⟨_, h0'.1, rfl⟩,
    kfac_input_factor _ layers hnd _ (by simpa using hne) l hl hw,
    hooks_uniform_grad cfg hf hT hC hmc layers hnd batches hne h cs hcs l hl ⟨_, h0'.1, rfl, rfl⟩, ?_, rfl, fun i j => ?_⟩
  · rw [kfac_grad_factor { cfg with approx := .expand } layers hnd _ (by simpa using hne) hT hC hmc l hl]
    congr 2
    funext i j
    rw [hflat, hkey', positions_grad cfg hf l key _ hd' i j]
  · dsimp only
    rw [hflat, hkey, positions_input cfg l hS key _ hd' i j]

/-- C93: for a layer whose weight and bias are treated jointly, the entry of the input factor that belongs to the bias counts the
evaluations. -/
theorem hooks_bias_entry (cfg : KfacCfg) (layers : List KLayer) (hnd : (layers.map KLayer.name).Nodup)
    (batches : List HookBatch) (hdata : batches.flatMap HookBatch.data ≠ [])
    (hN : cfg.N = (batches.flatMap HookBatch.data).length) (h : ∀ b ∈ batches, BatchFine cfg layers b) (cs : List LayerCall)
    (hcs : ∀ b ∈ batches, b.calls = cs) (l : KLayer) (hl : l ∈ layers) (hj : l.joint cfg = true)
    (hev : ∃ c ∈ cs, c.layer = l.name) (hS : ∀ c ∈ cs, c.layer = l.name → c.S ≠ 0) :
    ∃ A : Factor ℝ, (hookLoop cfg layers batches ([], [])).2.1.get l.name = some A ∧
      A.mat l.din l.din = (cs.filter fun c => decide (c.layer = l.name)).length := by
  have hne : batches ≠ [] := by
    rintro rfl
    exact hdata rfl
  have hw : l.pos.has "weight" = true := by
    unfold KLayer.joint at hj
    simp only [Bool.and_eq_true] at hj
    exact hj.1.1
  refine ⟨_, hooks_uniform_input cfg layers hnd batches hne h cs hcs l hl hw hev, ?_⟩
  have hN' : (cfg.N : ℝ) ≠ 0 := by
    rw [hN]
    exact_mod_cast fun h0 => hdata (List.length_eq_zero_iff.mp h0)
  have h1 : ∀ c ∈ cs.filter (fun c => decide (c.layer = l.name)),
      specInputFactor cfg (c.view l) (batches.flatMap HookBatch.data) l.din l.din = 1 := by
    intro c hc
    obtain ⟨hc, hcl⟩ := List.mem_filter.mp hc
    have hSc : (c.S : ℝ) ≠ 0 := by exact_mod_cast hS c hc (by simpa using hcl)
    have hj' : (c.view l).joint cfg = true := hj
    have hdin : (c.view l).din = l.din := rfl
    have hSv : (c.view l).S = c.S := rfl
    unfold specInputFactor
    cases cfg.approx with
    | expand =>
      simp only [specInputVec, hj', hdin, hSv, and_self, if_true, mul_one, Finset.sum_const, Finset.card_range, nsmul_eq_mul,
        List.map_const', List.sum_replicate, ← hN]
      field_simp
    | reduce =>
      simp only [specMeanInput, hj', hdin, and_self, if_true, mul_one, List.map_const', List.sum_replicate, nsmul_eq_mul, ← hN]
      field_simp
  dsimp only
  rw [List.map_congr_left h1]
  simp

/-! ## Examples -/

/-- A network `x ↦ w x₁ + w x₂` that evaluates the layer `fc` twice, with the inputs `1` and `-1`; the loss has second
derivative `1`. -/
def twiceLayer : KLayer := ⟨"fc", [("weight", 0)], 1, 1, 2⟩

def twiceDatum : KDatum :=
  ⟨fun key s _ => if key = "fc" then (if s = 0 then 1 else -1) else if key = "first" then 1 else -1, fun _ _ _ _ _ => 1,
    fun _ _ _ => 1, fun _ _ _ => 1⟩

def twiceKey : Nat → String := fun r => if r = 0 then "first" else "second"

def twiceBatch : HookBatch := ⟨[twiceDatum], [⟨"fc", "first", 1, 1, true, true⟩, ⟨"act", "act", 1, 1, true, true⟩,
  ⟨"fc", "second", 1, 1, true, true⟩], true⟩

theorem twiceBatch_fine (a : KfacApprox) :
    ∀ b ∈ [twiceBatch], BatchFine ⟨.type2, a, .mse, false, 1, 1, 1, 1, false⟩ [twiceLayer] b := by
  simp [BatchFine, twiceBatch, CallFine, twiceLayer]

/-- C93: the derivative of the network with respect to `w` is `x₁ + x₂ = 0`, hence so is the GGN. KFAC is not refused, and is
`2 * 2` with both approximations; if the layer is evaluated once at two positions, it is `1 * 2` (expand) or `0` (reduce). -/
theorem evaluated_twice (a : KfacApprox) :
    ∃ A B A₁ B₁ : Factor ℝ,
      (hookLoop ⟨.type2, a, .mse, false, 1, 1, 1, 1, false⟩ [twiceLayer] [twiceBatch] ([], [])).1 = .ok () ∧
      (hookLoop ⟨.type2, a, .mse, false, 1, 1, 1, 1, false⟩ [twiceLayer] [twiceBatch] ([], [])).2.1.get "fc" = some A ∧
      (hookLoop ⟨.type2, a, .mse, false, 1, 1, 1, 1, false⟩ [twiceLayer] [twiceBatch] ([], [])).2.2.get "fc" = some B ∧
      A.mat 0 0 = 2 ∧ B.mat 0 0 = 2 ∧
      (kfacFactors ⟨.type2, .reduce, .mse, false, 1, 1, 1, 1, false⟩ [twiceLayer] [[twiceDatum]]).1.get "fc" = some A₁ ∧
      (kfacFactors ⟨.type2, .reduce, .mse, false, 1, 1, 1, 1, false⟩ [twiceLayer] [[twiceDatum]]).2.get "fc" = some B₁ ∧
      A₁.mat 0 0 * B₁.mat 0 0 = 0 ∧
      (∑ r ∈ Finset.range 2, twiceDatum.jac (twiceKey r) 0 0 0 0 * twiceDatum.x (twiceKey r) 0 0) ^ 2 = 0 := by
  have hpos := hooks_positions ⟨.type2, a, .mse, false, 1, 1, 1, 1, false⟩ (by simp) (by simp) (by simp) (by simp) [twiceLayer]
    (by simp) [twiceBatch] (by simp) (twiceBatch_fine a) twiceBatch.calls (by simp) twiceLayer (by simp)
    (by simp [twiceLayer, Dict.has]) (by simp [twiceLayer]) twiceKey
    (by simp [twiceBatch, twiceLayer, positionCall, twiceKey, List.range_succ])
    (by
      intro b hb d hd r hr
      obtain rfl := List.mem_singleton.mp hb
      obtain rfl : d = twiceDatum := by simpa [twiceBatch] using hd
      have : r = 0 ∨ r = 1 := by
        simp only [twiceLayer] at hr
        omega
      rcases this with rfl | rfl <;> refine ⟨?_, rfl⟩ <;> funext i <;> simp [twiceDatum, twiceKey, twiceLayer])
  obtain ⟨A, A', B, h1, h2, h3, h4, -, h5⟩ := hpos
  have hA' := kfac_input_factor ⟨.type2, .expand, .mse, false, 1, 1, 1, 1, false⟩ [twiceLayer] (by simp) [[twiceDatum]] (by simp)
    twiceLayer (by simp) (by simp [twiceLayer, Dict.has])
  have hB' := kfac_grad_factor ⟨.type2, .expand, .mse, false, 1, 1, 1, 1, false⟩ [twiceLayer] (by simp) [[twiceDatum]] (by simp)
    (by simp) (by simp) (by simp) twiceLayer (by simp)
  have e1 := Option.some.inj (h2.symm.trans hA')
  have e2 := Option.some.inj (h4.symm.trans hB')
  refine ⟨A, B, _, _, (hooks_succeed_iff _ _ (by simp) _ _).mpr (twiceBatch_fine a), h1, h3, ?_, ?_,
    kfac_input_factor ⟨.type2, .reduce, .mse, false, 1, 1, 1, 1, false⟩ [twiceLayer] (by simp) [[twiceDatum]] (by simp)
      twiceLayer (by simp) (by simp [twiceLayer, Dict.has]),
    kfac_grad_factor ⟨.type2, .reduce, .mse, false, 1, 1, 1, 1, false⟩ [twiceLayer] (by simp) [[twiceDatum]] (by simp)
      (by simp) (by simp) (by simp) twiceLayer (by simp), ?_, ?_⟩
  · rw [h5, e1]
    simp [specInputFactor, specInputVec, twiceLayer, twiceDatum, KLayer.joint, Dict.has, Finset.sum_range_succ]
    norm_num
  · rw [e2]
    simp [specGradFactor, specGradScale, specCotangents, specGradVec, twiceLayer, twiceDatum, Finset.sum_range_succ]
    norm_num
  · simp [specInputFactor, specMeanInput, twiceLayer, twiceDatum, KLayer.joint, Dict.has, Finset.sum_range_succ]
  · simp [Finset.sum_range_succ, twiceDatum, twiceKey]

/-- A layer that is called with a keyword argument: `ValueError`; a layer whose output is not used by the network:
`RuntimeError` from the backward pass, and no exception during the forward-only computation. -/
example (M : List (Tensor ℝ)) :
    hookMatmat ⟨.type2, .expand, .mse, false, 1, 1, 1, 1, false⟩ [twiceLayer]
      [twiceBatch, ⟨[twiceDatum], [⟨"fc", "first", 1, 0, true, true⟩], true⟩] M = .error .valueError ∧
    hookMatmat ⟨.type2, .expand, .mse, false, 1, 1, 1, 1, false⟩ [twiceLayer]
      [⟨[twiceDatum], [⟨"fc", "first", 1, 1, true, false⟩], false⟩] M = .error .runtimeError ∧
    (hookLoop ⟨.forwardOnly, .expand, .mse, false, 1, 1, 1, 1, false⟩ [twiceLayer]
      [⟨[twiceDatum], [⟨"fc", "first", 1, 1, true, false⟩], false⟩] ([], [])).1 = .ok () := by
  refine ⟨?_, ?_, ?_⟩
  · exact hooks_call_exception ⟨.type2, .expand, .mse, false, 1, 1, 1, 1, false⟩ [twiceLayer] (by simp) [twiceBatch] []
      (twiceBatch_fine .expand) ⟨[twiceDatum], [⟨"fc", "first", 1, 0, true, true⟩], true⟩ [] []
      ⟨"fc", "first", 1, 0, true, true⟩ rfl (by simp) twiceLayer (by simp) rfl
      (.inl ⟨by simp [twiceLayer, Dict.has], by simp⟩) M
  · exact hooks_unused_exception ⟨.type2, .expand, .mse, false, 1, 1, 1, 1, false⟩ [twiceLayer] (by simp [numPasses]) [] []
      (by simp) ⟨[twiceDatum], [⟨"fc", "first", 1, 1, true, false⟩], false⟩ (by simp [CallFine, twiceLayer]) rfl M
  · rw [hooks_succeed_iff _ _ (by simp)]
    simp [BatchFine, CallFine, twiceLayer, numPasses]

/-- The first evaluation succeeds, the second has no positional input: `ValueError`, and what is left are the input factor of
the first evaluation alone and no gradient factor. -/
example :
    (hookLoop ⟨.type2, .expand, .mse, false, 1, 1, 1, 1, false⟩ [twiceLayer]
      [⟨[twiceDatum], [⟨"fc", "first", 1, 1, true, true⟩, ⟨"fc", "second", 1, 0, true, true⟩], true⟩] ([], [])).2 =
    ((hookLoop ⟨.type2, .expand, .mse, false, 1, 1, 1, 1, false⟩ [twiceLayer]
      [⟨[twiceDatum], [⟨"fc", "first", 1, 1, true, true⟩], true⟩] ([], [])).2.1, []) :=
  hooks_call_leaves ⟨.type2, .expand, .mse, false, 1, 1, 1, 1, false⟩ [twiceLayer] (by simp) [] [] (by simp)
    ⟨[twiceDatum], [⟨"fc", "first", 1, 1, true, true⟩, ⟨"fc", "second", 1, 0, true, true⟩], true⟩
    [⟨"fc", "first", 1, 1, true, true⟩] [] ⟨"fc", "second", 1, 0, true, true⟩ rfl (by simp [CallFine, twiceLayer]) twiceLayer
    (by simp) rfl (.inl ⟨by simp [twiceLayer, Dict.has], by simp⟩) ([], [])

/-- A layer that is never evaluated although its parameters are used: no exception while the factors are computed, but
products fail. -/
example (M Y : List (Tensor ℝ)) :
    (hookLoop ⟨.type2, .expand, .mse, false, 1, 1, 1, 1, false⟩ [twiceLayer] [⟨[twiceDatum], [], true⟩] ([], [])).1 = .ok () ∧
    hookMatmat ⟨.type2, .expand, .mse, false, 1, 1, 1, 1, false⟩ [twiceLayer] [⟨[twiceDatum], [], true⟩] M ≠ .ok Y := by
  refine ⟨?_, hooks_missing _ _ (by simp) _ twiceLayer (by simp) (by simp [twiceLayer]) (by simp) (by simp) (by simp)
    (.inl ⟨by simp [twiceLayer, Dict.has], rfl⟩) M Y⟩
  rw [hooks_succeed_iff _ _ (by simp)]
  simp [BatchFine]

/-- The entry of the bias is `2` for two evaluations, and `1` for one. -/
example : ∃ A : Factor ℝ, (hookLoop ⟨.type2, .expand, .mse, false, 1, 1, 1, 1, false⟩
    [⟨"fc", [("weight", 0), ("bias", 1)], 1, 1, 1⟩] [twiceBatch] ([], [])).2.1.get "fc" = some A ∧ A.mat 1 1 = 2 := by
  have := hooks_bias_entry ⟨.type2, .expand, .mse, false, 1, 1, 1, 1, false⟩ [⟨"fc", [("weight", 0), ("bias", 1)], 1, 1, 1⟩]
    (by simp) [twiceBatch] (by simp [twiceBatch]) (by simp [twiceBatch]) (by simp [BatchFine, CallFine, twiceBatch])
    twiceBatch.calls (by simp) ⟨"fc", [("weight", 0), ("bias", 1)], 1, 1, 1⟩ (by simp) (by simp [KLayer.joint, Dict.has])
    (by simp [twiceBatch]) (by simp [twiceBatch])
  simpa [twiceBatch] using this

end Curvlinops
