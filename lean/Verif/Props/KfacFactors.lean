import Verif.Spec.KfacFactors
import Verif.Props.KfacMapping
import Mathlib.Tactic.FieldSimp
import Mathlib.Tactic.Ring

/-!
# C30: KFAC's factors do not depend on the mini-batching
-/

namespace Curvlinops

/-! ## Accumulation in dictionaries -/

theorem Dict.get_set {β : Type _} (d : Dict β) (k k' : String) (v : β) :
    (d.set k v).get k' = if k' = k then some v else d.get k' := by
  induction d with
  | nil =>
    simp only [Dict.set, Dict.get, List.lookup]
    by_cases h : k' = k
    · simp [h]
    · have hb : (k' == k) = false := by simpa using h
      simp [hb, h]
  | cons e d ih =>
    obtain ⟨a, b⟩ := e
    simp only [Dict.get] at ih ⊢
    unfold Dict.set
    by_cases ha : a = k
    · subst ha
      rw [if_pos rfl]
      by_cases h : k' = a
      · simp [List.lookup, h]
      · have hb : (k' == a) = false := by simpa using h
        simp [List.lookup, hb, h]
    · rw [if_neg ha]
      by_cases h : k' = a
      · subst h
        simp [List.lookup, ha]
      · have : (k' == a) = false := by simpa using h
        simp only [List.lookup, this, ih]

/-- What happens to one entry. -/
inductive Upd
  | add (f : Factor ℝ)
  | set (f : Factor ℝ)

/-- Effect on the entry. -/
def Upd.apply : Option (Factor ℝ) → Upd → Option (Factor ℝ)
  | none, .add f => some f
  | some g, .add f => some ⟨g.dim, fun i j => g.mat i j + f.mat i j⟩
  | _, .set f => some f

/-- Updates of the input covariance of layer `name`. -/
def inUpd (name : String) : KEvent → Option Upd
  | .input n f => if n = name then some (.add f) else none
  | _ => none

/-- Updates of the gradient covariance of layer `name`. -/
def gradUpd (name : String) : KEvent → Option Upd
  | .grad n f => if n = name then some (.add f) else none
  | .setGrad n f => if n = name then some (.set f) else none
  | _ => none

theorem addCov_get (d : Dict (Factor ℝ)) (n name : String) (f : Factor ℝ) :
    (addCov d n f).get name = if n = name then Upd.apply (d.get name) (.add f) else d.get name := by
  unfold addCov
  by_cases hn : n = name
  · subst hn
    cases h : d.get n with
    | none => simp [Dict.get_set, Upd.apply]
    | some g => simp [Dict.get_set, Upd.apply]
  · cases h : d.get n with
    | none => simp [Dict.get_set, hn, Ne.symm hn]
    | some g => simp [Dict.get_set, hn, Ne.symm hn]

theorem foldl_input_get (es : List KEvent) (st : Dict (Factor ℝ) × Dict (Factor ℝ)) (name : String) :
    (es.foldl applyEvent st).1.get name = (es.filterMap (inUpd name)).foldl Upd.apply (st.1.get name) := by
  induction es generalizing st with
  | nil => rfl
  | cons e es ih =>
    rw [List.foldl_cons, ih]
    cases e with
    | input n f =>
      simp only [applyEvent, addCov_get]
      by_cases hn : n = name
      · simp [hn, inUpd]
      · simp [hn, inUpd]
    | grad n f => simp [applyEvent, inUpd, List.filterMap_cons]
    | setGrad n f => simp [applyEvent, inUpd, List.filterMap_cons]

theorem foldl_grad_get (es : List KEvent) (st : Dict (Factor ℝ) × Dict (Factor ℝ)) (name : String) :
    (es.foldl applyEvent st).2.get name = (es.filterMap (gradUpd name)).foldl Upd.apply (st.2.get name) := by
  induction es generalizing st with
  | nil => rfl
  | cons e es ih =>
    rw [List.foldl_cons, ih]
    cases e with
    | input n f => simp [applyEvent, gradUpd, List.filterMap_cons]
    | grad n f =>
      simp only [applyEvent, addCov_get]
      by_cases hn : n = name
      · simp [hn, gradUpd]
      · simp [hn, gradUpd]
    | setGrad n f =>
      simp only [applyEvent, Dict.get_set]
      by_cases hn : n = name
      · simp only [hn, if_true, gradUpd, List.filterMap_cons, List.foldl_cons]
        cases st.2.get name <;> rfl
      · simp [hn, Ne.symm hn, gradUpd]

theorem foldl_add_upd (fs : List (Factor ℝ)) (g : Factor ℝ) :
    (fs.map Upd.add).foldl Upd.apply (some g) =
      some ⟨g.dim, fun i j => g.mat i j + (fs.map fun f => f.mat i j).sum⟩ := by
  induction fs generalizing g with
  | nil => simp
  | cons f fs ih => simp [Upd.apply, ih, add_assoc]

/-- A non-empty list of covariances of one dimension accumulates to the sum. -/
theorem foldl_add_upd_none (fs : List (Factor ℝ)) (n : Nat) (hne : fs ≠ []) (hdim : ∀ f ∈ fs, f.dim = n) :
    (fs.map Upd.add).foldl Upd.apply none = some ⟨n, fun i j => (fs.map fun f => f.mat i j).sum⟩ := by
  cases fs with
  | nil => exact absurd rfl hne
  | cons f fs =>
    simp only [List.map_cons, List.foldl_cons, Upd.apply, foldl_add_upd, List.sum_cons]
    rw [hdim f (by simp)]

theorem filterMap_map_unique {γ : Type _} (layers : List KLayer) (l : KLayer) (hl : l ∈ layers)
    (hnd : (layers.map KLayer.name).Nodup) (mk : KLayer → KEvent) (upd : KEvent → Option γ) (u : γ)
    (h1 : upd (mk l) = some u) (h2 : ∀ m : KLayer, m.name ≠ l.name → upd (mk m) = none) :
    (layers.map mk).filterMap upd = [u] := by
  induction layers with
  | nil => simp at hl
  | cons m ms ih =>
    rw [List.map_cons, List.nodup_cons] at hnd
    rw [List.map_cons, List.filterMap_cons]
    rcases List.mem_cons.mp hl with rfl | hl
    · rw [h1]
      have : (ms.map mk).filterMap upd = [] := by
        rw [List.filterMap_eq_nil_iff]
        intro e he
        obtain ⟨k, hk, rfl⟩ := List.mem_map.mp he
        exact h2 k fun hkn => hnd.1 (List.mem_map.mpr ⟨k, hk, hkn⟩)
      simp [this]
    · rw [h2 m fun hmn => hnd.1 (List.mem_map.mpr ⟨l, hl, hmn.symm⟩)]
      exact ih hl hnd.2

theorem foldl_batches (cfg : KfacCfg) (layers : List KLayer) (batches : List (List KDatum))
    (st : Dict (Factor ℝ) × Dict (Factor ℝ)) :
    batches.foldl (fun st b => (batchEvents cfg layers b).foldl applyEvent st) st =
      (batches.flatMap (batchEvents cfg layers)).foldl applyEvent st := by
  induction batches generalizing st with
  | nil => rfl
  | cons b bs ih => rw [List.foldl_cons, ih, List.flatMap_cons, List.foldl_append]

theorem flatMap_singleton_map {β γ : Type _} (l : List β) (f : β → γ) : (l.flatMap fun b => [f b]) = l.map f := by
  induction l with
  | nil => rfl
  | cons b l ih => simp [ih]

theorem filterMap_flatMap {β γ δ : Type _} (l : List β) (f : β → List γ) (g : γ → Option δ) :
    (l.flatMap f).filterMap g = l.flatMap fun b => (f b).filterMap g := by
  induction l with
  | nil => rfl
  | cons b l ih => simp [List.filterMap_append, ih]

theorem kfacFactors_inUpd (cfg : KfacCfg) (layers : List KLayer) (hnd : (layers.map KLayer.name).Nodup)
    (batches : List (List KDatum)) (l : KLayer) (hl : l ∈ layers) (hw : l.pos.has "weight" = true) :
    (batches.flatMap (batchEvents cfg layers)).filterMap (inUpd l.name) =
      (batches.map fun b => inputCovariance cfg l b).map Upd.add := by
  rw [filterMap_flatMap, List.map_map, ← flatMap_singleton_map]
  refine List.flatMap_congr fun b _ => ?_
  unfold batchEvents
  rw [List.filterMap_append]
  have h1 : (((layers.filter fun (l : KLayer) => l.pos.has "weight").map
      (fun (l : KLayer) => KEvent.input l.name (inputCovariance cfg l b))).filterMap (inUpd l.name)) =
      [Upd.add (inputCovariance cfg l b)] := by
    refine filterMap_map_unique _ l (List.mem_filter.mpr ⟨hl, hw⟩)
      (hnd.sublist (List.filter_sublist.map _)) _ _ _ (by simp [inUpd]) fun m hm => by simp [inUpd, hm]
  rw [h1]
  have h2 : (backwardEvents cfg layers b).filterMap (inUpd l.name) = [] := by
    rw [List.filterMap_eq_nil_iff]
    intro e he
    unfold backwardEvents at he
    cases hf : cfg.fisher <;> simp only [hf] at he
    all_goals
      first
      | (obtain ⟨m, _, rfl⟩ := List.mem_map.mp he; rfl)
      | (obtain ⟨k, _, he⟩ := List.mem_flatMap.mp he; obtain ⟨m, _, rfl⟩ := List.mem_map.mp he; rfl)
  rw [h2]
  rfl

theorem kfacFactors_gradUpd (cfg : KfacCfg) (hf : cfg.fisher ≠ .forwardOnly) (layers : List KLayer)
    (hnd : (layers.map KLayer.name).Nodup) (batches : List (List KDatum)) (l : KLayer) (hl : l ∈ layers) :
    (batches.flatMap (batchEvents cfg layers)).filterMap (gradUpd l.name) =
      (batches.flatMap fun b => (List.range (numPasses cfg)).map fun k => gradCovariance cfg l b k).map Upd.add := by
  rw [filterMap_flatMap, List.map_flatMap]
  refine List.flatMap_congr fun b _ => ?_
  unfold batchEvents
  rw [List.filterMap_append]
  have h1 : (((layers.filter fun (l : KLayer) => l.pos.has "weight").map
      (fun (l : KLayer) => KEvent.input l.name (inputCovariance cfg l b))).filterMap (gradUpd l.name)) = [] := by
    rw [List.filterMap_eq_nil_iff]
    intro e he
    obtain ⟨m, _, rfl⟩ := List.mem_map.mp he
    rfl
  have h2 : backwardEvents cfg layers b =
      (List.range (numPasses cfg)).flatMap fun k =>
        layers.reverse.map fun (l : KLayer) => KEvent.grad l.name (gradCovariance cfg l b k) := by
    unfold backwardEvents
    cases hf' : cfg.fisher <;> first | rfl | exact absurd hf' hf
  rw [h1, h2, List.nil_append, filterMap_flatMap, List.map_map, ← flatMap_singleton_map]
  refine List.flatMap_congr fun k _ => ?_
  exact filterMap_map_unique _ l (List.mem_reverse.mpr hl) (by rw [List.map_reverse, List.nodup_reverse]; exact hnd)
    _ _ _ (by simp [gradUpd]) fun m hm => by simp [gradUpd, hm]

theorem kfacFactors_setUpd (cfg : KfacCfg) (hf : cfg.fisher = .forwardOnly) (layers : List KLayer)
    (hnd : (layers.map KLayer.name).Nodup) (batches : List (List KDatum)) (l : KLayer) (hl : l ∈ layers) :
    (batches.flatMap (batchEvents cfg layers)).filterMap (gradUpd l.name) =
      batches.map fun _ => Upd.set ⟨l.dout, fun i j => if i = j then 1 else 0⟩ := by
  rw [filterMap_flatMap, ← flatMap_singleton_map]
  refine List.flatMap_congr fun b _ => ?_
  unfold batchEvents
  rw [List.filterMap_append]
  have h1 : (((layers.filter fun (l : KLayer) => l.pos.has "weight").map
      (fun (l : KLayer) => KEvent.input l.name (inputCovariance cfg l b))).filterMap (gradUpd l.name)) = [] := by
    rw [List.filterMap_eq_nil_iff]
    intro e he
    obtain ⟨m, _, rfl⟩ := List.mem_map.mp he
    rfl
  rw [h1, List.nil_append]
  simp only [backwardEvents, hf]
  exact filterMap_map_unique _ l hl hnd _ _ _ (by simp [gradUpd]) fun m hm => by simp [gradUpd, hm]

/-! ## The sums -/

theorem gram_append (r r' : List (Nat → ℝ)) (i j : Nat) : gram (r ++ r') i j = gram r i j + gram r' i j := by
  simp [gram]

theorem gram_flatMap {β : Type _} (l : List β) (f : β → List (Nat → ℝ)) (i j : Nat) :
    gram (l.flatMap f) i j = (l.map fun b => gram (f b) i j).sum := by
  induction l with
  | nil => simp [gram]
  | cons b l ih => rw [List.flatMap_cons, gram_append, ih, List.map_cons, List.sum_cons]

theorem sum_range_list (n : Nat) (f : Nat → ℝ) : ((List.range n).map f).sum = ∑ k ∈ Finset.range n, f k := by
  induction n with
  | zero => simp
  | succ n ih => rw [List.range_succ, List.map_append, List.sum_append, ih, Finset.sum_range_succ]; simp

theorem list_sum_map_mul_left {β : Type _} (l : List β) (f : β → ℝ) (c : ℝ) :
    (l.map fun b => c * f b).sum = c * (l.map f).sum := by
  induction l with
  | nil => simp
  | cons b l ih => simp [ih, mul_add]

theorem list_sum_map_flatten {β : Type _} (ls : List (List β)) (f : β → ℝ) :
    (ls.flatten.map f).sum = (ls.map fun l => (l.map f).sum).sum := by
  induction ls with
  | nil => simp
  | cons l ls ih => rw [List.flatten_cons, List.map_append, List.sum_append, ih, List.map_cons, List.sum_cons]

theorem list_sum_comm_range {β : Type _} (l : List β) (n : Nat) (f : Nat → β → ℝ) :
    ((List.range n).map fun k => (l.map (f k)).sum).sum = (l.map fun b => ((List.range n).map fun k => f k b).sum).sum := by
  induction l with
  | nil => simp
  | cons b l ih =>
    simp only [List.map_cons, List.sum_cons]
    rw [← ih, sum_range_list, sum_range_list, sum_range_list, Finset.sum_add_distrib]

/-- **C30** (input factor): for every partition of the data into batches, the input factor of a layer with a weight is
the normalized sum over all data. -/
theorem kfac_input_factor (cfg : KfacCfg) (layers : List KLayer) (hnd : (layers.map KLayer.name).Nodup)
    (batches : List (List KDatum)) (hne : batches ≠ []) (l : KLayer) (hl : l ∈ layers)
    (hw : l.pos.has "weight" = true) :
    (kfacFactors cfg layers batches).1.get l.name =
      some ⟨l.din + (if l.joint cfg then 1 else 0), specInputFactor cfg l batches.flatten⟩ := by
  rw [kfacFactors, foldl_batches, foldl_input_get, kfacFactors_inUpd cfg layers hnd batches l hl hw]
  have h0 : Dict.get ([] : Dict (Factor ℝ)) l.name = none := rfl
  simp only [h0]
  rw [foldl_add_upd_none _ (l.din + (if l.joint cfg then 1 else 0)) (by simpa using hne)
    (by intro f hf; obtain ⟨b, _, rfl⟩ := List.mem_map.mp hf; rfl)]
  congr 2
  funext i j
  rw [List.map_map]
  unfold specInputFactor
  cases ha : cfg.approx with
  | expand =>
    simp only
    rw [list_sum_map_flatten, ← list_sum_map_mul_left]
    congr 1
    refine List.map_congr_left fun b _ => ?_
    simp only [Function.comp_apply, inputCovariance, ha, gram_flatMap]
    rw [div_eq_mul_one_div, mul_comm]
    congr 2
    refine List.map_congr_left fun d _ => ?_
    simp only [inputRows, ha, gram, List.map_map, Function.comp_def, specInputVec]
    exact sum_range_list _ _
  | reduce =>
    simp only
    rw [list_sum_map_flatten, ← list_sum_map_mul_left]
    congr 1
    refine List.map_congr_left fun b _ => ?_
    simp only [Function.comp_apply, inputCovariance, ha, gram_flatMap, mul_one]
    rw [div_eq_mul_one_div, mul_comm]
    congr 2
    refine List.map_congr_left fun d _ => ?_
    simp [inputRows, ha, gram, specMeanInput]

/-- Scale of the propagated vectors relative to the unscaled ones. -/
noncomputable def cotScale (cfg : KfacCfg) (b : Nat) : ℝ :=
  if cfg.mean then
    if cfg.fisher = .type2 ∨ cfg.loss = .ce then 1 / ((b * cfg.T : Nat) : ℝ)
    else Real.sqrt cfg.C / ((b * cfg.T * cfg.C : Nat) : ℝ)
  else 1

/-- Unscaled propagated vector of pass `k`. -/
def cot0 (cfg : KfacCfg) (d : KDatum) (k : Nat) : Nat → Nat → ℝ := fun t c =>
  match cfg.fisher with
  | .type2 => d.sqrt t c k
  | _ => d.lossGrad k t c

theorem cotangent_eq (cfg : KfacCfg) (b : Nat) (d : KDatum) (k t c : Nat) :
    cotangent cfg b d k t c = cotScale cfg b * cot0 cfg d k t c := by
  unfold cotangent cotScale cot0
  cases hf : cfg.fisher <;> cases hm : cfg.mean <;> cases hl : cfg.loss <;> simp <;> ring

theorem outputGrad_eq (cfg : KfacCfg) (l : KLayer) (b : Nat) (d : KDatum) (k s o : Nat) :
    outputGrad cfg l b d k s o = cotScale cfg b * specGradVec cfg l d (cot0 cfg d k) s o := by
  unfold outputGrad specGradVec
  rw [Finset.mul_sum]
  refine Finset.sum_congr rfl fun t _ => ?_
  rw [Finset.mul_sum]
  refine Finset.sum_congr rfl fun c _ => ?_
  rw [cotangent_eq]; ring

theorem specCotangents_eq (cfg : KfacCfg) (d : KDatum) :
    specCotangents cfg d = (List.range (numPasses cfg)).map (cot0 cfg d) := by
  unfold specCotangents numPasses cot0
  cases hf : cfg.fisher <;> simp

theorem scale_correction (cfg : KfacCfg) (b : Nat) (hb : b ≠ 0) (hT : cfg.T ≠ 0) :
    cotScale cfg b * cotScale cfg b * correction cfg b = specGradScale cfg := by
  have hb' : (b : ℝ) ≠ 0 := by exact_mod_cast hb
  have hT' : (cfg.T : ℝ) ≠ 0 := by exact_mod_cast hT
  have hC : Real.sqrt cfg.C * Real.sqrt cfg.C = cfg.C := Real.mul_self_sqrt (Nat.cast_nonneg _)
  unfold cotScale correction specGradScale
  by_cases hm : cfg.mean = true
  · simp only [hm, if_true]
    split_ifs with h
    · push_cast
      field_simp
    · push_cast
      by_cases hC0 : (cfg.C : ℝ) = 0
      · simp [hC0]
      · calc Real.sqrt cfg.C / (b * cfg.T * cfg.C) * (Real.sqrt cfg.C / (b * cfg.T * cfg.C)) *
              ((b * cfg.T : ℝ) ^ 2 / (cfg.N * cfg.mcSamples * cfg.T))
            = (Real.sqrt cfg.C * Real.sqrt cfg.C) / ((b * cfg.T * cfg.C) * (b * cfg.T * cfg.C)) *
              ((b * cfg.T : ℝ) ^ 2 / (cfg.N * cfg.mcSamples * cfg.T)) := by ring
          _ = _ := by
            rw [hC]
            field_simp
  · simp [hm]

/-- **C30** (gradient factor): for every partition of the data into batches, the gradient factor is the scaled sum of
outer products of unreduced gradients over all data. -/
theorem kfac_grad_factor (cfg : KfacCfg) (layers : List KLayer) (hnd : (layers.map KLayer.name).Nodup)
    (batches : List (List KDatum)) (hne : batches ≠ []) (hT : cfg.T ≠ 0)
    (hC : cfg.C ≠ 0) (hmc : cfg.mcSamples ≠ 0) (l : KLayer) (hl : l ∈ layers) :
    (kfacFactors cfg layers batches).2.get l.name = some ⟨l.dout, specGradFactor cfg l batches.flatten⟩ := by
  rw [kfacFactors, foldl_batches, foldl_grad_get]
  have h0 : Dict.get ([] : Dict (Factor ℝ)) l.name = none := rfl
  simp only [h0]
  by_cases hf : cfg.fisher = .forwardOnly
  · rw [kfacFactors_setUpd cfg hf layers hnd batches l hl]
    have hset : ∀ (bs : List (List KDatum)) (o : Option (Factor ℝ)), bs ≠ [] →
        (bs.map fun _ => Upd.set ⟨l.dout, fun i j => if i = j then 1 else 0⟩).foldl Upd.apply o =
          some ⟨l.dout, fun i j => if i = j then 1 else 0⟩ := by
      intro bs
      induction bs with
      | nil => intro o h; exact absurd rfl h
      | cons b bs ih =>
        intro o _
        have ha : Upd.apply o (.set ⟨l.dout, fun i j => if i = j then 1 else 0⟩) =
            some ⟨l.dout, fun i j => if i = j then 1 else 0⟩ := by cases o <;> rfl
        rw [List.map_cons, List.foldl_cons, ha]
        by_cases hbs : bs = []
        · subst hbs; rfl
        · exact ih _ hbs
    rw [hset batches none hne]
    congr 2
    funext i j
    simp [specGradFactor, hf]
  · rw [kfacFactors_gradUpd cfg hf layers hnd batches l hl]
    have hne' : (batches.flatMap fun b => (List.range (numPasses cfg)).map fun k => gradCovariance cfg l b k) ≠ [] := by
      obtain ⟨b, bs, rfl⟩ := List.exists_cons_of_ne_nil hne
      intro h
      rw [List.flatMap_cons, List.append_eq_nil_iff] at h
      have : numPasses cfg ≠ 0 := by
        unfold numPasses
        cases hf' : cfg.fisher <;> simp_all
      simp at h
      exact this h.1
    rw [foldl_add_upd_none _ l.dout hne' (by
      intro f hf
      obtain ⟨b, _, hf⟩ := List.mem_flatMap.mp hf
      obtain ⟨k, _, rfl⟩ := List.mem_map.mp hf
      rfl)]
    congr 2
    funext i j
    -- rows of one datum and pass
    have hrow : ∀ (b : List KDatum) (k : Nat), b ≠ [] →
        gram (b.flatMap (gradRows cfg l b.length k)) i j * correction cfg b.length =
        specGradScale cfg * (b.map fun d => match cfg.approx with
          | .expand => ∑ s ∈ Finset.range l.S,
              specGradVec cfg l d (cot0 cfg d k) s i * specGradVec cfg l d (cot0 cfg d k) s j
          | .reduce => (∑ s ∈ Finset.range l.S, specGradVec cfg l d (cot0 cfg d k) s i) *
              ∑ s ∈ Finset.range l.S, specGradVec cfg l d (cot0 cfg d k) s j).sum := by
      intro b k hb
      have hlen : b.length ≠ 0 := by simpa using hb
      rw [gram_flatMap, ← scale_correction cfg b.length hlen hT, mul_comm, mul_comm (_ * _) (correction _ _), mul_assoc]
      congr 1
      rw [← list_sum_map_mul_left]
      congr 1
      refine List.map_congr_left fun d _ => ?_
      cases ha : cfg.approx with
      | expand =>
        simp only [gradRows, ha, gram, List.map_map, Function.comp_def]
        rw [sum_range_list, Finset.mul_sum]
        refine Finset.sum_congr rfl fun s _ => ?_
        rw [outputGrad_eq, outputGrad_eq]; ring
      | reduce =>
        simp only [gradRows, ha, gram, List.map_cons, List.map_nil, List.sum_cons, List.sum_nil, add_zero]
        simp only [outputGrad_eq, ← Finset.mul_sum]
        ring
    have hbatch : ∀ b : List KDatum,
        (((List.range (numPasses cfg)).map fun k => gradCovariance cfg l b k).map fun f => f.mat i j).sum =
        specGradScale cfg * (b.map fun d => ((specCotangents cfg d).map fun v => match cfg.approx with
          | .expand => ∑ s ∈ Finset.range l.S, specGradVec cfg l d v s i * specGradVec cfg l d v s j
          | .reduce => (∑ s ∈ Finset.range l.S, specGradVec cfg l d v s i) *
              ∑ s ∈ Finset.range l.S, specGradVec cfg l d v s j).sum).sum := by
      intro b
      rw [List.map_map]
      by_cases hb : b = []
      · subst hb
        simp [gradCovariance, gram, Function.comp_def]
      · have : ((fun f : Factor ℝ => f.mat i j) ∘ fun k => gradCovariance cfg l b k) = fun k =>
            specGradScale cfg * (b.map fun d => match cfg.approx with
              | .expand => ∑ s ∈ Finset.range l.S,
                  specGradVec cfg l d (cot0 cfg d k) s i * specGradVec cfg l d (cot0 cfg d k) s j
              | .reduce => (∑ s ∈ Finset.range l.S, specGradVec cfg l d (cot0 cfg d k) s i) *
                  ∑ s ∈ Finset.range l.S, specGradVec cfg l d (cot0 cfg d k) s j).sum := by
          funext k
          exact hrow b k hb
        rw [this, list_sum_map_mul_left, list_sum_comm_range]
        congr 2
        refine List.map_congr_left fun d _ => ?_
        rw [specCotangents_eq, List.map_map]
        rfl
    have htotal : ((batches.flatMap fun b => (List.range (numPasses cfg)).map fun k => gradCovariance cfg l b k).map
        fun f => f.mat i j).sum = specGradScale cfg * (batches.flatten.map fun d =>
          ((specCotangents cfg d).map fun v => match cfg.approx with
          | .expand => ∑ s ∈ Finset.range l.S, specGradVec cfg l d v s i * specGradVec cfg l d v s j
          | .reduce => (∑ s ∈ Finset.range l.S, specGradVec cfg l d v s i) *
              ∑ s ∈ Finset.range l.S, specGradVec cfg l d v s j).sum).sum := by
      rw [list_sum_map_flatten, ← list_sum_map_mul_left]
      rw [List.flatMap_def, list_sum_map_flatten, List.map_map]
      congr 1
      exact List.map_congr_left fun b _ => hbatch b
    rw [htotal]
    unfold specGradFactor
    cases hf' : cfg.fisher <;> cases ha : cfg.approx <;> first | rfl | exact absurd hf' hf

/-- **C30**: two partitions of the same data into batches give the same factors. -/
theorem kfac_factors_batching (cfg : KfacCfg) (layers : List KLayer) (hnd : (layers.map KLayer.name).Nodup)
    (batches batches' : List (List KDatum)) (hne : batches ≠ []) (hne' : batches' ≠ []) (hT : cfg.T ≠ 0)
    (hC : cfg.C ≠ 0) (hmc : cfg.mcSamples ≠ 0) (hdata : batches.flatten.Perm batches'.flatten)
    (l : KLayer) (hl : l ∈ layers) :
    (kfacFactors cfg layers batches).2.get l.name = (kfacFactors cfg layers batches').2.get l.name ∧
    (l.pos.has "weight" = true →
      (kfacFactors cfg layers batches).1.get l.name = (kfacFactors cfg layers batches').1.get l.name) := by
  constructor
  · rw [kfac_grad_factor cfg layers hnd batches hne hT hC hmc l hl,
      kfac_grad_factor cfg layers hnd batches' hne' hT hC hmc l hl]
    congr 2
    funext i j
    unfold specGradFactor
    cases cfg.fisher <;> cases cfg.approx <;> simp only <;> rw [(hdata.map _).sum_eq]
  · intro hw
    rw [kfac_input_factor cfg layers hnd batches hne l hl hw, kfac_input_factor cfg layers hnd batches' hne' l hl hw]
    congr 2
    funext i j
    unfold specInputFactor
    cases cfg.approx <;> simp only <;> rw [(hdata.map _).sum_eq]

/-- Non-vacuity: two data in one batch or in two batches, `MSELoss` with reduction `mean`. -/
example : ∃ f, (kfacFactors ⟨.empirical, .expand, .mse, true, 1, 2, 1, 1, true⟩ [⟨"a", [("weight", 0)], 1, 1, 1⟩]
      [[⟨fun _ _ _ => 1, fun _ _ _ _ _ => 1, fun _ _ _ => 0, fun _ _ _ => 2⟩],
       [⟨fun _ _ _ => 1, fun _ _ _ _ _ => 1, fun _ _ _ => 0, fun _ _ _ => 4⟩]]).2.get "a" = some f ∧ f.mat 0 0 = 10 := by
  refine ⟨_, kfac_grad_factor _ _ (by simp) _ (by simp) (by simp) (by simp) (by simp)
    ⟨"a", [("weight", 0)], 1, 1, 1⟩ (by simp), ?_⟩
  simp [specGradFactor, specGradScale, specCotangents, specGradVec]
  norm_num

end Curvlinops
