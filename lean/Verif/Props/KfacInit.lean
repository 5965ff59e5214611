import Verif.Model.KfacInit
import Verif.Model.KfacState
import Verif.Props.KfacMapping

/-!
# Properties of the construction of `KFACLinearOperator` (C71)
-/

namespace Curvlinops

/-- The combination of settings that the documentation allows. -/
def ValidSettings (a : KfacArgs) : Prop :=
  a.loss.isSome ∧ a.fisher ∈ [EnumArg.str "type-2", .str "mc", .str "empirical", .str "forward-only"] ∧
  (a.mcSamples = 1 ∨ a.fisher = .str "mc") ∧ a.approx ∈ [EnumArg.str "expand", .str "reduce"]

/-- The parameters are distinct and belong to supported layers. -/
def ValidParams (a : KfacArgs) : Prop := a.ids.Nodup ∧ ∀ id ∈ a.ids, Owned a.mods id

/-- There is a first batch, and `batch_size_fn` is given if its input is dict-like. -/
def ValidData (a : KfacArgs) : Prop := a.first ≠ .noBatch ∧ (a.first = .mapping → a.hasBatchSizeFn = true)

/-- The number of data: as given, or the sum of batch sizes. -/
def numDataOf (a : KfacArgs) : Nat := a.numData.getD (a.data.map (·.size)).sum

/-- The number of loss terms: entries of the labels, without the last dimension unless the labels are class indices. -/
def totalTerms (loss : LossKind) (data : List KBatchShape) : Nat :=
  (data.map fun b => if loss = .ce then b.y.prod else b.y.dropLast.prod).sum

theorem inferUnique_ok {τ : Type _} [DecidableEq τ] (l : List τ) (d : τ) :
    inferUnique l = .ok d ↔ l ≠ [] ∧ ∀ x ∈ l, x = d := by
  unfold inferUnique
  have hmem : ∀ x, x ∈ l.dedup ↔ x ∈ l := fun x => List.mem_dedup
  have hnd := List.nodup_dedup l
  generalize l.dedup = m at hmem hnd
  match m, hmem, hnd with
  | [], hmem, _ =>
    simp only [reduceCtorEq, false_iff, not_and]
    intro hne
    obtain ⟨x, hx⟩ := List.exists_mem_of_ne_nil l hne
    exact absurd ((hmem x).mpr hx) (by simp)
  | [y], hmem, _ =>
    simp only [List.mem_singleton] at hmem
    simp only [Except.ok.injEq]
    constructor
    · rintro rfl
      exact ⟨List.ne_nil_of_mem ((hmem y).mp rfl), fun x hx => (hmem x).mpr hx⟩
    · rintro ⟨_, h⟩
      exact h y ((hmem y).mp rfl)
  | y :: z :: m, hmem, hnd =>
    simp only [reduceCtorEq, false_iff, not_and]
    intro _ h
    have hy := h y ((hmem y).mp (by simp))
    have hz := h z ((hmem z).mp (by simp))
    rw [hy, hz] at hnd
    simp at hnd

theorem inferUnique_error {τ : Type _} [DecidableEq τ] (l : List τ) (e : PyErr) (h : inferUnique l = .error e) :
    e = .runtimeError := by
  unfold inferUnique at h
  split at h
  · cases h
  · exact (Except.error.inj h).symm

/-- `_infer_device` and `_infer_dtype` raise `RuntimeError` for no parameters, or for different values. -/
theorem inferUnique_raises {τ : Type _} [DecidableEq τ] (l : List τ) :
    inferUnique l = .error .runtimeError ↔ l = [] ∨ ∃ x ∈ l, ∃ y ∈ l, x ≠ y := by
  cases h : inferUnique l with
  | ok d =>
    obtain ⟨hne, hall⟩ := (inferUnique_ok l d).mp h
    simp only [reduceCtorEq, false_iff, not_or, not_exists, not_and, not_not]
    exact ⟨hne, fun x hx y hy => (hall x hx).trans (hall y hy).symm⟩
  | error e =>
    rw [inferUnique_error l e h]
    simp only [true_iff]
    by_contra hc
    simp only [not_or, not_exists, not_and, not_not] at hc
    obtain ⟨x, hx⟩ := List.exists_mem_of_ne_nil l hc.1
    have := (inferUnique_ok l x).mpr ⟨hc.1, fun y hy => hc.2 y hy x hx⟩
    rw [h] at this
    cases this

theorem batchLossTerms_eq (loss : LossKind) (data : List KBatchShape) :
    (data.map (batchLossTerms loss)).sum = totalTerms loss data := by
  unfold totalTerms
  congr 1
  refine List.map_congr_left fun b _ => ?_
  cases loss <;> rfl

/-- C71: the inferred number of loss terms per datum times the number of data is the number of loss terms; nothing is
inferred if there is no such number. -/
theorem setNumLossTerms_spec (loss : LossKind) (n : Nat) (data : List KBatchShape) :
    (∀ t, setNumLossTerms loss n data none = .ok t ↔ n ≠ 0 ∧ t * n = totalTerms loss data) ∧
    (setNumLossTerms loss n data none = .error .zeroDivisionError ↔ n = 0) ∧
    (setNumLossTerms loss n data none = .error .valueError ↔ n ≠ 0 ∧ ¬ n ∣ totalTerms loss data) ∧
    ∀ t, setNumLossTerms loss n data (some t) = .ok t := by
  unfold setNumLossTerms
  simp only [batchLossTerms_eq]
  generalize totalTerms loss data = m
  by_cases hn : n = 0
  · simp [hn]
  by_cases hd : m % n = 0
  · have hdvd := Nat.dvd_of_mod_eq_zero hd
    refine ⟨fun t => ?_, by simp [hn, hd], by simp [hn, hd, hdvd], fun t => trivial⟩
    simp only [hn, if_false, hd, ne_eq, not_true_eq_false, Except.ok.injEq, not_false_eq_true, true_and]
    have hz : (n : Int) ≠ 0 := by exact_mod_cast hn
    constructor
    · rintro rfl
      exact_mod_cast Nat.div_mul_cancel hdvd
    · intro h
      have h2 : ((m / n : Nat) : Int) * n = m := by exact_mod_cast Nat.div_mul_cancel hdvd
      exact mul_right_cancel₀ hz (h2.trans h.symm)
  · have hdvd : ¬ n ∣ m := fun h => hd (Nat.mod_eq_zero_of_dvd h)
    refine ⟨fun t => ?_, by simp [hn, hd], by simp [hn, hd, hdvd], fun t => trivial⟩
    simp only [hn, if_false, hd, ne_eq, not_false_eq_true, if_true, reduceCtorEq, true_and, false_iff]
    intro h
    have h0 : (n : Int) ∣ (m : Int) := ⟨t, by rw [← h, mul_comm]⟩
    exact hdvd (by exact_mod_cast h0)

/-- C71: if the labels of each datum have shape `ds` (class indices) or `ds` followed by the output dimension, the number of
loss terms per datum is inferred as the product of `ds`, for every partition of the data into batches. -/
theorem setNumLossTerms_uniform (loss : LossKind) (ds : List Nat) (C : Nat) (data : List KBatchShape)
    (hy : ∀ b ∈ data, b.y = b.size :: (if loss = .ce then ds else ds ++ [C])) (hne : (data.map (·.size)).sum ≠ 0) :
    setNumLossTerms loss (data.map (·.size)).sum data none = .ok (ds.prod : Nat) := by
  rw [(setNumLossTerms_spec loss _ data).1]
  refine ⟨hne, ?_⟩
  have : totalTerms loss data = ds.prod * (data.map (·.size)).sum := by
    unfold totalTerms
    rw [← List.sum_map_mul_left]
    congr 1
    refine List.map_congr_left fun b hb => ?_
    rw [hy b hb]
    by_cases hl : loss = .ce
    · simp [hl, mul_comm]
    · simp only [hl, if_false]
      rw [← List.cons_append, List.dropLast_concat, List.prod_cons, mul_comm]
  rw [this]
  push_cast
  rfl

example : setNumLossTerms .mse 5 [⟨2, [2, 7, 3]⟩, ⟨3, [3, 7, 3]⟩] none = .ok 7 := by rfl
example : setNumLossTerms .ce 5 [⟨2, [2, 7, 3]⟩, ⟨3, [3, 7, 3]⟩] none = .ok 21 := by rfl
example : setNumLossTerms .ce 4 [⟨2, [2, 7, 3]⟩, ⟨3, [3, 7, 3]⟩] none = .error .valueError := by rfl

theorem toFisherType_isSome (a : EnumArg) :
    (toFisherType a).isSome ↔ a ∈ [EnumArg.str "type-2", .str "mc", .str "empirical", .str "forward-only"] := by
  unfold toFisherType
  split <;> simp_all

theorem toFisherType_mc (a : EnumArg) : toFisherType a = some .mc ↔ a = .str "mc" := by
  unfold toFisherType
  split <;> simp_all

theorem toKfacApprox_isSome (a : EnumArg) : (toKfacApprox a).isSome ↔ a ∈ [EnumArg.str "expand", .str "reduce"] := by
  unfold toKfacApprox
  split <;> simp_all

theorem initBlockSizes_data (a : KfacArgs) :
    (ValidData a ↔ ∃ l, initBlockSizes a.first a.hasBatchSizeFn false none a.ids.length = .ok l) ∧
    (∀ e, initBlockSizes a.first a.hasBatchSizeFn false none a.ids.length = .error e →
      e = if a.first = .noBatch then .stopIteration else .valueError) := by
  unfold ValidData initBlockSizes
  cases a.first <;> cases a.hasBatchSizeFn <;> simp

/-- C71: the settings are checked first, before parameters and data are looked at. -/
theorem kfacInit_settings (a : KfacArgs) (h : ¬ ValidSettings a) : kfacInit a = .error .valueError := by
  unfold kfacInit
  cases hl : a.loss with
  | none => rfl
  | some loss =>
    simp only
    cases hf : toFisherType a.fisher with
    | none => rfl
    | some f =>
      simp only
      by_cases hmc : f ≠ .mc ∧ a.mcSamples ≠ 1
      · rw [if_pos hmc]
      rw [if_neg hmc]
      cases hk : toKfacApprox a.approx with
      | none => rfl
      | some k =>
        exfalso
        apply h
        refine ⟨by simp [hl], (toFisherType_isSome _).mp (by simp [hf]), ?_, (toKfacApprox_isSome _).mp (by simp [hk])⟩
        by_cases h1 : a.mcSamples = 1
        · exact Or.inl h1
        · right
          have : f = .mc := by
            by_contra hne
            exact hmc ⟨hne, h1⟩
          exact (toFisherType_mc _).mp (by rw [hf, this])

/-- With valid settings, the rest of the constructor. -/
theorem kfacInit_rest (a : KfacArgs) (h : ValidSettings a) : ∃ loss fisher approx, a.loss = some loss ∧
    toFisherType a.fisher = some fisher ∧ toKfacApprox a.approx = some approx ∧ kfacInit a = (do
      let mapping ← computeMapping a.ids a.mods
      let _ ← initBlockSizes a.first a.hasBatchSizeFn false none a.ids.length
      let device ← inferUnique a.devices
      let t ← setNumLossTerms loss (numDataOf a) a.data a.numTerms
      .ok ⟨loss, fisher, a.mcSamples, approx, mapping, device, numDataOf a, t⟩) := by
  obtain ⟨h1, h2, h3, h4⟩ := h
  obtain ⟨loss, hl⟩ := Option.isSome_iff_exists.mp h1
  obtain ⟨f, hf⟩ := Option.isSome_iff_exists.mp ((toFisherType_isSome _).mpr h2)
  obtain ⟨k, hk⟩ := Option.isSome_iff_exists.mp ((toKfacApprox_isSome _).mpr h4)
  refine ⟨loss, f, k, hl, hf, hk, ?_⟩
  have hmc : ¬ (f ≠ .mc ∧ a.mcSamples ≠ 1) := by
    rintro ⟨hne, h5⟩
    rcases h3 with h3 | h3
    · exact h5 h3
    · rw [(toFisherType_mc _).mpr h3] at hf
      exact hne (Option.some.inj hf).symm
  have hN : inferNData KBatchShape.size a.data a.numData = numDataOf a := by
    unfold inferNData numDataOf
    cases a.numData <;> rfl
  unfold kfacInit
  rw [hl, hf, hk, hN]
  simp only [if_neg hmc]

/-- The documented strings of `fisher_type`. -/
def fisherName : FisherType → String
  | .type2 => "type-2"
  | .mc => "mc"
  | .empirical => "empirical"
  | .forwardOnly => "forward-only"

/-- The documented strings of `kfac_approx`. -/
def approxName : KfacApprox → String
  | .expand => "expand"
  | .reduce => "reduce"

theorem toFisherType_eq (a : EnumArg) (f : FisherType) : toFisherType a = some f ↔ a = .str (fisherName f) := by
  unfold toFisherType
  cases f <;> split <;> simp_all [fisherName]

theorem toKfacApprox_eq (a : EnumArg) (k : KfacApprox) : toKfacApprox a = some k ↔ a = .str (approxName k) := by
  unfold toKfacApprox
  cases k <;> split <;> simp_all [approxName]

theorem kfacInit_ok_aux (a : KfacArgs) (hnames : (a.mods.map Mod.name).Nodup)
    (hps : ∀ m ∈ a.mods, (m.params.map Prod.fst).Nodup) (r : KfacAttrs) :
    kfacInit a = .ok r ↔ ValidSettings a ∧ ValidParams a ∧ ValidData a ∧
      a.loss = some r.loss ∧ toFisherType a.fisher = some r.fisher ∧ r.mcSamples = a.mcSamples ∧
      toKfacApprox a.approx = some r.approx ∧ computeMapping a.ids a.mods = .ok r.mapping ∧
      (a.devices ≠ [] ∧ ∀ d ∈ a.devices, d = r.device) ∧ r.nData = numDataOf a ∧
      (a.numTerms = some r.numTerms ∨
        a.numTerms = none ∧ numDataOf a ≠ 0 ∧ r.numTerms * numDataOf a = totalTerms r.loss a.data) := by
  by_cases hs : ValidSettings a
  swap
  · rw [kfacInit_settings a hs]
    simp [hs]
  obtain ⟨loss, f, k, hl, hf, hk, h⟩ := kfacInit_rest a hs
  rw [h]
  have hmap := computeMapping_raises_iff a.ids a.mods hnames hps
  cases hm : computeMapping a.ids a.mods with
  | error e => simp [bind, Except.bind]
  | ok mapping =>
    have hvp : ValidParams a := by
      have := hmap.1.not.mp (by rw [hm]; simp)
      simp only [not_or, not_not, not_exists, not_and] at this
      exact this
    cases hb : initBlockSizes a.first a.hasBatchSizeFn false none a.ids.length with
    | error e =>
      have : ¬ ValidData a := fun hv => by
        obtain ⟨l, hl'⟩ := (initBlockSizes_data a).1.mp hv
        rw [hb] at hl'
        cases hl'
      simp [bind, Except.bind, this]
    | ok bs =>
      have hvd : ValidData a := (initBlockSizes_data a).1.mpr ⟨bs, hb⟩
      cases hd : inferUnique a.devices with
      | error e =>
        have hno : ¬ (a.devices ≠ [] ∧ ∀ d ∈ a.devices, d = r.device) := fun hv => by
          rw [(inferUnique_ok _ _).mpr hv] at hd
          cases hd
        simp only [bind, Except.bind, reduceCtorEq, hno, false_and, and_false]
      | ok dev =>
        have hdev := (inferUnique_ok _ _).mp hd
        have hdev' : ∀ d', (a.devices ≠ [] ∧ ∀ d ∈ a.devices, d = d') ↔ d' = dev := fun d' => by
          rw [← inferUnique_ok, hd, Except.ok.injEq, eq_comm]
        simp only [bind, Except.bind, hs, hvp, hvd, hdev', true_and, hl, hf, hk, Option.some.injEq, Except.ok.injEq]
        obtain ⟨rl, rf, rmc, rk, rm, rd, rn, rt⟩ := r
        cases hT : a.numTerms with
        | some t =>
          rw [(setNumLossTerms_spec loss _ a.data).2.2.2 t]
          simp only [Except.ok.injEq, KfacAttrs.mk.injEq, Option.some.injEq, reduceCtorEq, false_and, or_false]
          constructor
          · rintro ⟨rfl, rfl, rfl, rfl, rfl, rfl, rfl, rfl⟩
            simp
          · rintro ⟨rfl, rfl, rfl, rfl, rfl, rfl, rfl, rfl⟩
            simp
        | none =>
          have hset := (setNumLossTerms_spec loss (numDataOf a) a.data).1
          simp only [reduceCtorEq, true_and, false_or]
          cases ht : setNumLossTerms loss (numDataOf a) a.data none with
          | error e =>
            simp only [reduceCtorEq, false_iff]
            rintro ⟨rfl, rfl, rfl, rfl, rfl, rfl, rfl, hx⟩
            rw [(hset rt).mpr hx] at ht
            cases ht
          | ok t =>
            have h2 := (hset t).mp ht
            simp only [Except.ok.injEq, KfacAttrs.mk.injEq]
            constructor
            · rintro ⟨rfl, rfl, rfl, rfl, rfl, rfl, rfl, rfl⟩
              exact ⟨rfl, rfl, rfl, rfl, rfl, rfl, rfl, h2⟩
            · rintro ⟨rfl, rfl, rfl, rfl, rfl, rfl, rfl, hx⟩
              have := (hset rt).mpr hx
              rw [ht, Except.ok.injEq] at this
              simp [this]

/-- C71: the constructor accepts exactly the documented arguments. -/
theorem kfacInit_ok_iff (a : KfacArgs) (hnames : (a.mods.map Mod.name).Nodup)
    (hps : ∀ m ∈ a.mods, (m.params.map Prod.fst).Nodup) (r : KfacAttrs) :
    kfacInit a = .ok r ↔ ValidSettings a ∧ ValidParams a ∧ ValidData a ∧
      a.loss = some r.loss ∧ a.fisher = .str (fisherName r.fisher) ∧ r.mcSamples = a.mcSamples ∧
      a.approx = .str (approxName r.approx) ∧ computeMapping a.ids a.mods = .ok r.mapping ∧
      (a.devices ≠ [] ∧ ∀ d ∈ a.devices, d = r.device) ∧ r.nData = numDataOf a ∧
      (a.numTerms = some r.numTerms ∨
        a.numTerms = none ∧ numDataOf a ≠ 0 ∧ r.numTerms * numDataOf a = totalTerms r.loss a.data) := by
  rw [kfacInit_ok_aux a hnames hps r, toFisherType_eq, toKfacApprox_eq]

/-- C71: the class of each exception, in the order of the checks. -/
theorem kfacInit_error (a : KfacArgs) (hnames : (a.mods.map Mod.name).Nodup)
    (hps : ∀ m ∈ a.mods, (m.params.map Prod.fst).Nodup) (e : PyErr) (h : kfacInit a = .error e) :
    (¬ ValidSettings a ∧ e = .valueError) ∨
    ValidSettings a ∧ ((¬ ValidParams a ∧ e = .notImplementedError) ∨
    ValidParams a ∧ ((¬ ValidData a ∧ e = if a.first = .noBatch then .stopIteration else .valueError) ∨
    ValidData a ∧ (((a.devices = [] ∨ ∃ x ∈ a.devices, ∃ y ∈ a.devices, x ≠ y) ∧ e = .runtimeError) ∨
    (a.devices ≠ [] ∧ (∀ x ∈ a.devices, ∀ y ∈ a.devices, x = y)) ∧ a.numTerms = none ∧
      ((numDataOf a = 0 ∧ e = .zeroDivisionError) ∨
      numDataOf a ≠ 0 ∧ (∀ loss, a.loss = some loss → ¬ numDataOf a ∣ totalTerms loss a.data) ∧ e = .valueError)))) := by
  by_cases hs : ValidSettings a
  swap
  · rw [kfacInit_settings a hs] at h
    exact Or.inl ⟨hs, (Except.error.inj h).symm⟩
  refine Or.inr ⟨hs, ?_⟩
  obtain ⟨loss, f, k, hl, hf, hk, h'⟩ := kfacInit_rest a hs
  rw [h'] at h
  have hmap := computeMapping_raises_iff a.ids a.mods hnames hps
  have hvp : ValidParams a ↔ ¬ (¬ a.ids.Nodup ∨ ∃ id ∈ a.ids, ¬ Owned a.mods id) := by
    simp [ValidParams, not_or]
  cases hm : computeMapping a.ids a.mods with
  | error e' =>
    have he := hmap.2 e' hm
    rw [hm] at h
    refine Or.inl ⟨fun hv => hvp.mp hv (hmap.1.mp (by rw [hm, he])), ?_⟩
    exact (Except.error.inj h).symm.trans he
  | ok mapping =>
    rw [hm] at h
    refine Or.inr ⟨hvp.mpr (hmap.1.not.mp (by rw [hm]; simp)), ?_⟩
    cases hb : initBlockSizes a.first a.hasBatchSizeFn false none a.ids.length with
    | error e' =>
      rw [hb] at h
      refine Or.inl ⟨fun hv => ?_, ?_⟩
      · obtain ⟨l, hl'⟩ := (initBlockSizes_data a).1.mp hv
        rw [hb] at hl'
        cases hl'
      · exact (Except.error.inj h).symm.trans ((initBlockSizes_data a).2 e' hb)
    | ok bs =>
      rw [hb] at h
      refine Or.inr ⟨(initBlockSizes_data a).1.mpr ⟨bs, hb⟩, ?_⟩
      cases hd : inferUnique a.devices with
      | error e' =>
        have he := inferUnique_error _ _ hd
        rw [hd] at h
        refine Or.inl ⟨(inferUnique_raises _).mp (by rw [hd, he]), (Except.error.inj h).symm.trans he⟩
      | ok dev =>
        rw [hd] at h
        have hdev := (inferUnique_ok _ _).mp hd
        refine Or.inr ⟨⟨hdev.1, fun x hx y hy => (hdev.2 x hx).trans (hdev.2 y hy).symm⟩, ?_⟩
        obtain ⟨s1, s2, s3, s4⟩ := setNumLossTerms_spec loss (numDataOf a) a.data
        cases hT : a.numTerms with
        | some t =>
          rw [hT, s4 t] at h
          cases h
        | none =>
          refine ⟨rfl, ?_⟩
          rw [hT] at h
          by_cases h0 : numDataOf a = 0
          · rw [s2.mpr h0] at h
            exact Or.inl ⟨h0, (Except.error.inj h).symm⟩
          · refine Or.inr ⟨h0, ?_⟩
            by_cases hdv : numDataOf a ∣ totalTerms loss a.data
            · obtain ⟨q, hq⟩ := hdv
              rw [(s1 q).mpr ⟨h0, by rw [hq]; push_cast; ring⟩] at h
              cases h
            · rw [s3.mpr ⟨h0, hdv⟩] at h
              refine ⟨fun l hl' => ?_, (Except.error.inj h).symm⟩
              rw [hl] at hl'
              obtain rfl := Option.some.inj hl'
              exact hdv

/-- An accepted call: weight and bias of layer `0` of `exampleMods`, strings instead of enumeration members. -/
def kfacArgsExample : KfacArgs :=
  { loss := some .ce, fisher := .str "mc", mcSamples := 4, approx := .str "reduce", ids := [11, 10], devices := ["cpu", "cpu"],
    mods := exampleMods, first := .nonMapping, hasBatchSizeFn := false, data := [⟨2, [2, 7]⟩, ⟨3, [3, 7]⟩], numData := none,
    numTerms := none }

example : kfacInit kfacArgsExample =
    .ok ⟨.ce, .mc, 4, .reduce, [("0", [("weight", 1), ("bias", 0)])], "cpu", 5, 7⟩ := by rfl
example : kfacInit { kfacArgsExample with fisher := .str "type-2" } = .error .valueError := by rfl
example : kfacInit { kfacArgsExample with ids := [20] } = .error .notImplementedError := by rfl
example : kfacInit { kfacArgsExample with devices := ["cpu", "cuda"] } = .error .runtimeError := by rfl

/-! ## No samples -/

/-- C71: `mc_samples` is not checked for `fisher_type='mc'`: any number is accepted, also zero and negative ones. -/
theorem kfacInit_any_samples (a : KfacArgs) (hmc : a.fisher = .str "mc") (n : Int) :
    (∃ r, kfacInit a = .ok r) ↔ ∃ r, kfacInit { a with mcSamples := n } = .ok r := by
  unfold kfacInit
  simp only [(toFisherType_mc a.fisher).mpr hmc, ne_eq, not_true_eq_false, false_and, if_false]
  cases a.loss with
  | none => simp
  | some loss =>
    cases toKfacApprox a.approx with
    | none => simp
    | some k =>
      simp only
      cases computeMapping a.ids a.mods with
      | error e => simp [bind, Except.bind]
      | ok m =>
        cases initBlockSizes a.first a.hasBatchSizeFn false none a.ids.length with
        | error e => simp [bind, Except.bind]
        | ok b =>
          cases inferUnique a.devices with
          | error e => simp [bind, Except.bind]
          | ok d =>
            cases setNumLossTerms loss (inferNData KBatchShape.size a.data a.numData) a.data a.numTerms <;>
              simp [bind, Except.bind]

/-- Without samples the dictionary of gradient covariances is never filled. -/
theorem events_no_samples {Θ B G : Type} (w : KWorld Θ B G) (θ : Θ) (cfg : KfacCfg) (hf : cfg.fisher = .mc)
    (h0 : cfg.mcSamples = 0) (h : Nat) (g : G) (st : Dict (Factor ℝ) × Dict (Factor ℝ)) :
    ((w.events θ cfg h g).foldl applyEvent st).2 = st.2 := by
  have hall : ∀ e ∈ w.events θ cfg h g, ∃ name cov, e = KEvent.input name cov := by
    intro e he
    simp only [KWorld.events, List.mem_flatMap, List.mem_replicate] at he
    obtain ⟨b, _, e', he', _, rfl⟩ := he
    simp only [batchEvents, List.mem_append, backwardEvents, hf, numPasses, h0, List.range_zero, List.flatMap_nil,
      List.not_mem_nil, or_false, List.mem_map] at he'
    obtain ⟨l, _, rfl⟩ := he'
    exact ⟨_, _, rfl⟩
  revert hall
  generalize w.events θ cfg h g = es
  intro hall
  induction es generalizing st with
  | nil => rfl
  | cons e es ih =>
    obtain ⟨name, cov, rfl⟩ := hall e (by simp)
    rw [List.foldl_cons, ih _ fun e he => hall e (by simp [he])]
    rfl

/-- C71: without samples (`mc_samples <= 0`) a new operator with at least one layer raises `KeyError` when its trace is
read, and returns zero when it is read again. -/
theorem kfac_no_samples {Θ B G : Type} (w : KWorld Θ B G) (hl : w.layers ≠ []) (θ : Θ) (cfg : KfacCfg)
    (hf : cfg.fisher = .mc) (h0 : cfg.mcSamples = 0) (seed : Nat) (shape : Nat × Nat) (pb : Bool) :
    let r := KState.readTrace w none (KState.fresh θ cfg seed shape pb)
    r.1 = .error .keyError ∧ (KState.readTrace w none r.2).1 = .ok 0 := by
  obtain ⟨l, ls, hls⟩ := List.exists_cons_of_ne_nil hl
  have hmap : w.mapping = (l.name, l.pos) :: ls.map fun l => (l.name, l.pos) := by
    unfold KWorld.mapping
    rw [hls]
    rfl
  have hev := events_no_samples w θ cfg hf h0 1 (w.seeded seed) ([], [])
  simp [KState.readTrace, readProperty, KState.fresh, ensureKfac, computeKfac, KState.reset, KState.traceLoop, hmap, accPartial,
    hev, Dict.getE, Dict.get]

end Curvlinops
