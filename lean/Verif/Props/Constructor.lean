import Verif.Model.Constructor
import Verif.Props.Determinism
import Verif.Props.KfacInit

/-!
# C89: the constructors of the curvature operators as a whole
-/

namespace Curvlinops

variable {B V D T : Type _}

/-! ## Specification -/

/-- What the documentation calls the batch size of an input: the value of `batch_size_fn`, or the first dimension of a
tensor. -/
def CtorArgs.HasSize (a : CtorArgs B V T) (b : B) (n : Nat) : Prop :=
  (∃ f, a.batchSizeFn = some f ∧ n = f b) ∨ a.batchSizeFn = none ∧ ∃ rest, a.X b = .tensor (n :: rest)

/-- The number of data of the operator: `num_data` if given, otherwise the sum of the batch sizes. -/
def CtorArgs.HasNumData (a : CtorArgs B V T) (N : Nat) : Prop :=
  a.numData = some N ∨ a.numData = none ∧ ∃ ns, List.Forall₂ a.HasSize a.data ns ∧ N = ns.sum

/-- The requirements on the arguments apart from those of the check for deterministic behaviour. -/
structure CtorArgs.Accepts (a : CtorArgs B V T) (s : DevState D) : Prop where
  loss : a.cls = .empiricalFisher ∨ a.cls = .mcFisher → ∃ red, a.loss = .obj true red
  data : a.data ≠ []
  dict : ∀ b, a.data.head? = some b → a.X b = .mapping → a.batchSizeFn ≠ none
  blocks : ∀ bs, a.blockSizes = some bs →
    a.cls = .hessian ∧ bs.sum = (a.paramShapes.length : Int) ∧ ∀ x ∈ bs, 0 < x
  device : s.params ≠ [] ∧ ∃ d, ∀ p ∈ s.params, s.dev p = d
  sizes : a.numData = none → ∀ b ∈ a.data, ∃ n, a.HasSize b n

/-- What a product needs in addition: for operators on the parameter space a loss with a reduction that is `'mean'` or
`'sum'`, a number of data other than zero, and batch sizes. -/
def CtorArgs.Normalizable (a : CtorArgs B V T) (N : Nat) : Prop :=
  (a.cls = .jacobian ∨ a.cls = .transposedJacobian) ∨
    (N ≠ 0 ∧ (∃ sup, a.loss = .obj sup (some .mean) ∨ a.loss = .obj sup (some .sum)) ∧
      ∀ b ∈ a.data, ∃ n, a.HasSize b n)

/-- Whether the operator has a loss function. -/
def CtorArgs.HasLoss (a : CtorArgs B V T) : Prop :=
  ¬ (a.cls = .jacobian ∨ a.cls = .transposedJacobian) ∧ a.loss ≠ .noLoss

/-! ## Lemmas -/

theorem isJacobian_iff (c : OpClass) : c.isJacobian = true ↔ c = .jacobian ∨ c = .transposedJacobian := by
  cases c <;> simp [OpClass.isJacobian]

theorem checksLoss_iff (c : OpClass) : c.checksLoss = true ↔ c = .empiricalFisher ∨ c = .mcFisher := by
  cases c <;> simp [OpClass.checksLoss]

theorem isLoss_iff (a : CtorArgs B V T) : a.lossFunc.isLoss = true ↔ a.HasLoss := by
  unfold CtorArgs.lossFunc CtorArgs.HasLoss
  by_cases h : a.cls.isJacobian = true
  · have := (isJacobian_iff _).mp h
    rw [if_pos h]
    simp [CtorLoss.isLoss, this]
  · have hj : ¬ (a.cls = .jacobian ∨ a.cls = .transposedJacobian) := fun hh => h ((isJacobian_iff _).mpr hh)
    rw [if_neg h]
    cases hl : a.loss with
    | noLoss => simp [CtorLoss.isLoss]
    | obj _ _ => simpa [CtorLoss.isLoss] using hj

theorem size_ok (a : CtorArgs B V T) (b : B) (n : Nat) : a.size b = .ok n ↔ a.HasSize b n := by
  unfold CtorArgs.size CtorArgs.HasSize
  cases a.batchSizeFn with
  | some f => simp [eq_comm]
  | none =>
    rcases hX : a.X b with _ | _ | _
    · rename_i sh
      cases sh with
      | nil => simp [XArg.defaultSize]
      | cons m rest => simp [XArg.defaultSize]
    · simp [XArg.defaultSize]
    · simp [XArg.defaultSize]

theorem hasSize_unique (a : CtorArgs B V T) (b : B) (n m : Nat) (h : a.HasSize b n) (h' : a.HasSize b m) : n = m := by
  rw [← size_ok] at h h'
  exact Except.ok.inj (h.symm.trans h')

theorem pyMapM_ok_iff {β γ : Type _} (f : β → Py γ) : ∀ (l : List β) (out : List γ),
    pyMapM f l = .ok out ↔ List.Forall₂ (fun x y => f x = .ok y) l out
  | [], out => by
    simp only [pyMapM, Except.ok.injEq, List.forall₂_nil_left_iff]
    exact eq_comm
  | x :: xs, out => by
    unfold pyMapM
    cases hx : f x with
    | error e => simp [List.forall₂_cons_left_iff, hx]
    | ok y =>
      cases hr : pyMapM f xs with
      | error e =>
        simp only [reduceCtorEq, false_iff, List.forall₂_cons_left_iff, not_exists, not_and]
        intro z w _ hw _
        rw [(pyMapM_ok_iff f xs w).mpr hw] at hr
        cases hr
      | ok ys =>
        simp only [Except.ok.injEq, List.forall₂_cons_left_iff]
        constructor
        · rintro rfl
          exact ⟨y, ys, hx, (pyMapM_ok_iff f xs ys).mp hr, rfl⟩
        · rintro ⟨z, w, hz, hw, rfl⟩
          rw [(pyMapM_ok_iff f xs w).mpr hw] at hr
          rw [hx] at hz
          rw [Except.ok.inj hz, Except.ok.inj hr]

theorem forall₂_exists {β γ : Type _} (R : β → γ → Prop) : ∀ l : List β,
    (∃ out, List.Forall₂ R l out) ↔ ∀ x ∈ l, ∃ y, R x y
  | [] => by simp
  | x :: xs => by
    simp only [List.forall₂_cons_left_iff, List.mem_cons, forall_eq_or_imp, ← forall₂_exists R xs]
    constructor
    · rintro ⟨_, y, w, h1, h2, -⟩
      exact ⟨⟨y, h1⟩, w, h2⟩
    · rintro ⟨⟨y, h1⟩, w, h2⟩
      exact ⟨_, y, w, h1, h2, rfl⟩

theorem pyMapM_isOk {β γ : Type _} (f : β → Py γ) (l : List β) :
    (∃ out, pyMapM f l = .ok out) ↔ ∀ x ∈ l, ∃ y, f x = .ok y := by
  simp only [pyMapM_ok_iff]
  exact forall₂_exists _ l

theorem normalize_ok (a : CtorArgs B V T) (hj : a.cls.isJacobian = false) (N : Nat) (b : B) :
    a.normalize N b = .ok () ↔ (∃ n, a.HasSize b n) ∧ N ≠ 0 ∧
      ∃ sup, a.loss = .obj sup (some .mean) ∨ a.loss = .obj sup (some .sum) := by
  unfold CtorArgs.normalize
  have hl : a.lossFunc = a.loss := by simp [CtorArgs.lossFunc, hj]
  rw [hl]
  cases hs : a.size b with
  | error e =>
    simp only [reduceCtorEq, false_iff, not_and]
    rintro ⟨n, hn⟩
    rw [(size_ok a b n).mpr hn] at hs
    cases hs
  | ok n =>
    have : ∃ n, a.HasSize b n := ⟨n, (size_ok a b n).mp hs⟩
    simp only [this, true_and]
    by_cases hN : N = 0
    · simp [hN]
    · rw [if_neg hN]
      simp only [hN, not_false_eq_true, ne_eq, true_and]
      rcases a.loss with _ | ⟨sup, _ | red⟩
      · simp
      · simp
      · cases red <;> simp [normalizationFactor, hN]

/-- `num_data` or the sum of the batch sizes, and one traversal of the data in the second case. -/
theorem count_ok (a : CtorArgs B V T) (N : Nat) : a.count.1 = .ok N ↔ a.HasNumData N := by
  unfold CtorArgs.count CtorArgs.HasNumData
  cases a.numData with
  | some n => simp
  | none =>
    cases h : pyMapM a.size a.data with
    | error e =>
      simp only [reduceCtorEq, true_and, false_or, false_iff, not_exists, not_and]
      intro ns hns
      rw [(pyMapM_ok_iff _ _ ns).mpr (hns.imp fun _ _ hh => (size_ok _ _ _).mpr hh)] at h
      cases h
    | ok ns =>
      have hF := ((pyMapM_ok_iff _ _ ns).mp h).imp fun x n hh => (size_ok a x n).mp hh
      simp only [Except.ok.injEq, reduceCtorEq, true_and, false_or]
      constructor
      · rintro rfl
        exact ⟨ns, hF, rfl⟩
      · rintro ⟨ms, hm, rfl⟩
        rw [(pyMapM_ok_iff _ _ ms).mpr (hm.imp fun x n hh => (size_ok a x n).mpr hh)] at h
        rw [Except.ok.inj h]

theorem count_iters (a : CtorArgs B V T) : a.count.2 = if a.numData = none then 1 else 0 := by
  unfold CtorArgs.count
  cases a.numData with
  | some n => simp
  | none => cases pyMapM a.size a.data <;> simp

theorem hasNumData_exists (a : CtorArgs B V T) :
    (∃ N, a.HasNumData N) ↔ (a.numData = none → ∀ b ∈ a.data, ∃ n, a.HasSize b n) := by
  unfold CtorArgs.HasNumData
  cases a.numData with
  | some n => simp
  | none =>
    simp only [reduceCtorEq, true_and, false_or, true_implies, ← forall₂_exists]
    constructor
    · rintro ⟨_, ns, h, -⟩; exact ⟨ns, h⟩
    · rintro ⟨ns, h⟩; exact ⟨_, ns, h, rfl⟩

theorem initBlockSizes_ok_iff (first : FirstInput) (hasFn sup : Bool) (blocks : Option (List Int)) (n : Nat)
    (bs : List Int) :
    initBlockSizes first hasFn sup blocks n = .ok bs ↔ first ≠ .noBatch ∧ (first = .mapping → hasFn = true) ∧
      ((blocks = none ∧ bs = [(n : Int)]) ∨
        (blocks = some bs ∧ sup = true ∧ bs.sum = (n : Int) ∧ ∀ x ∈ bs, 0 < x)) := by
  unfold initBlockSizes
  cases blocks with
  | none =>
    cases first <;> cases hasFn <;> simp [eq_comm]
  | some cs =>
    have key : (if sup = false then (.error .valueError : Py (List Int))
        else if cs.sum ≠ (n : Int) then .error .valueError
        else if cs.any (fun s => s ≤ 0) then .error .valueError
        else .ok cs) = .ok bs ↔ cs = bs ∧ sup = true ∧ bs.sum = (n : Int) ∧ ∀ x ∈ bs, 0 < x := by
      cases sup with
      | false => simp
      | true =>
        simp only [Bool.true_eq_false, if_false]
        by_cases h1 : cs.sum = (n : Int)
        · rw [if_neg (not_not.mpr h1)]
          by_cases h2 : cs.any (fun s => s ≤ 0) = true
          · rw [if_pos h2]
            simp only [reduceCtorEq, true_and, false_iff, not_and]
            rintro rfl - h3
            obtain ⟨x, hx, hx'⟩ := List.any_eq_true.mp h2
            have := h3 x hx
            have := of_decide_eq_true hx'
            omega
          · rw [if_neg h2]
            simp only [Except.ok.injEq, true_and]
            constructor
            · rintro rfl
              refine ⟨rfl, h1, fun x hx => ?_⟩
              by_contra hc
              exact h2 (List.any_eq_true.mpr ⟨x, hx, by simpa using hc⟩)
            · exact fun h => h.1
        · rw [if_pos h1]
          simp only [reduceCtorEq, true_and, false_iff, not_and]
          rintro rfl h3
          exact absurd h3 h1
    rcases first with _ | _ | _
    · simp
    · cases hasFn with
      | false => simp
      | true => simpa using key
    · cases hasFn <;> simpa using key

/-! ## The part before the check -/

theorem shapes_spec (a : CtorArgs B V T) (N : Nat) (b : B) (bs : List B) (hd : a.data = b :: bs) :
    a.shapes N = (.ok
      (if a.cls = .transposedJacobian then [N :: (a.predShape b).tail] else a.paramShapes,
       if a.cls = .jacobian then [N :: (a.predShape b).tail] else a.paramShapes),
      if a.cls = .jacobian ∨ a.cls = .transposedJacobian then 1 else 0) := by
  unfold CtorArgs.shapes
  cases h : a.cls <;> simp [OpClass.isJacobian, hd]

/-- The constructor when the requirements are met: what it has set when the check starts. -/
theorem construct_accepted [AddCommMonoid V] [DecidableEq T] [DecidableEq D] (cpu : D) (a : CtorArgs B V T)
    (s : DevState D) (h : a.Accepts s) :
    ∃ (d : D) (N : Nat) (b : B) (bs : List B), a.data = b :: bs ∧ (∀ p ∈ s.params, s.dev p = d) ∧ a.HasNumData N ∧
      construct cpu a s =
        (let attrs : CtorAttrs D := ⟨a.blockSizes.getD [(a.paramShapes.length : Int)], d, N,
          if a.cls = .transposedJacobian then [N :: (a.predShape b).tail] else a.paramShapes,
          if a.cls = .jacobian then [N :: (a.predShape b).tail] else a.paramShapes⟩
        let k := 1 + (if a.numData = none then 1 else 0) +
          (if a.cls = .jacobian ∨ a.cls = .transposedJacobian then 1 else 0)
        if a.check then
          ((a.runCheck N).1.map fun _ => attrs,
            ⟨k + (a.runCheck N).2, toDevice d (toDevice cpu { s with device := d })⟩)
        else (.ok attrs, ⟨k, { s with device := d }⟩)) := by
  obtain ⟨hloss, hdata, hdict, hblocks, ⟨hp, d, hd⟩, hsizes⟩ := h
  obtain ⟨N, hN⟩ := (hasNumData_exists a).mpr hsizes
  obtain ⟨b, bs, hb⟩ := List.exists_cons_of_ne_nil hdata
  refine ⟨d, N, b, bs, hb, hd, hN, ?_⟩
  have h1 : ¬ (a.blockSizes.isSome ∧ a.cls.hasBlockArg = false) := by
    rintro ⟨hs, hc⟩
    obtain ⟨cs, hcs⟩ := Option.isSome_iff_exists.mp hs
    rw [(hblocks cs hcs).1] at hc
    cases hc
  have h2 : ¬ (a.cls.checksLoss = true ∧ a.loss.isSupported = false) := by
    rintro ⟨hc, hs⟩
    obtain ⟨red, hr⟩ := hloss ((checksLoss_iff _).mp hc)
    rw [hr] at hs
    cases hs
  have h3 : initBlockSizes (XArg.first (a.data.head?.map a.X)) a.batchSizeFn.isSome a.cls.supportsBlocks a.blockSizes
      a.paramShapes.length = .ok (a.blockSizes.getD [(a.paramShapes.length : Int)]) := by
    rw [initBlockSizes_ok_iff]
    have hX : XArg.first (a.data.head?.map a.X) = match a.X b with
        | .mapping => .mapping
        | _ => .nonMapping := by
      rw [hb]
      cases h : a.X b <;> simp [XArg.first, h]
    rw [hX]
    refine ⟨?_, ?_, ?_⟩
    · cases a.X b <;> simp
    · intro hm
      have hm' : a.X b = .mapping := by
        cases h : a.X b <;> simp [h] at hm ⊢
      have := hdict b (by rw [hb]; rfl) hm'
      exact Option.isSome_iff_ne_none.mpr this
    · cases hbl : a.blockSizes with
      | none => left; simp
      | some cs =>
        right
        obtain ⟨hc, hs⟩ := hblocks cs hbl
        simp [hc, OpClass.supportsBlocks, hs.1]
        exact hs.2
  have h4 : inferUnique (s.params.map s.dev) = .ok d := by
    rw [inferUnique_ok]
    refine ⟨by simpa using hp, fun x hx => ?_⟩
    obtain ⟨p, hp', rfl⟩ := List.mem_map.mp hx
    exact hd p hp'
  have h5 := (count_ok a N).mpr hN
  unfold construct
  rw [if_neg h1, if_neg h2, h3]
  simp only [h4, h5, shapes_spec a N b bs hb, count_iters]
  cases a.check with
  | false => rfl
  | true =>
    simp only [if_true, constructorCheck]
    cases (a.runCheck N).1 <;> rfl

/-- `block_sizes` for other classes than the Hessian: the GGN has the argument and raises `ValueError` after it has looked
at the first batch (if there is one), all other classes do not have the argument, which is
a `TypeError` before the data are touched. -/
theorem construct_block_sizes_class [AddCommMonoid V] [DecidableEq T] [DecidableEq D] (cpu : D) (a : CtorArgs B V T)
    (s : DevState D) (cs : List Int) (hb : a.blockSizes = some cs) (hc : a.cls ≠ .hessian) :
    (a.cls ≠ .ggn → construct cpu a s = (.error .typeError, ⟨0, s⟩)) ∧
    (a.cls = .ggn → a.data ≠ [] → construct cpu a s = (.error .valueError, ⟨1, s⟩)) := by
  refine ⟨fun hg => ?_, fun hg hd => ?_⟩
  · unfold construct
    rw [if_pos]
    refine ⟨by rw [hb]; rfl, ?_⟩
    revert hc hg
    cases a.cls <;> simp [OpClass.hasBlockArg]
  · obtain ⟨b, bs, hd⟩ := List.exists_cons_of_ne_nil hd
    unfold construct
    rw [if_neg (by rw [hg]; simp [OpClass.hasBlockArg]), if_neg (by rw [hg]; simp [OpClass.checksLoss]), hg, hb, hd]
    have : initBlockSizes (XArg.first ((b :: bs).head?.map a.X)) a.batchSizeFn.isSome OpClass.ggn.supportsBlocks (some cs)
        a.paramShapes.length = .error .valueError := by
      cases h : a.X b <;> cases a.batchSizeFn <;> simp [XArg.first, h, initBlockSizes, OpClass.supportsBlocks]
    rw [this]

/-- If a requirement is not met, the constructor raises. -/
theorem construct_rejected [AddCommMonoid V] [DecidableEq T] [DecidableEq D] (cpu : D) (a : CtorArgs B V T)
    (s : DevState D) (r : CtorAttrs D) (h : (construct cpu a s).1 = .ok r) : a.Accepts s := by
  unfold construct at h
  by_cases h1 : a.blockSizes.isSome ∧ a.cls.hasBlockArg = false
  · rw [if_pos h1] at h; cases h
  rw [if_neg h1] at h
  by_cases h2 : a.cls.checksLoss = true ∧ a.loss.isSupported = false
  · rw [if_pos h2] at h; cases h
  rw [if_neg h2] at h
  cases h3 : initBlockSizes (XArg.first (a.data.head?.map a.X)) a.batchSizeFn.isSome a.cls.supportsBlocks a.blockSizes
      a.paramShapes.length with
  | error e => rw [h3] at h; cases h
  | ok bs =>
    simp only [h3] at h
    obtain ⟨g1, g2, g3⟩ := (initBlockSizes_ok_iff _ _ _ _ _ _).mp h3
    cases h4 : inferUnique (s.params.map s.dev) with
    | error e => simp only [h4] at h; cases h
    | ok d =>
      simp only [h4] at h
      obtain ⟨g4, g5⟩ := (inferUnique_ok _ _).mp h4
      cases h5 : a.count.1 with
      | error e => simp only [h5] at h; cases h
      | ok N =>
        refine ⟨?_, ?_, ?_, ?_, ⟨by simpa using g4, d, fun p hp => g5 _ (List.mem_map_of_mem hp)⟩, ?_⟩
        · intro hc
          have hs : a.loss.isSupported = true := by
            by_contra hs
            exact h2 ⟨(checksLoss_iff _).mpr hc, by simpa using hs⟩
          rcases hl : a.loss with _ | ⟨sup, red⟩
          · rw [hl] at hs; cases hs
          · rw [hl] at hs
            cases sup with
            | false => cases hs
            | true => exact ⟨red, rfl⟩
        · intro hd
          rw [hd] at g1
          exact g1 rfl
        · intro b hb hm
          have := g2 (by rw [hb]; simp [XArg.first, hm])
          exact Option.isSome_iff_ne_none.mp this
        · intro cs hcs
          rcases g3 with ⟨g, -⟩ | ⟨g, gs, gr⟩
          · rw [hcs] at g; cases g
          · rw [hcs] at g
            cases Option.some.inj g
            refine ⟨?_, gr⟩
            cases hc : a.cls <;> simp [hc, OpClass.supportsBlocks] at gs ⊢
        · exact (hasNumData_exists a).mp ⟨N, (count_ok a N).mp h5⟩

/-! ## The check -/

theorem item_ok (a : CtorArgs B V T) (N k : Nat) (b : B)
    (h : a.Normalizable N) (hb : b ∈ a.data) : a.item N k b = .ok (a.record k N b) := by
  unfold CtorArgs.item
  by_cases hl : a.lossFunc.isLoss = true
  · rw [if_pos hl]
    have hL := (isLoss_iff a).mp hl
    rcases h with h | ⟨h1, h2, h3⟩
    · exact absurd h hL.1
    · have hj : a.cls.isJacobian = false := by
        have := mt (isJacobian_iff _).mp hL.1
        simpa using this
      rw [(normalize_ok a hj N b).mpr ⟨h3 b hb, h1, h2⟩]
  · rw [if_neg hl]

theorem item_record (a : CtorArgs B V T) (N k : Nat) (b : B) (r : Rec V) (h : a.item N k b = .ok r) :
    r = a.record k N b := by
  unfold CtorArgs.item at h
  split at h
  · split at h
    · cases h
    · exact (Except.ok.inj h).symm
  · exact (Except.ok.inj h).symm

theorem lockStep_records (a : CtorArgs B V T) (N : Nat) : ∀ (bs : List B) (rs : List (Rec V × Rec V)),
    a.lockStep N bs = .ok rs → rs = bs.map fun b => (a.record 0 N b, a.record 1 N b)
  | [], rs, h => (Except.ok.inj h).symm
  | b :: bs, rs, h => by
    unfold CtorArgs.lockStep at h
    cases h0 : a.item N 0 b with
    | error e => rw [h0] at h; cases h
    | ok r1 =>
      cases h1 : a.item N 1 b with
      | error e => simp only [h0, h1] at h; cases h
      | ok r2 =>
        simp only [h0, h1] at h
        split at h
        · cases h
        · split at h
          · cases h
          · rename_i rs' hrs
            rw [← Except.ok.inj h, lockStep_records a N bs rs' hrs, item_record a N 0 b r1 h0,
              item_record a N 1 b r2 h1]
            rfl

theorem lockStep_ok [Add V] (a : CtorArgs B V T) (N : Nat) (h : a.Normalizable N) : ∀ (bs : List B) (acc acc' : Acc V),
    (∀ b ∈ bs, b ∈ a.data) →
    checkLoop a.close a.cls.fixedOrder a.lossFunc.isLoss (bs.map fun b => (a.record 0 N b, a.record 1 N b)) acc =
      .ok acc' →
    a.lockStep N bs = .ok (bs.map fun b => (a.record 0 N b, a.record 1 N b))
  | [], _, _, _, _ => rfl
  | b :: bs, acc, acc', hb, hl => by
    unfold CtorArgs.lockStep
    rw [item_ok a N 0 b h (hb b (by simp)), item_ok a N 1 b h (hb b (by simp))]
    simp only [List.map_cons] at hl ⊢
    unfold checkLoop at hl
    cases hc : (if a.cls.fixedOrder = true then checkBatch a.close a.lossFunc.isLoss (a.record 0 N b) (a.record 1 N b)
        else .ok ()) with
    | error e => rw [hc] at hl; cases hl
    | ok u =>
      simp only [hc] at hl ⊢
      rw [lockStep_ok a N h bs _ acc' (fun x hx => hb x (by simp [hx])) hl]

theorem product_ok (a : CtorArgs B V T) (N k : Nat) (hd : a.data ≠ []) (v : V) :
    a.product N k = .ok v ↔ a.Normalizable N ∧ v = a.apply k N := by
  unfold CtorArgs.product CtorArgs.Normalizable
  by_cases hj : a.cls.isJacobian = true
  · rw [if_pos hj]
    have hj' := (isJacobian_iff _).mp hj
    constructor
    · intro h
      exact ⟨Or.inl hj', (Except.ok.inj h).symm⟩
    · rintro ⟨-, rfl⟩
      rfl
  · rw [if_neg hj]
    have hj' : ¬ (a.cls = .jacobian ∨ a.cls = .transposedJacobian) := mt (isJacobian_iff _).mpr hj
    have key : (∃ out, pyMapM (a.normalize N) a.data = .ok out) ↔
        (N ≠ 0 ∧ (∃ sup, a.loss = .obj sup (some .mean) ∨ a.loss = .obj sup (some .sum)) ∧
          ∀ b ∈ a.data, ∃ n, a.HasSize b n) := by
      rw [pyMapM_isOk]
      have hn := normalize_ok a (by simpa using hj) N
      obtain ⟨b, bs, hb⟩ := List.exists_cons_of_ne_nil hd
      constructor
      · intro h
        have h' : ∀ x ∈ a.data, a.normalize N x = .ok () := fun x hx => (h x hx).choose_spec
        have h0 := (hn b).mp (h' b (by simp [hb]))
        exact ⟨h0.2.1, h0.2.2, fun x hx => ((hn x).mp (h' x hx)).1⟩
      · rintro ⟨h1, h2, h3⟩ x hx
        exact ⟨(), (hn x).mpr ⟨h3 x hx, h1, h2⟩⟩
    simp only [hj', false_or, ← key]
    cases pyMapM (a.normalize N) a.data with
    | error e => simp
    | ok out => simp [eq_comm]

theorem needDtype_ok [DecidableEq T] (a : CtorArgs B V T) :
    a.needDtype = .ok () ↔ a.dtypes ≠ [] ∧ ∃ t, ∀ x ∈ a.dtypes, x = t := by
  unfold CtorArgs.needDtype
  cases h : inferUnique a.dtypes with
  | error e =>
    simp only [reduceCtorEq, false_iff, not_and, not_exists]
    intro hne t ht
    rw [(inferUnique_ok _ t).mpr ⟨hne, ht⟩] at h
    cases h
  | ok t =>
    have := (inferUnique_ok _ t).mp h
    simp only [true_iff]
    exact ⟨this.1, t, this.2⟩

theorem zip_map_pair {γ δ : Type _} (f : B → γ) (g : B → δ) (l : List B) :
    (l.map f).zip (l.map g) = l.map fun b => (f b, g b) := by
  induction l with
  | nil => rfl
  | cons b l ih => simp [ih]

theorem runCheck_value [AddCommMonoid V] [DecidableEq T] (a : CtorArgs B V T) (N : Nat) (hd : a.data ≠ [])
    (hty : a.needDtype = .ok ()) (hn : a.Normalizable N) (acc : Acc V)
    (hacc : checkLoop a.close a.cls.fixedOrder a.lossFunc.isLoss
      (a.data.map fun b => (a.record 0 N b, a.record 1 N b))
      ⟨0, 0, List.replicate a.paramShapes.length 0, List.replicate a.paramShapes.length 0, none⟩ = .ok acc)
    (htot : checkTotals a.close a.lossFunc.isLoss acc = .ok ()) :
    a.runCheck N = (expectClose (a.close (a.apply 0 N) (a.apply 1 N)), 4) := by
  obtain ⟨b, bs, hb⟩ := List.exists_cons_of_ne_nil hd
  have h1 : (if a.lossFunc.isLoss = true then a.needDtype else .ok ()) = .ok () := by
    split
    · exact hty
    · rfl
  have h2 : a.checkEnd N (a.data.map fun b => (a.record 0 N b, a.record 1 N b)) =
      (expectClose (a.close (a.apply 0 N) (a.apply 1 N)), 2) := by
    simp only [CtorArgs.checkEnd, hacc, htot, hty, (product_ok a N 0 hd _).mpr ⟨hn, rfl⟩,
      (product_ok a N 1 hd _).mpr ⟨hn, rfl⟩]
  unfold CtorArgs.runCheck
  rw [h1]
  simp only [lockStep_ok a N hn a.data _ acc (fun b hb => hb) hacc, h2]
  rw [hb]
  simp only [item_ok a N 0 b hn (by simp [hb])]

/-- The check passes exactly if the parameters have one data type, products can be normalized and the two traversals and
products agree as required; it then starts four traversals. -/
theorem runCheck_ok [AddCommMonoid V] [DecidableEq T] (a : CtorArgs B V T) (N : Nat) (hd : a.data ≠ []) :
    (a.runCheck N).1 = .ok () ↔ (a.dtypes ≠ [] ∧ ∃ t, ∀ x ∈ a.dtypes, x = t) ∧ a.Normalizable N ∧
      checkDeterministic a.close a.cls.fixedOrder a.lossFunc.isLoss a.paramShapes.length
        (a.data.map (a.record 0 N)) (a.data.map (a.record 1 N)) (.ok (a.apply 0 N)) (.ok (a.apply 1 N)) = .ok () := by
  unfold checkDeterministic
  rw [zip_map_pair, ← needDtype_ok]
  constructor
  · intro h
    unfold CtorArgs.runCheck at h
    split at h
    · cases h
    · simp only at h
      split at h
      · cases h
      · rename_i rs hrs
        cases lockStep_records a N _ _ hrs
        simp only [CtorArgs.checkEnd] at h
        split at h
        · cases h
        · rename_i acc hacc
          split at h
          · cases h
          · rename_i htot
            split at h
            · cases h
            · rename_i hty
              split at h
              · cases h
              · rename_i v1 hv1
                split at h
                · cases h
                · rename_i v2 hv2
                  obtain ⟨hn, rfl⟩ := (product_ok a N 0 hd v1).mp hv1
                  obtain ⟨-, rfl⟩ := (product_ok a N 1 hd v2).mp hv2
                  refine ⟨hty, hn, ?_⟩
                  simp only [hacc, htot]
                  exact h
  · rintro ⟨hty, hn, h⟩
    split at h
    · cases h
    · rename_i acc hacc
      split at h
      · cases h
      · rename_i htot
        rw [runCheck_value a N hd hty hn acc hacc htot]
        exact h

theorem runCheck_iters [AddCommMonoid V] [DecidableEq T] (a : CtorArgs B V T) (N : Nat) (hd : a.data ≠ [])
    (h : (a.runCheck N).1 = .ok ()) : (a.runCheck N).2 = 4 := by
  obtain ⟨hty, hn, hc⟩ := (runCheck_ok a N hd).mp h
  unfold checkDeterministic at hc
  rw [zip_map_pair] at hc
  split at hc
  · cases hc
  · rename_i acc hacc
    split at hc
    · cases hc
    · rename_i htot
      rw [runCheck_value a N hd ((needDtype_ok a).mpr hty) hn acc hacc htot]

/-! ## The claims -/

section claims

variable [AddCommMonoid V] [DecidableEq T] [DecidableEq D]

/-- C89: without the check for deterministic behaviour the constructor succeeds exactly if the requirements are met. -/
theorem construct_ok_iff (cpu : D) (a : CtorArgs B V T) (s : DevState D) (hc : a.check = false) :
    (∃ r, (construct cpu a s).1 = .ok r) ↔ a.Accepts s := by
  constructor
  · rintro ⟨r, h⟩
    exact construct_rejected cpu a s r h
  · intro h
    obtain ⟨d, N, b, bs, -, -, -, he⟩ := construct_accepted cpu a s h
    rw [he]
    simp only [hc, Bool.false_eq_true, if_false]
    exact ⟨_, rfl⟩

/-- C89: with the check the constructor succeeds exactly if, in addition, the parameters have one data type, products can
be normalized, and the two traversals and the two products agree (in the sense of C25 and C26). -/
theorem construct_checked_ok_iff (cpu : D) (a : CtorArgs B V T) (s : DevState D) (hc : a.check = true) :
    (∃ r, (construct cpu a s).1 = .ok r) ↔ a.Accepts s ∧ (a.dtypes ≠ [] ∧ ∃ t, ∀ x ∈ a.dtypes, x = t) ∧
      ∃ N, a.HasNumData N ∧ a.Normalizable N ∧
        checkDeterministic a.close a.cls.fixedOrder a.lossFunc.isLoss a.paramShapes.length
          (a.data.map (a.record 0 N)) (a.data.map (a.record 1 N)) (.ok (a.apply 0 N)) (.ok (a.apply 1 N)) = .ok () := by
  constructor
  · rintro ⟨r, h⟩
    have hA := construct_rejected cpu a s r h
    obtain ⟨d, N, b, bs, hb, -, hN, he⟩ := construct_accepted cpu a s hA
    rw [he] at h
    simp only [hc, if_true] at h
    cases hr : (a.runCheck N).1 with
    | error e => rw [hr] at h; cases h
    | ok u =>
      obtain ⟨h1, h2, h3⟩ := (runCheck_ok a N (by simp [hb])).mp hr
      exact ⟨hA, h1, N, hN, h2, h3⟩
  · rintro ⟨hA, h1, N, hN, h2, h3⟩
    obtain ⟨d, N', b, bs, hb, -, hN', he⟩ := construct_accepted cpu a s hA
    have : N' = N := by
      rw [← count_ok] at hN hN'
      exact Except.ok.inj (hN'.symm.trans hN)
    subst this
    rw [he]
    simp only [hc, if_true, (runCheck_ok a N' (by simp [hb])).mpr ⟨h1, h2, h3⟩]
    exact ⟨_, rfl⟩

/-- C89: deterministic models and data are accepted by the check: if the traversals and products agree, the comparison
is reflexive and the keys of dict-like inputs are distinct, the check only adds the requirements on data types and
normalization. -/
theorem construct_deterministic (cpu : D) (a : CtorArgs B V T) (s : DevState D) (hc : a.check = true)
    (hrefl : ∀ v, a.close v v = true) (hrec : a.record 1 = a.record 0) (happ : a.apply 1 = a.apply 0)
    (hk : ∀ N, ∀ b ∈ a.data, (a.record 0 N b).X.KeysNodup) :
    (∃ r, (construct cpu a s).1 = .ok r) ↔ a.Accepts s ∧ (a.dtypes ≠ [] ∧ ∃ t, ∀ x ∈ a.dtypes, x = t) ∧
      ∃ N, a.HasNumData N ∧ a.Normalizable N := by
  rw [construct_checked_ok_iff cpu a s hc]
  constructor
  · rintro ⟨h1, h2, N, h3, h4, -⟩
    exact ⟨h1, h2, N, h3, h4⟩
  · rintro ⟨h1, h2, N, h3, h4⟩
    refine ⟨h1, h2, N, h3, h4, ?_⟩
    rw [hrec, happ]
    refine checkDeterministic_accepts a.close hrefl _ _ _ _ (by simpa using h1.data) ?_ _
    intro r hr
    obtain ⟨b, hb, rfl⟩ := List.mem_map.mp hr
    exact hk N b hb

/-- C89: what a successful check guarantees: the two products agree; with a loss, the accumulated gradients agree; and for the
classes that need a fixed order of the data (the Monte-Carlo Fisher and the Jacobians), inputs, labels and predictions agree
batch by batch. -/
theorem construct_checked_agrees (cpu : D) (a : CtorArgs B V T) (s : DevState D) (hc : a.check = true) (r : CtorAttrs D)
    (h : (construct cpu a s).1 = .ok r) :
    ∃ N, a.HasNumData N ∧ a.close (a.apply 0 N) (a.apply 1 N) = true ∧
      (a.HasLoss → ∀ i < a.paramShapes.length,
        a.close (totalGrad (a.data.map (a.record 0 N)) i) (totalGrad (a.data.map (a.record 1 N)) i) = true) ∧
      (a.cls = .mcFisher ∨ a.cls = .jacobian ∨ a.cls = .transposedJacobian → ∀ b ∈ a.data,
        InputClose a.close (a.record 0 N b).X (a.record 1 N b).X ∧ a.close (a.record 0 N b).y (a.record 1 N b).y = true ∧
        a.close (a.record 0 N b).pred (a.record 1 N b).pred = true) := by
  obtain ⟨-, -, N, hN, -, hd⟩ := (construct_checked_ok_iff cpu a s hc).mp ⟨r, h⟩
  obtain ⟨⟨v1, v2, e1, e2, h1⟩, h2, h3⟩ := checkDeterministic_ok _ _ _ _ _ _ _ _ hd
  cases e1
  cases e2
  rw [zip_map_pair] at h2 h3
  refine ⟨N, hN, h1, fun hl i hi => ?_, fun hcls b hb => ?_⟩
  · have := h2 ((isLoss_iff a).mpr hl) i hi
    simpa only [List.map_map, Function.comp_def] using this
  · have hf : a.cls.fixedOrder = true := by rcases hcls with h | h | h <;> rw [h] <;> rfl
    obtain ⟨k1, k2, k3, -⟩ := h3 hf (a.record 0 N b, a.record 1 N b) (List.mem_map.mpr ⟨b, hb, rfl⟩)
    exact ⟨k1, k2, k3⟩

/-- C89: what a successful constructor sets: the block sizes (by default one block), the device of the parameters, the
number of data and the shapes; how often it starts to traverse the data; and that the operator and its parameters are
on the parameters' device afterwards. -/
theorem construct_spec (cpu : D) (a : CtorArgs B V T) (s : DevState D) (hs : ∀ p ∈ s.params, p < s.next)
    (r : CtorAttrs D) (h : (construct cpu a s).1 = .ok r) :
    r.blockSizes = a.blockSizes.getD [(a.paramShapes.length : Int)] ∧
    (∀ p ∈ s.params, s.dev p = r.device) ∧ a.HasNumData r.nData ∧
    (a.cls ≠ .transposedJacobian → r.inShape = a.paramShapes) ∧
    (a.cls ≠ .jacobian → r.outShape = a.paramShapes) ∧
    (∀ b, a.data.head? = some b →
      (a.cls = .jacobian → r.outShape = [r.nData :: (a.predShape b).tail]) ∧
      (a.cls = .transposedJacobian → r.inShape = [r.nData :: (a.predShape b).tail])) ∧
    (construct cpu a s).2.iters = 1 + (if a.numData = none then 1 else 0) +
      (if a.cls = .jacobian ∨ a.cls = .transposedJacobian then 1 else 0) + (if a.check = true then 4 else 0) ∧
    (construct cpu a s).2.dev.device = r.device ∧
    ∀ p ∈ (construct cpu a s).2.dev.params, (construct cpu a s).2.dev.dev p = r.device := by
  have hA := construct_rejected cpu a s r h
  obtain ⟨d, N, b, bs, hb, hd, hN, he⟩ := construct_accepted cpu a s hA
  have key : r = ⟨a.blockSizes.getD [(a.paramShapes.length : Int)], d, N,
      if a.cls = .transposedJacobian then [N :: (a.predShape b).tail] else a.paramShapes,
      if a.cls = .jacobian then [N :: (a.predShape b).tail] else a.paramShapes⟩ ∧
      (construct cpu a s).2.iters = 1 + (if a.numData = none then 1 else 0) +
        (if a.cls = .jacobian ∨ a.cls = .transposedJacobian then 1 else 0) + (if a.check = true then 4 else 0) ∧
      (construct cpu a s).2.dev.device = d ∧
      ∀ p ∈ (construct cpu a s).2.dev.params, (construct cpu a s).2.dev.dev p = d := by
    rw [he] at h ⊢
    cases hc : a.check with
    | false =>
      simp only [hc, Bool.false_eq_true, if_false] at h ⊢
      exact ⟨(Except.ok.inj h).symm, by omega, trivial, hd⟩
    | true =>
      simp only [hc, if_true] at h ⊢
      cases hr : (a.runCheck N).1 with
      | error e => rw [hr] at h; cases h
      | ok u =>
        rw [hr] at h
        refine ⟨(Except.ok.inj h).symm, ?_, ?_⟩
        · rw [runCheck_iters a N (by simp [hb]) hr]
        · have := constructorCheck_device cpu true (fun _ => .ok ()) { s with device := d } hs hd
          exact ⟨this.1, this.2.1⟩
  obtain ⟨rfl, h2, h3, h4⟩ := key
  refine ⟨rfl, hd, hN, ?_, ?_, ?_, h2, h3, h4⟩
  · intro hc; simp [hc]
  · intro hc; simp [hc]
  · intro b' hb'
    rw [hb] at hb'
    cases hb'
    exact ⟨fun hc => by simp [hc], fun hc => by simp [hc]⟩

/-- C89: when the constructor raises, the parameters are on one device if they were before: a failing check does not
leave them on the CPU. -/
theorem construct_restores (cpu : D) (a : CtorArgs B V T) (s : DevState D) (hs : ∀ p ∈ s.params, p < s.next) (d : D)
    (hd : ∀ p ∈ s.params, s.dev p = d) :
    ∀ p ∈ (construct cpu a s).2.dev.params, (construct cpu a s).2.dev.dev p = d := by
  unfold construct
  split
  · exact hd
  split
  · exact hd
  split
  · exact hd
  split
  · exact hd
  rename_i d' hd'
  obtain ⟨hne, hd'⟩ := (inferUnique_ok _ _).mp hd'
  obtain ⟨p, hp⟩ := List.exists_mem_of_ne_nil _ (by simpa using hne : s.params ≠ [])
  have : d' = d := by rw [← hd' _ (List.mem_map_of_mem hp), hd p hp]
  subst this
  dsimp only
  split
  · exact hd
  rename_i N _
  split
  · exact hd
  split
  · have := (constructorCheck_device cpu true (fun _ => (a.runCheck N).1) { s with device := d' } hs hd).2.1
    split
    · exact this
    · exact this
  · exact hd

/-! Which exception is raised, in the order of the requirements. -/

/-- C89: the Fisher operators refuse unsupported losses before they touch the data. -/
theorem construct_unsupported_loss (cpu : D) (a : CtorArgs B V T) (s : DevState D)
    (hc : a.cls = .empiricalFisher ∨ a.cls = .mcFisher) (hb : a.blockSizes = none)
    (hl : ∀ red, a.loss ≠ .obj true red) :
    construct cpu a s = (.error .notImplementedError, ⟨0, s⟩) := by
  unfold construct
  rw [if_neg (by simp [hb]), if_pos]
  refine ⟨(checksLoss_iff _).mpr hc, ?_⟩
  rcases h : a.loss with _ | ⟨sup, red⟩
  · rfl
  · cases sup with
    | false => rfl
    | true => exact absurd h (hl red)

/-- The requirements on the loss and on the availability of the argument `block_sizes`. -/
def CtorArgs.LossAccepted (a : CtorArgs B V T) : Prop :=
  (a.cls = .empiricalFisher ∨ a.cls = .mcFisher → ∃ red, a.loss = .obj true red) ∧
    (a.blockSizes ≠ none → a.cls = .hessian ∨ a.cls = .ggn)

omit [AddCommMonoid V] [DecidableEq T] in
theorem lossAccepted_skip (a : CtorArgs B V T) (h : a.LossAccepted) :
    ¬ (a.blockSizes.isSome ∧ a.cls.hasBlockArg = false) ∧ ¬ (a.cls.checksLoss = true ∧ a.loss.isSupported = false) := by
  constructor
  · rintro ⟨h1, h2⟩
    rcases h.2 (Option.isSome_iff_ne_none.mp h1) with hc | hc <;> · rw [hc] at h2; cases h2
  · rintro ⟨h1, h2⟩
    obtain ⟨red, hr⟩ := h.1 ((checksLoss_iff _).mp h1)
    rw [hr] at h2; cases h2

/-- C89: without batches the constructor raises `StopIteration`. -/
theorem construct_no_batch (cpu : D) (a : CtorArgs B V T) (s : DevState D) (h : a.LossAccepted) (hd : a.data = []) :
    construct cpu a s = (.error .stopIteration, ⟨1, s⟩) := by
  obtain ⟨h1, h2⟩ := lossAccepted_skip a h
  unfold construct
  rw [if_neg h1, if_neg h2, hd]
  rfl

/-- C89: dict-like data without `batch_size_fn`, block sizes for the GGN and invalid block sizes raise `ValueError`
after the first batch was looked at. -/
theorem construct_value_error (cpu : D) (a : CtorArgs B V T) (s : DevState D) (h : a.LossAccepted) (b : B)
    (hd : a.data.head? = some b)
    (hbad : a.X b = .mapping ∧ a.batchSizeFn = none ∨
      ∃ bs, a.blockSizes = some bs ∧ (a.cls = .ggn ∨ bs.sum ≠ (a.paramShapes.length : Int) ∨ ∃ x ∈ bs, x ≤ 0)) :
    construct cpu a s = (.error .valueError, ⟨1, s⟩) := by
  obtain ⟨h1, h2⟩ := lossAccepted_skip a h
  have h3 : initBlockSizes (XArg.first (a.data.head?.map a.X)) a.batchSizeFn.isSome a.cls.supportsBlocks a.blockSizes
      a.paramShapes.length = .error .valueError := by
    have hne : XArg.first (a.data.head?.map a.X) ≠ .noBatch := by
      rw [hd]
      cases h : a.X b <;> simp [XArg.first, h]
    cases hr : initBlockSizes (XArg.first (a.data.head?.map a.X)) a.batchSizeFn.isSome a.cls.supportsBlocks
        a.blockSizes a.paramShapes.length with
    | ok bs =>
      exfalso
      obtain ⟨-, g2, g3⟩ := (initBlockSizes_ok_iff _ _ _ _ _ _).mp hr
      rcases hbad with ⟨hm, hf⟩ | ⟨cs, hcs, hbad⟩
      · have := g2 (by rw [hd]; simp [XArg.first, hm])
        rw [hf] at this
        cases this
      · rcases g3 with ⟨g, -⟩ | ⟨g, gs, gr⟩
        · rw [hcs] at g; cases g
        · rw [hcs] at g
          cases Option.some.inj g
          rcases hbad with hb | hb | ⟨x, hx, hb⟩
          · rw [hb] at gs; cases gs
          · exact hb gr.1
          · have := gr.2 x hx
            omega
    | error e =>
      have : e = .valueError := by
        generalize XArg.first (a.data.head?.map a.X) = f at hne hr
        unfold initBlockSizes at hr
        cases f with
        | noBatch => exact absurd rfl hne
        | mapping =>
          simp only at hr
          split at hr
          · exact (Except.error.inj hr).symm
          · split at hr
            · cases hr
            · split at hr
              · exact (Except.error.inj hr).symm
              · split at hr
                · exact (Except.error.inj hr).symm
                · split at hr
                  · exact (Except.error.inj hr).symm
                  · cases hr
        | nonMapping =>
          simp only at hr
          split at hr
          · exact (Except.error.inj hr).symm
          · split at hr
            · cases hr
            · split at hr
              · exact (Except.error.inj hr).symm
              · split at hr
                · exact (Except.error.inj hr).symm
                · split at hr
                  · exact (Except.error.inj hr).symm
                  · cases hr
      rw [this]
  unfold construct
  rw [if_neg h1, if_neg h2, h3]

/-- The requirements that are checked before the device is inferred. -/
structure CtorArgs.FirstAccepted (a : CtorArgs B V T) : Prop where
  loss : a.cls = .empiricalFisher ∨ a.cls = .mcFisher → ∃ red, a.loss = .obj true red
  data : a.data ≠ []
  dict : ∀ b, a.data.head? = some b → a.X b = .mapping → a.batchSizeFn ≠ none
  blocks : ∀ bs, a.blockSizes = some bs →
    a.cls = .hessian ∧ bs.sum = (a.paramShapes.length : Int) ∧ ∀ x ∈ bs, 0 < x

omit [AddCommMonoid V] [DecidableEq T] in
theorem firstAccepted_blocks (a : CtorArgs B V T) (h : a.FirstAccepted) :
    ¬ (a.blockSizes.isSome ∧ a.cls.hasBlockArg = false) ∧ ¬ (a.cls.checksLoss = true ∧ a.loss.isSupported = false) ∧
    initBlockSizes (XArg.first (a.data.head?.map a.X)) a.batchSizeFn.isSome a.cls.supportsBlocks a.blockSizes
      a.paramShapes.length = .ok (a.blockSizes.getD [(a.paramShapes.length : Int)]) := by
  obtain ⟨h1, h2⟩ := lossAccepted_skip a ⟨h.loss, fun hb => by
    obtain ⟨cs, hcs⟩ := Option.ne_none_iff_exists'.mp hb
    exact Or.inl (h.blocks cs hcs).1⟩
  obtain ⟨b, bs, hb⟩ := List.exists_cons_of_ne_nil h.data
  have h3 : initBlockSizes (XArg.first (a.data.head?.map a.X)) a.batchSizeFn.isSome a.cls.supportsBlocks a.blockSizes
      a.paramShapes.length = .ok (a.blockSizes.getD [(a.paramShapes.length : Int)]) := by
    rw [initBlockSizes_ok_iff]
    refine ⟨?_, ?_, ?_⟩
    · rw [hb]
      cases h : a.X b <;> simp [XArg.first, h]
    · intro hm
      have hm' : a.X b = .mapping := by
        rw [hb] at hm
        cases h : a.X b <;> simp [XArg.first, h] at hm ⊢
      exact Option.isSome_iff_ne_none.mpr (h.dict b (by rw [hb]; rfl) hm')
    · cases hbl : a.blockSizes with
      | none => left; simp
      | some cs =>
        right
        obtain ⟨hc, hs⟩ := h.blocks cs hbl
        simp only [hc, OpClass.supportsBlocks, Option.getD_some, true_and]
        exact hs
  exact ⟨h1, h2, h3⟩

/-- C89: no parameters, or parameters on several devices: `RuntimeError`. -/
theorem construct_device_error (cpu : D) (a : CtorArgs B V T) (s : DevState D) (h : a.FirstAccepted)
    (hd : s.params = [] ∨ ∃ p ∈ s.params, ∃ q ∈ s.params, s.dev p ≠ s.dev q) :
    construct cpu a s = (.error .runtimeError, ⟨1, s⟩) := by
  have : inferUnique (s.params.map s.dev) = .error .runtimeError := by
    rw [inferUnique_raises]
    rcases hd with hd | ⟨p, hp, q, hq, hne⟩
    · left; simp [hd]
    · right
      exact ⟨_, List.mem_map_of_mem hp, _, List.mem_map_of_mem hq, hne⟩
  obtain ⟨h1, h2, h3⟩ := firstAccepted_blocks a h
  unfold construct
  rw [if_neg h1, if_neg h2, h3]
  simp only [this]

omit [AddCommMonoid V] [DecidableEq T] in
theorem pyMapM_first_error {β γ : Type _} (f : β → Py γ) (x : β) (e : PyErr) (hx : f x = .error e) (post : List β) :
    ∀ pre : List β, (∀ y ∈ pre, ∃ z, f y = .ok z) → pyMapM f (pre ++ x :: post) = .error e
  | [], _ => by simp [pyMapM, hx]
  | y :: ys, h => by
    obtain ⟨z, hz⟩ := h y (by simp)
    simp only [List.cons_append, pyMapM, hz]
    rw [pyMapM_first_error f x e hx post ys fun w hw => h w (by simp [hw])]

/-- C89: if the number of data has to be counted and an input is not a tensor, there is no batch size: `AttributeError`
(`IndexError` for a tensor without dimensions), during the second traversal. -/
theorem construct_size_error (cpu : D) (a : CtorArgs B V T) (s : DevState D) (h : a.FirstAccepted)
    (hp : s.params ≠ []) (d : D) (hd : ∀ p ∈ s.params, s.dev p = d) (hN : a.numData = none)
    (hf : a.batchSizeFn = none) (pre post : List B) (b : B) (hdata : a.data = pre ++ b :: post)
    (hpre : ∀ x ∈ pre, ∃ n, a.HasSize x n) :
    (a.X b = .mapping ∨ a.X b = .other →
      construct cpu a s = (.error .attributeError, ⟨2, { s with device := d }⟩)) ∧
    (a.X b = .tensor [] → construct cpu a s = (.error .indexError, ⟨2, { s with device := d }⟩)) := by
  have h1 : inferUnique (s.params.map s.dev) = .ok d := by
    rw [inferUnique_ok]
    refine ⟨by simpa using hp, fun x hx => ?_⟩
    obtain ⟨p, hp', rfl⟩ := List.mem_map.mp hx
    exact hd p hp'
  have key : ∀ e, a.size b = .error e → construct cpu a s = (.error e, ⟨2, { s with device := d }⟩) := by
    intro e he
    have : a.count = (.error e, 1) := by
      unfold CtorArgs.count
      rw [hN]
      simp only [hdata, pyMapM_first_error a.size b e he post pre fun x hx => by
        obtain ⟨n, hn⟩ := hpre x hx
        exact ⟨n, (size_ok a x n).mpr hn⟩]
    obtain ⟨g1, g2, g3⟩ := firstAccepted_blocks a h
    unfold construct
    rw [if_neg g1, if_neg g2, g3]
    simp only [h1, this]
  constructor
  · rintro (hX | hX) <;> refine key _ ?_ <;> simp [CtorArgs.size, hf, hX, XArg.defaultSize]
  · intro hX
    refine key _ ?_
    simp [CtorArgs.size, hf, hX, XArg.defaultSize]

omit [AddCommMonoid V] [DecidableEq T] in
theorem lockStep_free (a : CtorArgs B V T) (N : Nat) (hl : a.lossFunc.isLoss = false) (ho : a.cls.fixedOrder = false) :
    ∀ bs : List B, a.lockStep N bs = .ok (bs.map fun b => (a.record 0 N b, a.record 1 N b))
  | [] => rfl
  | b :: bs => by
    unfold CtorArgs.lockStep CtorArgs.item
    simp [hl, ho, lockStep_free a N hl ho bs]

omit [DecidableEq T] in
theorem checkLoop_free (close : V → V → Bool) : ∀ (rs : List (Rec V × Rec V)) (acc : Acc V),
    checkLoop close false false rs acc = .ok acc
  | [], _ => rfl
  | (r1, r2) :: rs, acc => by
    unfold checkLoop
    simp [checkLoop_free close rs acc]

/-- The exception of the normalization: no data, no loss function or a loss without `reduction`, another reduction. -/
def CtorArgs.NormalizationError (a : CtorArgs B V T) (N : Nat) (e : PyErr) : Prop :=
  (N = 0 ∧ e = .zeroDivisionError) ∨
  (N ≠ 0 ∧ (a.loss = .noLoss ∨ ∃ sup, a.loss = .obj sup none) ∧ e = .attributeError) ∨
  (N ≠ 0 ∧ (∃ sup, a.loss = .obj sup (some .other)) ∧ e = .keyError)

omit [AddCommMonoid V] [DecidableEq T] in
theorem normalize_error (a : CtorArgs B V T) (hj : a.cls.isJacobian = false) (N : Nat) (b : B)
    (hb : ∃ n, a.HasSize b n) (e : PyErr) (h : a.NormalizationError N e) : a.normalize N b = .error e := by
  obtain ⟨n, hn⟩ := hb
  have hl : a.lossFunc = a.loss := by simp [CtorArgs.lossFunc, hj]
  unfold CtorArgs.normalize
  rw [(size_ok a b n).mpr hn, hl]
  rcases h with ⟨h1, rfl⟩ | ⟨h1, h2 | ⟨sup, h2⟩, rfl⟩ | ⟨h1, ⟨sup, h2⟩, rfl⟩
  · simp [h1]
  · simp [h1, h2]
  · simp [h1, h2]
  · simp [h1, h2, normalizationFactor]

omit [AddCommMonoid V] [DecidableEq T] in
/-- C89: products of operators on the parameter space raise if the loss or the number of data does not allow to normalize.
In particular `num_data = 0` raises `ZeroDivisionError` also for the reduction `'sum'`, which needs no division. -/
theorem product_normalization_error (a : CtorArgs B V T) (hj : ¬ (a.cls = .jacobian ∨ a.cls = .transposedJacobian))
    (N k : Nat) (b : B) (bs : List B) (hd : a.data = b :: bs) (hb : ∃ n, a.HasSize b n) (e : PyErr)
    (h : a.NormalizationError N e) : a.product N k = .error e := by
  have hj' : a.cls.isJacobian = false := by simpa using mt (isJacobian_iff _).mp hj
  unfold CtorArgs.product
  rw [if_neg (by simp [hj']), hd]
  simp [pyMapM, normalize_error a hj' N b hb e h]

/-- C89: the check finds this when the operator is constructed: the constructor raises the same exception. Without the
check the constructor succeeds (`construct_ok_iff`) and the first product raises (`product_normalization_error`). -/
theorem construct_normalization_error (cpu : D) (a : CtorArgs B V T) (s : DevState D) (hA : a.Accepts s)
    (hc : a.check = true) (hty : a.dtypes ≠ [] ∧ ∃ t, ∀ x ∈ a.dtypes, x = t)
    (hj : ¬ (a.cls = .jacobian ∨ a.cls = .transposedJacobian)) (N : Nat) (hN : a.HasNumData N)
    (hsize : ∀ b ∈ a.data, ∃ n, a.HasSize b n) (e : PyErr) (h : a.NormalizationError N e) :
    (construct cpu a s).1 = .error e := by
  have hj' : a.cls.isJacobian = false := by simpa using mt (isJacobian_iff _).mp hj
  obtain ⟨d, N', b, bs, hb, -, hN', he⟩ := construct_accepted cpu a s hA
  have : N' = N := by
    rw [← count_ok] at hN hN'
    exact Except.ok.inj (hN'.symm.trans hN)
  subst this
  have hbs := hsize b (by simp [hb])
  have hrun : (a.runCheck N').1 = .error e := by
    have hdt := (needDtype_ok a).mpr hty
    have h1 : (if a.lossFunc.isLoss = true then a.needDtype else .ok ()) = .ok () := by
      split
      · exact hdt
      · rfl
    unfold CtorArgs.runCheck
    rw [h1]
    dsimp only
    cases hl : a.lossFunc.isLoss with
    | true =>
      have hstep : a.lockStep N' a.data = .error e := by
        rw [hb]
        unfold CtorArgs.lockStep CtorArgs.item
        simp [hl, normalize_error a hj' N' b hbs e h]
      rw [hstep]
    | false =>
      have ho : a.cls.fixedOrder = false := by
        have hnl : a.loss = .noLoss := by
          by_contra hnl
          have := (isLoss_iff a).mpr ⟨hj, hnl⟩
          rw [hl] at this; cases this
        have hnc : ¬ (a.cls = .empiricalFisher ∨ a.cls = .mcFisher) := by
          intro hcl
          obtain ⟨red, hr⟩ := hA.loss hcl
          rw [hnl] at hr; cases hr
        cases hcls : a.cls <;> simp [hcls] at hnc hj ⊢ <;> rfl
      rw [lockStep_free a N' hl ho]
      simp only [CtorArgs.checkEnd, hl, ho, checkLoop_free, checkTotals, Bool.false_eq_true, if_false, hdt,
        product_normalization_error a hj N' 0 b bs hb hbs e h]
  rw [he]
  simp only [hc, if_true, hrun]
  rfl

/-- C89: an operator that passed the check can be multiplied: the normalization does not raise in later products. -/
theorem constructed_products (cpu : D) (a : CtorArgs B V T) (s : DevState D) (hc : a.check = true) (r : CtorAttrs D)
    (h : (construct cpu a s).1 = .ok r) (k : Nat) : ∃ v, a.product r.nData k = .ok v := by
  obtain ⟨hA, -, N, hN, hn, -⟩ := (construct_checked_ok_iff cpu a s hc).mp ⟨r, h⟩
  have hA' := construct_rejected cpu a s r h
  obtain ⟨d, N', b, bs, hb, -, hN', he⟩ := construct_accepted cpu a s hA'
  have : N' = N := by
    rw [← count_ok] at hN hN'
    exact Except.ok.inj (hN'.symm.trans hN)
  subst this
  have hr : r.nData = N' := by
    rw [he] at h
    simp only [hc, if_true] at h
    cases hr : (a.runCheck N').1 with
    | error e => rw [hr] at h; cases h
    | ok u =>
      rw [hr] at h
      rw [← Except.ok.inj h]
  rw [hr]
  exact ⟨_, (product_ok a N' k hA.data _).mpr ⟨hn, rfl⟩⟩

/-- C89: parameters of different data types are refused by the check (with the same exception as non-deterministic
behaviour), but accepted without it. -/
theorem construct_dtype_error (cpu : D) (a : CtorArgs B V T) (s : DevState D) (hA : a.Accepts s)
    (hc : a.check = true) (hl : a.HasLoss) (x y : T) (hx : x ∈ a.dtypes) (hy : y ∈ a.dtypes) (hne : x ≠ y) :
    (construct cpu a s).1 = .error .runtimeError := by
  obtain ⟨d, N, b, bs, hb, -, hN, he⟩ := construct_accepted cpu a s hA
  have hty : a.needDtype = .error .runtimeError := by
    unfold CtorArgs.needDtype
    rw [(inferUnique_raises a.dtypes).mpr (Or.inr ⟨x, hx, y, hy, hne⟩)]
  have : (a.runCheck N).1 = .error .runtimeError := by
    unfold CtorArgs.runCheck
    rw [if_pos ((isLoss_iff a).mpr hl), hty]
  rw [he]
  simp only [hc, if_true, this]
  rfl

/-- The documented claim on inputs that are not tensors ("`ValueError`: If `X` is not a tensor and `batch_size_fn` is not
specified", `_torch_base.py:461`), the part that holds: dict-like inputs in the first batch. Missing: other inputs, see
`construct_non_tensor_violation`. -/
theorem construct_non_tensor_partial (cpu : D) (a : CtorArgs B V T) (s : DevState D) (h : a.LossAccepted) (b : B)
    (hd : a.data.head? = some b) (hX : a.X b = .mapping) (hf : a.batchSizeFn = none) :
    (construct cpu a s).1 = .error .valueError := by
  rw [construct_value_error cpu a s h b hd (Or.inl ⟨hX, hf⟩)]

end claims

/-! ## Examples -/

/-- A GGN with two parameters of the given types, one batch of two data whose input is `X`, and the mean square error. -/
def exampleCtor (X : XArg) (numData : Option Nat) (loss : CtorLoss) (check : Bool) (dtypes : List Nat) :
    CtorArgs Unit Int Nat where
  cls := .ggn
  loss := loss
  paramShapes := [[2, 3], [2]]
  dtypes := dtypes
  data := [()]
  check := check
  numData := numData
  blockSizes := none
  batchSizeFn := none
  X := fun _ => X
  predShape := fun _ => [2, 2]
  close := fun a b => a == b
  record := fun _ _ _ => ⟨.tensor 1, 0, 2, 3, [4, 5]⟩
  apply := fun _ _ => 7

/-- Two parameters on device `true`; `false` is the CPU. -/
def exampleDevs : DevState Bool := ⟨fun _ => true, 2, true, true, [0, 1], [0, 1]⟩

/-- Not what is documented: an input that is neither a tensor nor dict-like, without `batch_size_fn`, does not raise
`ValueError`: counting the data raises `AttributeError`, and with `num_data` the operator is accepted. -/
theorem construct_non_tensor_violation :
    (construct false (exampleCtor .other none (.obj true (some .mean)) false [0, 0]) exampleDevs).1 =
      .error .attributeError ∧
    (construct false (exampleCtor .other (some 2) (.obj true (some .mean)) false [0, 0]) exampleDevs).1 =
      .ok ⟨[2], true, 2, [[2, 3], [2]], [[2, 3], [2]]⟩ := by
  decide +kernel

/-- Non-vacuity: with the check, six traversals; the operator is on the device of its parameters. -/
example : (construct false (exampleCtor (.tensor [2, 3]) none (.obj true (some .mean)) true [0, 0]) exampleDevs).1 =
      .ok ⟨[2], true, 2, [[2, 3], [2]], [[2, 3], [2]]⟩ ∧
    (construct false (exampleCtor (.tensor [2, 3]) none (.obj true (some .mean)) true [0, 0]) exampleDevs).2.iters = 6 := by
  decide +kernel

/-- Without the check a plain function is accepted as loss; with it, `AttributeError`; with `num_data = 0` it is
`ZeroDivisionError` although the reduction is `'sum'`; parameters of two data types: `RuntimeError`. -/
example : (construct false (exampleCtor (.tensor [2, 3]) none (.obj false none) false [0, 0]) exampleDevs).1 =
      .ok ⟨[2], true, 2, [[2, 3], [2]], [[2, 3], [2]]⟩ ∧
    (construct false (exampleCtor (.tensor [2, 3]) none (.obj false none) true [0, 0]) exampleDevs).1 =
      .error .attributeError ∧
    (construct false (exampleCtor (.tensor [2, 3]) (some 0) (.obj true (some .sum)) true [0, 0]) exampleDevs).1 =
      .error .zeroDivisionError ∧
    (construct false (exampleCtor (.tensor [2, 3]) none (.obj true (some .sum)) true [0, 1]) exampleDevs).1 =
      .error .runtimeError := by
  decide +kernel

/-- `block_sizes` for the Jacobian and for the GGN. -/
example : construct false { exampleCtor (.tensor [2, 3]) none (.obj true (some .mean)) true [0, 0] with
      cls := .jacobian, blockSizes := some [2] } exampleDevs = (.error .typeError, ⟨0, exampleDevs⟩) ∧
    construct false { exampleCtor (.tensor [2, 3]) none (.obj true (some .mean)) true [0, 0] with
      blockSizes := some [2] } exampleDevs = (.error .valueError, ⟨1, exampleDevs⟩) :=
  ⟨(construct_block_sizes_class false _ exampleDevs [2] rfl (by decide)).1 (by decide),
    (construct_block_sizes_class false _ exampleDevs [2] rfl (by decide)).2 rfl (by simp [exampleCtor])⟩

end Curvlinops
