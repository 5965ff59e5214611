import Verif.Props.KfacState
import Verif.Props.KfacPsd

/-!
# C31, C32: values that calls of KFAC return

The properties of the stateful operator, in terms of the matrix that its products use, and the random numbers of each
mini-batch.
-/

namespace Curvlinops

variable {Θ B G : Type}

/-! ## Random numbers -/

/-- C32: mini-batch `i` is processed with the random number generator in the state that the mini-batches before it, in
order, leave behind. -/
theorem batches_draws (w : KWorld Θ B G) (θ : Θ) (cfg : KfacCfg) (g : G) (data : List B) (i : Nat) :
    (w.batches θ cfg g data)[i]? =
      data[i]?.map fun b => (w.run θ cfg ((data.take i).foldl (fun g b => (w.run θ cfg g b).2) g) b).1 := by
  induction data generalizing g i with
  | nil => simp [KWorld.batches]
  | cons b bs ih =>
    cases i with
    | zero => simp [KWorld.batches]
    | succ i => simp [KWorld.batches, ih]

/-- Two mini-batches with different draws. -/
example : (⟨[], [(), ()], id, fun _ _ g _ => ([⟨fun _ _ _ => g, fun _ _ _ _ _ => 0, fun _ _ _ => 0, fun _ _ _ => 0⟩], g + 1)⟩ :
    KWorld Unit Unit Nat).batches () stateCfg 5 [(), ()] =
      [[⟨fun _ _ _ => 5, fun _ _ _ _ _ => 0, fun _ _ _ => 0, fun _ _ _ => 0⟩],
       [⟨fun _ _ _ => 6, fun _ _ _ _ _ => 0, fun _ _ _ => 0, fun _ _ _ => 0⟩]] := by
  simp [KWorld.batches]

/-! ## Values -/

theorem readProperty_fresh {γ : Type _} (w : KWorld Θ B G) (s₀ : KState Θ) (hf : s₀.IsFresh) (get : KState Θ → Option γ)
    (set : KState Θ → γ → KState Θ) (loop : KState Θ → γ × Option PyErr) (h0 : get s₀ = none) (v : γ)
    (hv : loop (s₀.computed w) = (v, none)) : (readProperty w get set loop none s₀).1 = .ok v := by
  unfold readProperty
  rw [h0]
  simp only [ensureKfac_fresh w s₀ hf, hv]

theorem accPartial_of_accLoop {γ : Type _} {sep : Bool} {inCov gradCov : Dict (Factor ℝ)}
    {joint weight : Factor ℝ → Factor ℝ → γ → γ} {other : Factor ℝ → γ → γ} {mapping : Dict (Dict Nat)} {acc v : γ}
    (h : accLoop sep inCov gradCov joint weight other mapping acc = .ok v) :
    accPartial sep inCov gradCov joint weight other mapping acc = (v, none) := by
  rw [accPartial_eq] at h
  rcases hp : accPartial sep inCov gradCov joint weight other mapping acc with ⟨v', _ | e⟩ <;> rw [hp] at h
  · rw [Except.ok.inj h]
  · cases h

/-- C31, C32: what the calls on a new operator return, in terms of the dense matrix `M` of the factors: trace,
determinant, its logarithm, Frobenius norm, and products with `M`. -/
theorem kfac_first_call (w : KWorld Θ B G) (s₀ : KState Θ) (hf : s₀.IsFresh) (hg : w.Good s₀.cfg)
    (shapes : List (List Nat)) (layers : List (Layer ℝ))
    (h : KfacLayers s₀.cfg.sep shapes w.mapping (w.factors s₀).1 (w.factors s₀).2 layers) (M : Mat ℝ)
    (hM : IsKron (kfacBlocks s₀.cfg.sep shapes layers) M) (D : Nat) (hD : D = (shapes.map List.prod).sum)
    (hdim : ∀ l ∈ layers, 0 < l.B.dim ∧ (l.pos.hasWeight = true → 0 < l.A.dim)) :
    (kStep w s₀ none .trace).1 = .ok (.number (matTrace D M)) ∧
    (kStep w s₀ none .det).1 = .ok (.number (matDet D M)) ∧
    (kStep w s₀ none .logdet).1 = .ok (.log (FLog.ofReal (matDet D M))) ∧
    (kStep w s₀ none .frobenius).1 = .ok (.number (Real.sqrt (matSquares D M))) ∧
    ∀ K Xs, HasShapes Xs shapes K → ∃ Ys, (kStep w s₀ none (.matmat Xs)).1 = .ok (.matrix Ys) ∧
      HasShapes Ys shapes K ∧ IsProduct M D D K (flatData Xs) (flatData Ys) := by
  subst hD
  have hne : layers ≠ [] := by
    intro hl
    have := h.mapping_eq
    rw [hl] at this
    exact hg.layers (List.map_eq_nil_iff.mp this)
  have e1 := kfacTrace_eq h M hM
  have e2 := kfacDet_eq h M hM
  have e3 := kfacLogdet_computed s₀.cfg w.layers _ shapes w.mapping layers h M hM hdim
  have e4 := kfacFrobenius_eq h M hM hne
  refine ⟨?_, ?_, ?_, ?_, ?_⟩
  · simp only [kStep, wrap, KState.readTrace]
    rw [readProperty_fresh w s₀ hf _ _ _ hf.trace _ (accPartial_of_accLoop e1)]
  · simp only [kStep, wrap, KState.readDet]
    rw [readProperty_fresh w s₀ hf _ _ _ hf.det _ (accPartial_of_accLoop e2)]
  · simp only [kStep, wrap, KState.readLogdet]
    rw [readProperty_fresh w s₀ hf _ _ _ hf.logdet _ (accPartial_of_accLoop e3)]
  · simp only [kStep, wrap, KState.readFrob]
    rw [readProperty_fresh w s₀ hf _ _ _ hf.frob (Real.sqrt (matSquares (shapes.map List.prod).sum M))]
    unfold kfacFrobenius at e4
    split at e4
    · cases e4
    · rename_i v hv
      unfold KState.frobLoop
      rw [show accPartial (s₀.computed w).cfg.sep (s₀.computed w).inCov (s₀.computed w).gradCov
        (fun A B acc => acc + A.squares * B.squares) (fun A B acc => acc + B.squares * A.squares)
        (fun B acc => acc + B.squares * 1) w.mapping 0 = (v, none) from accPartial_of_accLoop hv]
      simp only
      split at e4
      · cases e4
      · rename_i hm
        rw [if_neg hm]
        simp only [Except.ok.injEq] at e4
        rw [e4]
  · intro K Xs hX
    obtain ⟨Ys, hY, hYs, hp⟩ := kfac_represents _ shapes _ _ _ layers h M hM K Xs hX
    refine ⟨Ys, ?_, hYs, hp⟩
    simp only [kStep, wrap, KState.matmat, ensureKfac_fresh w s₀ hf]
    rw [show kfacMatmat (s₀.computed w).cfg.sep w.mapping (s₀.computed w).inCov (s₀.computed w).gradCov Xs = .ok Ys from hY]

/-- The value of a call, in terms of the matrix `M`. -/
def CallValue (shapes : List (List Nat)) (D : Nat) (M : Mat ℝ) (r : Py KValue) : KCall → Prop
  | .trace => r = .ok (.number (matTrace D M))
  | .det => r = .ok (.number (matDet D M))
  | .logdet => r = .ok (.log (FLog.ofReal (matDet D M)))
  | .frobenius => r = .ok (.number (Real.sqrt (matSquares D M)))
  | .matmat Xs => ∀ K, HasShapes Xs shapes K → ∃ Ys, r = .ok (.matrix Ys) ∧ HasShapes Ys shapes K ∧
      IsProduct M D D K (flatData Xs) (flatData Ys)
  | .userForward _ => r = .ok .none

/-- C31, C32: in every sequence of uninterrupted calls, every product is one with `M`, and every property that is read
is that of `M`. -/
theorem kfac_history_values (w : KWorld Θ B G) (s₀ : KState Θ) (hf : s₀.IsFresh) (hg : w.Good s₀.cfg)
    (shapes : List (List Nat)) (layers : List (Layer ℝ))
    (h : KfacLayers s₀.cfg.sep shapes w.mapping (w.factors s₀).1 (w.factors s₀).2 layers) (M : Mat ℝ)
    (hM : IsKron (kfacBlocks s₀.cfg.sep shapes layers) M)
    (hdim : ∀ l ∈ layers, 0 < l.B.dim ∧ (l.pos.hasWeight = true → 0 < l.A.dim)) (calls : List KCall) :
    List.Forall₂ (CallValue shapes (shapes.map List.prod).sum M) (kRun w s₀ (calls.map fun c => (c, none))).1 calls := by
  obtain ⟨h1, h2, h3, h4, h5⟩ := kfac_first_call w s₀ hf hg shapes layers h M hM _ rfl hdim
  rw [(kfac_history w s₀ hf hg calls).1]
  induction calls with
  | nil => exact .nil
  | cons c cs ih =>
    refine .cons ?_ ih
    cases c with
    | trace => exact h1
    | det => exact h2
    | logdet => exact h3
    | frobenius => exact h4
    | matmat Xs => exact fun K => h5 K Xs
    | userForward b => rfl

/-- A world of one layer "a" with a `1 × 1` weight. -/
def readsWorld : KWorld Unit (List KDatum) Unit :=
  ⟨[⟨"a", [("weight", 0)], 1, 1, 1⟩], [[unitDatum], [unitDatum]], fun _ => (), fun _ _ g b => (b, g)⟩

/-- Non-vacuity: two data with input, Jacobian and gradient one, and reduction `sum`: the matrix is `2`. -/
example : List.Forall₂ (CallValue [[1, 1]] 1 fun _ _ => 2)
    (kRun readsWorld unitState ([.det, .trace, .frobenius, .logdet, .det].map fun c => (c, none))).1
    [.det, .trace, .frobenius, .logdet, .det] := by
  have h := kfacLayers_single stateCfg ⟨"a", [("weight", 0)], 1, 1, 1⟩ [[unitDatum], [unitDatum]] (by simp)
    (by simp [stateCfg]) (by simp [stateCfg]) (by simp [stateCfg]) rfl
  refine kfac_history_values readsWorld unitState unitState_fresh
    ⟨by simp [readsWorld], by simp [readsWorld], by simp [readsWorld], by simp [unitState, KState.fresh, stateCfg],
      by simp [unitState, KState.fresh, stateCfg], by simp [unitState, KState.fresh, stateCfg]⟩ [[1, 1]] _ h _ ?_ ?_ _
  · intro x y
    obtain ⟨⟨n, hn⟩, i, j⟩ := x
    obtain ⟨⟨m, hm⟩, i', j'⟩ := y
    obtain rfl : n = 0 := by
      have : n < 1 := hn
      omega
    obtain rfl : m = 0 := by
      have : m < 1 := hm
      omega
    simp only [KIdx.entry, if_pos]
    show (2 : ℝ) = specGradFactor stateCfg ⟨"a", [("weight", 0)], 1, 1, 1⟩ [unitDatum, unitDatum] i i' *
      specInputFactor stateCfg ⟨"a", [("weight", 0)], 1, 1, 1⟩ [unitDatum, unitDatum] j' j
    simp [specGradFactor, specInputFactor, stateCfg, specGradScale, specCotangents, specGradVec, unitDatum,
      specInputVec, KLayer.joint, Dict.has]
    norm_num
  · intro l hl
    obtain rfl := List.mem_singleton.mp hl
    simp

end Curvlinops
