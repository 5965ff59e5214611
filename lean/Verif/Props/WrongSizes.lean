import Verif.Props.Blocks
import Verif.Props.KfacStateDict
import Verif.Props.KfacDampingOrder
import Verif.Lemmas.Kron

/-!
# C123: arguments of the wrong size; C124: state dictionaries of KFAC on other parameters
-/

namespace Curvlinops

variable {α : Type _}

/-! ### SciPy operators -/

/-- **C123** (exported operators): `matvec`, `matmat`, `rmatvec` and `rmatmat` raise `ValueError` for all arrays of other shapes, whatever the
operator does. -/
theorem exported_wrong_shape [NonUnitalNonAssocSemiring α] (A : OpObj α) (dt : DType) (dtype : Option DType) (L : ScipyOp α)
    (hL : A.toScipy dt dtype = .ok L) (x : NpArray α) :
    (x.arr.shape ≠ [A.op.ncols] → x.arr.shape ≠ [A.op.ncols, 1] → L.matvec x = .error .valueError) ∧
    (x.arr.shape ≠ [A.op.nrows] → x.arr.shape ≠ [A.op.nrows, 1] → L.rmatvec x = .error .valueError) ∧
    ((∀ K, x.arr.shape ≠ [A.op.ncols, K]) → L.matmat x = .error .valueError) ∧
    ((∀ K, x.arr.shape ≠ [A.op.nrows, K]) → L.rmatmat x = .error .valueError) := by
  have hm : ∀ (f : NpArray α → Py (NpArray α)) N, (∀ K, x.arr.shape ≠ [N, K]) → scipyMat f N x = .error .valueError := by
    intro f N h
    unfold scipyMat
    split
    · rename_i n K he
      rw [if_neg]
      rintro rfl
      exact h K he
    · rfl
  unfold OpObj.toScipy at hL
  split at hL
  · cases hL
  · obtain rfl := Except.ok.inj hL
    refine ⟨fun h1 h2 => ?_, fun h1 h2 => ?_, fun h => hm _ _ h, fun h => hm _ _ h⟩
    · exact if_neg (by simp only [h1, h2, or_self, not_false_iff])
    · exact if_neg (by simp only [h1, h2, or_self, not_false_iff])

/-- The size of the first axis. -/
def NpVal.len : NpVal α → Nat
  | .vec v => v.length
  | .mat r _ => r

/-- **C123** (`L @ X`): SciPy raises `ValueError` if the first axis does not match, before the operator is evaluated. -/
theorem SciOp.dot_wrong_size (L : SciOp α) (X : NpVal α) (h : X.len ≠ L.cols) : L.dot X = .error .valueError := by
  unfold SciOp.dot
  split
  · exact if_neg h
  · exact if_neg h
  · exact if_neg h

/-- `L.matvec(X)` raises `ValueError` for matrices without exactly one column. -/
theorem SciOp.matvec_columns (L : SciOp α) (r : Nat) (cs : List (List α)) (h : cs.length ≠ 1) :
    L.matvec (.mat r cs) = .error .valueError := by
  match cs with
  | [] => rfl
  | [c] => simp at h
  | _ :: _ :: _ => rfl

theorem mkSubmatrix_shape [Zero α] (P : SciPair α) (rowIdxs colIdxs : List PyIdx) (s : SubState α)
    (hs : mkSubmatrix P rowIdxs colIdxs = .ok s) : s.toSci.rows = rowIdxs.length ∧ s.toSci.cols = colIdxs.length := by
  have hc : ∀ n l m, checkIdxs n l = .ok m → m = l.length := by
    intro n l m h
    unfold checkIdxs at h
    split_ifs at h
    exact (Except.ok.inj h).symm
  unfold mkSubmatrix SubState.setSubmatrix at hs
  simp only at hs
  cases h1 : checkIdxs P.op.rows rowIdxs with
  | error e => simp [h1] at hs
  | ok m =>
    cases h2 : checkIdxs P.op.cols colIdxs with
    | error e => simp [h1, h2] at hs
    | ok n =>
      simp only [h1, h2] at hs
      obtain rfl := Except.ok.inj hs
      exact ⟨hc _ _ _ h1, hc _ _ _ h2⟩

/-- Sub-matrix operators take the length of their column indices. -/
theorem submatrix_wrong_size [Zero α] (P : SciPair α) (rowIdxs colIdxs : List PyIdx) (s : SubState α)
    (hs : mkSubmatrix P rowIdxs colIdxs = .ok s) (X : NpVal α) (h : X.len ≠ colIdxs.length) : s.toSci.dot X = .error .valueError := by
  refine s.toSci.dot_wrong_size X ?_
  rw [(mkSubmatrix_shape P rowIdxs colIdxs s hs).2]
  exact h

/-! ### Kronecker factors of other parameters -/

variable [NonUnitalSemiring α]

/-- The input-based factor of a jointly treated weight and bias does not fit to a weight alone. -/
theorem weightProduct_joint_factor (A B : Factor α) (t : Tensor α) (I : Nat) (mid : List Nat) (K : Nat) (hs : t.shape = I :: (mid ++ [K]))
    (hA : A.dim = mid.prod + 1) (hB : B.dim = I) (hI : I ≠ 0) (hK : K ≠ 0) : weightProduct A B t = .error .runtimeError := by
  have hp : t.shape.prod = I * (mid.prod * K) := by rw [hs]; simp
  have hr : ∀ (J : Nat) (u : Tensor α), J ≠ mid.prod → u.shape = [I, J, K] →
      (mulLeft B u >>= fun w => w.reshape t.shape) = .error .runtimeError := by
    intro J u hJ hu
    obtain ⟨v, hv, hvs, -⟩ := mulLeft_spec B u I [J, K] hu hB
    simp only [hv, bind, Except.bind, Tensor.reshape]
    rw [if_neg]
    rw [hp, hvs, hu]
    simp only [List.prod_cons, List.prod_nil, mul_one]
    intro h
    exact hJ (Nat.eq_of_mul_eq_mul_right (Nat.pos_of_ne_zero hK) (Nat.eq_of_mul_eq_mul_left (Nat.pos_of_ne_zero hI) h)).symm
  unfold weightProduct
  rw [flattenMid_spec t I mid K hs]
  simp only [bind, Except.bind]
  unfold mulRight
  simp only
  rw [if_neg (by omega)]
  split_ifs with h1 h2
  · exact hr A.dim _ (by omega) rfl
  · exact hr 1 _ (by omega) rfl
  · rfl

/-- The input-based factor of a weight alone does not fit to a jointly treated weight and bias. -/
theorem jointProduct_weight_factor (A B : Factor α) (w b : Tensor α) (I : Nat) (mid : List Nat) (K : Nat)
    (hw : w.shape = I :: (mid ++ [K])) (hb : b.shape = [I, K]) (hA : A.dim = mid.prod) (hB : B.dim = I) :
    jointProduct A B w b = .error .runtimeError := by
  unfold jointProduct
  rw [flattenMid_spec w I mid K hw]
  simp only [bind, Except.bind]
  obtain ⟨m, hm, hms⟩ : ∃ m, joinBias ⟨[I, mid.prod, K], w.data⟩ b = .ok m ∧ m.shape = [I, mid.prod + 1, K] := by
    simp only [joinBias, hb, if_true]
    exact ⟨_, rfl, rfl⟩
  obtain ⟨u, hu, hus, -⟩ := mulLeft_spec B m I [mid.prod + 1, K] hms hB
  rw [hms] at hus
  simp only [hm, hu]
  unfold mulRight
  rw [hus]
  simp only
  rw [if_neg (by omega)]
  split_ifs with h1 h2
  · simp only [splitBias, List.getD_cons_succ, List.getD_cons_zero]
    rw [if_neg (by omega)]
  · simp only [splitBias, List.getD_cons_succ, List.getD_cons_zero]
    rw [if_neg (by omega)]
  · rfl

/-- The argument for a layer with `I` outputs whose weight has the remaining dimensions `mid`: the parameters in `pos` have these shapes, with
`K` columns. -/
def LayerArg (M : List (Tensor α)) (pos : Dict Nat) (I : Nat) (mid : List Nat) (K : Nat) : Prop :=
  (∃ w t, pos = [("weight", w)] ∧ M[w]? = some t ∧ t.shape = I :: (mid ++ [K])) ∨
  (∃ b t, pos = [("bias", b)] ∧ M[b]? = some t ∧ t.shape = [I, K]) ∨
  ∃ w b t u, pos = [("weight", w), ("bias", b)] ∧ M[w]? = some t ∧ t.shape = I :: (mid ++ [K]) ∧ M[b]? = some u ∧ u.shape = [I, K]

/-- **C124** (one layer): the factors were computed for the parameters in `pos'` of the same layer, weight and bias jointly. The product with
the parameters in `pos` raises `RuntimeError` if `pos` has a weight and only one of `pos` and `pos'` has a bias; otherwise it succeeds. -/
theorem layerProduct_other (inCov gradCov : Dict (Factor α)) (M : List (Tensor α)) (name : String) (pos pos' : Dict Nat) (I : Nat)
    (mid : List Nat) (K : Nat) (h : LayerArg M pos I mid K) (hI : I ≠ 0) (hK : K ≠ 0) (B : Factor α) (hB : gradCov.get name = some B)
    (hBI : B.dim = I) (hw : pos.has "weight" = true → ∃ A, inCov.get name = some A ∧
      A.dim = mid.prod + if pos'.has "bias" then 1 else 0) :
    if pos.has "weight" = true ∧ pos.has "bias" ≠ pos'.has "bias" then
      layerProduct false inCov gradCov M name pos = .error .runtimeError
    else ∃ ws, layerProduct false inCov gradCov M name pos = .ok ws := by
  rcases h with ⟨w, t, rfl, hM, hs⟩ | ⟨b, t, rfl, hM, hs⟩ | ⟨w, b, t, u, rfl, hM, hs, hMb, hsb⟩
  · obtain ⟨A, hA, hAd⟩ := hw rfl
    have e : layerProduct false inCov gradCov M name [("weight", w)] = match weightProduct A B t with
        | .error e => .error e
        | .ok v => .ok [(w, v)] := by
      simp only [layerProduct, Dict.get, List.lookup, listGet, hM, Dict.getE, pyMapM, bind, Except.bind]
      simp only [Dict.get] at hA hB
      simp [hA, hB]
      rcases weightProduct A B t <;> rfl
    rw [e]
    cases hp : pos'.has "bias"
    · rw [hp] at hAd
      obtain ⟨v, hv, -⟩ := weightProduct_spec A B t I mid K hs hAd hBI
      rw [if_neg (by simp [Dict.has]), hv]
      exact ⟨_, rfl⟩
    · rw [hp] at hAd
      rw [if_pos (by simp [Dict.has]), weightProduct_joint_factor A B t I mid K hs hAd hBI hI hK]
  · rw [if_neg (by simp [Dict.has])]
    obtain ⟨v, hv, -⟩ := mulLeft_spec B t I [K] hs hBI
    refine ⟨[(b, v)], ?_⟩
    simp only [layerProduct, Dict.get, List.lookup, listGet, hM, Dict.getE, pyMapM, bind, Except.bind]
    simp only [Dict.get] at hB
    simp [hB, hv]
  · obtain ⟨A, hA, hAd⟩ := hw rfl
    have e : layerProduct false inCov gradCov M name [("weight", w), ("bias", b)] = match jointProduct A B t u with
        | .error e => .error e
        | .ok v => .ok [(w, v.1), (b, v.2)] := by
      simp only [layerProduct, Dict.get, List.lookup, listGet, Dict.getE, bind, Except.bind]
      simp only [Dict.get] at hA hB
      simp [hA, hB, hM, hMb]
      rcases jointProduct A B t u <;> rfl
    rw [e]
    cases hp : pos'.has "bias"
    · rw [hp] at hAd
      rw [if_pos (by simp [Dict.has]), jointProduct_weight_factor A B t u I mid K hs hsb hAd hBI]
    · rw [hp] at hAd
      obtain ⟨v, v', hv, -⟩ := jointProduct_spec A B t u I mid K hs hsb hAd hBI
      rw [if_neg (by simp [Dict.has]), hv]
      exact ⟨_, rfl⟩

/-! ### Loading the state dictionary of an operator on other parameters -/

section state

variable {Θ X G : Type}

/-- Layer `l` of an operator and layer `l'` of another operator are the same module with possibly other parameters; the weight in `l` is also
in `l'`. The argument `M` with `K` columns has the shapes of the parameters in `l`. -/
structure OtherLayer (M : List (Tensor ℝ)) (K : Nat) (l l' : KLayer) : Prop where
  name : l'.name = l.name
  weight : l.pos.has "weight" = true → l'.pos.has "weight" = true
  arg : ∃ I mid, LayerArg M l.pos I mid K ∧ I ≠ 0 ∧ l'.dout = I ∧ l'.din = mid.prod

/-- **C124** (products): an operator `o'` without factors loads the state dictionary of an operator `o` on other parameters of the same
layers, with the factors of `o` computed and weights and biases treated jointly. `load_state_dict` does not raise. If the two operators differ
in the bias of a layer whose weight they share, all products raise `RuntimeError`. The claim also asks that wrong properties are not returned,
which is false (`load_other_witness`). -/
theorem load_other_product_partial (w w' : KWorld Θ X G) (heap : KHeap) (o o' : KObj Θ) (s : KState Θ) (hg : w'.Good s.cfg)
    (hheap : heap o.ref = w'.factors s) (hsep : s.cfg.sep = false) (hsep' : o.attrs.cfg.sep = false)
    (hloss : o'.attrs.cfg.loss = o.attrs.cfg.loss) (hred : o'.attrs.cfg.mean = o.attrs.cfg.mean) (hempty : heap o'.ref = ([], []))
    (M : List (Tensor ℝ)) (K : Nat) (hK : K ≠ 0) (hl : ∀ l ∈ w.layers, ∃ l' ∈ w'.layers, OtherLayer M K l l')
    (hd : ∃ l ∈ w.layers, ∃ l' ∈ w'.layers, l'.name = l.name ∧ l.pos.has "weight" = true ∧ l.pos.has "bias" ≠ l'.pos.has "bias")
    (fault : Fault) :
    (o'.load w heap o.stateDict).1 = .ok () ∧
    ((o'.load w heap o.stateDict).2.call w heap (.matmat M) fault).1 = .error .runtimeError := by
  have hload : ∃ at', o'.load w heap o.stateDict = (.ok (), ⟨at', o.ref⟩) ∧ at'.cfg.sep = o.attrs.cfg.sep := by
    unfold KObj.load
    simp only [KObj.stateDict, hloss, hred, ne_eq, not_true, if_false, hempty, keysMismatch_empty, Bool.false_eq_true]
    exact ⟨_, rfl, rfl⟩
  obtain ⟨at', h1, h2⟩ := hload
  rw [h1]
  refine ⟨rfl, ?_⟩
  have hb := batches_ne_nil w' s.model s.cfg (w'.seeded s.seed) hg.data
  have hlayer : ∀ l ∈ w.layers, ∀ l' ∈ w'.layers, OtherLayer M K l l' →
      if l.pos.has "weight" = true ∧ l.pos.has "bias" ≠ l'.pos.has "bias" then
        layerProduct false (w'.factors s).1 (w'.factors s).2 M l.name l.pos = .error .runtimeError
      else ∃ ws, layerProduct false (w'.factors s).1 (w'.factors s).2 M l.name l.pos = .ok ws := by
    intro l hl l' hl' h
    obtain ⟨I, mid, ha, hI, ho, hi⟩ := h.arg
    have hB := kfac_grad_factor s.cfg w'.layers hg.names _ hb hg.T hg.C hg.mc l' hl'
    rw [h.name] at hB
    refine layerProduct_other _ _ M l.name l.pos l'.pos I mid K ha hI hK _ hB ho fun hw => ?_
    have hA := kfac_input_factor s.cfg w'.layers hg.names _ hb l' hl' (h.weight hw)
    rw [h.name] at hA
    refine ⟨_, hA, ?_⟩
    simp [KLayer.joint, h.weight hw, hsep, hi]
  have huniq : ∀ l₁ ∈ w'.layers, ∀ l₂ ∈ w'.layers, l₁.name = l₂.name → l₁ = l₂ :=
    fun l₁ h₁ l₂ h₂ => List.inj_on_of_nodup_map hg.names h₁ h₂
  have hmm : kfacMatmat false w.mapping (w'.factors s).1 (w'.factors s).2 M = .error .runtimeError := by
    unfold kfacMatmat KWorld.mapping
    rw [pyMapM_map, pyMapM_error _ .runtimeError]
    · rfl
    · intro l hl'
      obtain ⟨l', hm, ho⟩ := hl l hl'
      have := hlayer l hl' l' hm ho
      split_ifs at this
      · exact Or.inr this
      · exact Or.inl this
    · obtain ⟨l, hl₁, l', hl₂, hn, hw, hbias⟩ := hd
      obtain ⟨l'', hm, ho⟩ := hl l hl₁
      obtain rfl := huniq l'' hm l' hl₂ (ho.name.trans hn.symm)
      have := hlayer l hl₁ l'' hm ho
      rw [if_pos ⟨hw, hbias⟩] at this
      exact ⟨l, hl₁, this⟩
  simp only [KObj.call, kStep, wrap, KState.matmat, KObj.value, hheap, ensureKfac, factors_nonempty w' s hg, Bool.and_false,
    Bool.false_eq_true, if_false, h2, hsep', hmm]

/-- **C124** (properties): a trace that is in the state dictionary is returned, whatever the parameters of the operator are. -/
theorem load_other_trace (w : KWorld Θ X G) (heap : KHeap) (o o' : KObj Θ) (hloss : o'.attrs.cfg.loss = o.attrs.cfg.loss)
    (hred : o'.attrs.cfg.mean = o.attrs.cfg.mean) (hempty : heap o'.ref = ([], [])) (x : ℝ) (hx : o.attrs.trace = some x) (fault : Fault) :
    (o'.load w heap o.stateDict).1 = .ok () ∧
    ((o'.load w heap o.stateDict).2.call w heap .trace fault).1 = .ok (.number x) := by
  unfold KObj.load
  simp only [KObj.stateDict, hloss, hred, ne_eq, not_true, if_false, hempty, keysMismatch_empty, Bool.false_eq_true]
  exact ⟨trivial, by simp [KObj.call, KObj.value, kStep, wrap, KState.readTrace, readProperty, hx]⟩

/-- **C124** (properties): the operator has the shape of the other one afterwards, and it keeps its own parameters (`w.mapping`). -/
theorem load_other_shape (w : KWorld Θ X G) (heap : KHeap) (o o' : KObj Θ) (hloss : o'.attrs.cfg.loss = o.attrs.cfg.loss)
    (hred : o'.attrs.cfg.mean = o.attrs.cfg.mean) (hempty : heap o'.ref = ([], [])) :
    (o'.load w heap o.stateDict).1 = .ok () ∧ (o'.load w heap o.stateDict).2.attrs.shape = o.attrs.shape := by
  unfold KObj.load
  simp only [KObj.stateDict, hloss, hred, ne_eq, not_true, if_false, hempty, keysMismatch_empty, Bool.false_eq_true]
  exact ⟨trivial, trivial⟩

end state

/-! ### Numbers -/

/-- Joint treatment of weight and bias. -/
def jointCfg : KfacCfg := { stateCfg with sep := false }

/-- A new operator on weight and bias. -/
def bothObj : KObj Unit := ⟨KState.fresh () jointCfg 0 (2, 2) false, 0⟩

/-- A new operator on the weight only. -/
def weightObj : KObj Unit := ⟨KState.fresh () jointCfg 0 (1, 1) false, 1⟩

theorem joint_good : affineWorld.Good jointCfg :=
  ⟨by simp [affineWorld], by simp [affineWorld], by simp [affineWorld], by simp [jointCfg, stateCfg], by simp [jointCfg, stateCfg],
    by simp [jointCfg, stateCfg]⟩

theorem both_events (h : Nat) (g : Unit) : affineWorld.events () jointCfg h g =
    (List.replicate h (KEvent.input "lin" ⟨2, fun _ _ => 1 / 2⟩) ++ List.replicate h (KEvent.grad "lin" ⟨1, fun _ _ => 1⟩)) ++
    (List.replicate h (KEvent.input "lin" ⟨2, fun _ _ => 1 / 2⟩) ++ List.replicate h (KEvent.grad "lin" ⟨1, fun _ _ => 1⟩)) := by
  have h0 : affineWorld.batches () jointCfg g affineWorld.data = [[unitDatum], [unitDatum]] := rfl
  have he : batchEvents jointCfg affineWorld.layers [unitDatum] =
    [.input "lin" (inputCovariance jointCfg ⟨"lin", [("weight", 0), ("bias", 1)], 1, 1, 1⟩ [unitDatum]),
      .grad "lin" (gradCovariance jointCfg ⟨"lin", [("weight", 0), ("bias", 1)], 1, 1, 1⟩ [unitDatum] 0)] := rfl
  have h1 : inputCovariance jointCfg ⟨"lin", [("weight", 0), ("bias", 1)], 1, 1, 1⟩ [unitDatum] = ⟨2, fun _ _ => 1 / 2⟩ := by
    refine congrArg (Factor.mk 2) ?_
    funext i j
    simp [gram, inputRows, jointCfg, stateCfg, KLayer.joint, Dict.has, unitDatum]
  have h2 : gradCovariance jointCfg ⟨"lin", [("weight", 0), ("bias", 1)], 1, 1, 1⟩ [unitDatum] 0 = ⟨1, fun _ _ => 1⟩ := by
    refine congrArg (Factor.mk 1) ?_
    funext i j
    simp [gram, gradRows, jointCfg, stateCfg, outputGrad, cotangent, correction, unitDatum]
  unfold KWorld.events
  rw [h0]
  simp only [List.flatMap_cons, List.flatMap_nil, List.append_nil, he, h1, h2]

theorem weight_events (h : Nat) (g : Unit) : unitWorld.events () jointCfg h g = unitWorld.events () stateCfg h g := rfl

/-- C124 is violated, with numbers: the trace of KFAC on weight and bias is 4, that of KFAC on the weight is 2. After loading the state
dictionary of the former, which does not raise, the latter returns the trace 4, whether the trace is in the state dictionary or not. Its products
raise `RuntimeError`. -/
theorem load_other_witness (x : ℝ) :
    let r := bothObj.call affineWorld emptyHeap .trace none
    let r' := bothObj.call affineWorld emptyHeap .det none
    r.1 = .ok (.number 4) ∧ (weightObj.call unitWorld emptyHeap .trace none).1 = .ok (.number 2) ∧
    (weightObj.load unitWorld r.2.1 r.2.2.stateDict).1 = .ok () ∧
    ((weightObj.load unitWorld r.2.1 r.2.2.stateDict).2.call unitWorld r.2.1 .trace none).1 = .ok (.number 4) ∧
    (weightObj.load unitWorld r'.2.1 r'.2.2.stateDict).1 = .ok () ∧
    ((weightObj.load unitWorld r'.2.1 r'.2.2.stateDict).2.call unitWorld r'.2.1 .trace none).1 = .ok (.number 4) ∧
    ((weightObj.load unitWorld r.2.1 r.2.2.stateDict).2.call unitWorld r.2.1 (.matmat [⟨[1, 1, 1], [x]⟩]) none).1 =
      .error .runtimeError := by
  have hm : unitWorld.mapping = [("lin", [("weight", 0)])] := rfl
  have hm' : affineWorld.mapping = [("lin", [("weight", 0), ("bias", 1)])] := rfl
  have hsep : jointCfg.sep = false := rfl
  intro r r'
  have hfresh : (bothObj.value emptyHeap).IsFresh := ⟨rfl, rfl, rfl, rfl, rfl, rfl, rfl, rfl⟩
  have hf : r.2.1 0 = affineWorld.factors (bothObj.value emptyHeap) :=
    (state_dict_filled affineWorld emptyHeap bothObj hfresh joint_good .trace (by simp)).2.1
  have h4 : r.1 = .ok (.number 4) ∧ r.2.2.attrs.trace = some 4 ∧ r.2.2.attrs.cfg = jointCfg := by
    simp only [r]
    simp [KObj.call, KObj.value, bothObj, emptyHeap, kStep, wrap, KState.readTrace, readProperty, ensureKfac, computeKfac, KState.fresh,
      KState.reset, both_events, applyEvent, addCov, Dict.has, Dict.get, Dict.set, KState.traceLoop, accPartial, Dict.getE, hm', hsep, Factor.trace,
      matTrace]
    norm_num
  have hh : r.2.1 weightObj.ref = ([], []) := rfl
  have ht := load_other_trace unitWorld r.2.1 r.2.2 weightObj (by rw [h4.2.2]; rfl) (by rw [h4.2.2]; rfl) hh 4 h4.2.1 none
  refine ⟨h4.1, ?_, ht.1, ht.2, ?_, ?_, ?_⟩
  · simp [KObj.call, KObj.value, weightObj, emptyHeap, kStep, wrap, KState.readTrace, readProperty, ensureKfac, computeKfac, KState.fresh,
      KState.reset, weight_events, unitWorld_events, applyEvent, addCov, Dict.has, Dict.get, Dict.set, KState.traceLoop, accPartial, Dict.getE,
      accPartial.paramsLoop, hm, hsep, Factor.trace, matTrace]
    norm_num
  · simp only [r']
    simp [KObj.load, KObj.stateDict, KObj.call, KObj.value, bothObj, weightObj, emptyHeap, kStep, wrap, KState.readDet, readProperty,
      ensureKfac, computeKfac, KState.fresh, KState.reset, both_events, applyEvent, addCov, Dict.has, Dict.get, Dict.set, KState.detLoop, accPartial,
      Dict.getE, hm', hsep, keysMismatch]
  · simp only [r']
    simp [KObj.load, KObj.stateDict, KObj.call, KObj.value, bothObj, weightObj, emptyHeap, kStep, wrap, KState.readDet, KState.readTrace,
      readProperty, ensureKfac, computeKfac, KState.fresh, KState.reset, both_events, applyEvent, addCov, Dict.has, Dict.get, Dict.set, KState.detLoop,
      KState.traceLoop, accPartial, accPartial.paramsLoop, Dict.getE, hm, hm', hsep, keysMismatch, Factor.trace, matTrace]
    norm_num
  · refine (load_other_product_partial unitWorld affineWorld r.2.1 r.2.2 weightObj (bothObj.value emptyHeap) joint_good hf rfl
      (by rw [h4.2.2]; rfl) (by rw [h4.2.2]; rfl) (by rw [h4.2.2]; rfl) hh _ 1 one_ne_zero ?_ ?_ none).2
    · intro l hl
      obtain rfl : l = ⟨"lin", [("weight", 0)], 1, 1, 1⟩ := by simpa [unitWorld] using hl
      exact ⟨_, List.mem_singleton_self _, rfl, fun _ => rfl, 1, [1], Or.inl ⟨0, _, rfl, rfl, rfl⟩, one_ne_zero, rfl, rfl⟩
    · exact ⟨_, List.mem_singleton_self _, _, List.mem_singleton_self _, rfl, rfl, by decide⟩

/-- A weight of shape `(2, 3)` and a bias: the factor of the other case does not fit. -/
example (w b : List ℝ) (fA fA' fB : Mat ℝ) :
    weightProduct ⟨4, fA⟩ ⟨2, fB⟩ ⟨[2, 3, 5], w⟩ = .error .runtimeError ∧
    jointProduct ⟨3, fA'⟩ ⟨2, fB⟩ ⟨[2, 3, 5], w⟩ ⟨[2, 5], b⟩ = .error .runtimeError :=
  ⟨weightProduct_joint_factor _ _ _ 2 [3] 5 rfl rfl rfl (by simp) (by simp), jointProduct_weight_factor _ _ _ _ 2 [3] 5 rfl rfl rfl rfl⟩

/-- The Hessian of two parameters with one entry each, exported: vectors with three entries. -/
example (θ : Fin 2 → ℝ) (L : ScipyOp ℝ)
    (hL : (hessianObj [[1], [1]] .mean θ [[sinDatum 1 2, sinDatum 3 1], [sinDatum 0 1]]).toScipy .float64 none = .ok L) :
    L.matvec ⟨.float64, [3], [1, 2, 3]⟩ = .error .valueError ∧ L.matmat ⟨.float64, [3, 1], [1, 2, 3]⟩ = .error .valueError := by
  have hn : (hessianObj [[1], [1]] .mean θ [[sinDatum 1 2, sinDatum 3 1], [sinDatum 0 1]]).op.ncols = 2 := rfl
  obtain ⟨h1, -, h3, -⟩ := exported_wrong_shape _ _ _ L hL ⟨.float64, [3], [1, 2, 3]⟩
  obtain ⟨-, -, h3, -⟩ := exported_wrong_shape _ _ _ L hL ⟨.float64, [3, 1], [1, 2, 3]⟩
  rw [hn] at h1 h3
  exact ⟨h1 (by simp) (by simp), h3 (by simp)⟩

end Curvlinops
