import Verif.Model.SeqNet
import Verif.Props.KfacLinear
import Verif.Props.KfacMC
import Verif.Lemmas.Calculus

/-!
# C73: KFAC on feed-forward networks

The chain rule that C35, C68 and C70 assume is proved for feed-forward networks: what KFAC's hooks see at a layer, combined,
gives the derivative of the prediction with respect to the layer's parameters.
-/

namespace Curvlinops

variable {D T C : Nat} {k : LossKind}

/-! ## The parameters of different layers do not overlap -/

/-- The parameter list contains the layer's parameters with the right shapes. -/
def Stage.Fits (shapes : List (List Nat)) (st : Stage D) : Prop :=
  match st.pos with
  | .both w b => w < shapes.length ∧ b < shapes.length ∧ (shapes.getD w []).head? = some st.dout ∧
      wCols shapes w = st.din ∧ shapes.getD b [] = [st.dout]
  | .weight w => w < shapes.length ∧ (shapes.getD w []).head? = some st.dout ∧ wCols shapes w = st.din
  | .bias b => b < shapes.length ∧ shapes.getD b [] = [st.dout]

/-- The parameters of the network: every parameter belongs to at most one layer, layers have different names. -/
structure SeqNet.Fits (shapes : List (List Nat)) (net : SeqNet D T C) : Prop where
  fits : ∀ st ∈ net.stages, st.Fits shapes
  names : (net.stages.map Stage.name).Nodup
  positions : (net.stages.flatMap fun st => st.pos.positions).Nodup

theorem offset_ne {shapes : List (List Nat)} {p q r r' : Nat} (hpq : p ≠ q) (hp : p < shapes.length) (hq : q < shapes.length)
    (hr : r < (shapes.getD p []).prod) (hr' : r' < (shapes.getD q []).prod) : offset shapes p + r ≠ offset shapes q + r' := by
  have key : ∀ {p q : Nat}, p < q → q < shapes.length → offset shapes p + (shapes.getD p []).prod ≤ offset shapes q := by
    intro p q hpq hq
    unfold offset
    have h1 : (shapes.take (p + 1)).map List.prod = (shapes.take p).map List.prod ++ [(shapes.getD p []).prod] := by
      rw [List.take_add_one, List.map_append, List.getD_eq_getElem?_getD, List.getElem?_eq_getElem (by omega)]
      simp
    have h2 : shapes.take q = shapes.take (p + 1) ++ (shapes.take q).drop (p + 1) := by
      conv_lhs => rw [← List.take_append_drop (p + 1) (shapes.take q)]
      rw [List.take_take, Nat.min_eq_left (by omega)]
    rw [h2, List.map_append, List.sum_append, h1, List.sum_append]
    simp
  rcases Nat.lt_or_gt_of_ne hpq with h | h
  · have := key h hq
    omega
  · have := key h hp
    omega

/-- Position `p` of the parameter list is used by the layer. -/
def Stage.Uses (shapes : List (List Nat)) (st : Stage D) (p : Nat) : Prop :=
  ∃ q ∈ st.pos.positions, ∃ r < (shapes.getD q []).prod, p = offset shapes q + r

theorem weight_index_lt {shape : List Nat} {m n o i : Nat} (hh : shape.head? = some m) (ht : shape.tail.prod = n) (ho : o < m)
    (hi : i < n) : o * n + i < shape.prod := by
  cases shape with
  | nil => cases hh
  | cons a l =>
    simp only [List.head?_cons, Option.some.injEq] at hh
    subst hh
    simp only [List.tail_cons] at ht
    rw [List.prod_cons, ht]
    calc o * n + i < o * n + n := by omega
      _ = (o + 1) * n := by ring
      _ ≤ a * n := Nat.mul_le_mul_right n (by omega)

theorem Stage.layerOut_update {shapes : List (List Nat)} {st : Stage D} (hfit : st.Fits shapes) (θ : Nat → ℝ) {p : Nat}
    (hp : ¬ st.Uses shapes p) (t : ℝ) : st.layerOut shapes (Function.update θ p t) = st.layerOut shapes θ := by
  have hw : ∀ w, w ∈ st.pos.positions → (shapes.getD w []).head? = some st.dout → wCols shapes w = st.din →
      ∀ (o : Fin st.dout) (i : Fin st.din), Function.update θ p t (offset shapes w + (o * st.din + i)) =
        θ (offset shapes w + (o * st.din + i)) := by
    intro w hw hh hc o i
    refine Function.update_of_ne (fun h => hp ⟨w, hw, _, weight_index_lt hh hc o.2 i.2, h.symm⟩) _ _
  have hb : ∀ b, b ∈ st.pos.positions → shapes.getD b [] = [st.dout] → ∀ o : Fin st.dout,
      Function.update θ p t (offset shapes b + o) = θ (offset shapes b + o) := by
    intro b hb hh o
    refine Function.update_of_ne (fun h => hp ⟨b, hb, o, by rw [hh]; simp, h.symm⟩) _ _
  have hW : st.weight shapes (Function.update θ p t) = st.weight shapes θ := by
    funext o i
    unfold Stage.weight
    unfold Stage.Fits at hfit
    split
    · next w b h =>
      rw [h] at hfit
      exact hw w (by rw [h]; simp [LayerPos.positions]) hfit.2.2.1 hfit.2.2.2.1 o i
    · next w h =>
      rw [h] at hfit
      exact hw w (by rw [h]; simp [LayerPos.positions]) hfit.2.1 hfit.2.2 o i
    · rfl
  have hB : st.bias shapes (Function.update θ p t) = st.bias shapes θ := by
    funext o
    unfold Stage.bias
    unfold Stage.Fits at hfit
    split
    · next w b h =>
      rw [h] at hfit
      exact hb b (by rw [h]; simp [LayerPos.positions]) hfit.2.2.2.2 o
    · rfl
    · next b h =>
      rw [h] at hfit
      exact hb b (by rw [h]; simp [LayerPos.positions]) hfit.2 o
  unfold Stage.layerOut
  rw [hW, hB]

theorem Stage.step_update {shapes : List (List Nat)} {st : Stage D} (hfit : st.Fits shapes) (θ : Nat → ℝ) {p : Nat}
    (hp : ¬ st.Uses shapes p) (t : ℝ) (h : Fin D → ℝ) :
    st.step shapes (Function.update θ p t) h = st.step shapes θ h := by
  unfold Stage.step
  rw [Stage.layerOut_update hfit θ hp]

theorem forward_update {shapes : List (List Nat)} (θ : Nat → ℝ) {p : Nat} (t : ℝ) (stages : List (Stage D))
    (hfit : ∀ st ∈ stages, st.Fits shapes) (hp : ∀ st ∈ stages, ¬ st.Uses shapes p) (h : Fin D → ℝ) :
    forward shapes (Function.update θ p t) stages h = forward shapes θ stages h := by
  induction stages generalizing h with
  | nil => rfl
  | cons st rest ih =>
    unfold forward
    rw [Stage.step_update (hfit st (by simp)) θ (hp st (by simp)), ih (fun s hs => hfit s (by simp [hs])) fun s hs =>
      hp s (by simp [hs])]

/-! ## Differentiability along the forward pass -/

/-- The code between the layers is differentiable at the values that occur in the forward pass from `h`. -/
def DiffAlong (shapes : List (List Nat)) (θ : Nat → ℝ) : List (Stage D) → (Fin D → ℝ) → Prop
  | [], _ => True
  | st :: rest, h => DifferentiableAt ℝ st.pre h ∧ DifferentiableAt ℝ st.post (h, st.layerOut shapes θ (st.pre h)) ∧
      DiffAlong shapes θ rest (st.step shapes θ h)

theorem Stage.layerOut_differentiable (shapes : List (List Nat)) (θ : Nat → ℝ) (st : Stage D) :
    Differentiable ℝ (st.layerOut shapes θ) := by
  rw [differentiable_pi]
  intro z
  unfold Stage.layerOut
  fun_prop

theorem Stage.step_differentiableAt {shapes : List (List Nat)} {θ : Nat → ℝ} {st : Stage D} {h : Fin D → ℝ}
    (hpre : DifferentiableAt ℝ st.pre h) (hpost : DifferentiableAt ℝ st.post (h, st.layerOut shapes θ (st.pre h))) :
    DifferentiableAt ℝ (st.step shapes θ) h := by
  have h1 : DifferentiableAt ℝ (fun h => st.layerOut shapes θ (st.pre h)) h :=
    (st.layerOut_differentiable shapes θ _).comp h hpre
  exact DifferentiableAt.comp h hpost (differentiableAt_id.prodMk h1)

theorem forward_differentiableAt {shapes : List (List Nat)} {θ : Nat → ℝ} {stages : List (Stage D)} {h : Fin D → ℝ}
    (hd : DiffAlong shapes θ stages h) : DifferentiableAt ℝ (forward shapes θ stages) h := by
  induction stages generalizing h with
  | nil => exact differentiableAt_id
  | cons st rest ih =>
    obtain ⟨h1, h2, h3⟩ := hd
    exact DifferentiableAt.comp h (ih h3) (Stage.step_differentiableAt h1 h2)

/-! ## The chain rule -/

/-- One-dimensional chain rule in coordinates. -/
theorem deriv_comp_pi {ι : Type _} [Fintype ι] [DecidableEq ι] {G : (ι → ℝ) → ℝ} {z : ℝ → ι → ℝ} {t : ℝ}
    (hG : DifferentiableAt ℝ G (z t)) {z' : ι → ℝ} (hz : ∀ a, HasDerivAt (fun t => z t a) (z' a) t) :
    deriv (fun t => G (z t)) t = ∑ a, pderiv G a (z t) * z' a := by
  have h1 : HasDerivAt z z' t := hasDerivAt_pi.mpr hz
  have h2 := (hG.hasFDerivAt.comp_hasDerivAt t h1).deriv
  refine h2.trans ?_
  have h3 : z' = ∑ a, z' a • (Pi.single a 1 : ι → ℝ) := by
    funext b
    simp [Finset.sum_apply, Pi.single_apply]
  conv_lhs => rw [h3]
  rw [map_sum]
  refine Finset.sum_congr rfl fun a _ => ?_
  rw [pderiv_eq_fderiv hG, map_smul, smul_eq_mul, mul_comm]

/-- The derivative of a scalar `R` of the last state with respect to one parameter, for the layer that uses it: the change `z'`
of the layer's output, propagated by the hook's gradients. -/
theorem pderiv_head {shapes : List (List Nat)} {θ : Nat → ℝ} {st : Stage D} {rest : List (Stage D)} {h : Fin D → ℝ} {p : Nat}
    (hfit : ∀ s ∈ rest, s.Fits shapes) (hp : ∀ s ∈ rest, ¬ s.Uses shapes p) (hd : DiffAlong shapes θ (st :: rest) h)
    {R : (Fin D → ℝ) → ℝ} (hR : DifferentiableAt ℝ R (forward shapes θ (st :: rest) h))
    {z' : Fin st.S × Fin st.dout → ℝ}
    (hz : ∀ a, HasDerivAt (fun t => st.layerOut shapes (Function.update θ p t) (st.pre h) a) (z' a) (θ p)) :
    pderiv (fun θ => R (forward shapes θ (st :: rest) h)) p θ =
      ∑ a, pderiv (fun z => R (forward shapes θ rest (st.post (h, z)))) a (st.layerOut shapes θ (st.pre h)) * z' a := by
  obtain ⟨h1, h2, h3⟩ := hd
  have hθ : Function.update θ p (θ p) = θ := Function.update_eq_self p θ
  unfold pderiv
  have he : (fun t => R (forward shapes (Function.update θ p t) (st :: rest) h)) = fun t =>
      (fun z => R (forward shapes θ rest (st.post (h, z)))) (st.layerOut shapes (Function.update θ p t) (st.pre h)) := by
    funext t
    simp only [forward, Stage.step]
    rw [forward_update θ t rest hfit hp]
  rw [he]
  have hG : DifferentiableAt ℝ (fun z => R (forward shapes θ rest (st.post (h, z))))
      (st.layerOut shapes (Function.update θ p (θ p)) (st.pre h)) := by
    rw [hθ]
    refine DifferentiableAt.comp (g := R) _ hR ?_
    refine DifferentiableAt.comp (g := forward shapes θ rest) _ (forward_differentiableAt h3) ?_
    exact DifferentiableAt.comp (g := st.post) _ h2 ((differentiableAt_const _).prodMk differentiableAt_id)
  have := deriv_comp_pi (z := fun t => st.layerOut shapes (Function.update θ p t) (st.pre h)) hG hz
  rw [this, hθ]
  rfl

theorem hasDerivAt_update_apply (θ : Nat → ℝ) (p q : Nat) (t : ℝ) :
    HasDerivAt (fun t => Function.update θ p t q) (if q = p then 1 else 0) t := by
  by_cases h : q = p
  · subst h
    simp only [if_true, Function.update_self]
    exact hasDerivAt_id' t
  · simp only [if_neg h, Function.update_of_ne h]
    exact hasDerivAt_const t _

theorem weight_index_inj {n o i o' i' : Nat} (hi : i < n) (hi' : i' < n) : o' * n + i' = o * n + i ↔ o' = o ∧ i' = i := by
  constructor
  · intro h
    have h1 : i' = i := by
      have := congrArg (· % n) h
      simpa [Nat.mul_add_mod', Nat.mod_eq_of_lt, hi, hi'] using this
    subst h1
    have h2 : o' * n = o * n := by omega
    exact ⟨Nat.eq_of_mul_eq_mul_right (by omega) h2, rfl⟩
  · rintro ⟨rfl, rfl⟩
    rfl

/-- Changing entry `(o, i)` of the weight changes output `o` at every position by the input `i`. -/
theorem Stage.layerOut_weight {shapes : List (List Nat)} {st : Stage D} (hfit : st.Fits shapes)
    (hpos : st.pos.positions.Nodup) (θ : Nat → ℝ) (x : Fin st.S × Fin st.din → ℝ) {w : Nat}
    (hw : st.pos = .weight w ∨ ∃ b, st.pos = .both w b) (o : Fin st.dout) (i : Fin st.din) (t : ℝ)
    (a : Fin st.S × Fin st.dout) :
    HasDerivAt (fun t => st.layerOut shapes (Function.update θ (offset shapes w + (o * st.din + i)) t) x a)
      (if a.2 = o then x (a.1, i) else 0) t := by
  have hW : ∀ i' : Fin st.din, HasDerivAt (fun t => st.weight shapes
      (Function.update θ (offset shapes w + (o * st.din + i)) t) a.2 i') (if a.2 = o ∧ i' = i then 1 else 0) t := by
    intro i'
    have h1 : (a.2 = o ∧ i' = i) = (offset shapes w + ((a.2 : Nat) * st.din + i') = offset shapes w + (o * st.din + i)) := by
      rw [Nat.add_left_cancel_iff, weight_index_inj i.2 i'.2, Fin.val_inj, Fin.val_inj]
    simp only [h1]
    rcases hw with hw | ⟨b, hw⟩
    · have : ∀ θ, st.weight shapes θ a.2 i' = θ (offset shapes w + ((a.2 : Nat) * st.din + i')) := by
        intro θ; unfold Stage.weight; rw [hw]
      simp only [this]
      exact hasDerivAt_update_apply _ _ _ _
    · have : ∀ θ, st.weight shapes θ a.2 i' = θ (offset shapes w + ((a.2 : Nat) * st.din + i')) := by
        intro θ; unfold Stage.weight; rw [hw]
      simp only [this]
      exact hasDerivAt_update_apply _ _ _ _
  have hB : HasDerivAt (fun t => st.bias shapes (Function.update θ (offset shapes w + (o * st.din + i)) t) a.2) 0 t := by
    unfold Stage.Fits at hfit
    rcases hw with hw | ⟨b, hw⟩
    · have : ∀ θ, st.bias shapes θ a.2 = st.b a.2 := by
        intro θ; unfold Stage.bias; rw [hw]
      simp only [this]
      exact hasDerivAt_const _ _
    · rw [hw] at hfit
      have : ∀ θ, st.bias shapes θ a.2 = θ (offset shapes b + a.2) := by
        intro θ; unfold Stage.bias; rw [hw]
      simp only [this]
      have hne : offset shapes b + (a.2 : Nat) ≠ offset shapes w + (o * st.din + i) := by
        refine offset_ne ?_ hfit.2.1 hfit.1 (by rw [hfit.2.2.2.2]; simp) (weight_index_lt hfit.2.2.1 hfit.2.2.2.1 o.2 i.2)
        rw [hw] at hpos
        simp only [LayerPos.positions, List.nodup_cons, List.mem_singleton] at hpos
        exact fun h => hpos.1 h.symm
      have := hasDerivAt_update_apply θ (offset shapes w + (o * st.din + i)) (offset shapes b + a.2) t
      rwa [if_neg hne] at this
  have := (HasDerivAt.fun_sum (u := Finset.univ) fun i' _ => (hW i').mul_const (x (a.1, i'))).add hB
  refine this.congr_deriv ?_
  rw [add_zero]
  by_cases h : a.2 = o
  · simp [h]
  · simp [h]

/-- Changing entry `o` of the bias changes output `o` at every position. -/
theorem Stage.layerOut_bias {shapes : List (List Nat)} {st : Stage D} (hfit : st.Fits shapes)
    (hpos : st.pos.positions.Nodup) (θ : Nat → ℝ) (x : Fin st.S × Fin st.din → ℝ) {b : Nat}
    (hb : st.pos = .bias b ∨ ∃ w, st.pos = .both w b) (o : Fin st.dout) (t : ℝ) (a : Fin st.S × Fin st.dout) :
    HasDerivAt (fun t => st.layerOut shapes (Function.update θ (offset shapes b + o) t) x a) (if a.2 = o then 1 else 0) t := by
  have hW : ∀ i' : Fin st.din, HasDerivAt (fun t => st.weight shapes (Function.update θ (offset shapes b + o) t) a.2 i') 0 t := by
    intro i'
    unfold Stage.Fits at hfit
    rcases hb with hb | ⟨w, hb⟩
    · have : ∀ θ, st.weight shapes θ a.2 i' = st.W a.2 i' := by
        intro θ; unfold Stage.weight; rw [hb]
      simp only [this]
      exact hasDerivAt_const _ _
    · rw [hb] at hfit
      have : ∀ θ, st.weight shapes θ a.2 i' = θ (offset shapes w + ((a.2 : Nat) * st.din + i')) := by
        intro θ; unfold Stage.weight; rw [hb]
      simp only [this]
      have hne : offset shapes w + ((a.2 : Nat) * st.din + i') ≠ offset shapes b + o := by
        refine offset_ne ?_ hfit.1 hfit.2.1 (weight_index_lt hfit.2.2.1 hfit.2.2.2.1 a.2.2 i'.2) (by rw [hfit.2.2.2.2]; simp)
        rw [hb] at hpos
        simp only [LayerPos.positions, List.nodup_cons, List.mem_singleton] at hpos
        exact hpos.1
      have := hasDerivAt_update_apply θ (offset shapes b + o) (offset shapes w + ((a.2 : Nat) * st.din + i')) t
      rwa [if_neg hne] at this
  have hB : HasDerivAt (fun t => st.bias shapes (Function.update θ (offset shapes b + o) t) a.2) (if a.2 = o then 1 else 0) t := by
    have h1 : (a.2 = o) = (offset shapes b + (a.2 : Nat) = offset shapes b + o) := by
      rw [Nat.add_left_cancel_iff, Fin.val_inj]
    have : ∀ θ, st.bias shapes θ a.2 = θ (offset shapes b + a.2) := by
      intro θ
      unfold Stage.bias
      rcases hb with hb | ⟨w, hb⟩ <;> rw [hb]
    simp only [this, h1]
    exact hasDerivAt_update_apply _ _ _ _
  have := (HasDerivAt.fun_sum (u := Finset.univ) fun i' _ => (hW i').mul_const (x (a.1, i'))).add hB
  refine this.congr_deriv ?_
  simp

theorem Stage.positions_lt {shapes : List (List Nat)} {st : Stage D} (hfit : st.Fits shapes) {q : Nat}
    (hq : q ∈ st.pos.positions) : q < shapes.length := by
  unfold Stage.Fits at hfit
  cases hp : st.pos <;> rw [hp] at hfit hq <;> simp only [LayerPos.positions, List.mem_cons, List.not_mem_nil, or_false] at hq
  · rcases hq with rfl | rfl
    · exact hfit.1
    · exact hfit.2.1
  · subst hq
    exact hfit.1
  · subst hq
    exact hfit.1

theorem Stage.not_uses {shapes : List (List Nat)} {st st' : Stage D} (hfit : st.Fits shapes) (hfit' : st'.Fits shapes)
    (hdis : st.pos.positions.Disjoint st'.pos.positions) {p : Nat} (hp : st.Uses shapes p) : ¬ st'.Uses shapes p := by
  rintro ⟨q', hq', r', hr', h'⟩
  obtain ⟨q, hq, r, hr, h⟩ := hp
  refine offset_ne (p := q) (q := q') (fun e => hdis hq (e ▸ hq')) (Stage.positions_lt hfit hq) (Stage.positions_lt hfit' hq') hr hr' ?_
  rw [← h, ← h']

/-- The derivative of a scalar of the last state with respect to a parameter that is used by the layer `st`; `h'` is the state
before the layer, `z' h'` the change of the layer's output. -/
theorem pderiv_stage {shapes : List (List Nat)} {θ : Nat → ℝ} {R : (Fin D → ℝ) → ℝ} (stages : List (Stage D))
    (hfit : ∀ s ∈ stages, s.Fits shapes) (hnames : (stages.map Stage.name).Nodup)
    (hpos : (stages.flatMap fun s => s.pos.positions).Nodup) {h : Fin D → ℝ} (hd : DiffAlong shapes θ stages h)
    (hR : DifferentiableAt ℝ R (forward shapes θ stages h)) (st : Stage D) (hst : st ∈ stages) {p : Nat}
    (hp : st.Uses shapes p) {z' : (Fin D → ℝ) → Fin st.S × Fin st.dout → ℝ}
    (hz : ∀ h a, HasDerivAt (fun t => st.layerOut shapes (Function.update θ p t) (st.pre h) a) (z' h a) (θ p)) :
    ∃ h', pderiv (fun θ => R (forward shapes θ stages h)) p θ =
        ∑ a, hookGrad shapes θ R stages h st.name (a.1 : Nat) (a.2 : Nat) * z' h' a ∧
      ∀ (s : Fin st.S) (i : Fin st.din), hookInput shapes θ stages h st.name s i = st.pre h' (s, i) := by
  induction stages generalizing h with
  | nil => cases hst
  | cons hs rest ih =>
    rw [List.map_cons, List.nodup_cons] at hnames
    rw [List.flatMap_cons, List.nodup_append'] at hpos
    rcases List.mem_cons.mp hst with rfl | hst'
    · refine ⟨h, ?_, ?_⟩
      · rw [pderiv_head (fun s hs => hfit s (by simp [hs])) (fun s hs => Stage.not_uses (hfit st (by simp)) (hfit s (by simp [hs]))
          (fun q hq hq' => hpos.2.2 hq (List.mem_flatMap.mpr ⟨s, hs, hq'⟩)) hp) hd hR (hz h)]
        refine Finset.sum_congr rfl fun a _ => ?_
        congr 1
        unfold hookGrad
        rw [if_pos rfl, dif_pos ⟨a.1.2, a.2.2⟩]
      · intro s i
        unfold hookInput
        rw [if_pos rfl, dif_pos ⟨s.2, i.2⟩]
    · have hne : hs.name ≠ st.name := fun e => hnames.1 (e ▸ List.mem_map_of_mem hst')
      have hnu : ¬ hs.Uses shapes p := Stage.not_uses (hfit st hst) (hfit hs (by simp))
        (fun q hq hq' => hpos.2.2 hq' (List.mem_flatMap.mpr ⟨st, hst', hq⟩)) hp
      obtain ⟨h', h1, h2⟩ := ih (fun s hs => hfit s (by simp [hs])) hnames.2 hpos.2.1 hd.2.2 hR hst'
      refine ⟨h', ?_, ?_⟩
      · simp only [hookGrad, if_neg hne]
        rw [← h1]
        unfold pderiv
        simp only [forward, Stage.step_update (hfit hs (by simp)) θ hnu]
      · intro s i
        rw [← h2 s i]
        conv_lhs => unfold hookInput
        rw [if_neg hne]

/-- The derivative of a scalar of the last state with respect to one weight entry: the sum over positions of the product of what
the two hooks of the layer see. -/
theorem pderiv_weight {shapes : List (List Nat)} {θ : Nat → ℝ} {R : (Fin D → ℝ) → ℝ} (stages : List (Stage D))
    (hfit : ∀ s ∈ stages, s.Fits shapes) (hnames : (stages.map Stage.name).Nodup)
    (hpos : (stages.flatMap fun s => s.pos.positions).Nodup) {h : Fin D → ℝ} (hd : DiffAlong shapes θ stages h)
    (hR : DifferentiableAt ℝ R (forward shapes θ stages h)) (st : Stage D) (hst : st ∈ stages) {w : Nat}
    (hw : st.pos = .weight w ∨ ∃ b, st.pos = .both w b) {o i : Nat} (ho : o < st.dout) (hi : i < st.din) :
    pderiv (fun θ => R (forward shapes θ stages h)) (offset shapes w + (o * st.din + i)) θ =
      ∑ s ∈ Finset.range st.S, hookGrad shapes θ R stages h st.name s o * hookInput shapes θ stages h st.name s i := by
  have hf := hfit st hst
  have hp : st.pos.positions.Nodup := (List.nodup_flatMap.mp hpos).1 st hst
  have huse : st.Uses shapes (offset shapes w + (o * st.din + i)) := by
    unfold Stage.Fits at hf
    rcases hw with hw | ⟨b, hw⟩ <;> rw [hw] at hf
    · exact ⟨w, by rw [hw]; simp [LayerPos.positions], _, weight_index_lt hf.2.1 hf.2.2 ho hi, rfl⟩
    · exact ⟨w, by rw [hw]; simp [LayerPos.positions], _, weight_index_lt hf.2.2.1 hf.2.2.2.1 ho hi, rfl⟩
  obtain ⟨h', h1, h2⟩ := pderiv_stage stages hfit hnames hpos hd hR st hst huse
    (fun h a => Stage.layerOut_weight hf hp θ (st.pre h) hw ⟨o, ho⟩ ⟨i, hi⟩ _ a)
  rw [h1, Fintype.sum_prod_type, Finset.sum_range]
  refine Finset.sum_congr rfl fun s _ => ?_
  rw [h2 s ⟨i, hi⟩]
  simp

/-- The derivative of a scalar of the last state with respect to one bias entry: the sum over positions of what the hook on the
layer's output sees. -/
theorem pderiv_bias {shapes : List (List Nat)} {θ : Nat → ℝ} {R : (Fin D → ℝ) → ℝ} (stages : List (Stage D))
    (hfit : ∀ s ∈ stages, s.Fits shapes) (hnames : (stages.map Stage.name).Nodup)
    (hpos : (stages.flatMap fun s => s.pos.positions).Nodup) {h : Fin D → ℝ} (hd : DiffAlong shapes θ stages h)
    (hR : DifferentiableAt ℝ R (forward shapes θ stages h)) (st : Stage D) (hst : st ∈ stages) {b : Nat}
    (hb : st.pos = .bias b ∨ ∃ w, st.pos = .both w b) {o : Nat} (ho : o < st.dout) :
    pderiv (fun θ => R (forward shapes θ stages h)) (offset shapes b + o) θ =
      ∑ s ∈ Finset.range st.S, hookGrad shapes θ R stages h st.name s o := by
  have hf := hfit st hst
  have hp : st.pos.positions.Nodup := (List.nodup_flatMap.mp hpos).1 st hst
  have huse : st.Uses shapes (offset shapes b + o) := by
    unfold Stage.Fits at hf
    rcases hb with hb | ⟨w, hb⟩ <;> rw [hb] at hf
    · exact ⟨b, by rw [hb]; simp [LayerPos.positions], o, by rw [hf.2]; simpa using ho, rfl⟩
    · exact ⟨b, by rw [hb]; simp [LayerPos.positions], o, by rw [hf.2.2.2.2]; simpa using ho, rfl⟩
  obtain ⟨h', h1, -⟩ := pderiv_stage stages hfit hnames hpos hd hR st hst huse
    (fun h a => Stage.layerOut_bias hf hp θ (st.pre h) hb ⟨o, ho⟩ _ a)
  rw [h1, Fintype.sum_prod_type, Finset.sum_range]
  refine Finset.sum_congr rfl fun s _ => ?_
  simp

/-! ## The assumption of C35, C68 and C70 -/

/-- Number of positions of the layer with the given name. -/
def SeqNet.S (net : SeqNet D T C) (name : String) : Nat := ((net.stages.find? fun st => st.name = name).map Stage.S).getD 0

theorem SeqNet.S_eq {shapes : List (List Nat)} {net : SeqNet D T C} (hfit : net.Fits shapes) {st : Stage D} (hst : st ∈ net.stages) :
    net.S st.name = st.S := by
  have h : ∀ l : List (Stage D), (l.map Stage.name).Nodup → st ∈ l → l.find? (fun s => s.name = st.name) = some st := by
    intro l hl hst
    induction l with
    | nil => cases hst
    | cons a l ih =>
      rw [List.map_cons, List.nodup_cons] at hl
      rcases List.mem_cons.mp hst with rfl | hst
      · simp
      · rw [List.find?_cons_of_neg, ih hl.2 hst]
        simp only [decide_eq_true_eq]
        exact fun e => hl.1 (e ▸ List.mem_map_of_mem hst)
  unfold SeqNet.S
  rw [h _ hfit.names hst]
  rfl

/-- The network is differentiable at the values that occur for the input `h`. -/
structure SeqNet.DiffAt (shapes : List (List Nat)) (net : SeqNet D T C) (θ : Nat → ℝ) (h : Fin D → ℝ) : Prop where
  stages : DiffAlong shapes θ net.stages h
  out : ∀ t c, DifferentiableAt ℝ (fun z => net.out z t c) (forward shapes θ net.stages h)

/-- C73: the chain rule holds for every feed-forward network. -/
theorem seqNet_chain {shapes : List (List Nat)} {net : SeqNet D T C} (hfit : net.Fits shapes) {θ : Nat → ℝ} {h : Fin D → ℝ}
    (hd : net.DiffAt shapes θ h) (sqrt lossGrad : Nat → Nat → Nat → ℝ) (y : Fin T → TermTarget k C) (layers : List (Layer ℝ))
    (hl : ∀ l ∈ layers, ∃ st ∈ net.stages, st.name = l.name ∧ st.pos = l.pos ∧ l.B.dim = st.dout) :
    SharedChainRule shapes layers net.S T (net.datum shapes θ h sqrt lossGrad) (net.terms shapes θ h y) := by
  have hw0 : ∀ st ∈ net.stages, ∀ w, (st.pos = .weight w ∨ ∃ b, st.pos = .both w b) → wCols shapes w = st.din := by
    intro st hst w hw
    have hf := hfit.fits st hst
    unfold Stage.Fits at hf
    rcases hw with hw | ⟨b, hw⟩ <;> rw [hw] at hf
    · exact hf.2.2
    · exact hf.2.2.2.1
  refine ⟨by simp [SeqNet.terms], ?_, ?_⟩
  · intro l hl' w hw τ hτ c o i ho hi
    obtain ⟨st, hst, hname, hpos, hdim⟩ := hl l hl'
    rw [← hpos] at hw
    have hτ' : τ < T := by simpa [SeqNet.terms] using hτ
    have hc := hw0 st hst w hw
    rw [hc] at hi ⊢
    rw [hdim] at ho
    have := pderiv_weight (R := fun z => net.out z ⟨τ, hτ'⟩ c) net.stages hfit.fits hfit.names hfit.positions hd.stages
      (hd.out _ _) st hst hw ho hi
    rw [← hname, SeqNet.S_eq hfit hst]
    simp only [SeqNet.terms, List.getElem_ofFn, Fin.is_lt, dite_true, SeqNet.datum, and_self, hτ', Fin.eta]
    exact this
  · intro l hl' b hb τ hτ c o ho
    obtain ⟨st, hst, hname, hpos, hdim⟩ := hl l hl'
    rw [← hpos] at hb
    have hτ' : τ < T := by simpa [SeqNet.terms] using hτ
    rw [hdim] at ho
    have := pderiv_bias (R := fun z => net.out z ⟨τ, hτ'⟩ c) net.stages hfit.fits hfit.names hfit.positions hd.stages
      (hd.out _ _) st hst hb ho
    rw [← hname, SeqNet.S_eq hfit hst]
    simp only [SeqNet.terms, List.getElem_ofFn, Fin.is_lt, dite_true, SeqNet.datum, and_self, hτ', Fin.eta]
    exact this

/-! ## KFAC on a network -/

/-- The layer as KFAC sees it. -/
def Stage.klayer (st : Stage D) : KLayer := ⟨st.name, st.pos.dict, st.din, st.dout, st.S⟩

/-- KFAC's mapping for the network. -/
def SeqNet.mapping (net : SeqNet D T C) : Dict (Dict Nat) := net.stages.map fun st => (st.name, st.pos.dict)

/-- KFAC's layers. -/
def SeqNet.klayers (net : SeqNet D T C) : List KLayer := net.stages.map Stage.klayer

/-- The layers with their input factors on some data, and given gradient factors. -/
noncomputable def SeqNet.layersWith (cfg : KfacCfg) (net : SeqNet D T C) (data : List KDatum) (B : Stage D → Mat ℝ) :
    List (Layer ℝ) :=
  net.stages.map fun st => ⟨st.name, st.pos,
    ⟨st.din + (if st.klayer.joint cfg then 1 else 0), specInputFactor cfg st.klayer data⟩, ⟨st.dout, B st⟩⟩

/-- The layers with their Kronecker factors on some data. -/
noncomputable abbrev SeqNet.layers (cfg : KfacCfg) (net : SeqNet D T C) (data : List KDatum) : List (Layer ℝ) :=
  net.layersWith cfg data fun st => specGradFactor cfg st.klayer data

/-- The operator on the network. -/
noncomputable def SeqNet.kfac (cfg : KfacCfg) (shapes : List (List Nat)) (net : SeqNet D T C) (batches : List (List KDatum)) :
    LinOp ℝ :=
  kfacOp shapes cfg.sep net.mapping (kfacFactors cfg net.klayers batches).1 (kfacFactors cfg net.klayers batches).2

/-- Two entries of the parameters are in the same block of KFAC: same layer, and same parameter if weights and biases are treated
separately. -/
def SeqNet.SameBlock (sep : Bool) (shapes : List (List Nat)) (net : SeqNet D T C) (p q : Nat) : Prop :=
  ∃ st ∈ net.stages, ∃ a ∈ st.pos.positions, ∃ a' ∈ st.pos.positions, (sep = true → a = a') ∧
    (∃ r < (shapes.getD a []).prod, p = offset shapes a + r) ∧ ∃ r < (shapes.getD a' []).prod, q = offset shapes a' + r

theorem seqNet_kfacLayers {cfg : KfacCfg} {shapes : List (List Nat)} {net : SeqNet D T C} (hfit : net.Fits shapes)
    (hall : ∀ p < shapes.length, ∃ st ∈ net.stages, p ∈ st.pos.positions) (batches : List (List KDatum)) (hne : batches ≠ [])
    (hT : cfg.T ≠ 0) (hC : cfg.C ≠ 0) (hmc : cfg.mcSamples ≠ 0) :
    KfacLayers cfg.sep shapes net.mapping (kfacFactors cfg net.klayers batches).1 (kfacFactors cfg net.klayers batches).2
      (net.layers cfg batches.flatten) := by
  have hnames : (net.klayers.map KLayer.name).Nodup := by
    have : net.klayers.map KLayer.name = net.stages.map Stage.name := by
      unfold SeqNet.klayers
      rw [List.map_map]
      rfl
    rw [this]
    exact hfit.names
  refine ⟨?_, ?_, ?_, ?_, ?_⟩
  · unfold SeqNet.mapping SeqNet.layers SeqNet.layersWith
    rw [List.map_map]
    rfl
  · have h1 : (net.layers cfg batches.flatten).flatMap (fun l => l.pos.positions) =
        net.stages.flatMap fun st => st.pos.positions := by
      unfold SeqNet.layers SeqNet.layersWith
      rw [List.flatMap_map]
    rw [h1, List.perm_ext_iff_of_nodup hfit.positions List.nodup_range]
    intro p
    rw [List.mem_range, List.mem_flatMap]
    constructor
    · rintro ⟨st, hst, hp⟩
      exact Stage.positions_lt (hfit.fits st hst) hp
    · exact hall p
  · intro l hl hw
    obtain ⟨st, hst, rfl⟩ := List.mem_map.mp hl
    exact kfac_input_factor cfg net.klayers hnames batches hne st.klayer (List.mem_map_of_mem hst)
      (by rw [← hw]; exact Dict.has_dict_weight st.pos)
  · intro l hl
    obtain ⟨st, hst, rfl⟩ := List.mem_map.mp hl
    exact kfac_grad_factor cfg net.klayers hnames batches hne hT hC hmc st.klayer (List.mem_map_of_mem hst)
  · intro l hl
    obtain ⟨st, hst, rfl⟩ := List.mem_map.mp hl
    have hf := hfit.fits st hst
    unfold Stage.Fits at hf
    unfold Layer.Fits
    cases hp : st.pos with
    | both w b =>
      rw [hp] at hf
      refine ⟨hf.2.2.1, hf.2.2.2.2, ?_⟩
      simp only [Stage.klayer, KLayer.joint, hp, hf.2.2.2.1]
      cases cfg.sep <;> simp [LayerPos.dict, Dict.has]
    | weight w =>
      rw [hp] at hf
      refine ⟨hf.2.1, ?_⟩
      simp only [Stage.klayer, KLayer.joint, hp, hf.2.2]
      simp [LayerPos.dict, Dict.has]
    | bias b =>
      rw [hp] at hf
      exact hf.2

theorem offset_split {shape : List Nat} {m n r : Nat} (hh : shape.head? = some m) (ht : shape.tail.prod = n)
    (hr : r < shape.prod) : r / n < m ∧ r % n < n ∧ r = r / n * n + r % n := by
  cases shape with
  | nil => cases hh
  | cons a l =>
    simp only [List.head?_cons, Option.some.injEq] at hh
    subst hh
    simp only [List.tail_cons] at ht
    rw [List.prod_cons, ht] at hr
    have hn : 0 < n := Nat.pos_of_ne_zero fun h => by simp [h] at hr
    exact ⟨(Nat.div_lt_iff_lt_mul hn).mpr hr, Nat.mod_lt _ hn, by rw [Nat.mul_comm]; exact (Nat.div_add_mod r n).symm⟩

/-- Entries in the same block are entries of a Kronecker block. -/
theorem SeqNet.SameBlock.block {cfg : KfacCfg} {shapes : List (List Nat)} {net : SeqNet D T C} (hfit : net.Fits shapes)
    (data : List KDatum) (B : Stage D → Mat ℝ) {p q : Nat} (h : net.SameBlock cfg.sep shapes p q) :
    ∃ b ∈ kfacBlocks cfg.sep shapes (net.layersWith cfg data B), ∃ i < b.rows, ∃ j < b.cols, ∃ i' < b.rows, ∃ j' < b.cols,
      p = b.idx i j ∧ q = b.idx i' j' := by
  obtain ⟨st, hst, a, ha, a', ha', hsep, ⟨r, hr, rfl⟩, r', hr', rfl⟩ := h
  have hf := hfit.fits st hst
  unfold Stage.Fits at hf
  set l : Layer ℝ := ⟨st.name, st.pos, ⟨st.din + (if st.klayer.joint cfg then 1 else 0), specInputFactor cfg st.klayer data⟩,
    ⟨st.dout, B st⟩⟩ with hl
  have hlm : l ∈ net.layersWith cfg data B := List.mem_map.mpr ⟨st, hst, rfl⟩
  have hmem : ∀ b ∈ l.blocks cfg.sep shapes, b ∈ kfacBlocks cfg.sep shapes (net.layersWith cfg data B) :=
    fun b hb => List.mem_flatMap.mpr ⟨l, hlm, hb⟩
  have hwB : ∀ w, (shapes.getD w []).head? = some st.dout → ∀ r, r < (shapes.getD w []).prod →
      ∃ i < st.dout, ∃ j < wCols shapes w, offset shapes w + r = offset shapes w + (i * wCols shapes w + j) := by
    intro w hh r hr
    obtain ⟨h1, h2, h3⟩ := offset_split hh (n := wCols shapes w) rfl hr
    exact ⟨_, h1, _, h2, by rw [← h3]⟩
  cases hp : st.pos with
  | weight w =>
    rw [hp] at hf ha ha'
    simp only [LayerPos.positions, List.mem_singleton] at ha ha'
    subst ha ha'
    obtain ⟨i, hi, j, hj, e⟩ := hwB a' hf.2.1 r hr
    obtain ⟨i', hi', j', hj', e'⟩ := hwB a' hf.2.1 r' hr'
    exact ⟨l.wBlock shapes a', hmem _ (by simp [Layer.blocks, hl, hp]), i, hi, j, hj, i', hi', j', hj', e, e'⟩
  | bias b =>
    rw [hp] at hf ha ha'
    simp only [LayerPos.positions, List.mem_singleton] at ha ha'
    subst ha ha'
    rw [hf.2] at hr hr'
    simp only [List.prod_cons, List.prod_nil, mul_one] at hr hr'
    exact ⟨l.bBlock shapes a', hmem _ (by simp [Layer.blocks, hl, hp]), r, hr, 0, Nat.one_pos, r', hr', 0, Nat.one_pos, rfl, rfl⟩
  | both w b =>
    rw [hp] at hf ha ha'
    simp only [LayerPos.positions, List.mem_cons, List.not_mem_nil, or_false] at ha ha'
    obtain ⟨-, -, hh, -, hbs⟩ := hf
    cases hs : cfg.sep with
    | true =>
      have := hsep hs
      subst this
      have hbl : l.blocks cfg.sep shapes = [l.wBlock shapes w, l.bBlock shapes b] := by simp [Layer.blocks, hl, hp, hs]
      rw [hbl, hs] at hmem
      rcases ha with rfl | rfl
      · obtain ⟨i, hi, j, hj, e⟩ := hwB a hh r hr
        obtain ⟨i', hi', j', hj', e'⟩ := hwB a hh r' hr'
        exact ⟨l.wBlock shapes a, hmem _ (by simp), i, hi, j, hj, i', hi', j', hj', e, e'⟩
      · rw [hbs] at hr hr'
        simp only [List.prod_cons, List.prod_nil, mul_one] at hr hr'
        exact ⟨l.bBlock shapes a, hmem _ (by simp), r, hr, 0, Nat.one_pos, r', hr', 0, Nat.one_pos, rfl, rfl⟩
    | false =>
      have hbl : l.blocks cfg.sep shapes = [l.jBlock shapes w b] := by simp [Layer.blocks, hl, hp, hs]
      rw [hbl, hs] at hmem
      have key : ∀ a, (a = w ∨ a = b) → ∀ r, r < (shapes.getD a []).prod → ∃ i < st.dout, ∃ j < wCols shapes w + 1,
          offset shapes a + r = (l.jBlock shapes w b).idx i j := by
        rintro a (rfl | rfl) r hr
        · obtain ⟨i, hi, j, hj, e⟩ := hwB a hh r hr
          exact ⟨i, hi, j, by omega, by simp only [Layer.jBlock, if_pos hj]; exact e⟩
        · rw [hbs] at hr
          simp only [List.prod_cons, List.prod_nil, mul_one] at hr
          exact ⟨r, hr, wCols shapes w, by omega, by simp [Layer.jBlock]⟩
      obtain ⟨i, hi, j, hj, e⟩ := key a ha r hr
      obtain ⟨i', hi', j', hj', e'⟩ := key a' ha' r' hr'
      exact ⟨l.jBlock shapes w b, hmem _ (by simp), i, hi, j, hj, i', hi', j', hj', e, e'⟩

/-- KFAC covers the whole parameter list, with the network's sizes. -/
structure SeqNet.Setting (cfg : KfacCfg) (shapes : List (List Nat)) (net : SeqNet D T C) (n : Nat) : Prop where
  fit : net.Fits shapes
  all : ∀ p < shapes.length, ∃ st ∈ net.stages, p ∈ st.pos.positions
  N : cfg.N = n
  N_ne : n ≠ 0
  terms : cfg.T = T
  T_ne : T ≠ 0
  outDim : cfg.C = C
  C_ne : C ≠ 0
  mc : cfg.mcSamples ≠ 0
  S_ne : ∀ st ∈ net.stages, st.S ≠ 0

theorem SeqNet.layers_stage {cfg : KfacCfg} {net : SeqNet D T C} {data : List KDatum}
    {B : Stage D → Mat ℝ} :
    ∀ l ∈ net.layersWith cfg data B, ∃ st ∈ net.stages, st.name = l.name ∧ st.pos = l.pos ∧ l.B.dim = st.dout := by
  intro l hl
  obtain ⟨st, hst, rfl⟩ := List.mem_map.mp hl
  exact ⟨st, hst, rfl, rfl, rfl⟩

theorem SeqNet.klayers_names {shapes : List (List Nat)} {net : SeqNet D T C} (hfit : net.Fits shapes) :
    (net.klayers.map KLayer.name).Nodup := by
  have : net.klayers.map KLayer.name = net.stages.map Stage.name := by
    unfold SeqNet.klayers
    rw [List.map_map]
    rfl
  rw [this]
  exact hfit.names

theorem SeqNet.Fits.wCols {shapes : List (List Nat)} {net : SeqNet D T C} (hfit : net.Fits shapes) {st : Stage D}
    (hst : st ∈ net.stages) {w : Nat} (hw : st.pos = .weight w ∨ ∃ b, st.pos = .both w b) : st.din = wCols shapes w := by
  have hf := hfit.fits st hst
  unfold Stage.Fits at hf
  rcases hw with hw | ⟨b, hw⟩ <;> rw [hw] at hf
  · exact hf.2.2.symm
  · exact hf.2.2.2.1.symm

theorem SeqNet.Setting.shared {cfg : KfacCfg} {shapes : List (List Nat)} {net : SeqNet D T C} {n : Nat}
    (h : net.Setting cfg shapes n) (data : List KDatum) (B : Stage D → Mat ℝ) :
    SharedSetting C cfg shapes net.klayers (net.layersWith cfg data B) net.S n where
  N := h.N
  N_ne := h.N_ne
  T_ne := by rw [h.terms]; exact h.T_ne
  outDim := h.outDim
  C_ne := h.C_ne
  mc := h.mc
  names := SeqNet.klayers_names h.fit
  klayer := by
    intro l hl
    obtain ⟨st, hst, rfl⟩ := List.mem_map.mp hl
    exact ⟨st.klayer, List.mem_map_of_mem hst, rfl, rfl, (SeqNet.S_eq h.fit hst).symm, h.S_ne st hst,
      fun w hw => h.fit.wCols hst hw⟩

/-- A datum of the network: input, labels, and what the loss contributes in the backward passes. -/
structure NetInput (D T C : Nat) (k : LossKind) where
  h : Fin D → ℝ
  y : Fin T → TermTarget k C
  sqrt : Nat → Nat → Nat → ℝ
  lossGrad : Nat → Nat → Nat → ℝ

/-- What the hooks see of a datum. -/
noncomputable def NetInput.datum (shapes : List (List Nat)) (net : SeqNet D T C) (θ : Nat → ℝ) (x : NetInput D T C k) : KDatum :=
  net.datum shapes θ x.h x.sqrt x.lossGrad

/-- The loss terms of a datum. -/
noncomputable def NetInput.terms (shapes : List (List Nat)) (net : SeqNet D T C) (θ : Nat → ℝ) (x : NetInput D T C k) :
    List (Term k C) :=
  net.terms shapes θ x.h x.y

/-- The square roots are those of `loss_hessian_matrix_sqrt` at the predictions (`kfac.py:491-501`). -/
def NetInput.SqrtOk (shapes : List (List Nat)) (net : SeqNet D T C) (θ : Nat → ℝ) (mean : Bool) (x : NetInput D T C k) : Prop :=
  ∀ t : Fin T, ∃ targetShape target R, targetShape.head? = some 1 ∧ ValidTarget k target ∧
    lossHessianSqrt (.known k (redOf mean)) [1, C] (net.predict shapes x.h θ t) targetShape target = .ok R ∧
    ∀ c l : Fin C, x.sqrt t c l = R c l

/-- The gradients are those of the loss terms for the true labels (`kfac.py:520-525`). -/
def NetInput.GradOk (shapes : List (List Nat)) (net : SeqNet D T C) (θ : Nat → ℝ) (x : NetInput D T C k) : Prop :=
  ∀ (t : Fin T) (c : Fin C), x.lossGrad 0 t c = pderiv (termLoss k (x.y t)) c (net.predict shapes x.h θ t)

theorem chainRule_of_shared {shapes : List (List Nat)} {layers : List (Layer ℝ)} {S : String → Nat} {d : KDatum} {t : Term k C}
    (h : SharedChainRule shapes layers S 1 d [t]) (hS : ∀ l ∈ layers, S l.name = 1) : ChainRule shapes layers d t where
  weight := by
    intro l hl w hw c o i ho hi
    have := h.weight l hl w hw 0 (by simp) c o i ho hi
    simpa [hS l hl] using this
  bias := by
    intro l hl b hb c o ho
    have := h.bias l hl b hb 0 (by simp) c o ho
    simpa [hS l hl] using this

theorem SeqNet.Setting.single {cfg : KfacCfg} {shapes : List (List Nat)} {net : SeqNet D 1 C} (h : net.Setting cfg shapes 1)
    (hS : ∀ st ∈ net.stages, st.S = 1) (hmc : cfg.mcSamples = 1) (data : List KDatum) :
    SingleDatum C cfg shapes net.klayers (net.layers cfg data) where
  N := h.N
  T := h.terms
  outDim := h.outDim
  C_ne := h.C_ne
  mc := hmc
  names := SeqNet.klayers_names h.fit
  klayer := by
    intro l hl
    obtain ⟨st, hst, rfl⟩ := List.mem_map.mp hl
    exact ⟨st.klayer, List.mem_map_of_mem hst, rfl, rfl, hS st hst, fun w hw => h.fit.wCols hst hw⟩

/-- C73 (type-2): on one datum with one loss term, for a feed-forward network whose layers are evaluated at one position, KFAC's
matrix equals the GGN inside the blocks. The GGN's Jacobian is the derivative of the forward pass in the parameters. -/
theorem seqNet_type2_single {cfg : KfacCfg} {shapes : List (List Nat)} {net : SeqNet D 1 C} (hs : net.Setting cfg shapes 1)
    (hS : ∀ st ∈ net.stages, st.S = 1) (hmc : cfg.mcSamples = 1) (hf : cfg.fisher = .type2) (hk : k = .ce → C ≠ 1)
    {θ : Nat → ℝ} (x : NetInput D 1 C k) (hd : net.DiffAt shapes θ x.h) (hx : x.SqrtOk shapes net θ cfg.mean) :
    ∃ M, Represents (net.kfac cfg shapes [[x.datum shapes net θ]]) M ∧ ∀ p q, net.SameBlock cfg.sep shapes p q →
      M p q = riskMatrix (redOf cfg.mean) (datumMatrix cfg.mean 1 lossHessian) [x.terms shapes net θ] p q := by
  have hK := seqNet_kfacLayers (cfg := cfg) hs.fit hs.all [[x.datum shapes net θ]] (by simp) (by rw [hs.terms]; exact hs.T_ne)
    (by rw [hs.outDim]; exact hs.C_ne) hs.mc
  obtain ⟨⟨M, hM⟩, -⟩ := kfac_matrix_exists _ _ _ _ _ _ hK
  refine ⟨M, kfac_represents _ _ _ _ _ _ hK M hM, fun p q hpq => ?_⟩
  obtain ⟨b, hb, i, hi, j, hj, i', hi', j', hj', rfl, rfl⟩ := hpq.block hs.fit _ _
  have hchain := seqNet_chain hs.fit hd x.sqrt x.lossGrad x.y (net.layers cfg [[x.datum shapes net θ]].flatten)
    SeqNet.layers_stage
  have hterms : x.terms shapes net θ = [(x.terms shapes net θ)[0]'(by simp [NetInput.terms, SeqNet.terms])] := by
    simp [NetInput.terms, SeqNet.terms]
  have hchain' : ChainRule shapes (net.layers cfg [[x.datum shapes net θ]].flatten) (x.datum shapes net θ)
      ((x.terms shapes net θ)[0]'(by simp [NetInput.terms, SeqNet.terms])) := by
    refine chainRule_of_shared (S := net.S) ?_ ?_
    · rw [← hterms]
      exact hchain
    · intro l hl
      obtain ⟨st, hst, rfl⟩ := List.mem_map.mp hl
      exact (SeqNet.S_eq hs.fit hst).trans (hS st hst)
  obtain ⟨tsh, tg, R, h1, h2, h3, h4⟩ := hx 0
  have := (kfac_type2_single_partial (hs.single hS hmc _) hf _ _ hk hchain' tsh h1 tg h2
    ⟨R, by simpa [NetInput.terms, SeqNet.terms] using h3, h4⟩ hK M hM b hb i j i' j' hi hj hi' hj').2
  rw [this, ← hterms]

/-- C73 (empirical): the same for empirical KFAC and the empirical Fisher. -/
theorem seqNet_empirical_single {cfg : KfacCfg} {shapes : List (List Nat)} {net : SeqNet D 1 C} (hs : net.Setting cfg shapes 1)
    (hS : ∀ st ∈ net.stages, st.S = 1) (hmc : cfg.mcSamples = 1) (hf : cfg.fisher = .empirical) (hloss : cfg.loss = k)
    {θ : Nat → ℝ} (x : NetInput D 1 C k) (hd : net.DiffAt shapes θ x.h) (hx : x.GradOk shapes net θ) :
    ∃ M, Represents (net.kfac cfg shapes [[x.datum shapes net θ]]) M ∧ ∀ p q, net.SameBlock cfg.sep shapes p q →
      M p q = riskMatrix (redOf cfg.mean) (datumMatrix cfg.mean 1 lossGradOuter) [x.terms shapes net θ] p q := by
  have hK := seqNet_kfacLayers (cfg := cfg) hs.fit hs.all [[x.datum shapes net θ]] (by simp) (by rw [hs.terms]; exact hs.T_ne)
    (by rw [hs.outDim]; exact hs.C_ne) hs.mc
  obtain ⟨⟨M, hM⟩, -⟩ := kfac_matrix_exists _ _ _ _ _ _ hK
  refine ⟨M, kfac_represents _ _ _ _ _ _ hK M hM, fun p q hpq => ?_⟩
  obtain ⟨b, hb, i, hi, j, hj, i', hi', j', hj', rfl, rfl⟩ := hpq.block hs.fit _ _
  have hchain := seqNet_chain hs.fit hd x.sqrt x.lossGrad x.y (net.layers cfg [[x.datum shapes net θ]].flatten)
    SeqNet.layers_stage
  have hterms : x.terms shapes net θ = [(x.terms shapes net θ)[0]'(by simp [NetInput.terms, SeqNet.terms])] := by
    simp [NetInput.terms, SeqNet.terms]
  have hchain' : ChainRule shapes (net.layers cfg [[x.datum shapes net θ]].flatten) (x.datum shapes net θ)
      ((x.terms shapes net θ)[0]'(by simp [NetInput.terms, SeqNet.terms])) := by
    refine chainRule_of_shared (S := net.S) ?_ ?_
    · rw [← hterms]
      exact hchain
    · intro l hl
      obtain ⟨st, hst, rfl⟩ := List.mem_map.mp hl
      exact (SeqNet.S_eq hs.fit hst).trans (hS st hst)
  have := (kfac_empirical_single_partial (hs.single hS hmc _) hf hloss _ _ hchain'
    (fun c => by simpa [NetInput.terms, SeqNet.terms, NetInput.datum, SeqNet.datum] using hx 0 c) hK M hM b hb i j i' j' hi hj hi' hj').2
  rw [this, ← hterms]

/-! ## Networks that are linear after each layer -/

/-- The prediction as function of the output `z` of each layer is affine, for the input `h`: with the same map `g` for every
position that has its own loss term (expand), or summed over positions (reduce). `g` is zero outside the layer's output. -/
def SeqNet.AffineAfter (approx : KfacApprox) (shapes : List (List Nat)) (net : SeqNet D T C) (θ : Nat → ℝ)
    (g : String → Nat → Nat → ℝ) (h : Fin D → ℝ) : Prop :=
  (approx = .reduce → T = 1) ∧
  ∀ before st rest, net.stages = before ++ st :: rest → (approx = .expand → st.S = T) ∧
    (∀ o, st.dout ≤ o → ∀ c, g st.name o c = 0) ∧ ∃ c₀ : Fin T → Fin C → ℝ, ∀ z t c,
      net.out (forward shapes θ rest (st.post (forward shapes θ before h, z))) t c =
        ∑ a, (if approx = .expand ∧ (a.1 : Nat) ≠ t then 0 else g st.name a.2 c) * z a + c₀ t c

theorem pderiv_affine {ι : Type _} [DecidableEq ι] [Fintype ι] (G : ι → ℝ) (c : ℝ) (i : ι) (z : ι → ℝ) :
    pderiv (fun z => ∑ a, G a * z a + c) i z = G i := by
  refine pderiv_eq (d := G i) ?_
  have h : ∀ t : ℝ, ∑ a, G a * Function.update z i t a + c = G i * t + (∑ a ∈ Finset.univ.erase i, G a * z a + c) := by
    intro t
    rw [← Finset.add_sum_erase _ _ (Finset.mem_univ i), Function.update_self, add_assoc]
    congr 2
    refine Finset.sum_congr rfl fun a ha => ?_
    rw [Function.update_of_ne (Finset.ne_of_mem_erase ha)]
  simp only [h]
  simpa using ((hasDerivAt_id' (z i)).const_mul (G i)).add_const (∑ a ∈ Finset.univ.erase i, G a * z a + c)

theorem hookGrad_append (shapes : List (List Nat)) (θ : Nat → ℝ) (R : (Fin D → ℝ) → ℝ) (before : List (Stage D)) (st : Stage D)
    (rest : List (Stage D)) (hnames : ((before ++ st :: rest).map Stage.name).Nodup) (h : Fin D → ℝ) (s : Fin st.S)
    (o : Fin st.dout) :
    hookGrad shapes θ R (before ++ st :: rest) h st.name s o =
      pderiv (fun z => R (forward shapes θ rest (st.post (forward shapes θ before h, z)))) (s, o)
        (st.layerOut shapes θ (st.pre (forward shapes θ before h))) := by
  induction before generalizing h with
  | nil =>
    simp only [List.nil_append]
    unfold hookGrad
    rw [if_pos rfl, dif_pos ⟨s.2, o.2⟩]
    rfl
  | cons a before ih =>
    rw [List.cons_append, List.map_cons, List.nodup_cons] at hnames
    have hne : a.name ≠ st.name := fun e => hnames.1 (by rw [e]; simp)
    simp only [List.cons_append, hookGrad, if_neg hne, forward]
    exact ih hnames.2 _

theorem hookGrad_out (shapes : List (List Nat)) (θ : Nat → ℝ) (R : (Fin D → ℝ) → ℝ) (stages : List (Stage D))
    (hnames : (stages.map Stage.name).Nodup) (h : Fin D → ℝ) (st : Stage D) (hst : st ∈ stages) {s o : Nat}
    (ho : st.dout ≤ o) : hookGrad shapes θ R stages h st.name s o = 0 := by
  induction stages generalizing h with
  | nil => rfl
  | cons a stages ih =>
    rw [List.map_cons, List.nodup_cons] at hnames
    unfold hookGrad
    rcases List.mem_cons.mp hst with rfl | hst
    · rw [if_pos rfl, dif_neg (by omega)]
    · have hne : a.name ≠ st.name := fun e => hnames.1 (e ▸ List.mem_map_of_mem hst)
      rw [if_neg hne]
      exact ih hnames.2 _ hst

theorem SeqNet.AffineAfter.linear {cfg : KfacCfg} {shapes : List (List Nat)} {net : SeqNet D T C} {n : Nat}
    (hs : net.Setting cfg shapes n) {θ : Nat → ℝ} {g : String → Nat → Nat → ℝ} {h : Fin D → ℝ}
    (ha : net.AffineAfter cfg.approx shapes θ g h) (sqrt lossGrad : Nat → Nat → Nat → ℝ) (data : List KDatum) (B : Stage D → Mat ℝ) :
    LinearAfter cfg (net.layersWith cfg data B) net.S g (net.datum shapes θ h sqrt lossGrad) := by
  obtain ⟨h2, ha⟩ := ha
  have key : ∀ st ∈ net.stages, (cfg.approx = .expand → st.S = T) ∧
      ∀ s < st.S, ∀ o, ∀ t < T, ∀ c < C, (net.datum shapes θ h sqrt lossGrad).jac st.name s o t c =
        if cfg.approx = .expand ∧ s ≠ t then 0 else g st.name o c := by
    intro st hst
    obtain ⟨before, rest, hsplit⟩ := List.append_of_mem hst
    obtain ⟨h1, h3, c₀, h4⟩ := ha before st rest hsplit
    refine ⟨h1, fun s hs' o t ht c hc => ?_⟩
    simp only [SeqNet.datum, ht, hc, and_self, dite_true]
    have hn := hs.fit.names
    by_cases ho : o < st.dout
    · rw [hsplit] at hn ⊢
      have := hookGrad_append shapes θ (fun z => net.out z ⟨t, ht⟩ ⟨c, hc⟩) before st rest hn h ⟨s, hs'⟩ ⟨o, ho⟩
      rw [this]
      simp only [h4]
      rw [pderiv_affine]
    · rw [hookGrad_out _ _ _ _ hn _ st hst (by omega), h3 o (by omega)]
      simp
  unfold LinearAfter
  cases happ : cfg.approx with
  | expand =>
    intro l hl
    obtain ⟨st, hst, rfl⟩ := List.mem_map.mp hl
    obtain ⟨h1, h3⟩ := key st hst
    refine ⟨?_, fun s hs' o t ht c hc => ?_⟩
    · rw [hs.terms]
      exact (SeqNet.S_eq hs.fit hst).trans (h1 happ)
    · rw [hs.terms] at hs' ht
      rw [hs.outDim] at hc
      rw [h3 s (by rw [h1 happ]; exact hs') o t ht c hc]
      by_cases e : s = t <;> simp [happ, e]
  | reduce =>
    refine ⟨?_, fun l hl => ?_⟩
    · rw [hs.terms]
      exact h2 happ
    · obtain ⟨st, hst, rfl⟩ := List.mem_map.mp hl
      obtain ⟨-, h3⟩ := key st hst
      intro s hs' o c hc
      rw [hs.outDim] at hc
      rw [h3 s (by rw [← SeqNet.S_eq hs.fit hst]; exact hs') o 0 (by rw [h2 happ]; exact Nat.one_pos) c hc]
      simp [happ]

/-- C73 (linear): for a feed-forward network that is affine after each layer and `MSELoss`, in the setting of the chosen
approximation, KFAC's matrix equals the GGN inside the blocks, for all inputs and all partitions into batches. -/
theorem seqNet_type2_linear {cfg : KfacCfg} {shapes : List (List Nat)} {net : SeqNet D T C}
    (batches : List (List (NetInput D T C .mse))) (hs : net.Setting cfg shapes batches.flatten.length)
    (hf : cfg.fisher = .type2) (hmc : cfg.mcSamples = 1) {θ : Nat → ℝ} (g : String → Nat → Nat → ℝ)
    (hd : ∀ x ∈ batches.flatten, net.DiffAt shapes θ x.h)
    (hg : ∀ x ∈ batches.flatten, net.AffineAfter cfg.approx shapes θ g x.h)
    (hx : ∀ x ∈ batches.flatten, x.SqrtOk shapes net θ cfg.mean) :
    ∃ M, Represents (net.kfac cfg shapes (batches.map (·.map (NetInput.datum shapes net θ)))) M ∧
      ∀ p q, net.SameBlock cfg.sep shapes p q → M p q =
        riskMatrix (redOf cfg.mean) (datumMatrix cfg.mean T lossHessian) (batches.flatten.map (NetInput.terms shapes net θ)) p q := by
  have hne : batches ≠ [] := by
    rintro rfl
    exact hs.N_ne rfl
  set bs : List (List (KDatum × List (Term .mse C))) :=
    batches.map (·.map fun x => (x.datum shapes net θ, x.terms shapes net θ)) with hbs
  have hfst : bs.map (·.map Prod.fst) = batches.map (·.map (NetInput.datum shapes net θ)) := by
    simp only [hbs, List.map_map, Function.comp_def]
  have hflat : bs.flatten = batches.flatten.map fun x => (x.datum shapes net θ, x.terms shapes net θ) := by
    rw [hbs, List.map_flatten]
  have hsnd : bs.flatten.map Prod.snd = batches.flatten.map (NetInput.terms shapes net θ) := by
    rw [hflat, List.map_map]
    rfl
  have hK := seqNet_kfacLayers (cfg := cfg) hs.fit hs.all (bs.map (·.map Prod.fst)) (by simpa [hbs] using hne)
    (by rw [hs.terms]; exact hs.T_ne) (by rw [hs.outDim]; exact hs.C_ne) hs.mc
  obtain ⟨⟨M, hM⟩, -⟩ := kfac_matrix_exists _ _ _ _ _ _ hK
  rw [← hfst, ← hsnd]
  refine ⟨M, kfac_represents _ _ _ _ _ _ hK M hM, fun p q hpq => ?_⟩
  obtain ⟨b, hb, i, hi, j, hj, i', hi', j', hj', rfl, rfl⟩ := hpq.block hs.fit _ _
  have hlen : bs.flatten.length = batches.flatten.length := by rw [hflat, List.length_map]
  have hmem : ∀ x ∈ bs.flatten, ∃ y ∈ batches.flatten, x = (y.datum shapes net θ, y.terms shapes net θ) := by
    intro x hx
    rw [hflat] at hx
    obtain ⟨y, hy, rfl⟩ := List.mem_map.mp hx
    exact ⟨y, hy, rfl⟩
  have := (kfac_type2_linear bs (by rw [hlen]; exact hs.shared _ _) hf hmc
    (fun x hx' => by
      obtain ⟨y, hy, rfl⟩ := hmem x hx'
      rw [hs.terms]
      exact seqNet_chain hs.fit (hd y hy) y.sqrt y.lossGrad y.y _ SeqNet.layers_stage) g
    (fun x hx' => by
      obtain ⟨y, hy, rfl⟩ := hmem x hx'
      exact (hg y hy).linear hs y.sqrt y.lossGrad _ _)
    (fun x hx' τ hτ => by
      obtain ⟨y, hy, rfl⟩ := hmem x hx'
      have hτ' : τ < T := by simpa [NetInput.terms, SeqNet.terms] using hτ
      obtain ⟨tsh, tg, R, h1, h2, h3, h4⟩ := hx y hy ⟨τ, hτ'⟩
      exact ⟨tsh, tg, R, h1, by simpa [NetInput.terms, SeqNet.terms] using h3, h4⟩)
    hK M hM b hb i j i' j' hi hj hi' hj').2
  rw [this, hs.terms]

end Curvlinops
