import Verif.Props.KfacExact

/-!
# C68: KFAC is exact for linear networks with square loss

The network enters through the chain rule for layers whose weight is shared over positions. The two settings in which
type-2 KFAC is exact on any data set: every position has its own loss term (KFAC-expand), or the positions are summed up
to a single loss term (KFAC-reduce); after the layer the network is linear.
-/

namespace Curvlinops

variable {k : LossKind} {C : Nat}

/-- The chain rule at the layers. The derivative of the prediction of loss term `τ` with respect to weight entry `(o, i)`
sums over the positions that share the weight. `d` is what KFAC's hooks see, `ts` are the loss terms of the datum with
the Jacobians of their predictions in all (flattened) parameters, `S` the number of positions of a layer. -/
structure SharedChainRule (shapes : List (List Nat)) (layers : List (Layer ℝ)) (S : String → Nat) (T : Nat) (d : KDatum)
    (ts : List (Term k C)) : Prop where
  terms : ts.length = T
  weight : ∀ l ∈ layers, ∀ w, (l.pos = .weight w ∨ ∃ b, l.pos = .both w b) → ∀ (τ : Nat) (hτ : τ < ts.length) (c : Fin C)
    (o i : Nat), o < l.B.dim → i < wCols shapes w → (ts[τ]).J c (offset shapes w + (o * wCols shapes w + i)) =
      ∑ s ∈ Finset.range (S l.name), d.jac l.name s o τ c * d.x l.name s i
  bias : ∀ l ∈ layers, ∀ b, (l.pos = .bias b ∨ ∃ w, l.pos = .both w b) → ∀ (τ : Nat) (hτ : τ < ts.length) (c : Fin C)
    (o : Nat), o < l.B.dim → (ts[τ]).J c (offset shapes b + o) = ∑ s ∈ Finset.range (S l.name), d.jac l.name s o τ c

/-- The settings for a data set with `n` data. -/
structure SharedSetting (C : Nat) (cfg : KfacCfg) (shapes : List (List Nat)) (klayers : List KLayer)
    (layers : List (Layer ℝ)) (S : String → Nat) (n : Nat) : Prop where
  N : cfg.N = n
  N_ne : n ≠ 0
  T_ne : cfg.T ≠ 0
  outDim : cfg.C = C
  C_ne : C ≠ 0
  mc : cfg.mcSamples ≠ 0
  names : (klayers.map KLayer.name).Nodup
  klayer : ∀ l ∈ layers, ∃ kl ∈ klayers, kl.name = l.name ∧ kl.pos = l.pos.dict ∧ kl.S = S l.name ∧ kl.S ≠ 0 ∧
    ∀ w, (l.pos = .weight w ∨ ∃ b, l.pos = .both w b) → kl.din = wCols shapes w

/-- The network after the layers is linear, with the same map `g` for all data. Expand: position `s` only influences
loss term `s`. Reduce: all positions influence the only loss term in the same way. -/
def LinearAfter (cfg : KfacCfg) (layers : List (Layer ℝ)) (S : String → Nat) (g : String → Nat → Nat → ℝ) (d : KDatum) :
    Prop :=
  match cfg.approx with
  | .expand => ∀ l ∈ layers, S l.name = cfg.T ∧ ∀ s < cfg.T, ∀ o, ∀ t < cfg.T, ∀ c < cfg.C,
      d.jac l.name s o t c = if s = t then g l.name o c else 0
  | .reduce => cfg.T = 1 ∧ ∀ l ∈ layers, ∀ s < S l.name, ∀ o, ∀ c < cfg.C, d.jac l.name s o 0 c = g l.name o c

theorem sum_mul_sum_gram {ι : Type _} (s : Finset ι) (vs : List (ι → ℝ)) (a b : ι → ℝ) (H : ι → ι → ℝ)
    (hH : ∀ c ∈ s, ∀ c' ∈ s, (vs.map fun v => v c * v c').sum = H c c') :
    (vs.map fun v => (∑ c ∈ s, a c * v c) * ∑ c ∈ s, b c * v c).sum = ∑ c ∈ s, ∑ c' ∈ s, a c * H c c' * b c' := by
  have h : ∀ vs : List (ι → ℝ), (vs.map fun v => (∑ c ∈ s, a c * v c) * ∑ c ∈ s, b c * v c).sum =
      ∑ c ∈ s, ∑ c' ∈ s, a c * (vs.map fun v => v c * v c').sum * b c' := by
    intro vs
    induction vs with
    | nil => simp
    | cons v vs ih =>
      simp only [List.map_cons, List.sum_cons, mul_add, add_mul, Finset.sum_add_distrib] at ih ⊢
      rw [ih, Finset.sum_mul_sum]
      congr 1
      exact Finset.sum_congr rfl fun c _ => Finset.sum_congr rfl fun c' _ => by ring
  rw [h]
  exact Finset.sum_congr rfl fun c hc => Finset.sum_congr rfl fun c' hc' => by rw [hH c hc c' hc']

theorem list_sum_finset_comm {α ι : Type _} (s : Finset ι) (l : List α) (f : α → ι → ℝ) :
    (l.map fun a => ∑ i ∈ s, f a i).sum = ∑ i ∈ s, (l.map fun a => f a i).sum := by
  induction l with
  | nil => simp
  | cons a l ih => simp [ih, Finset.sum_add_distrib]

/-- Number of pairs of positions and loss terms that contribute to the gradient factor. -/
def settingCount (cfg : KfacCfg) (S : Nat) : Nat :=
  match cfg.approx with
  | .expand => cfg.T
  | .reduce => S * S

/-- The gradient factor in the two settings, if the propagated vectors have the same second moments `H` for all data and
loss terms. -/
theorem specGradFactor_linear {cfg : KfacCfg} (hf : cfg.fisher ≠ .forwardOnly) {layers : List (Layer ℝ)}
    {S : String → Nat} {g : String → Nat → Nat → ℝ} {data : List KDatum} (hlin : ∀ d ∈ data, LinearAfter cfg layers S g d)
    (l : Layer ℝ) (hl : l ∈ layers) (kl : KLayer) (hname : kl.name = l.name) (hS : kl.S = S l.name)
    (H : Nat → Nat → ℝ)
    (hH : ∀ d ∈ data, ∀ t < cfg.T, ∀ c < cfg.C, ∀ c' < cfg.C,
      ((specCotangents cfg d).map fun v => v t c * v t c').sum = H c c') (i j : Nat) :
    specGradFactor cfg kl data i j = specGradScale cfg * (data.length * (settingCount cfg (S l.name) *
      ∑ c ∈ Finset.range cfg.C, ∑ c' ∈ Finset.range cfg.C, g l.name i c * H c c' * g l.name j c')) := by
  set K := ∑ c ∈ Finset.range cfg.C, ∑ c' ∈ Finset.range cfg.C, g l.name i c * H c c' * g l.name j c' with hK
  have hconst : ∀ f : KDatum → ℝ, (∀ d ∈ data, f d = settingCount cfg (S l.name) * K) →
      (data.map f).sum = data.length * (settingCount cfg (S l.name) * K) := by
    intro f hf
    rw [List.map_congr_left hf]
    simp
  unfold specGradFactor
  cases happ : cfg.approx with
  | expand =>
    have hgoal : ∀ d ∈ data, ((specCotangents cfg d).map fun v =>
        ∑ s ∈ Finset.range kl.S, specGradVec cfg kl d v s i * specGradVec cfg kl d v s j).sum =
        settingCount cfg (S l.name) * K := by
      intro d hd
      have h1 := hlin d hd
      simp only [LinearAfter, happ] at h1
      obtain ⟨hST, h1⟩ := h1 l hl
      have hv : ∀ (v : Nat → Nat → ℝ) s, s < cfg.T → ∀ o, specGradVec cfg kl d v s o =
          ∑ c ∈ Finset.range cfg.C, g l.name o c * v s c := by
        intro v s hs o
        unfold specGradVec
        rw [Finset.sum_eq_single s]
        · refine Finset.sum_congr rfl fun c hc => ?_
          rw [hname, h1 s hs o s hs c (Finset.mem_range.mp hc), if_pos rfl]
        · intro t ht hts
          refine Finset.sum_eq_zero fun c hc => ?_
          rw [hname, h1 s hs o t (Finset.mem_range.mp ht) c (Finset.mem_range.mp hc), if_neg (Ne.symm hts), zero_mul]
        · intro h
          exact absurd (Finset.mem_range.mpr hs) h
      rw [list_sum_finset_comm, hS, hST]
      have : ∀ s ∈ Finset.range cfg.T, ((specCotangents cfg d).map fun v =>
          specGradVec cfg kl d v s i * specGradVec cfg kl d v s j).sum = K := by
        intro s hs
        have hs' := Finset.mem_range.mp hs
        simp only [hv _ s hs']
        have := sum_mul_sum_gram (Finset.range cfg.C) ((specCotangents cfg d).map fun v => v s) (g l.name i) (g l.name j) H
          (fun c hc c' hc' => by
            rw [List.map_map]
            exact hH d hd s hs' c (Finset.mem_range.mp hc) c' (Finset.mem_range.mp hc'))
        rw [List.map_map] at this
        exact this
      rw [Finset.sum_congr rfl this]
      simp [settingCount, happ]
    cases hff : cfg.fisher <;> first | exact absurd hff hf | (simp only; rw [hconst _ hgoal])
  | reduce =>
    have hgoal : ∀ d ∈ data, ((specCotangents cfg d).map fun v =>
        (∑ s ∈ Finset.range kl.S, specGradVec cfg kl d v s i) * ∑ s ∈ Finset.range kl.S, specGradVec cfg kl d v s j).sum =
        settingCount cfg (S l.name) * K := by
      intro d hd
      have h1 := hlin d hd
      simp only [LinearAfter, happ] at h1
      obtain ⟨hT, h1⟩ := h1
      have h1 := h1 l hl
      have hv : ∀ (v : Nat → Nat → ℝ) o, ∑ s ∈ Finset.range kl.S, specGradVec cfg kl d v s o =
          (S l.name : ℝ) * ∑ c ∈ Finset.range cfg.C, g l.name o c * v 0 c := by
        intro v o
        rw [hS]
        have : ∀ s ∈ Finset.range (S l.name), specGradVec cfg kl d v s o =
            ∑ c ∈ Finset.range cfg.C, g l.name o c * v 0 c := by
          intro s hs
          unfold specGradVec
          rw [hT]
          simp only [Finset.range_one, Finset.sum_singleton]
          refine Finset.sum_congr rfl fun c hc => ?_
          rw [hname, h1 s (Finset.mem_range.mp hs) o c (Finset.mem_range.mp hc)]
        rw [Finset.sum_congr rfl this]
        simp
      simp only [hv]
      have := sum_mul_sum_gram (Finset.range cfg.C) ((specCotangents cfg d).map fun v => v 0) (g l.name i) (g l.name j) H
        (fun c hc c' hc' => by
          rw [List.map_map]
          exact hH d hd 0 (by omega) c (Finset.mem_range.mp hc) c' (Finset.mem_range.mp hc'))
      rw [List.map_map] at this
      simp only [Function.comp_def] at this
      have hm : ∀ v : Nat → Nat → ℝ, (S l.name : ℝ) * (∑ c ∈ Finset.range cfg.C, g l.name i c * v 0 c) *
          ((S l.name : ℝ) * ∑ c ∈ Finset.range cfg.C, g l.name j c * v 0 c) = (S l.name : ℝ) * (S l.name : ℝ) *
          ((∑ c ∈ Finset.range cfg.C, g l.name i c * v 0 c) * ∑ c ∈ Finset.range cfg.C, g l.name j c * v 0 c) :=
        fun v => by ring
      simp only [hm]
      rw [List.sum_map_mul_left, this]
      simp [settingCount, happ, hK]
    cases hff : cfg.fisher <;> first | exact absurd hff hf | (simp only; rw [hconst _ hgoal])

/-- The inputs of a layer that enter the block's input factor, and the chain rule in terms of them. -/
theorem block_inputs {cfg : KfacCfg} {shapes : List (List Nat)} {klayers : List KLayer} {layers : List (Layer ℝ)}
    {S : String → Nat} {data : List (KDatum × List (Term k C))} (hs : SharedSetting C cfg shapes klayers layers S data.length)
    (hd : ∀ x ∈ data, SharedChainRule shapes layers S cfg.T x.1 x.2) (l : Layer ℝ) (hl : l ∈ layers) (kl : KLayer)
    (hname : kl.name = l.name) (hpos : kl.pos = l.pos.dict) (hkS : kl.S = S l.name) (hS0 : kl.S ≠ 0)
    (hdin : ∀ w, (l.pos = .weight w ∨ ∃ b, l.pos = .both w b) → kl.din = wCols shapes w)
    (hA : l.pos.hasWeight = true → l.A.mat = specInputFactor cfg kl (data.map Prod.fst)) (b : KBlock ℝ)
    (hb : b ∈ l.blocks cfg.sep shapes) :
    ∃ a : KDatum → Nat → Nat → ℝ, b.rows = l.B.dim ∧ (∀ o o', b.B o o' = l.B.mat o o') ∧
      (∀ i < b.cols, ∀ i' < b.cols, b.A i i' = match cfg.approx with
        | .expand => 1 / (cfg.N * S l.name : ℝ) *
            (data.map fun x => ∑ s ∈ Finset.range (S l.name), a x.1 s i * a x.1 s i').sum
        | .reduce => 1 / (cfg.N : ℝ) * (data.map fun x => ((∑ s ∈ Finset.range (S l.name), a x.1 s i) / S l.name) *
            ((∑ s ∈ Finset.range (S l.name), a x.1 s i') / S l.name)).sum) ∧
      ∀ x ∈ data, ∀ (τ : Nat) (hτ : τ < x.2.length) (c : Fin C), ∀ o < b.rows, ∀ i < b.cols, (x.2[τ]).J c (b.idx o i) =
        ∑ s ∈ Finset.range (S l.name), x.1.jac l.name s o τ c * a x.1 s i := by
  have hS1 : (S l.name : ℝ) ≠ 0 := by rw [← hkS]; exact_mod_cast hS0
  have hN1 : (cfg.N : ℝ) ≠ 0 := by rw [hs.N]; exact_mod_cast hs.N_ne
  -- constant inputs
  have hone : (1 : ℝ) = match cfg.approx with
        | .expand => 1 / (cfg.N * S l.name : ℝ) *
            (data.map fun _ => ∑ _s ∈ Finset.range (S l.name), (1 : ℝ) * 1).sum
        | .reduce => 1 / (cfg.N : ℝ) * (data.map fun _ => ((∑ _s ∈ Finset.range (S l.name), (1 : ℝ)) / S l.name) *
            ((∑ _s ∈ Finset.range (S l.name), (1 : ℝ)) / S l.name)).sum := by
    have hlen : (data.length : ℝ) = cfg.N := by rw [hs.N]
    cases cfg.approx <;> simp [hlen] <;> field_simp
  -- inputs that are extended by a one or not
  have hin : ∀ i i', specInputFactor cfg kl (data.map Prod.fst) i i' = match cfg.approx with
        | .expand => 1 / (cfg.N * S l.name : ℝ) *
            (data.map fun x => ∑ s ∈ Finset.range (S l.name), specInputVec cfg kl x.1 s i * specInputVec cfg kl x.1 s i').sum
        | .reduce => 1 / (cfg.N : ℝ) *
            (data.map fun x => ((∑ s ∈ Finset.range (S l.name), specInputVec cfg kl x.1 s i) / S l.name) *
            ((∑ s ∈ Finset.range (S l.name), specInputVec cfg kl x.1 s i') / S l.name)).sum := by
    intro i i'
    have hmean : ∀ d i, specMeanInput cfg kl d i =
        (∑ s ∈ Finset.range (S l.name), specInputVec cfg kl d s i) / S l.name := by
      intro d i
      unfold specMeanInput specInputVec
      split
      · simp [hS1]
      · rw [hkS]
    unfold specInputFactor
    rw [hkS]
    cases cfg.approx <;> simp only [List.map_map, Function.comp_def, hmean]
  have vec_sep : kl.joint cfg = false → ∀ d s i, specInputVec cfg kl d s i = d.x l.name s i := by
    intro hj d s i
    simp [specInputVec, hj, hname]
  unfold Layer.blocks at hb
  cases hp : l.pos with
  | both w bp =>
    simp only [hp] at hb hpos
    cases hsep : cfg.sep with
    | true =>
      simp only [hsep, if_true, List.mem_cons, List.not_mem_nil, or_false] at hb
      have hjf : kl.joint cfg = false := by simp [KLayer.joint, hsep]
      rcases hb with rfl | rfl
      · refine ⟨fun d s i => d.x l.name s i, rfl, fun _ _ => rfl, fun i _ i' _ => ?_, fun x hx τ hτ c o ho i hi => ?_⟩
        · show l.A.mat i i' = _
          rw [hA (by rw [hp]; rfl), hin]
          simp only [vec_sep hjf]
        · exact (hd x hx).weight l hl w (Or.inr ⟨bp, hp⟩) τ hτ c o i ho hi
      · refine ⟨fun _ _ _ => 1, rfl, fun _ _ => rfl, fun i _ i' _ => hone, fun x hx τ hτ c o ho i hi => ?_⟩
        simp only [mul_one]
        exact (hd x hx).bias l hl bp (Or.inr ⟨w, hp⟩) τ hτ c o ho
    | false =>
      simp only [hsep, Bool.false_eq_true, if_false, List.mem_cons, List.not_mem_nil, or_false] at hb
      subst hb
      have hjt : kl.joint cfg = true := by
        rw [KLayer.joint, hpos, hsep]; rfl
      have hdw := hdin w (Or.inr ⟨bp, hp⟩)
      refine ⟨fun d s i => specInputVec cfg kl d s i, rfl, fun _ _ => rfl, fun i _ i' _ => ?_,
        fun x hx τ hτ c o ho i hi => ?_⟩
      · show l.A.mat i i' = _
        rw [hA (by rw [hp]; rfl), hin]
      · simp only [Layer.jBlock] at hi ho ⊢
        by_cases hlt : i < wCols shapes w
        · rw [if_pos hlt, (hd x hx).weight l hl w (Or.inr ⟨bp, hp⟩) τ hτ c o i ho hlt]
          have : i ≠ kl.din := by omega
          simp [specInputVec, this, hname]
        · rw [if_neg hlt, (hd x hx).bias l hl bp (Or.inr ⟨w, hp⟩) τ hτ c o ho]
          have : i = kl.din := by omega
          simp [specInputVec, hjt, this]
  | weight w =>
    simp only [hp, List.mem_cons, List.not_mem_nil, or_false] at hb
    subst hb
    have hjf : kl.joint cfg = false := by
      rw [KLayer.joint, hpos, hp]; rfl
    refine ⟨fun d s i => d.x l.name s i, rfl, fun _ _ => rfl, fun i _ i' _ => ?_, fun x hx τ hτ c o ho i hi => ?_⟩
    · show l.A.mat i i' = _
      rw [hA (by rw [hp]; rfl), hin]
      simp only [vec_sep hjf]
    · exact (hd x hx).weight l hl w (Or.inl hp) τ hτ c o i ho hi
  | bias bp =>
    simp only [hp, List.mem_cons, List.not_mem_nil, or_false] at hb
    subst hb
    refine ⟨fun _ _ _ => 1, rfl, fun _ _ => rfl, fun i _ i' _ => hone, fun x hx τ hτ c o ho i hi => ?_⟩
    simp only [mul_one]
    exact (hd x hx).bias l hl bp (Or.inl hp) τ hτ c o ho

/-- In the two settings the entries of `∑ₙ ∑ₜ Jᵀ H₀ J` inside a block are products of an output factor and the block's
input factor. -/
theorem riskMatrix_linear {cfg : KfacCfg} {shapes : List (List Nat)} {layers : List (Layer ℝ)} {S : String → Nat}
    {data : List (KDatum × List (Term k C))} (hN : cfg.N = data.length) (hN0 : data.length ≠ 0)
    (hC : cfg.C = C) (hd : ∀ x ∈ data, SharedChainRule shapes layers S cfg.T x.1 x.2) {g : String → Nat → Nat → ℝ}
    (hlin : ∀ x ∈ data, LinearAfter cfg layers S g x.1) (H₀ : Term k C → Fin C → Fin C → ℝ) (H : Fin C → Fin C → ℝ)
    (hH : ∀ x ∈ data, ∀ t ∈ x.2, H₀ t = H) (l : Layer ℝ) (hl : l ∈ layers) (hS0 : S l.name ≠ 0) (b : KBlock ℝ)
    (a : KDatum → Nat → Nat → ℝ)
    (hA : ∀ i < b.cols, ∀ i' < b.cols, b.A i i' = match cfg.approx with
        | .expand => 1 / (cfg.N * S l.name : ℝ) *
            (data.map fun x => ∑ s ∈ Finset.range (S l.name), a x.1 s i * a x.1 s i').sum
        | .reduce => 1 / (cfg.N : ℝ) * (data.map fun x => ((∑ s ∈ Finset.range (S l.name), a x.1 s i) / S l.name) *
            ((∑ s ∈ Finset.range (S l.name), a x.1 s i') / S l.name)).sum)
    (hJ : ∀ x ∈ data, ∀ (τ : Nat) (hτ : τ < x.2.length) (c : Fin C), ∀ o < b.rows, ∀ i < b.cols,
      (x.2[τ]).J c (b.idx o i) = ∑ s ∈ Finset.range (S l.name), x.1.jac l.name s o τ c * a x.1 s i)
    (i j i' j' : Nat) (hi : i < b.rows) (hj : j < b.cols) (hi' : i' < b.rows) (hj' : j' < b.cols) :
    riskMatrix (redOf cfg.mean) (datumMatrix cfg.mean cfg.T H₀) (data.map Prod.snd) (b.idx i j) (b.idx i' j') =
      (if cfg.mean then (data.length : ℝ)⁻¹ else 1) * termWeight k cfg.mean cfg.T C *
        (data.length * (settingCount cfg (S l.name) *
          ∑ c : Fin C, ∑ c' : Fin C, g l.name i c * H c c' * g l.name i' c')) * b.A j' j := by
  set K := ∑ c : Fin C, ∑ c' : Fin C, g l.name i c * H c c' * g l.name i' c' with hK
  have hN1 : (data.length : ℝ) ≠ 0 := by exact_mod_cast hN0
  have hS1 : (S l.name : ℝ) ≠ 0 := by exact_mod_cast hS0
  -- sandwiches
  have hsand : ∀ (t : Term k C) (α β : ℝ), (∀ c : Fin C, t.J c (b.idx i j) = g l.name i c * α) →
      (∀ c : Fin C, t.J c (b.idx i' j') = g l.name i' c * β) →
      termSandwich t H (b.idx i j) (b.idx i' j') = K * (β * α) := by
    intro t α β h1 h2
    unfold termSandwich
    rw [hK, Finset.sum_mul]
    refine Finset.sum_congr rfl fun c _ => ?_
    rw [Finset.sum_mul]
    refine Finset.sum_congr rfl fun c' _ => ?_
    rw [h1, h2]
    ring
  have hcC : ∀ c : Fin C, (c : Nat) < cfg.C := fun c => by rw [hC]; exact c.2
  have hdm : ∀ x ∈ data, datumMatrix cfg.mean cfg.T H₀ x.2 (b.idx i j) (b.idx i' j') =
      termWeight k cfg.mean cfg.T C * (K * match cfg.approx with
        | .expand => ∑ s ∈ Finset.range (S l.name), a x.1 s j' * a x.1 s j
        | .reduce => (∑ s ∈ Finset.range (S l.name), a x.1 s j') * ∑ s ∈ Finset.range (S l.name), a x.1 s j) := by
    intro x hx
    unfold datumMatrix
    congr 1
    have h0 : (x.2.map fun t => termSandwich t (H₀ t) (b.idx i j) (b.idx i' j')) =
        x.2.map fun t => termSandwich t H (b.idx i j) (b.idx i' j') :=
      List.map_congr_left fun t ht => by rw [hH x hx t ht]
    rw [h0, ← Fin.sum_univ_fun_getElem]
    have hlen := (hd x hx).terms
    have hlx := hlin x hx
    unfold LinearAfter at hlx
    cases happ : cfg.approx with
    | expand =>
      simp only [happ] at hlx ⊢
      obtain ⟨hST, hjac⟩ := hlx l hl
      have hterm : ∀ τ (hτ : τ < x.2.length), termSandwich (x.2[τ]) H (b.idx i j) (b.idx i' j') =
          K * (a x.1 τ j' * a x.1 τ j) := by
        intro τ hτ
        have hJ' : ∀ o < b.rows, ∀ q < b.cols, ∀ c : Fin C, (x.2[τ]).J c (b.idx o q) = g l.name o c * a x.1 τ q := by
          intro o ho q hq c
          rw [hJ x hx τ hτ c o ho q hq, hST, Finset.sum_eq_single τ]
          · rw [hjac τ (by omega) o τ (by omega) c (hcC c), if_pos rfl]
          · intro s hs hsτ
            rw [hjac s (Finset.mem_range.mp hs) o τ (by omega) c (hcC c), if_neg hsτ, zero_mul]
          · intro h
            exact absurd (Finset.mem_range.mpr (by omega)) h
        exact hsand _ _ _ (hJ' i hi j hj) (hJ' i' hi' j' hj')
      rw [Finset.sum_congr rfl fun τ _ => hterm τ.1 τ.2, hST, ← hlen, Finset.sum_range, Finset.mul_sum]
    | reduce =>
      simp only [happ] at hlx ⊢
      obtain ⟨hT1, hjac⟩ := hlx
      have hterm : ∀ τ (hτ : τ < x.2.length), termSandwich (x.2[τ]) H (b.idx i j) (b.idx i' j') =
          K * ((∑ s ∈ Finset.range (S l.name), a x.1 s j') * ∑ s ∈ Finset.range (S l.name), a x.1 s j) := by
        intro τ hτ
        have hJ' : ∀ o < b.rows, ∀ q < b.cols, ∀ c : Fin C, (x.2[τ]).J c (b.idx o q) =
            g l.name o c * ∑ s ∈ Finset.range (S l.name), a x.1 s q := by
          intro o ho q hq c
          rw [hJ x hx τ hτ c o ho q hq, Finset.mul_sum]
          refine Finset.sum_congr rfl fun s hs => ?_
          obtain rfl : τ = 0 := by omega
          rw [hjac l hl s (Finset.mem_range.mp hs) o c (hcC c)]
        exact hsand _ _ _ (hJ' i hi j hj) (hJ' i' hi' j' hj')
      rw [Finset.sum_congr rfl fun τ _ => hterm τ.1 τ.2]
      simp [hlen, hT1]
  unfold riskMatrix
  rw [List.map_map, Function.comp_def, List.map_congr_left (g := fun x => termWeight k cfg.mean cfg.T C * (K * match cfg.approx with
        | .expand => ∑ s ∈ Finset.range (S l.name), a x.1 s j' * a x.1 s j
        | .reduce => (∑ s ∈ Finset.range (S l.name), a x.1 s j') * ∑ s ∈ Finset.range (S l.name), a x.1 s j))
    (fun x hx => hdm x hx), List.sum_map_mul_left, List.sum_map_mul_left, hA j' hj' j hj]
  have hred : (if redOf cfg.mean = Reduction.mean then ((data.map Prod.snd).length : ℝ)⁻¹ else 1) =
      if cfg.mean then (data.length : ℝ)⁻¹ else 1 := by
    rw [List.length_map]
    unfold redOf
    cases cfg.mean <;> simp
  rw [hred]
  cases happ : cfg.approx with
  | expand =>
    have hST : S l.name = cfg.T := by
      obtain ⟨x, hx⟩ := List.exists_mem_of_length_pos (Nat.pos_of_ne_zero hN0)
      have := hlin x hx
      simp only [LinearAfter, happ] at this
      exact (this l hl).1
    have hc : (settingCount cfg (S l.name) : ℝ) = S l.name := by rw [hST]; simp [settingCount, happ]
    simp only [hc, hN]
    field_simp
  | reduce =>
    have hc : (settingCount cfg (S l.name) : ℝ) = S l.name * S l.name := by simp [settingCount, happ]
    have hdiv : ∀ x : KDatum × List (Term k C), (∑ s ∈ Finset.range (S l.name), a x.1 s j') / (S l.name : ℝ) *
        ((∑ s ∈ Finset.range (S l.name), a x.1 s j) / S l.name) = ((S l.name : ℝ) * S l.name)⁻¹ *
        ((∑ s ∈ Finset.range (S l.name), a x.1 s j') * ∑ s ∈ Finset.range (S l.name), a x.1 s j) := by
      intro x
      field_simp
    simp only [hc, hN, hdiv]
    rw [List.sum_map_mul_left]
    field_simp

/-- C68 (type-2): for layers followed by a linear network and `MSELoss`, in the setting of the chosen approximation, the
entries of type-2 KFAC's matrix inside every layer's block are those of the GGN's matrix, for all data and all partitions
into batches. `d.sqrt` are the results of `loss_hessian_matrix_sqrt`. -/
theorem kfac_type2_linear {cfg : KfacCfg} {klayers : List KLayer} {shapes : List (List Nat)} {mapping : Dict (Dict Nat)}
    {layers : List (Layer ℝ)} {S : String → Nat} (batches : List (List (KDatum × List (Term .mse C))))
    (hs : SharedSetting C cfg shapes klayers layers S batches.flatten.length) (hf : cfg.fisher = .type2)
    (hmc : cfg.mcSamples = 1)
    (hd : ∀ x ∈ batches.flatten, SharedChainRule shapes layers S cfg.T x.1 x.2) (g : String → Nat → Nat → ℝ)
    (hlin : ∀ x ∈ batches.flatten, LinearAfter cfg layers S g x.1)
    (hsqrt : ∀ x ∈ batches.flatten, ∀ (τ : Nat) (hτ : τ < x.2.length), ∃ targetShape target R,
      targetShape.head? = some 1 ∧
      lossHessianSqrt (.known .mse (redOf cfg.mean)) [1, C] (x.2[τ]).f targetShape target = .ok R ∧
      ∀ c l : Fin C, x.1.sqrt τ c l = R c l)
    (h : KfacLayers cfg.sep shapes mapping (kfacFactors cfg klayers (batches.map (·.map Prod.fst))).1
      (kfacFactors cfg klayers (batches.map (·.map Prod.fst))).2 layers)
    (M : Mat ℝ) (hM : IsKron (kfacBlocks cfg.sep shapes layers) M) (b : KBlock ℝ)
    (hb : b ∈ kfacBlocks cfg.sep shapes layers) (i j i' j' : Nat) (hi : i < b.rows) (hj : j < b.cols)
    (hi' : i' < b.rows) (hj' : j' < b.cols) :
    Represents (kfacOp shapes cfg.sep mapping (kfacFactors cfg klayers (batches.map (·.map Prod.fst))).1
      (kfacFactors cfg klayers (batches.map (·.map Prod.fst))).2) M ∧
    M (b.idx i j) (b.idx i' j') = riskMatrix (redOf cfg.mean) (datumMatrix cfg.mean cfg.T lossHessian)
      (batches.flatten.map Prod.snd) (b.idx i j) (b.idx i' j') := by
  refine ⟨kfac_represents _ _ _ _ _ _ h M hM, ?_⟩
  have hne : batches.map (·.map Prod.fst) ≠ [] := by
    intro h0
    rw [List.map_eq_nil_iff] at h0
    exact hs.N_ne (by rw [h0]; rfl)
  have hflat : (batches.map (·.map Prod.fst)).flatten = batches.flatten.map Prod.fst := by rw [List.map_flatten]
  rw [kron_block_entry hM hb hi hi' hj hj']
  obtain ⟨l, hl, hb⟩ := List.mem_flatMap.mp hb
  obtain ⟨kl, hkl, hname, hpos, hkS, hS0, hdin⟩ := hs.klayer l hl
  obtain ⟨a, hrows, hB, hA, hJ⟩ := block_inputs hs hd l hl kl hname hpos hkS hS0 hdin (fun hw => by
    have h2 := kfac_input_factor cfg klayers hs.names _ hne kl hkl (by rw [hpos, Dict.has_dict_weight]; exact hw)
    rw [hname, h.inCov_get l hl hw, Option.some.injEq] at h2
    rw [h2, hflat]) b hb
  rw [riskMatrix_linear hs.N hs.N_ne hs.outDim hd hlin lossHessian (fun c c' => if c = c' then 2 else 0)
    (fun x _ t _ => by funext c c'; exact hess_mse t.y t.f c c') l hl (by rw [← hkS]; exact hS0) b a hA hJ i j i' j' hi hj
    hi' hj']
  congr 1
  have h2 := kfac_grad_factor cfg klayers hs.names _ hne hs.T_ne (by rw [hs.outDim]; exact hs.C_ne) hs.mc kl hkl
  rw [hname, h.gradCov_get l hl, Option.some.injEq] at h2
  rw [hB, h2, hflat]
  show specGradFactor cfg kl _ i i' = _
  have hCr : (C : ℝ) ≠ 0 := by exact_mod_cast hs.C_ne
  rw [specGradFactor_linear (by rw [hf]; simp) (fun d hd' => by
      obtain ⟨x, hx, rfl⟩ := List.mem_map.mp hd'
      exact hlin x hx) l hl kl hname hkS (fun c c' => (if c = c' then 2 else 0) / (if cfg.mean then (C : ℝ) else 1))
    (fun d hd' t ht c hc c' hc' => by
      obtain ⟨x, hx, rfl⟩ := List.mem_map.mp hd'
      rw [hs.outDim] at hc hc'
      obtain ⟨ts, tg, R, hts, hR, hxR⟩ := hsqrt x hx t (by rw [(hd x hx).terms]; exact ht)
      obtain ⟨R', hR', hRR⟩ := lossHessianSqrt_partial .mse cfg.mean hs.C_ne (by simp) (x.2[t]'(by
        rw [(hd x hx).terms]; exact ht)).f ts hts tg (by intro h; cases h) (fun _ => 0)
      rw [hR, Except.ok.injEq] at hR'
      subst hR'
      unfold specCotangents
      rw [hf]
      simp only [List.map_map, Function.comp_def]
      rw [sum_range_list, hs.outDim, Finset.sum_range]
      have := hRR ⟨c, hc⟩ ⟨c', hc'⟩
      rw [hess_div_const (termLoss .mse _), hess_mse] at this
      rw [Finset.sum_congr rfl fun q _ => by rw [hxR ⟨c, hc⟩ q, hxR ⟨c', hc'⟩ q], this]
      unfold reductionFactor
      cases cfg.mean <;> simp) i i']
  rw [hs.outDim]
  simp only [Finset.sum_range, List.length_map]
  have hscale : specGradScale cfg * (if cfg.mean then (C : ℝ) else 1)⁻¹ =
      (if cfg.mean then (batches.flatten.length : ℝ)⁻¹ else 1) * termWeight .mse cfg.mean cfg.T C := by
    unfold specGradScale termWeight
    rw [hmc, hs.N, hf]
    cases cfg.mean <;> simp
    field_simp
  rw [← hscale]
  have hfin : ∀ c c' : Fin C, ((c : Nat) = (c' : Nat)) = (c = c') := fun c c' => propext Fin.val_inj
  simp only [hfin, div_eq_mul_inv]
  have : ∀ c c' : Fin C, g l.name i c * ((if c = c' then 2 else 0) * (if cfg.mean then (C : ℝ) else 1)⁻¹) * g l.name i' c' =
      (if cfg.mean then (C : ℝ) else 1)⁻¹ * (g l.name i c * (if c = c' then 2 else 0) * g l.name i' c') :=
    fun c c' => by ring
  simp only [this, ← Finset.mul_sum]
  ring

/-- C68 (forward-only): for a network that consists of a single layer (expand), or of a single layer followed by the
average over positions (reduce), and `MSELoss`, the GGN's blocks are those of forward-only KFAC, times `2 / C` for mean
reduction and `2 N T` for sum reduction. -/
theorem kfac_forward_only_linear {cfg : KfacCfg} {klayers : List KLayer} {shapes : List (List Nat)}
    {mapping : Dict (Dict Nat)} {layers : List (Layer ℝ)} {S : String → Nat}
    (batches : List (List (KDatum × List (Term .mse C))))
    (hs : SharedSetting C cfg shapes klayers layers S batches.flatten.length) (hf : cfg.fisher = .forwardOnly)
    (hd : ∀ x ∈ batches.flatten, SharedChainRule shapes layers S cfg.T x.1 x.2)
    (hdim : ∀ l ∈ layers, l.B.dim = C)
    (hlin : ∀ x ∈ batches.flatten, LinearAfter cfg layers S (fun name o c => if o = c then
      (match cfg.approx with | .expand => 1 | .reduce => 1 / (S name : ℝ)) else 0) x.1)
    (h : KfacLayers cfg.sep shapes mapping (kfacFactors cfg klayers (batches.map (·.map Prod.fst))).1
      (kfacFactors cfg klayers (batches.map (·.map Prod.fst))).2 layers)
    (M : Mat ℝ) (hM : IsKron (kfacBlocks cfg.sep shapes layers) M) (b : KBlock ℝ)
    (hb : b ∈ kfacBlocks cfg.sep shapes layers) (i j i' j' : Nat) (hi : i < b.rows) (hj : j < b.cols)
    (hi' : i' < b.rows) (hj' : j' < b.cols) :
    Represents (kfacOp shapes cfg.sep mapping (kfacFactors cfg klayers (batches.map (·.map Prod.fst))).1
      (kfacFactors cfg klayers (batches.map (·.map Prod.fst))).2) M ∧
    riskMatrix (redOf cfg.mean) (datumMatrix cfg.mean cfg.T lossHessian) (batches.flatten.map Prod.snd) (b.idx i j)
      (b.idx i' j') =
      (if cfg.mean then 2 / (C : ℝ) else 2 * batches.flatten.length * cfg.T) * M (b.idx i j) (b.idx i' j') := by
  refine ⟨kfac_represents _ _ _ _ _ _ h M hM, ?_⟩
  have hne : batches.map (·.map Prod.fst) ≠ [] := by
    intro h0
    rw [List.map_eq_nil_iff] at h0
    exact hs.N_ne (by rw [h0]; rfl)
  have hflat : (batches.map (·.map Prod.fst)).flatten = batches.flatten.map Prod.fst := by rw [List.map_flatten]
  rw [kron_block_entry hM hb hi hi' hj hj']
  obtain ⟨l, hl, hb⟩ := List.mem_flatMap.mp hb
  obtain ⟨kl, hkl, hname, hpos, hkS, hS0, hdin⟩ := hs.klayer l hl
  obtain ⟨a, hrows, hB, hA, hJ⟩ := block_inputs hs hd l hl kl hname hpos hkS hS0 hdin (fun hw => by
    have h2 := kfac_input_factor cfg klayers hs.names _ hne kl hkl (by rw [hpos, Dict.has_dict_weight]; exact hw)
    rw [hname, h.inCov_get l hl hw, Option.some.injEq] at h2
    rw [h2, hflat]) b hb
  have hS1 : S l.name ≠ 0 := by rw [← hkS]; exact hS0
  rw [riskMatrix_linear hs.N hs.N_ne hs.outDim hd hlin lossHessian (fun c c' => if c = c' then 2 else 0)
    (fun x _ t _ => by funext c c'; exact hess_mse t.y t.f c c') l hl hS1 b a hA hJ i j i' j' hi hj hi' hj']
  refine Eq.trans ?_ (mul_assoc _ _ _)
  congr 1
  have h2 := kfac_grad_factor cfg klayers hs.names _ hne hs.T_ne (by rw [hs.outDim]; exact hs.C_ne) hs.mc kl hkl
  rw [hname, h.gradCov_get l hl, Option.some.injEq] at h2
  rw [hB, h2, hflat]
  have hBB : specGradFactor cfg kl (batches.flatten.map Prod.fst) i i' = if i = i' then 1 else 0 := by
    unfold specGradFactor
    rw [hf]
  show _ = _ * specGradFactor cfg kl _ i i'
  rw [hBB]
  rw [hrows, hdim l hl] at hi hi'
  set γ : ℝ := match cfg.approx with | .expand => 1 | .reduce => 1 / (S l.name : ℝ) with hγ
  have hsum : (∑ c : Fin C, ∑ c' : Fin C, (if i = (c : Nat) then γ else 0) * (if c = c' then 2 else 0) *
      (if i' = (c' : Nat) then γ else 0)) = if i = i' then 2 * γ ^ 2 else 0 := by
    rw [Finset.sum_eq_single ⟨i, hi⟩, Finset.sum_eq_single ⟨i, hi⟩]
    · simp only [if_true]
      by_cases hii : i = i'
      · simp [hii]; ring
      · simp [hii, Ne.symm hii]
    · intro c' _ hc'
      simp [Ne.symm hc']
    · intro hh
      exact absurd (Finset.mem_univ _) hh
    · intro c _ hc
      refine Finset.sum_eq_zero fun c' _ => ?_
      have : i ≠ c := fun hic => hc (Fin.ext hic.symm)
      simp [this]
    · intro hh
      exact absurd (Finset.mem_univ _) hh
  have hgoal : ∀ X : ℝ, X = (if i = i' then 2 * γ ^ 2 else 0) →
      (if cfg.mean then (batches.flatten.length : ℝ)⁻¹ else 1) * termWeight .mse cfg.mean cfg.T C *
        (batches.flatten.length * (settingCount cfg (S l.name) * X)) =
      (if cfg.mean then 2 / (C : ℝ) else 2 * batches.flatten.length * cfg.T) * if i = i' then 1 else 0 := by
    rintro X rfl
    have hcnt : (settingCount cfg (S l.name) : ℝ) * (2 * γ ^ 2) = 2 * cfg.T := by
      cases happ : cfg.approx with
      | expand =>
        simp only [happ] at hγ
        simp [settingCount, happ, hγ]
        ring
      | reduce =>
        simp only [happ] at hγ
        obtain ⟨x, hx⟩ := List.exists_mem_of_length_pos (Nat.pos_of_ne_zero hs.N_ne)
        have hT := hlin x hx
        simp only [LinearAfter, happ] at hT
        have hSr : (S l.name : ℝ) ≠ 0 := by exact_mod_cast hS1
        simp only [settingCount, happ, hγ, hT.1, Nat.cast_mul, Nat.cast_one]
        field_simp
    have hNr : (batches.flatten.length : ℝ) ≠ 0 := by exact_mod_cast hs.N_ne
    have hTr : (cfg.T : ℝ) ≠ 0 := by exact_mod_cast hs.T_ne
    have hCr : (C : ℝ) ≠ 0 := by exact_mod_cast hs.C_ne
    revert hNr
    generalize (batches.flatten.length : ℝ) = n
    intro hNr
    by_cases hii : i = i'
    · simp only [if_pos hii]
      rw [hcnt]
      unfold termWeight
      cases cfg.mean
      · simp; ring
      · simp; field_simp
    · simp [hii]
  exact hgoal _ hsum

/-! ## Example: two data in two batches, a linear layer over two positions, followed by their average -/

/-- Settings of the example. -/
def lin2Cfg (fisher : FisherType) : KfacCfg :=
  { fisher := fisher, approx := .reduce, loss := .mse, mean := true, mcSamples := 1, N := 2, T := 1, C := 1, sep := true }

/-- The layer of the example: weight of shape `(1, 2)`, two positions. -/
def lin2KLayer : KLayer := ⟨"lin", [("weight", 0)], 2, 1, 2⟩

/-- A datum with inputs `(u, 1)` and `(0, v)` at the two positions. -/
noncomputable def lin2Datum (u v : ℝ) : KDatum where
  x := fun _ s i => if s = 0 then (if i = 0 then u else 1) else if i = 0 then 0 else v
  jac := fun _ _ o _ _ => if o = 0 then 1 / 2 else 0
  sqrt := fun _ _ _ => Real.sqrt 2
  lossGrad := fun _ _ _ => 10

/-- Its loss term. -/
noncomputable def lin2Term (u v : ℝ) : Term .mse 1 :=
  ⟨fun _ p => if p = 0 then u / 2 else (1 + v) / 2, fun _ => u, fun _ => 0⟩

noncomputable def lin2Batches : List (List (KDatum × List (Term .mse 1))) :=
  [[(lin2Datum 2 3, [lin2Term 2 3])], [(lin2Datum 4 5, [lin2Term 4 5])]]

noncomputable def lin2Layers (fisher : FisherType) : List (Layer ℝ) :=
  [⟨"lin", .weight 0, ⟨2, specInputFactor (lin2Cfg fisher) lin2KLayer [lin2Datum 2 3, lin2Datum 4 5]⟩,
    ⟨1, specGradFactor (lin2Cfg fisher) lin2KLayer [lin2Datum 2 3, lin2Datum 4 5]⟩⟩]

theorem lin2_setting (fisher : FisherType) :
    SharedSetting 1 (lin2Cfg fisher) [[1, 2]] [lin2KLayer] (lin2Layers fisher) (fun _ => 2) lin2Batches.flatten.length where
  N := rfl
  N_ne := by simp [lin2Batches]
  T_ne := by simp [lin2Cfg]
  outDim := rfl
  C_ne := by simp
  mc := by simp [lin2Cfg]
  names := by simp
  klayer := by
    intro l hl
    simp only [lin2Layers, List.mem_singleton] at hl
    subst hl
    refine ⟨_, List.mem_singleton.mpr rfl, rfl, rfl, rfl, by simp [lin2KLayer], ?_⟩
    intro w hw
    rcases hw with hw | ⟨b, hw⟩
    · simp only [LayerPos.weight.injEq] at hw
      subst hw
      simp [wCols, lin2KLayer]
    · cases hw

theorem lin2_chain (fisher : FisherType) (u v : ℝ) :
    SharedChainRule [[1, 2]] (lin2Layers fisher) (fun _ => 2) 1 (lin2Datum u v) [lin2Term u v] where
  terms := rfl
  weight := by
    intro l hl w hw τ hτ c o i ho hi
    simp only [lin2Layers, List.mem_singleton] at hl
    subst hl
    rcases hw with hw | ⟨b, hw⟩
    · simp only [LayerPos.weight.injEq] at hw
      subst hw
      have ho : o = 0 := by simpa using ho
      subst ho
      have hi : i < 2 := hi
      obtain rfl : τ = 0 := by simpa using hτ
      interval_cases i <;> simp [offset, lin2Term, lin2Datum, Finset.sum_range_succ] <;> ring
    · cases hw
  bias := by
    intro l hl b hb
    simp only [lin2Layers, List.mem_singleton] at hl
    subst hl
    rcases hb with hb | ⟨w, hb⟩ <;> cases hb

theorem lin2_kfac (fisher : FisherType) :
    KfacLayers true [[1, 2]] [("lin", [("weight", 0)])]
      (kfacFactors (lin2Cfg fisher) [lin2KLayer] (lin2Batches.map (·.map Prod.fst))).1
      (kfacFactors (lin2Cfg fisher) [lin2KLayer] (lin2Batches.map (·.map Prod.fst))).2 (lin2Layers fisher) where
  mapping_eq := rfl
  perm := by simp [lin2Layers, LayerPos.positions]
  inCov_get := by
    intro l hl _
    simp only [lin2Layers, List.mem_singleton] at hl
    subst hl
    have hb : lin2Batches.map (·.map Prod.fst) = [[lin2Datum 2 3], [lin2Datum 4 5]] := rfl
    rw [hb]
    exact kfac_input_factor (lin2Cfg fisher) [lin2KLayer] (by simp) [[lin2Datum 2 3], [lin2Datum 4 5]]
      (by simp) lin2KLayer (by simp) rfl
  gradCov_get := by
    intro l hl
    simp only [lin2Layers, List.mem_singleton] at hl
    subst hl
    have hb : lin2Batches.map (·.map Prod.fst) = [[lin2Datum 2 3], [lin2Datum 4 5]] := rfl
    rw [hb]
    exact kfac_grad_factor (lin2Cfg fisher) [lin2KLayer] (by simp) [[lin2Datum 2 3], [lin2Datum 4 5]]
      (by simp) (by simp [lin2Cfg]) (by simp [lin2Cfg]) (by simp [lin2Cfg]) lin2KLayer (by simp)
  fits := by
    intro l hl
    simp only [lin2Layers, List.mem_singleton] at hl
    subst hl
    simp [Layer.Fits, wCols]

theorem lin2_linear (fisher : FisherType) (g : String → Nat → Nat → ℝ) (hg : ∀ o, g "lin" o 0 = if o = 0 then 1 / 2 else 0) (u v : ℝ) :
    LinearAfter (lin2Cfg fisher) (lin2Layers fisher) (fun _ => 2) g (lin2Datum u v) := by
  refine ⟨rfl, fun l hl s _ o c hc => ?_⟩
  simp only [lin2Layers, List.mem_singleton] at hl
  subst hl
  obtain rfl : c = 0 := by simpa [lin2Cfg] using hc
  simp [lin2Datum, hg]

theorem lin2_mem {x : KDatum × List (Term .mse 1)} (hx : x ∈ lin2Batches.flatten) :
    ∃ u v, x = (lin2Datum u v, [lin2Term u v]) := by
  simp only [lin2Batches, List.flatten_cons, List.flatten_nil, List.append_nil, List.mem_append, List.mem_singleton] at hx
  rcases hx with rfl | rfl
  · exact ⟨2, 3, rfl⟩
  · exact ⟨4, 5, rfl⟩

/-- The mixed entry of the GGN is `(2 / 2) · ((2 / 2) (4 / 2) + (4 / 2) (6 / 2)) = 8`, and so is KFAC's. -/
example (M : Mat ℝ) (hM : IsKron (kfacBlocks true [[1, 2]] (lin2Layers .type2)) M) : M 0 1 = 8 := by
  have := (kfac_type2_linear lin2Batches (lin2_setting .type2) rfl rfl (fun x hx => by
      obtain ⟨u, v, rfl⟩ := lin2_mem hx
      exact lin2_chain .type2 u v) (fun _ o _ => if o = 0 then 1 / 2 else 0) (fun x hx => by
      obtain ⟨u, v, rfl⟩ := lin2_mem hx
      exact lin2_linear .type2 _ (fun _ => rfl) u v) (fun x hx τ hτ => by
      obtain ⟨u, v, rfl⟩ := lin2_mem hx
      refine ⟨[1, 1], [0], fun _ _ => Real.sqrt 2, rfl, ?_, fun _ _ => rfl⟩
      simp only [lossHessianSqrt, redOf, lin2Cfg, sqrtScale]
      simp
      funext i j
      simp [Subsingleton.elim i j]) (lin2_kfac .type2) M hM _ (List.mem_singleton.mpr rfl) 0 0 0 1
    (by simp [Layer.wBlock]) (by simp [Layer.wBlock, wCols]) (by simp [Layer.wBlock])
    (by simp [Layer.wBlock, wCols])).2
  have h2 : M 0 1 = _ := this
  rw [h2]
  simp [riskMatrix, datumMatrix, termSandwich, lin2Batches, lin2Term, redOf, lin2Cfg, termWeight, lossHessian, hess_mse,
    Layer.wBlock, offset]
  norm_num

/-- Forward-only KFAC has half of it, `2 / C = 2`. -/
example (M : Mat ℝ) (hM : IsKron (kfacBlocks true [[1, 2]] (lin2Layers .forwardOnly)) M) : 2 * M 0 1 = 8 := by
  have := (kfac_forward_only_linear lin2Batches (lin2_setting .forwardOnly) rfl (fun x hx => by
      obtain ⟨u, v, rfl⟩ := lin2_mem hx
      exact lin2_chain .forwardOnly u v) (fun l hl => by
      simp only [lin2Layers, List.mem_singleton] at hl
      subst hl
      rfl) (fun x hx => by
      obtain ⟨u, v, rfl⟩ := lin2_mem hx
      exact lin2_linear .forwardOnly _ (fun o => by simp [lin2Cfg]) u v) (lin2_kfac .forwardOnly) M hM _ (List.mem_singleton.mpr rfl) 0 0 0 1
    (by simp [Layer.wBlock]) (by simp [Layer.wBlock, wCols]) (by simp [Layer.wBlock])
    (by simp [Layer.wBlock, wCols])).2
  have h2 : _ = (if (lin2Cfg .forwardOnly).mean then 2 / ((1 : Nat) : ℝ) else _) * M 0 1 := this
  have h3 : (lin2Cfg .forwardOnly).mean = true := rfl
  rw [if_pos h3] at h2
  have h4 : 2 * M 0 1 = 2 / ((1 : Nat) : ℝ) * M 0 1 := by norm_num
  rw [h4, ← h2]
  simp [riskMatrix, datumMatrix, termSandwich, lin2Batches, lin2Term, redOf, lin2Cfg, termWeight, lossHessian, hess_mse,
    Layer.wBlock, offset]
  norm_num

end Curvlinops
