import Verif.Props.SeqNetMC

/-!
# C113: the error of KFAC is a covariance

Inside a layer's block, the GGN is a sum of Kronecker products of an output matrix and an outer product of inputs, one for every datum (and
position). KFAC is the Kronecker product of sum and average. The difference is the covariance of both.
-/

namespace Curvlinops

variable {k : LossKind} {C D T : Nat}

/-! ## Specification -/

/-- Specification: one evaluation of a layer. `curv` is the curvature of the objective in the layer's output, `input` the layer's input. -/
structure LayerSample where
  curv : Mat ℝ
  input : Nat → ℝ

/-- Specification: average over the evaluations. -/
noncomputable def sampleMean (es : List LayerSample) (f : LayerSample → ℝ) : ℝ := (es.map f).sum / es.length

/-- Specification: the sum over the evaluations of the product of the deviations from the averages. -/
noncomputable def sampleCov (es : List LayerSample) (f g : LayerSample → ℝ) : ℝ :=
  (es.map fun e => (f e - sampleMean es f) * (g e - sampleMean es g)).sum

/-- Specification: a block of the parameters (weight, bias, or weight with the bias as last column), where its entries sit in the parameter
vector, and the input it is multiplied with. -/
structure NetBlock where
  rows : Nat
  cols : Nat
  idx : Nat → Nat → Nat
  input : KDatum → Nat → Nat → ℝ

/-- Specification: the blocks of a layer with the given positions of its parameters. -/
def netBlocks (sep : Bool) (shapes : List (List Nat)) (name : String) (pos : LayerPos) (dout : Nat) : List NetBlock :=
  let weight w : NetBlock := ⟨dout, wCols shapes w, fun i j => offset shapes w + (i * wCols shapes w + j), fun d s i => d.x name s i⟩
  let bias b : NetBlock := ⟨dout, 1, fun i _ => offset shapes b + i, fun _ _ _ => 1⟩
  match pos with
  | .weight w => [weight w]
  | .bias b => [bias b]
  | .both w b => if sep then [weight w, bias b] else [⟨dout, wCols shapes w + 1,
      fun i j => if j < wCols shapes w then offset shapes w + (i * wCols shapes w + j) else offset shapes b + i,
      fun d s i => if i = wCols shapes w then 1 else d.x name s i⟩]

/-- Specification: the settings of the two approximations. Expand: every position has its own loss term. Reduce: all positions influence the
only loss term in the same way. Layers that are evaluated once per datum, with one loss term, are in both. -/
def SharedAfter (cfg : KfacCfg) (name : String) (dout S : Nat) (d : KDatum) : Prop :=
  match cfg.approx with
  | .expand => S = cfg.T ∧ ∀ s < cfg.T, ∀ o < dout, ∀ t < cfg.T, s ≠ t → ∀ c < cfg.C, d.jac name s o t c = 0
  | .reduce => cfg.T = 1 ∧ ∀ s < S, ∀ o < dout, ∀ c < cfg.C, d.jac name s o 0 c = d.jac name 0 o 0 c

/-- Specification: `Jᵀ H J` for the loss term `τ`, where `J` are derivatives in the layer's output at position `s`. -/
noncomputable def outputCurv (H : Term k C → Fin C → Fin C → ℝ) (name : String) (x : KDatum × List (Term k C)) (s τ : Nat) : Mat ℝ := fun o o' =>
  ((x.2[τ]?).map fun t => ∑ c : Fin C, ∑ c' : Fin C, x.1.jac name s o τ c * H t c c' * x.1.jac name s o' τ c').getD 0

/-- Specification: the weight of a loss term in the empirical risk. -/
noncomputable def termScale (k : LossKind) (C : Nat) (cfg : KfacCfg) (n : Nat) : ℝ :=
  (if cfg.mean then (n : ℝ)⁻¹ else 1) * termWeight k cfg.mean cfg.T C

/-- Specification: the evaluations of a layer. Expand: all data and positions. Reduce: all data, with the average input and the curvature in a
shift of the outputs at all positions. -/
noncomputable def layerSamples (H : Term k C → Fin C → Fin C → ℝ) (cfg : KfacCfg) (name : String) (S : Nat)
    (a : KDatum → Nat → Nat → ℝ) (data : List (KDatum × List (Term k C))) : List LayerSample :=
  match cfg.approx with
  | .expand => data.flatMap fun x => (List.range S).map fun s =>
      ⟨fun o o' => termScale k C cfg data.length * outputCurv H name x s s o o', a x.1 s⟩
  | .reduce => data.map fun x =>
      ⟨fun o o' => termScale k C cfg data.length * (S ^ 2 * outputCurv H name x 0 0 o o'), fun i => (∑ s ∈ Finset.range S, a x.1 s i) / S⟩

/-! ## Sums over evaluations -/

theorem sampleCov_eq {es : List LayerSample} (hne : es ≠ []) (f g : LayerSample → ℝ) :
    sampleCov es f g = (es.map fun e => f e * g e).sum - (es.map f).sum * sampleMean es g := by
  unfold sampleCov
  have hlen : (es.length : ℝ) ≠ 0 := by
    rw [Nat.cast_ne_zero]
    exact fun h => hne (List.length_eq_zero_iff.mp h)
  have h : ∀ (α β : ℝ) (es : List LayerSample), (es.map fun e => (f e - α) * (g e - β)).sum =
      (es.map fun e => f e * g e).sum - (es.map f).sum * β - α * (es.map g).sum + es.length * (α * β) := by
    intro α β es
    induction es with
    | nil => simp
    | cons e es ih =>
      simp only [List.map_cons, List.sum_cons, List.length_cons, ih]
      push_cast
      ring
  rw [h]
  unfold sampleMean
  field_simp
  ring

theorem list_cauchy {β : Type _} (es : List β) (f g : β → ℝ) :
    (es.map fun e => f e * g e).sum ^ 2 ≤ (es.map fun e => f e ^ 2).sum * (es.map fun e => g e ^ 2).sum := by
  rw [← Fin.sum_univ_fun_getElem, ← Fin.sum_univ_fun_getElem, ← Fin.sum_univ_fun_getElem]
  exact Finset.sum_mul_sq_le_sq_mul_sq _ _ _

theorem sum_frobenius {β : Type _} (es : List β) (f g : β → Nat → Nat → ℝ) (m n : Nat) :
    ∑ i ∈ Finset.range m, ∑ i' ∈ Finset.range m, ∑ j ∈ Finset.range n, ∑ j' ∈ Finset.range n, (es.map fun e => f e i i' * g e j j').sum ^ 2 ≤
      (es.map fun e => ∑ i ∈ Finset.range m, ∑ i' ∈ Finset.range m, f e i i' ^ 2).sum *
        (es.map fun e => ∑ j ∈ Finset.range n, ∑ j' ∈ Finset.range n, g e j j' ^ 2).sum := by
  calc _ ≤ ∑ i ∈ Finset.range m, ∑ i' ∈ Finset.range m, ∑ j ∈ Finset.range n, ∑ j' ∈ Finset.range n,
      (es.map fun e => f e i i' ^ 2).sum * (es.map fun e => g e j j' ^ 2).sum :=
        Finset.sum_le_sum fun i _ => Finset.sum_le_sum fun i' _ => Finset.sum_le_sum fun j _ => Finset.sum_le_sum fun j' _ =>
          list_cauchy es _ _
    _ = _ := by
      simp only [← Finset.mul_sum, ← Finset.sum_mul, list_sum_finset_comm]

theorem sum_flatMap_list {β γ : Type _} (l : List β) (g : β → List γ) (f : γ → ℝ) :
    ((l.flatMap g).map f).sum = (l.map fun x => ((g x).map f).sum).sum := by
  induction l with
  | nil => rfl
  | cons x l ih => simp [List.flatMap_cons, ih]

/-! ## Blocks as sums over evaluations -/

theorem layerSamples_length (H : Term k C → Fin C → Fin C → ℝ) (cfg : KfacCfg) (name : String) (S : Nat)
    (a : KDatum → Nat → Nat → ℝ) (data : List (KDatum × List (Term k C))) :
    (layerSamples H cfg name S a data).length = match cfg.approx with | .expand => data.length * S | .reduce => data.length := by
  unfold layerSamples
  cases cfg.approx <;> simp [List.length_flatMap]

theorem layerSamples_input (H : Term k C → Fin C → Fin C → ℝ) (cfg : KfacCfg) (name : String) (S : Nat)
    (a : KDatum → Nat → Nat → ℝ) (data : List (KDatum × List (Term k C))) (i i' : Nat) :
    sampleMean (layerSamples H cfg name S a data) (fun e => e.input i * e.input i') = match cfg.approx with
        | .expand => 1 / (data.length * S : ℝ) * (data.map fun x => ∑ s ∈ Finset.range S, a x.1 s i * a x.1 s i').sum
        | .reduce => 1 / (data.length : ℝ) * (data.map fun x => ((∑ s ∈ Finset.range S, a x.1 s i) / S) *
            ((∑ s ∈ Finset.range S, a x.1 s i') / S)).sum := by
  unfold sampleMean
  rw [layerSamples_length]
  unfold layerSamples
  cases cfg.approx with
  | expand =>
    simp only [sum_flatMap_list, List.map_map, Function.comp_def, sum_range_list]
    push_cast
    rw [div_eq_inv_mul, one_div]
  | reduce =>
    simp only [List.map_map, Function.comp_def]
    rw [div_eq_inv_mul, one_div]

/-- The curvature matrix inside a block is a sum over the evaluations of the layer. -/
theorem riskMatrix_samples {cfg : KfacCfg} {S : Nat} {name : String} {data : List (KDatum × List (Term k C))} (hC : cfg.C = C) (hS0 : S ≠ 0)
    (H : Term k C → Fin C → Fin C → ℝ) (a : KDatum → Nat → Nat → ℝ) {rows cols : Nat} {idx : Nat → Nat → Nat}
    (hlen : ∀ x ∈ data, x.2.length = cfg.T) (hsh : ∀ x ∈ data, SharedAfter cfg name rows S x.1)
    (hJ : ∀ x ∈ data, ∀ (τ : Nat) (hτ : τ < x.2.length) (c : Fin C), ∀ o < rows, ∀ i < cols,
      (x.2[τ]).J c (idx o i) = ∑ s ∈ Finset.range S, x.1.jac name s o τ c * a x.1 s i)
    (i j i' j' : Nat) (hi : i < rows) (hj : j < cols) (hi' : i' < rows) (hj' : j' < cols) :
    riskMatrix (redOf cfg.mean) (datumMatrix cfg.mean cfg.T H) (data.map Prod.snd) (idx i j) (idx i' j') =
      ((layerSamples H cfg name S a data).map fun e => e.curv i i' * (e.input j * e.input j')).sum := by
  have hcC : ∀ c : Fin C, (c : Nat) < cfg.C := fun c => by rw [hC]; exact c.2
  have hsand : ∀ (t : Term k C) (γ γ' : Fin C → ℝ) (α β : ℝ), (∀ c : Fin C, t.J c (idx i j) = γ c * α) →
      (∀ c : Fin C, t.J c (idx i' j') = γ' c * β) →
      termSandwich t (H t) (idx i j) (idx i' j') = (∑ c : Fin C, ∑ c' : Fin C, γ c * H t c c' * γ' c') * (α * β) := by
    intro t γ γ' α β h1 h2
    unfold termSandwich
    rw [Finset.sum_mul]
    refine Finset.sum_congr rfl fun c _ => ?_
    rw [Finset.sum_mul]
    refine Finset.sum_congr rfl fun c' _ => ?_
    rw [h1, h2]
    ring
  have hred : (if redOf cfg.mean = Reduction.mean then ((data.map Prod.snd).length : ℝ)⁻¹ else 1) =
      if cfg.mean then (data.length : ℝ)⁻¹ else 1 := by
    rw [List.length_map]
    unfold redOf
    cases cfg.mean <;> simp
  have hget : ∀ (x : KDatum × List (Term k C)) (s τ o o' : Nat) (hτ : τ < x.2.length), outputCurv H name x s τ o o' =
      ∑ c : Fin C, ∑ c' : Fin C, x.1.jac name s o τ c * H (x.2[τ]) c c' * x.1.jac name s o' τ c' := by
    intro x s τ o o' hτ
    simp [outputCurv, List.getElem?_eq_getElem hτ]
  unfold riskMatrix
  rw [List.map_map, Function.comp_def, hred]
  cases happ : cfg.approx with
  | expand =>
    have hdm : ∀ x ∈ data, datumMatrix cfg.mean cfg.T H x.2 (idx i j) (idx i' j') =
        termWeight k cfg.mean cfg.T C * ∑ s ∈ Finset.range S, outputCurv H name x s s i i' * (a x.1 s j * a x.1 s j') := by
      intro x hx
      unfold datumMatrix
      congr 1
      have h1 := hsh x hx
      simp only [SharedAfter, happ] at h1
      obtain ⟨hST, hjac⟩ := h1
      have hl := hlen x hx
      rw [← Fin.sum_univ_fun_getElem, hST, ← hl, Finset.sum_range]
      refine Finset.sum_congr rfl fun τ _ => ?_
      have hJ' : ∀ o < rows, ∀ q < cols, ∀ c : Fin C, (x.2[τ.1]).J c (idx o q) = x.1.jac name τ o τ c * a x.1 τ q := by
        intro o ho q hq c
        rw [hJ x hx τ τ.2 c o ho q hq, Finset.sum_eq_single τ.1]
        · intro s hs hsτ
          rw [hST] at hs
          rw [hjac s (Finset.mem_range.mp hs) o ho τ (by rw [← hl]; exact τ.2) hsτ c (hcC c), zero_mul]
        · intro h
          exact absurd (Finset.mem_range.mpr (by rw [hST, ← hl]; exact τ.2)) h
      rw [hget x τ τ i i' τ.2]
      exact hsand _ _ _ _ _ (hJ' i hi j hj) (hJ' i' hi' j' hj')
    rw [List.map_congr_left hdm, List.sum_map_mul_left, ← mul_assoc]
    simp only [layerSamples, happ, sum_flatMap_list, List.map_map, Function.comp_def, sum_range_list, mul_assoc, ← Finset.mul_sum]
    rw [List.sum_map_mul_left]
    unfold termScale
    ring
  | reduce =>
    have hS1 : (S : ℝ) ≠ 0 := by exact_mod_cast hS0
    have hdm : ∀ x ∈ data, datumMatrix cfg.mean cfg.T H x.2 (idx i j) (idx i' j') =
        termWeight k cfg.mean cfg.T C * ((S ^ 2 * outputCurv H name x 0 0 i i') *
          ((∑ s ∈ Finset.range S, a x.1 s j) / S * ((∑ s ∈ Finset.range S, a x.1 s j') / S))) := by
      intro x hx
      unfold datumMatrix
      congr 1
      have h1 := hsh x hx
      simp only [SharedAfter, happ] at h1
      obtain ⟨hT1, hjac⟩ := h1
      have hl := hlen x hx
      rw [hT1] at hl
      have h0 : 0 < x.2.length := by omega
      have hx2 : x.2 = [x.2[0]] := by
        obtain ⟨t, ht⟩ := List.length_eq_one_iff.mp hl
        simp [ht]
      have hJ' : ∀ o < rows, ∀ q < cols, ∀ c : Fin C, (x.2[0]).J c (idx o q) = x.1.jac name 0 o 0 c * ∑ s ∈ Finset.range S, a x.1 s q := by
        intro o ho q hq c
        rw [hJ x hx 0 h0 c o ho q hq, Finset.mul_sum]
        exact Finset.sum_congr rfl fun s hs => by rw [hjac s (Finset.mem_range.mp hs) o ho c (hcC c)]
      rw [hget x 0 0 i i' h0]
      conv_lhs => rw [hx2]
      simp only [List.map_cons, List.map_nil, List.sum_cons, List.sum_nil, add_zero]
      rw [hsand _ _ _ _ _ (hJ' i hi j hj) (hJ' i' hi' j' hj')]
      field_simp
    rw [List.map_congr_left hdm, ← List.sum_map_mul_left]
    simp only [layerSamples, happ, List.map_map, Function.comp_def]
    refine congrArg List.sum (List.map_congr_left fun x _ => ?_)
    unfold termScale
    ring

/-- KFAC's gradient factor is the sum of the curvatures in the layer's outputs. -/
theorem specGradFactor_samples {cfg : KfacCfg} (hf : cfg.fisher ≠ .forwardOnly) (hC : cfg.C = C) {kl : KLayer} {rows : Nat}
    {data : List (KDatum × List (Term k C))} (hlen : ∀ x ∈ data, x.2.length = cfg.T)
    (hsh : ∀ x ∈ data, SharedAfter cfg kl.name rows kl.S x.1) (H : Term k C → Fin C → Fin C → ℝ)
    (hH : ∀ x ∈ data, ∀ (t : Nat) (ht : t < x.2.length), ∀ c c' : Fin C,
      specGradScale cfg * ((specCotangents cfg x.1).map fun v => v t c * v t c').sum = termScale k C cfg data.length * H (x.2[t]) c c')
    (a : KDatum → Nat → Nat → ℝ) (i i' : Nat) (hi : i < rows) (hi' : i' < rows) :
    specGradFactor cfg kl (data.map Prod.fst) i i' = ((layerSamples H cfg kl.name kl.S a data).map fun e => e.curv i i').sum := by
  have hcC : ∀ c ∈ Finset.range cfg.C, c < cfg.C := fun c hc => Finset.mem_range.mp hc
  have hget : ∀ (x : KDatum × List (Term k C)) (s τ o o' : Nat) (hτ : τ < x.2.length), outputCurv H kl.name x s τ o o' =
      ∑ c : Fin C, ∑ c' : Fin C, x.1.jac kl.name s o τ c * H (x.2[τ]) c c' * x.1.jac kl.name s o' τ c' := by
    intro x s τ o o' hτ
    simp [outputCurv, List.getElem?_eq_getElem hτ]
  -- gradients for one loss term
  have hgram : ∀ x ∈ data, ∀ (s t : Nat) (ht : t < x.2.length), specGradScale cfg * ((specCotangents cfg x.1).map fun v =>
      (∑ c : Fin C, x.1.jac kl.name s i t c * v t c) * ∑ c : Fin C, x.1.jac kl.name s i' t c * v t c).sum =
      termScale k C cfg data.length * outputCurv H kl.name x s t i i' := by
    intro x hx s t ht
    have := sum_mul_sum_gram (Finset.univ : Finset (Fin C)) ((specCotangents cfg x.1).map fun v => fun c : Fin C => v t c)
      (fun c => x.1.jac kl.name s i t c) (fun c => x.1.jac kl.name s i' t c) (fun c c' => ((specCotangents cfg x.1).map fun v => v t c * v t c').sum)
      (fun c _ c' _ => by rw [List.map_map]; rfl)
    rw [List.map_map] at this
    simp only [Function.comp_def] at this
    rw [this, hget x s t i i' ht, Finset.mul_sum, Finset.mul_sum]
    refine Finset.sum_congr rfl fun c _ => ?_
    rw [Finset.mul_sum, Finset.mul_sum]
    refine Finset.sum_congr rfl fun c' _ => ?_
    have := hH x hx t ht c c'
    linear_combination x.1.jac kl.name s i t c * x.1.jac kl.name s i' t c' * this
  have hone : ∀ f g : KDatum → ℝ, (∀ x ∈ data, specGradScale cfg * f x.1 = g x.1) →
      specGradScale cfg * ((data.map Prod.fst).map f).sum = ((data.map fun x => g x.1)).sum := by
    intro f g h
    rw [List.map_map, ← List.sum_map_mul_left]
    exact congrArg List.sum (List.map_congr_left h)
  unfold specGradFactor
  cases happ : cfg.approx with
  | expand =>
    have hgoal : specGradScale cfg * ((data.map Prod.fst).map fun d => ((specCotangents cfg d).map fun v =>
        ∑ s ∈ Finset.range kl.S, specGradVec cfg kl d v s i * specGradVec cfg kl d v s i').sum).sum =
        ((layerSamples H cfg kl.name kl.S a data).map fun e => e.curv i i').sum := by
      simp only [layerSamples, happ, sum_flatMap_list, List.map_map, Function.comp_def, sum_range_list]
      rw [← List.sum_map_mul_left]
      refine congrArg List.sum (List.map_congr_left fun x hx => ?_)
      have h1 := hsh x hx
      simp only [SharedAfter, happ] at h1
      obtain ⟨hST, h1⟩ := h1
      have hv : ∀ (v : Nat → Nat → ℝ) s, s < cfg.T → ∀ o < rows, specGradVec cfg kl x.1 v s o =
          ∑ c : Fin C, x.1.jac kl.name s o s c * v s c := by
        intro v s hs o ho
        unfold specGradVec
        rw [Finset.sum_eq_single s]
        · rw [hC, Finset.sum_range]
        · intro t ht hts
          refine Finset.sum_eq_zero fun c hc => ?_
          rw [h1 s hs o ho t (Finset.mem_range.mp ht) (Ne.symm hts) c (Finset.mem_range.mp hc), zero_mul]
        · intro h
          exact absurd (Finset.mem_range.mpr hs) h
      rw [list_sum_finset_comm, Finset.mul_sum]
      refine Finset.sum_congr rfl fun s hs => ?_
      have hs' : s < cfg.T := by rw [← hST]; exact Finset.mem_range.mp hs
      rw [← hgram x hx s s (by rw [hlen x hx]; exact hs')]
      simp only [hv _ s hs' i hi, hv _ s hs' i' hi']
    cases hff : cfg.fisher <;> first | exact absurd hff hf | exact hgoal
  | reduce =>
    have hgoal : specGradScale cfg * ((data.map Prod.fst).map fun d => ((specCotangents cfg d).map fun v =>
        (∑ s ∈ Finset.range kl.S, specGradVec cfg kl d v s i) * ∑ s ∈ Finset.range kl.S, specGradVec cfg kl d v s i').sum).sum =
        ((layerSamples H cfg kl.name kl.S a data).map fun e => e.curv i i').sum := by
      simp only [layerSamples, happ, List.map_map, Function.comp_def]
      rw [← List.sum_map_mul_left]
      refine congrArg List.sum (List.map_congr_left fun x hx => ?_)
      have h1 := hsh x hx
      simp only [SharedAfter, happ] at h1
      obtain ⟨hT, h1⟩ := h1
      have hv : ∀ (v : Nat → Nat → ℝ), ∀ o < rows, ∑ s ∈ Finset.range kl.S, specGradVec cfg kl x.1 v s o =
          kl.S * ∑ c : Fin C, x.1.jac kl.name 0 o 0 c * v 0 c := by
        intro v o ho
        have : ∀ s ∈ Finset.range kl.S, specGradVec cfg kl x.1 v s o = ∑ c : Fin C, x.1.jac kl.name 0 o 0 c * v 0 c := by
          intro s hs
          unfold specGradVec
          rw [hT, hC]
          simp only [Finset.range_one, Finset.sum_singleton, Finset.sum_range]
          refine Finset.sum_congr rfl fun c _ => ?_
          rw [h1 s (Finset.mem_range.mp hs) o ho c (by rw [hC]; exact c.2)]
        rw [Finset.sum_congr rfl this]
        simp
      have h0 : 0 < x.2.length := by rw [hlen x hx, hT]; exact Nat.one_pos
      have hg := hgram x hx 0 0 h0
      simp only [hv _ i hi, hv _ i' hi']
      have hm : ∀ v : Nat → Nat → ℝ, (kl.S : ℝ) * (∑ c : Fin C, x.1.jac kl.name 0 i 0 c * v 0 c) *
          ((kl.S : ℝ) * ∑ c : Fin C, x.1.jac kl.name 0 i' 0 c * v 0 c) = (kl.S : ℝ) ^ 2 *
          ((∑ c : Fin C, x.1.jac kl.name 0 i 0 c * v 0 c) * ∑ c : Fin C, x.1.jac kl.name 0 i' 0 c * v 0 c) := fun v => by ring
      simp only [hm]
      rw [List.sum_map_mul_left]
      linear_combination (kl.S : ℝ) ^ 2 * hg
    cases hff : cfg.fisher <;> first | exact absurd hff hf | exact hgoal

/-- The blocks of a layer, their input factors, and the chain rule in terms of their inputs. -/
theorem netBlocks_inputs {cfg : KfacCfg} {shapes : List (List Nat)} {klayers : List KLayer} {layers : List (Layer ℝ)}
    {S : String → Nat} {data : List (KDatum × List (Term k C))} (hs : SharedSetting C cfg shapes klayers layers S data.length)
    (hd : ∀ x ∈ data, SharedChainRule shapes layers S cfg.T x.1 x.2) (l : Layer ℝ) (hl : l ∈ layers) (kl : KLayer)
    (hname : kl.name = l.name) (hpos : kl.pos = l.pos.dict) (hkS : kl.S = S l.name) (hS0 : kl.S ≠ 0)
    (hdin : ∀ w, (l.pos = .weight w ∨ ∃ b, l.pos = .both w b) → kl.din = wCols shapes w)
    (hA : l.pos.hasWeight = true → l.A.mat = specInputFactor cfg kl (data.map Prod.fst)) (H : Term k C → Fin C → Fin C → ℝ) (nb : NetBlock)
    (hnb : nb ∈ netBlocks cfg.sep shapes l.name l.pos l.B.dim) :
    ∃ b ∈ l.blocks cfg.sep shapes, b.rows = nb.rows ∧ b.cols = nb.cols ∧ b.idx = nb.idx ∧ nb.rows = l.B.dim ∧ b.B = l.B.mat ∧
      (∀ i < nb.cols, ∀ i' < nb.cols, b.A i i' =
        sampleMean (layerSamples H cfg l.name (S l.name) nb.input data) fun e => e.input i * e.input i') ∧
      ∀ x ∈ data, ∀ (τ : Nat) (hτ : τ < x.2.length) (c : Fin C), ∀ o < nb.rows, ∀ i < nb.cols, (x.2[τ]).J c (nb.idx o i) =
        ∑ s ∈ Finset.range (S l.name), x.1.jac l.name s o τ c * nb.input x.1 s i := by
  have hS1 : (S l.name : ℝ) ≠ 0 := by rw [← hkS]; exact_mod_cast hS0
  have hN1 : (data.length : ℝ) ≠ 0 := by exact_mod_cast hs.N_ne
  have hone : (1 : ℝ) = match cfg.approx with
        | .expand => 1 / (data.length * S l.name : ℝ) *
            (data.map fun _ => ∑ _s ∈ Finset.range (S l.name), (1 : ℝ) * 1).sum
        | .reduce => 1 / (data.length : ℝ) * (data.map fun _ => ((∑ _s ∈ Finset.range (S l.name), (1 : ℝ)) / S l.name) *
            ((∑ _s ∈ Finset.range (S l.name), (1 : ℝ)) / S l.name)).sum := by
    cases cfg.approx <;> simp <;> field_simp
  have hin : ∀ i i', specInputFactor cfg kl (data.map Prod.fst) i i' = match cfg.approx with
        | .expand => 1 / (data.length * S l.name : ℝ) *
            (data.map fun x => ∑ s ∈ Finset.range (S l.name), specInputVec cfg kl x.1 s i * specInputVec cfg kl x.1 s i').sum
        | .reduce => 1 / (data.length : ℝ) *
            (data.map fun x => ((∑ s ∈ Finset.range (S l.name), specInputVec cfg kl x.1 s i) / S l.name) *
            ((∑ s ∈ Finset.range (S l.name), specInputVec cfg kl x.1 s i') / S l.name)).sum := by
    intro i i'
    have hmean : ∀ d i, specMeanInput cfg kl d i =
        (∑ s ∈ Finset.range (S l.name), specInputVec cfg kl d s i) / S l.name := by
      intro d i
      unfold specMeanInput specInputVec
      split
      · simp [hS1]
      · rw [hkS]
    unfold specInputFactor
    rw [hkS, hs.N]
    cases cfg.approx <;> simp only [List.map_map, Function.comp_def, hmean]
  have vec_sep : kl.joint cfg = false → ∀ d s i, specInputVec cfg kl d s i = d.x l.name s i := by
    intro hj d s i
    simp [specInputVec, hj, hname]
  unfold netBlocks at hnb
  unfold Layer.blocks
  cases hp : l.pos with
  | both w bp =>
    simp only [hp] at hnb hpos
    cases hsep : cfg.sep with
    | true =>
      simp only [hsep, if_true, List.mem_cons, List.not_mem_nil, or_false] at hnb ⊢
      have hjf : kl.joint cfg = false := by simp [KLayer.joint, hsep]
      rcases hnb with rfl | rfl
      · refine ⟨_, Or.inl rfl, rfl, rfl, rfl, rfl, rfl, fun i _ i' _ => ?_, fun x hx τ hτ c o ho i hi => ?_⟩
        · show l.A.mat i i' = _
          rw [hA (by rw [hp]; rfl), hin, layerSamples_input]
          simp only [vec_sep hjf]
        · exact (hd x hx).weight l hl w (Or.inr ⟨bp, hp⟩) τ hτ c o i ho hi
      · refine ⟨_, Or.inr rfl, rfl, rfl, rfl, rfl, rfl, fun i _ i' _ => ?_, fun x hx τ hτ c o ho i hi => ?_⟩
        · rw [layerSamples_input]
          exact hone
        · simp only [mul_one]
          exact (hd x hx).bias l hl bp (Or.inr ⟨w, hp⟩) τ hτ c o ho
    | false =>
      simp only [hsep, Bool.false_eq_true, if_false, List.mem_cons, List.not_mem_nil, or_false] at hnb ⊢
      subst hnb
      have hjt : kl.joint cfg = true := by
        rw [KLayer.joint, hpos, hsep]; rfl
      have hdw := hdin w (Or.inr ⟨bp, hp⟩)
      have hvec : ∀ d s i, specInputVec cfg kl d s i = if i = wCols shapes w then 1 else d.x l.name s i := by
        intro d s i
        simp [specInputVec, hjt, hdw, hname]
      refine ⟨_, rfl, rfl, rfl, rfl, rfl, rfl, fun i _ i' _ => ?_, fun x hx τ hτ c o ho i hi => ?_⟩
      · show l.A.mat i i' = _
        rw [hA (by rw [hp]; rfl), hin, layerSamples_input]
        simp only [hvec]
      · dsimp only at hi ho ⊢
        by_cases hlt : i < wCols shapes w
        · rw [if_pos hlt, (hd x hx).weight l hl w (Or.inr ⟨bp, hp⟩) τ hτ c o i ho hlt]
          have : i ≠ wCols shapes w := by omega
          simp [this]
        · rw [if_neg hlt, (hd x hx).bias l hl bp (Or.inr ⟨w, hp⟩) τ hτ c o ho]
          have : i = wCols shapes w := by omega
          simp [this]
  | weight w =>
    simp only [hp, List.mem_cons, List.not_mem_nil, or_false] at hnb hpos ⊢
    subst hnb
    have hjf : kl.joint cfg = false := by
      rw [KLayer.joint, hpos]; rfl
    refine ⟨_, rfl, rfl, rfl, rfl, rfl, rfl, fun i _ i' _ => ?_, fun x hx τ hτ c o ho i hi => ?_⟩
    · show l.A.mat i i' = _
      rw [hA (by rw [hp]; rfl), hin, layerSamples_input]
      simp only [vec_sep hjf]
    · exact (hd x hx).weight l hl w (Or.inl hp) τ hτ c o i ho hi
  | bias bp =>
    simp only [hp, List.mem_cons, List.not_mem_nil, or_false] at hnb ⊢
    subst hnb
    refine ⟨_, rfl, rfl, rfl, rfl, rfl, rfl, fun i _ i' _ => ?_, fun x hx τ hτ c o ho i hi => ?_⟩
    · rw [layerSamples_input]
      exact hone
    · simp only [mul_one]
      exact (hd x hx).bias l hl bp (Or.inl hp) τ hτ c o ho

/-- The block of KFAC and the block of the curvature matrix, for any vectors that KFAC propagates back. -/
theorem kfac_blocks_samples {cfg : KfacCfg} {klayers : List KLayer} {shapes : List (List Nat)} {mapping : Dict (Dict Nat)}
    {layers : List (Layer ℝ)} {S : String → Nat} (batches : List (List (KDatum × List (Term k C))))
    (hs : SharedSetting C cfg shapes klayers layers S batches.flatten.length) (hf : cfg.fisher ≠ .forwardOnly)
    (hd : ∀ x ∈ batches.flatten, SharedChainRule shapes layers S cfg.T x.1 x.2)
    (hsh : ∀ x ∈ batches.flatten, ∀ l ∈ layers, SharedAfter cfg l.name l.B.dim (S l.name) x.1) (H : Term k C → Fin C → Fin C → ℝ)
    (hH : ∀ x ∈ batches.flatten, ∀ (t : Nat) (ht : t < x.2.length), ∀ c c' : Fin C,
      specGradScale cfg * ((specCotangents cfg x.1).map fun v => v t c * v t c').sum =
        termScale k C cfg batches.flatten.length * H (x.2[t]) c c')
    (h : KfacLayers cfg.sep shapes mapping (kfacFactors cfg klayers (batches.map (·.map Prod.fst))).1
      (kfacFactors cfg klayers (batches.map (·.map Prod.fst))).2 layers)
    (M : Mat ℝ) (hM : IsKron (kfacBlocks cfg.sep shapes layers) M) (l : Layer ℝ) (hl : l ∈ layers) (nb : NetBlock)
    (hnb : nb ∈ netBlocks cfg.sep shapes l.name l.pos l.B.dim) (i j i' j' : Nat) (hi : i < nb.rows) (hj : j < nb.cols)
    (hi' : i' < nb.rows) (hj' : j' < nb.cols) :
    M (nb.idx i j) (nb.idx i' j') = ((layerSamples H cfg l.name (S l.name) nb.input batches.flatten).map fun e => e.curv i i').sum *
      sampleMean (layerSamples H cfg l.name (S l.name) nb.input batches.flatten) (fun e => e.input j * e.input j') ∧
    riskMatrix (redOf cfg.mean) (datumMatrix cfg.mean cfg.T H) (batches.flatten.map Prod.snd) (nb.idx i j) (nb.idx i' j') =
      ((layerSamples H cfg l.name (S l.name) nb.input batches.flatten).map fun e => e.curv i i' * (e.input j * e.input j')).sum := by
  have hne : batches.map (·.map Prod.fst) ≠ [] := by
    intro h0
    rw [List.map_eq_nil_iff] at h0
    exact hs.N_ne (by rw [h0]; rfl)
  have hflat : (batches.map (·.map Prod.fst)).flatten = batches.flatten.map Prod.fst := by rw [List.map_flatten]
  obtain ⟨kl, hkl, hname, hpos, hkS, hS0, hdin⟩ := hs.klayer l hl
  obtain ⟨b, hb, hrows, hcols, hidx, hdim, hB, hA, hJ⟩ := netBlocks_inputs hs hd l hl kl hname hpos hkS hS0 hdin (fun hw => by
    have h2 := kfac_input_factor cfg klayers hs.names _ hne kl hkl (by rw [hpos, Dict.has_dict_weight]; exact hw)
    rw [hname, h.inCov_get l hl hw, Option.some.injEq] at h2
    rw [h2, hflat]) H nb hnb
  constructor
  · have hkb := kron_block_entry hM (List.mem_flatMap.mpr ⟨l, hl, hb⟩) (i := i) (i' := i') (j := j) (j' := j') (by rw [hrows]; exact hi)
      (by rw [hrows]; exact hi') (by rw [hcols]; exact hj) (by rw [hcols]; exact hj')
    rw [hidx] at hkb
    rw [hkb, hA j' hj' j hj, hB]
    have h2 := kfac_grad_factor cfg klayers hs.names _ hne hs.T_ne (by rw [hs.outDim]; exact hs.C_ne) hs.mc kl hkl
    rw [hname, h.gradCov_get l hl, Option.some.injEq] at h2
    rw [h2, hflat]
    show specGradFactor cfg kl _ i i' * _ = _
    rw [specGradFactor_samples hf hs.outDim (rows := l.B.dim) (fun x hx => (hd x hx).terms)
      (fun x hx => by rw [hname, hkS]; exact hsh x hx l hl) H hH nb.input i i' (by rw [← hdim]; exact hi) (by rw [← hdim]; exact hi'), hname, hkS]
    congr 1
    exact congrArg _ (funext fun e => mul_comm _ _)
  · exact riskMatrix_samples hs.outDim (by rw [← hkS]; exact hS0) H nb.input (fun x hx => (hd x hx).terms)
      (fun x hx => by rw [hdim]; exact hsh x hx l hl) hJ i j i' j' hi hj hi' hj'

/-! ## The error -/

/-- Specification: inside a block, the curvature matrix `R` differs from KFAC's matrix `M` by the covariance between the curvatures in the
layer's outputs and the outer products of its inputs. -/
structure ErrorIsCov (M R : Mat ℝ) (es : List LayerSample) (nb : NetBlock) : Prop where
  /-- Entries. -/
  entry : ∀ i < nb.rows, ∀ j < nb.cols, ∀ i' < nb.rows, ∀ j' < nb.cols, R (nb.idx i j) (nb.idx i' j') - M (nb.idx i j) (nb.idx i' j') =
    sampleCov es (fun e => e.curv i i') fun e => e.input j * e.input j'
  /-- KFAC's entries are averages over all pairs of evaluations: the curvature of one with the input of the other. -/
  pairs : ∀ i < nb.rows, ∀ j < nb.cols, ∀ i' < nb.rows, ∀ j' < nb.cols, M (nb.idx i j) (nb.idx i' j') =
    sampleMean es fun e' => (es.map fun e => e.curv i i' * (e'.input j * e'.input j')).sum
  /-- The squared Frobenius norm of the error is at most the product of the variances. -/
  frobenius : ∑ i ∈ Finset.range nb.rows, ∑ i' ∈ Finset.range nb.rows, ∑ j ∈ Finset.range nb.cols, ∑ j' ∈ Finset.range nb.cols,
      (R (nb.idx i j) (nb.idx i' j') - M (nb.idx i j) (nb.idx i' j')) ^ 2 ≤
    (∑ i ∈ Finset.range nb.rows, ∑ i' ∈ Finset.range nb.rows, sampleCov es (fun e => e.curv i i') fun e => e.curv i i') *
      ∑ j ∈ Finset.range nb.cols, ∑ j' ∈ Finset.range nb.cols, sampleCov es (fun e => e.input j * e.input j') fun e => e.input j * e.input j'
  /-- The traces differ by the covariance of the curvatures' traces and the inputs' squared norms. -/
  trace : ∑ i ∈ Finset.range nb.rows, ∑ j ∈ Finset.range nb.cols, (R (nb.idx i j) (nb.idx i j) - M (nb.idx i j) (nb.idx i j)) =
    sampleCov es (fun e => ∑ i ∈ Finset.range nb.rows, e.curv i i) fun e => ∑ j ∈ Finset.range nb.cols, e.input j ^ 2
  /-- No error if all curvatures or all outer products of inputs are equal. -/
  exact : ((∀ e ∈ es, ∀ e' ∈ es, ∀ i < nb.rows, ∀ i' < nb.rows, e.curv i i' = e'.curv i i') ∨
      ∀ e ∈ es, ∀ e' ∈ es, ∀ j < nb.cols, ∀ j' < nb.cols, e.input j * e.input j' = e'.input j * e'.input j') →
    ∀ i < nb.rows, ∀ j < nb.cols, ∀ i' < nb.rows, ∀ j' < nb.cols, M (nb.idx i j) (nb.idx i' j') = R (nb.idx i j) (nb.idx i' j')

theorem sampleMean_const {es : List LayerSample} {f : LayerSample → ℝ} (h : ∀ e ∈ es, ∀ e' ∈ es, f e = f e') : ∀ e ∈ es, f e = sampleMean es f := by
  intro e he
  have : es.map f = es.map fun _ => f e := List.map_congr_left fun e' he' => h e' he' e he
  have hlen : (es.length : ℝ) ≠ 0 := by
    rw [Nat.cast_ne_zero]
    exact fun h => by rw [List.length_eq_zero_iff.mp h] at he; simp at he
  unfold sampleMean
  rw [this]
  simp [hlen]

theorem sampleMean_sum {ι : Type _} (es : List LayerSample) (s : Finset ι) (f : LayerSample → ι → ℝ) :
    sampleMean es (fun e => ∑ i ∈ s, f e i) = ∑ i ∈ s, sampleMean es fun e => f e i := by
  unfold sampleMean
  rw [list_sum_finset_comm, Finset.sum_div]

theorem sampleCov_sum {ι κ : Type _} (es : List LayerSample) (s : Finset ι) (t : Finset κ) (f : LayerSample → ι → ℝ) (g : LayerSample → κ → ℝ) :
    sampleCov es (fun e => ∑ i ∈ s, f e i) (fun e => ∑ j ∈ t, g e j) = ∑ i ∈ s, ∑ j ∈ t, sampleCov es (fun e => f e i) fun e => g e j := by
  unfold sampleCov
  simp only [sampleMean_sum, ← Finset.sum_sub_distrib, Finset.sum_mul_sum, list_sum_finset_comm]

theorem errorIsCov {M R : Mat ℝ} {es : List LayerSample} {nb : NetBlock} (hne : es ≠ [])
    (h : ∀ i j i' j', i < nb.rows → j < nb.cols → i' < nb.rows → j' < nb.cols →
      M (nb.idx i j) (nb.idx i' j') = (es.map fun e => e.curv i i').sum * sampleMean es (fun e => e.input j * e.input j') ∧
      R (nb.idx i j) (nb.idx i' j') = (es.map fun e => e.curv i i' * (e.input j * e.input j')).sum) : ErrorIsCov M R es nb := by
  have hentry : ∀ i < nb.rows, ∀ j < nb.cols, ∀ i' < nb.rows, ∀ j' < nb.cols, R (nb.idx i j) (nb.idx i' j') - M (nb.idx i j) (nb.idx i' j') =
      sampleCov es (fun e => e.curv i i') fun e => e.input j * e.input j' := by
    intro i hi j hj i' hi' j' hj'
    obtain ⟨h1, h2⟩ := h i j i' j' hi hj hi' hj'
    rw [sampleCov_eq hne, h1, h2]
  refine ⟨hentry, ?_, ?_, ?_, ?_⟩
  · intro i hi j hj i' hi' j' hj'
    rw [(h i j i' j' hi hj hi' hj').1]
    unfold sampleMean
    simp only [List.sum_map_mul_right, List.sum_map_mul_left]
    ring
  · have := sum_frobenius es (fun e i i' => e.curv i i' - sampleMean es fun e => e.curv i i')
      (fun e j j' => e.input j * e.input j' - sampleMean es fun e => e.input j * e.input j') nb.rows nb.cols
    refine le_trans (le_of_eq ?_) (this.trans (le_of_eq ?_))
    · refine Finset.sum_congr rfl fun i hi => Finset.sum_congr rfl fun i' hi' => Finset.sum_congr rfl fun j hj =>
        Finset.sum_congr rfl fun j' hj' => ?_
      rw [Finset.mem_range] at hi hi' hj hj'
      rw [hentry i hi j hj i' hi' j' hj']
      rfl
    · simp only [list_sum_finset_comm, sampleCov, pow_two]
  · rw [sampleCov_sum]
    refine Finset.sum_congr rfl fun i hi => Finset.sum_congr rfl fun j hj => ?_
    rw [Finset.mem_range] at hi hj
    rw [hentry i hi j hj i hi j hj]
    simp only [pow_two]
  · intro hc i hi j hj i' hi' j' hj'
    have := hentry i hi j hj i' hi' j' hj'
    have h0 : sampleCov es (fun e => e.curv i i') (fun e => e.input j * e.input j') = 0 := by
      unfold sampleCov
      refine List.sum_eq_zero fun y hy => ?_
      obtain ⟨e, he, rfl⟩ := List.mem_map.mp hy
      rcases hc with hc | hc
      · rw [← sampleMean_const (f := fun e : LayerSample => e.curv i i') (fun e he e' he' => hc e he e' he' i hi i' hi') e he, sub_self, zero_mul]
      · rw [← sampleMean_const (f := fun e : LayerSample => e.input j * e.input j') (fun e he e' he' => hc e he e' he' j hj j' hj') e he, sub_self,
          mul_zero]
    rw [h0] at this
    linarith

/-- Specification: the evaluations of a layer of a sequential network, for a data set. -/
noncomputable def SeqNet.samples (H : Term k C → Fin C → Fin C → ℝ) (cfg : KfacCfg) (shapes : List (List Nat)) (net : SeqNet D T C) (θ : Nat → ℝ)
    (st : Stage D) (nb : NetBlock) (data : List (NetInput D T C k)) : List LayerSample :=
  layerSamples H cfg st.name st.S nb.input (data.map fun x => (x.datum shapes net θ, x.terms shapes net θ))

/-- Both types of KFAC. -/
theorem seqNet_error {cfg : KfacCfg} {shapes : List (List Nat)} {net : SeqNet D T C} (batches : List (List (NetInput D T C k)))
    (hs : net.Setting cfg shapes batches.flatten.length) (hf : cfg.fisher ≠ .forwardOnly) {θ : Nat → ℝ}
    (hd : ∀ x ∈ batches.flatten, net.DiffAt shapes θ x.h)
    (hsh : ∀ x ∈ batches.flatten, ∀ st ∈ net.stages, SharedAfter cfg st.name st.dout st.S (x.datum shapes net θ))
    (H : Term k C → Fin C → Fin C → ℝ)
    (hH : ∀ x ∈ batches.flatten, ∀ (t : Fin T), ∀ c c' : Fin C,
      specGradScale cfg * ((specCotangents cfg (x.datum shapes net θ)).map fun v => v t c * v t c').sum =
        termScale k C cfg batches.flatten.length * H ((x.terms shapes net θ)[t]'(by simp [NetInput.terms, SeqNet.terms])) c c') :
    ∃ M, Represents (net.kfac cfg shapes (batches.map (·.map (NetInput.datum shapes net θ)))) M ∧
      ∀ st ∈ net.stages, ∀ nb ∈ netBlocks cfg.sep shapes st.name st.pos st.dout,
        ErrorIsCov M (riskMatrix (redOf cfg.mean) (datumMatrix cfg.mean T H) (batches.flatten.map (NetInput.terms shapes net θ)))
          (net.samples H cfg shapes θ st nb batches.flatten) nb := by
  have hne : batches ≠ [] := by
    rintro rfl
    exact hs.N_ne rfl
  set bs : List (List (KDatum × List (Term k C))) :=
    batches.map (·.map fun x => (x.datum shapes net θ, x.terms shapes net θ)) with hbs
  have hfst : bs.map (·.map Prod.fst) = batches.map (·.map (NetInput.datum shapes net θ)) := by
    simp only [hbs, List.map_map, Function.comp_def]
  have hflat : bs.flatten = batches.flatten.map fun x => (x.datum shapes net θ, x.terms shapes net θ) := by
    rw [hbs, List.map_flatten]
  have hsnd : bs.flatten.map Prod.snd = batches.flatten.map (NetInput.terms shapes net θ) := by
    rw [hflat, List.map_map]
    rfl
  have hK := seqNet_kfacLayers (cfg := cfg) hs.fit hs.all (bs.map (·.map Prod.fst)) (by simpa [hbs] using hne)
    (by rw [hs.terms]; exact hs.T_ne) (by rw [hs.outDim]; exact hs.C_ne) hs.mc
  obtain ⟨⟨M, hM⟩, -⟩ := kfac_matrix_exists _ _ _ _ _ _ hK
  rw [← hfst, ← hsnd]
  have hlen : bs.flatten.length = batches.flatten.length := by rw [hflat, List.length_map]
  have hmem : ∀ x ∈ bs.flatten, ∃ y ∈ batches.flatten, x = (y.datum shapes net θ, y.terms shapes net θ) := by
    intro x hx
    rw [hflat] at hx
    obtain ⟨y, hy, rfl⟩ := List.mem_map.mp hx
    exact ⟨y, hy, rfl⟩
  refine ⟨M, kfac_represents _ _ _ _ _ _ hK M hM, fun st hst nb hnb => ?_⟩
  have hS := SeqNet.S_eq hs.fit hst
  refine errorIsCov ?_ fun i j i' j' hi hj hi' hj' => ?_
  · intro h0
    have := congrArg List.length h0
    unfold SeqNet.samples at this
    rw [layerSamples_length, List.length_map, List.length_nil] at this
    have h1 := hs.N_ne
    have h2 := hs.S_ne st hst
    cases happ : cfg.approx <;> simp only [happ] at this
    · exact (Nat.mul_ne_zero h1 h2) this
    · exact h1 this
  · have := kfac_blocks_samples bs (by rw [hlen]; exact hs.shared _ _) hf
      (fun x hx' => by
        obtain ⟨y, hy, rfl⟩ := hmem x hx'
        rw [hs.terms]
        exact seqNet_chain hs.fit (hd y hy) y.sqrt y.lossGrad y.y _ SeqNet.layers_stage)
      (fun x hx' l hl => by
        obtain ⟨y, hy, rfl⟩ := hmem x hx'
        obtain ⟨st', hst', rfl⟩ := List.mem_map.mp hl
        rw [SeqNet.S_eq hs.fit hst']
        exact hsh y hy st' hst') H
      (fun x hx' τ hτ c c' => by
        obtain ⟨y, hy, rfl⟩ := hmem x hx'
        have hτ' : τ < T := by simpa [NetInput.terms, SeqNet.terms] using hτ
        rw [hlen]
        exact hH y hy ⟨τ, hτ'⟩ c c') hK M hM _ (List.mem_map_of_mem hst) nb hnb i j i' j' hi hj hi' hj'
    rw [hS, hs.terms, hflat] at this
    rw [hflat]
    exact this

/-- **C113** (type-2): inside every block, the GGN differs from type-2 KFAC by the covariance of output curvatures and inputs. -/
theorem seqNet_type2_error {cfg : KfacCfg} {shapes : List (List Nat)} {net : SeqNet D T C} (batches : List (List (NetInput D T C k)))
    (hs : net.Setting cfg shapes batches.flatten.length) (hf : cfg.fisher = .type2) (hmc : cfg.mcSamples = 1) (hk : k = .ce → C ≠ 1) {θ : Nat → ℝ}
    (hd : ∀ x ∈ batches.flatten, net.DiffAt shapes θ x.h)
    (hsh : ∀ x ∈ batches.flatten, ∀ st ∈ net.stages, SharedAfter cfg st.name st.dout st.S (x.datum shapes net θ))
    (hx : ∀ x ∈ batches.flatten, x.SqrtOk shapes net θ cfg.mean) :
    ∃ M, Represents (net.kfac cfg shapes (batches.map (·.map (NetInput.datum shapes net θ)))) M ∧
      ∀ st ∈ net.stages, ∀ nb ∈ netBlocks cfg.sep shapes st.name st.pos st.dout,
        ErrorIsCov M (riskMatrix (redOf cfg.mean) (datumMatrix cfg.mean T lossHessian) (batches.flatten.map (NetInput.terms shapes net θ)))
          (net.samples lossHessian cfg shapes θ st nb batches.flatten) nb := by
  refine seqNet_error batches hs (by rw [hf]; simp) hd hsh lossHessian fun x hx' t c c' => ?_
  obtain ⟨ts, tg, R, hts, hbin, hR, hxR⟩ := hx x hx' t
  obtain ⟨R', hR', hRR⟩ := lossHessianSqrt_partial k cfg.mean hs.C_ne hk (net.predict shapes x.h θ t) ts hts tg hbin (x.y t)
  rw [hR, Except.ok.injEq] at hR'
  subst hR'
  have h1 : ((specCotangents cfg (x.datum shapes net θ)).map fun v => v t c * v t c').sum = ∑ l : Fin C, R c l * R c' l := by
    unfold specCotangents
    rw [hf]
    simp only [List.map_map, Function.comp_def]
    rw [sum_range_list, hs.outDim, Finset.sum_range]
    exact Finset.sum_congr rfl fun l _ => by rw [← hxR c l, ← hxR c' l]; rfl
  have h2 : lossHessian ((x.terms shapes net θ)[t]'(by simp [NetInput.terms, SeqNet.terms])) c c' =
      hess (termLoss k (x.y t)) (net.predict shapes x.h θ t) c c' := by
    simp [NetInput.terms, SeqNet.terms, lossHessian]
  have hC1 : (C : ℝ) ≠ 0 := by exact_mod_cast hs.C_ne
  rw [h1, hRR, h2, hess_div_const (termLoss k (x.y t))]
  unfold specGradScale termScale termWeight reductionFactor
  rw [hmc, hs.N, hf]
  cases cfg.mean <;> cases k <;> simp <;> field_simp <;> simp

/-- **C113** (empirical): the same for empirical KFAC and the empirical Fisher. -/
theorem seqNet_empirical_error {cfg : KfacCfg} {shapes : List (List Nat)} {net : SeqNet D T C} (batches : List (List (NetInput D T C k)))
    (hs : net.Setting cfg shapes batches.flatten.length) (hf : cfg.fisher = .empirical) (hmc : cfg.mcSamples = 1) (hloss : cfg.loss = k)
    {θ : Nat → ℝ} (hd : ∀ x ∈ batches.flatten, net.DiffAt shapes θ x.h)
    (hsh : ∀ x ∈ batches.flatten, ∀ st ∈ net.stages, SharedAfter cfg st.name st.dout st.S (x.datum shapes net θ))
    (hx : ∀ x ∈ batches.flatten, x.GradOk shapes net θ) :
    ∃ M, Represents (net.kfac cfg shapes (batches.map (·.map (NetInput.datum shapes net θ)))) M ∧
      ∀ st ∈ net.stages, ∀ nb ∈ netBlocks cfg.sep shapes st.name st.pos st.dout,
        ErrorIsCov M (riskMatrix (redOf cfg.mean) (datumMatrix cfg.mean T lossGradOuter) (batches.flatten.map (NetInput.terms shapes net θ)))
          (net.samples lossGradOuter cfg shapes θ st nb batches.flatten) nb := by
  refine seqNet_error batches hs (by rw [hf]; simp) hd hsh lossGradOuter fun x hx' t c c' => ?_
  have h1 : ((specCotangents cfg (x.datum shapes net θ)).map fun v => v t c * v t c').sum =
      pderiv (termLoss k (x.y t)) c (net.predict shapes x.h θ t) * pderiv (termLoss k (x.y t)) c' (net.predict shapes x.h θ t) := by
    unfold specCotangents
    rw [hf, ← hx x hx' t c, ← hx x hx' t c']
    simp [NetInput.datum, SeqNet.datum]
  have h2 : lossGradOuter ((x.terms shapes net θ)[t]'(by simp [NetInput.terms, SeqNet.terms])) c c' =
      pderiv (termLoss k (x.y t)) c (net.predict shapes x.h θ t) * pderiv (termLoss k (x.y t)) c' (net.predict shapes x.h θ t) := by
    simp [NetInput.terms, SeqNet.terms, lossGradOuter]
  have hC1 : (C : ℝ) ≠ 0 := by exact_mod_cast hs.C_ne
  rw [h1, h2]
  congr 1
  unfold specGradScale termScale termWeight
  rw [hmc, hs.N, hf, hloss, hs.outDim]
  cases cfg.mean <;> cases k <;> simp <;> field_simp

/-- Layers that are evaluated at one position, with one loss term per datum, are in the settings of both approximations. -/
theorem sharedAfter_single {cfg : KfacCfg} (hT : cfg.T = 1) (name : String) (dout : Nat) (d : KDatum) : SharedAfter cfg name dout 1 d := by
  unfold SharedAfter
  cases cfg.approx with
  | expand => exact ⟨hT.symm, fun s hs o _ t ht hst => by omega⟩
  | reduce =>
    refine ⟨hT, fun s hs o _ c _ => ?_⟩
    obtain rfl : s = 0 := by omega
    rfl

/-- **C113** (biases): KFAC has no error in the blocks of biases that are treated separately. -/
theorem ErrorIsCov.bias {cfg : KfacCfg} {shapes : List (List Nat)} {net : SeqNet D T C} {θ : Nat → ℝ} {H : Term k C → Fin C → Fin C → ℝ}
    {st : Stage D} {b : Nat} (hb : st.pos = .bias b ∨ cfg.sep = true ∧ ∃ w, st.pos = .both w b) (hS : st.S ≠ 0)
    {data : List (NetInput D T C k)} {M R : Mat ℝ}
    (h : ∀ nb ∈ netBlocks cfg.sep shapes st.name st.pos st.dout, ErrorIsCov M R (net.samples H cfg shapes θ st nb data) nb)
    (i i' : Nat) (hi : i < st.dout) (hi' : i' < st.dout) :
    M (offset shapes b + i) (offset shapes b + i') = R (offset shapes b + i) (offset shapes b + i') := by
  have hmem : (⟨st.dout, 1, fun i _ => offset shapes b + i, fun _ _ _ => 1⟩ : NetBlock) ∈ netBlocks cfg.sep shapes st.name st.pos st.dout := by
    unfold netBlocks
    rcases hb with hb | ⟨hsep, w, hb⟩
    · simp [hb]
    · simp [hb, hsep]
  refine (h _ hmem).exact (Or.inr ?_) i hi 0 Nat.one_pos i' hi' 0 Nat.one_pos
  have hS1 : (st.S : ℝ) ≠ 0 := by exact_mod_cast hS
  have h1 : ∀ e ∈ net.samples H cfg shapes θ st ⟨st.dout, 1, fun i _ => offset shapes b + i, fun _ _ _ => 1⟩ data, ∀ j, e.input j = 1 := by
    intro e he j
    unfold SeqNet.samples layerSamples at he
    cases happ : cfg.approx with
    | expand =>
      simp only [happ, List.mem_flatMap, List.mem_map] at he
      obtain ⟨_, _, s, _, rfl⟩ := he
      rfl
    | reduce =>
      simp only [happ, List.mem_map] at he
      obtain ⟨_, _, rfl⟩ := he
      simp [hS1]
  intro e he e' he' j _ j' _
  rw [h1 e he, h1 e he, h1 e' he', h1 e' he']

/-! ## Example -/

/-- `Linear(1, 1, bias=False)` followed by `z ↦ z² / 2`. -/
noncomputable def squareNet : SeqNet 1 1 1 :=
  ⟨[⟨"0", .weight 0, 1, 1, 1, fun _ _ => 0, fun _ => 0, fun h x => h x.2, fun hz _ => hz.2 (0, 0) ^ 2 / 2⟩], fun h _ _ => h 0⟩

/-- Type-2, sum reduction, two data. -/
def squareCfg : KfacCfg :=
  { fisher := .type2, approx := .expand, loss := .mse, mean := false, mcSamples := 1, N := 2, T := 1, C := 1, sep := false }

theorem squareNet_setting : squareNet.Setting squareCfg [[1, 1]] 2 where
  fit := by
    refine ⟨?_, by simp [squareNet], by simp [squareNet, LayerPos.positions]⟩
    intro st hst
    simp only [squareNet, List.mem_singleton] at hst
    subst hst
    simp [Stage.Fits, wCols]
  all := by
    intro p hp
    have hp : p < 1 := hp
    exact ⟨_, by simp only [squareNet]; exact List.mem_singleton_self _, by simp [LayerPos.positions]; omega⟩
  N := rfl
  N_ne := by simp
  terms := rfl
  T_ne := by simp
  outDim := rfl
  C_ne := by simp
  mc := by simp [squareCfg]
  S_ne := by
    intro st hst
    simp only [squareNet, List.mem_singleton] at hst
    subst hst
    simp

theorem squareNet_diff (θ : Nat → ℝ) (h : Fin 1 → ℝ) : squareNet.DiffAt [[1, 1]] θ h :=
  ⟨⟨by dsimp only; fun_prop, by dsimp only; fun_prop, trivial⟩, fun t c => by simp only [squareNet]; fun_prop⟩

/-- An input with label `y`. -/
noncomputable def squareInput (x y : ℝ) : NetInput 1 1 1 .mse := ⟨fun _ => x, fun _ _ => y, fun _ _ _ => Real.sqrt 2, fun _ _ _ => 0⟩

theorem squareInput_sqrtOk (θ : Nat → ℝ) (x y : ℝ) : (squareInput x y).SqrtOk [[1, 1]] squareNet θ squareCfg.mean := by
  intro t
  refine ⟨[1, 1], [0], fun _ _ => Real.sqrt 2, rfl, by simp [ValidTarget], ?_, fun _ _ => rfl⟩
  simp only [lossHessianSqrt, redOf, squareCfg, sqrtScale]
  simp
  funext i j
  simp [Subsingleton.elim i j]

/-- The block of the only weight. -/
def squareBlock : NetBlock := ⟨1, 1, fun i j => offset [[1, 1]] 0 + (i * wCols [[1, 1]] 0 + j), fun d s i => d.x "0" s i⟩

theorem squareNet_jac (θ : Nat → ℝ) (x y : ℝ) : ((squareInput x y).datum [[1, 1]] squareNet θ).jac "0" 0 0 0 0 = θ 0 * x := by
  have h : ∀ z : Fin 1 × Fin 1 → ℝ, pderiv (fun z : Fin 1 × Fin 1 → ℝ => z (0, 0) ^ 2 / 2) (0, 0) z = z (0, 0) := by
    intro z
    rw [pderiv_coord (fun r => r ^ 2 / 2)]
    simp
  simp only [NetInput.datum, SeqNet.datum, squareNet, hookGrad, forward]
  simp [h, Stage.layerOut, Stage.weight, Stage.bias, squareInput, offset]

theorem squareNet_x (θ : Nat → ℝ) (x y : ℝ) : ((squareInput x y).datum [[1, 1]] squareNet θ).x "0" 0 0 = x := by
  simp [NetInput.datum, SeqNet.datum, squareNet, hookInput, squareInput]

theorem square_curv (θ : Nat → ℝ) (x y : ℝ) : outputCurv lossHessian "0" ((squareInput x y).datum [[1, 1]] squareNet θ,
    (squareInput x y).terms [[1, 1]] squareNet θ) 0 0 0 0 = 2 * (θ 0 * x) ^ 2 := by
  simp only [outputCurv, Fin.sum_univ_one, Fin.val_zero, squareNet_jac]
  simp [NetInput.terms, SeqNet.terms, lossHessian, hess_mse]
  ring

/-- **C113** (the error is not zero): for `z = θ x`, prediction `z² / 2`, square loss with sum reduction and the data `x`, `x'`, KFAC is
`θ² (x² + x'²)²` and the GGN `2 θ² (x⁴ + x'⁴)`. -/
theorem kfac_error_witness (θ : Nat → ℝ) (x x' y y' : ℝ) :
    ∃ M, Represents (squareNet.kfac squareCfg [[1, 1]] [[(squareInput x y).datum [[1, 1]] squareNet θ], [(squareInput x' y').datum [[1, 1]] squareNet θ]]) M ∧
      M 0 0 = θ 0 ^ 2 * (x ^ 2 + x' ^ 2) ^ 2 ∧
      riskMatrix .sum (datumMatrix false 1 lossHessian) [(squareInput x y).terms [[1, 1]] squareNet θ, (squareInput x' y').terms [[1, 1]] squareNet θ] 0 0 =
        2 * θ 0 ^ 2 * (x ^ 4 + x' ^ 4) := by
  obtain ⟨M, hM, h⟩ := seqNet_type2_error [[squareInput x y], [squareInput x' y']] squareNet_setting rfl rfl (by simp) (θ := θ)
    (fun _ _ => squareNet_diff θ _) (fun _ _ st hst => by
      simp only [squareNet, List.mem_singleton] at hst
      subst hst
      exact sharedAfter_single rfl _ _ _)
    (fun z hz => by
      simp only [List.flatten_cons, List.flatten_nil, List.append_nil, List.cons_append, List.nil_append, List.mem_cons, List.not_mem_nil, or_false] at hz
      rcases hz with rfl | rfl <;> exact squareInput_sqrtOk θ _ _)
  have he := h _ (by simp only [squareNet]; exact List.mem_singleton_self _) squareBlock (by simp [netBlocks, squareBlock, wCols])
  have h1 := he.pairs 0 Nat.one_pos 0 Nat.one_pos 0 Nat.one_pos 0 Nat.one_pos
  have h2 := he.entry 0 Nat.one_pos 0 Nat.one_pos 0 Nat.one_pos 0 Nat.one_pos
  simp only [SeqNet.samples, layerSamples, squareCfg, List.flatten_cons, List.flatten_nil, List.append_nil, List.cons_append, List.nil_append,
    List.map_cons, List.map_nil, List.flatMap_cons, List.flatMap_nil, List.range_one, squareBlock, squareNet_x, square_curv, termScale, termWeight,
    sampleMean, sampleCov, List.sum_cons, List.sum_nil, List.length_cons, List.length_nil, redOf] at h1 h2
  have hM0 : M 0 0 = θ 0 ^ 2 * (x ^ 2 + x' ^ 2) ^ 2 := by
    refine h1.trans ?_
    simp
    ring
  refine ⟨M, hM, hM0, ?_⟩
  have h3 := eq_add_of_sub_eq h2
  refine h3.trans ?_
  refine (congrArg _ hM0).trans ?_
  simp
  ring

/-- Data `1` and `2`, `θ = 1`: KFAC is 25, the GGN 34. -/
example (y y' : ℝ) : ∃ M, Represents (squareNet.kfac squareCfg [[1, 1]] [[(squareInput 1 y).datum [[1, 1]] squareNet fun _ => 1],
    [(squareInput 2 y').datum [[1, 1]] squareNet fun _ => 1]]) M ∧ M 0 0 = 25 ∧
      riskMatrix .sum (datumMatrix false 1 lossHessian) [(squareInput 1 y).terms [[1, 1]] squareNet fun _ => 1,
        (squareInput 2 y').terms [[1, 1]] squareNet fun _ => 1] 0 0 = 34 := by
  obtain ⟨M, hM, h1, h2⟩ := kfac_error_witness (fun _ => 1) 1 2 y y'
  exact ⟨M, hM, by rw [h1]; norm_num, by rw [h2]; norm_num⟩

/-- Exponential activations, empirical KFAC with separately treated biases, any number of data: the entries between the biases of the first
layer are those of the empirical Fisher. -/
example (θ : Nat → ℝ) (approx : KfacApprox) (data : List (NetInput 2 1 1 .mse)) (hne : data ≠ []) (hx : ∀ x ∈ data, x.GradOk expShapes expNet θ) :
    ∃ M, Represents (expNet.kfac { expCfg .empirical with approx := approx, N := data.length, sep := true } expShapes
        [data.map (NetInput.datum expShapes expNet θ)]) M ∧
      M 4 5 = riskMatrix .sum (datumMatrix false 1 lossGradOuter) (data.map (NetInput.terms expShapes expNet θ)) 4 5 := by
  have h0 := expNet_setting .empirical
  have hl : data.length ≠ 0 := fun h => hne (List.length_eq_zero_iff.mp h)
  have hflat : ([data] : List _).flatten = data := by simp
  obtain ⟨M, hM, h⟩ := seqNet_empirical_error (cfg := { expCfg .empirical with approx := approx, N := data.length, sep := true })
    (shapes := expShapes) (net := expNet) [data] ⟨h0.fit, h0.all, by rw [hflat], by rw [hflat]; exact hl, rfl, by simp, rfl, by simp, h0.mc, h0.S_ne⟩ rfl rfl rfl
    (fun x _ => expNet_diff θ x.h) (fun x _ st hst => by
      have := expNet_S st hst
      rw [this]
      exact sharedAfter_single rfl _ _ _) (by rw [hflat]; exact hx)
  have := ErrorIsCov.bias (b := 1) (Or.inr ⟨rfl, 0, rfl⟩) (by simp [expStage1]) (h expStage1 (by simp [expNet])) 0 1 (by simp [expStage1]) (by simp [expStage1])
  rw [hflat] at this
  exact ⟨M, hM, this⟩

end Curvlinops
