import Verif.Props.FisherMCVariance

/-!
# C90: the variance of the gradient factors of Monte-Carlo KFAC
-/

namespace Curvlinops

open MeasureTheory ProbabilityTheory

variable {k : LossKind} {C : Nat}

/-! ### The factor is an average over samples -/

/-- The datum with the label of sample `m` only. -/
def KDatum.sample (m : Nat) (d : KDatum) : KDatum := { d with lossGrad := fun _ => d.lossGrad m }

theorem specGradFactor_average {cfg : KfacCfg} (hf : cfg.fisher = .mc) (l : KLayer) (data : List KDatum) (i j : Nat) :
    specGradFactor cfg l data i j = (∑ m ∈ Finset.range cfg.mcSamples,
      specGradFactor { cfg with mcSamples := 1 } l (data.map (KDatum.sample m)) i j) / cfg.mcSamples := by
  have hsc : specGradScale cfg = specGradScale { cfg with mcSamples := 1 } / cfg.mcSamples := by
    unfold specGradScale
    simp only [Nat.cast_one]
    ring
  have hswap : ∀ F : KDatum → Nat → ℝ, (data.map fun d => ((List.range cfg.mcSamples).map (F d)).sum).sum =
      ∑ m ∈ Finset.range cfg.mcSamples, (data.map fun d => F d m).sum := by
    intro F
    have e : ∀ d, ((List.range cfg.mcSamples).map (F d)).sum = ∑ m ∈ Finset.range cfg.mcSamples, F d m := fun d => rfl
    simp only [e]
    induction data with
    | nil => simp
    | cons d data ih => simp only [List.map_cons, List.sum_cons, Finset.sum_add_distrib, ih]
  obtain ⟨fisher, approx, loss, mean, mcS, N, T, C, sep⟩ := cfg
  dsimp only at hf hsc hswap ⊢
  subst hf
  unfold specGradFactor
  cases approx with
  | expand =>
    simp only [specCotangents, List.map_map, List.range_one, List.map_cons, List.map_nil, List.sum_cons, List.sum_nil,
      add_zero]
    rw [hsc, ← Finset.mul_sum, div_mul_eq_mul_div]
    congr 2
    exact hswap fun d m => ∑ s ∈ Finset.range l.S, specGradVec ⟨.mc, .expand, loss, mean, mcS, N, T, C, sep⟩ l d (d.lossGrad m) s i *
      specGradVec ⟨.mc, .expand, loss, mean, mcS, N, T, C, sep⟩ l d (d.lossGrad m) s j
  | reduce =>
    simp only [specCotangents, List.map_map, List.range_one, List.map_cons, List.map_nil, List.sum_cons, List.sum_nil,
      add_zero]
    rw [hsc, ← Finset.mul_sum, div_mul_eq_mul_div]
    congr 2
    exact hswap fun d m =>
      (∑ s ∈ Finset.range l.S, specGradVec ⟨.mc, .reduce, loss, mean, mcS, N, T, C, sep⟩ l d (d.lossGrad m) s i) *
      ∑ s ∈ Finset.range l.S, specGradVec ⟨.mc, .reduce, loss, mean, mcS, N, T, C, sep⟩ l d (d.lossGrad m) s j

/-- C90: the gradient factor that Monte-Carlo KFAC computes with `mc_samples` labels per loss term is the average of those
that it computes with one label per loss term. -/
theorem kfac_mc_average {cfg : KfacCfg} (hf : cfg.fisher = .mc) (hC : cfg.C ≠ 0) (hmc : cfg.mcSamples ≠ 0) (hT : cfg.T ≠ 0)
    (klayers : List KLayer) (hnd : (klayers.map KLayer.name).Nodup) (batches : List (List KDatum)) (hne : batches ≠ [])
    (l : KLayer) (hl : l ∈ klayers) :
    ∃ (B : Factor ℝ) (Bm : Nat → Factor ℝ), (kfacFactors cfg klayers batches).2.get l.name = some B ∧
      (∀ m, (kfacFactors { cfg with mcSamples := 1 } klayers (batches.map (·.map (KDatum.sample m)))).2.get l.name =
        some (Bm m)) ∧
      ∀ i j, B.mat i j = (∑ m ∈ Finset.range cfg.mcSamples, (Bm m).mat i j) / cfg.mcSamples := by
  refine ⟨_, fun m => ⟨l.dout, specGradFactor { cfg with mcSamples := 1 } l (batches.flatten.map (KDatum.sample m))⟩,
    kfac_grad_factor cfg klayers hnd batches hne hT hC hmc l hl, fun m => ?_, fun i j => specGradFactor_average hf l _ i j⟩
  rw [kfac_grad_factor { cfg with mcSamples := 1 } klayers hnd _ (by simpa using hne) hT hC one_ne_zero l hl,
    ← List.map_flatten]

/-! ### Variance -/

section

variable {Ω : Type _} [MeasurableSpace Ω] {P : Measure Ω}

/-- All labels of sample `m`. -/
def sampleVec (T : Nat) (data : List (RandDatum Ω k C)) (m : Nat) (ω : Ω) : Fin data.length × Fin T → TermDraw k C :=
  fun x => (data.get x.1).draw m x.2 ω

/-- The labels follow the predictive distributions; the labels of different samples are independent and identically
distributed. The labels of one sample may depend on each other. -/
structure SamplesIid (P : Measure Ω) (S T : Nat) (data : List (RandDatum Ω k C)) : Prop where
  meas : ∀ d ∈ data, ∀ m < S, ∀ t < T, AEMeasurable (d.draw m t) P
  law : ∀ d ∈ data, ∀ m < S, ∀ t < T, P.map (d.draw m t) = drawLaw k (d.term t).f
  indep : ∀ m < S, ∀ m' < S, m ≠ m' → IndepFun (sampleVec T data m) (sampleVec T data m') P
  ident : ∀ m < S, P.map (sampleVec T data m) = P.map (sampleVec T data 0)

theorem labelGrad_measurable (f : Fin C → ℝ) (c : Fin C) : Measurable fun d : TermDraw k C => labelGrad k f d c := by
  simp only [labelGrad_eq]
  exact (wouldBeGrad_measurable f c).const_mul _

theorem labelGrad_pow_four (f : Fin C → ℝ) (c : Fin C) :
    Integrable (fun d : TermDraw k C => labelGrad k f d c ^ 4) (drawLaw k f) := by
  have h := (wouldBeGrad_memLp (k := k) f c c).integrable_sq
  refine h.congr (Filter.Eventually.of_forall fun d => ?_)
  simp only [labelGrad_eq]
  split <;> ring

/-- Products of gradients for two (possibly dependent) labels are square integrable. -/
theorem labelGrad_memLp (f f' : Fin C → ℝ) (D D' : Ω → TermDraw k C) (hm : AEMeasurable D P) (hm' : AEMeasurable D' P)
    (hl : P.map D = drawLaw k f) (hl' : P.map D' = drawLaw k f') (c c' : Fin C) :
    MemLp (fun ω => labelGrad k f (D ω) c * labelGrad k f' (D' ω) c') 2 P := by
  have h4 : ∀ (f : Fin C → ℝ) (D : Ω → TermDraw k C), AEMeasurable D P → P.map D = drawLaw k f → ∀ c,
      Integrable (fun ω => labelGrad k f (D ω) c ^ 4) P := by
    intro f D hm hl c
    have h := labelGrad_pow_four (k := k) f c
    rw [← hl] at h
    exact (integrable_map_measure h.aestronglyMeasurable hm).1 h
  have hmeas : AEMeasurable (fun ω => labelGrad k f (D ω) c * labelGrad k f' (D' ω) c') P :=
    ((labelGrad_measurable f c).comp_aemeasurable hm).mul ((labelGrad_measurable f' c').comp_aemeasurable hm')
  refine (memLp_two_iff_integrable_sq hmeas.aestronglyMeasurable).2 ?_
  refine ((h4 f D hm hl c).add (h4 f' D' hm' hl' c')).mono' (hmeas.pow_const 2).aestronglyMeasurable
    (Filter.Eventually.of_forall fun ω => ?_)
  simp only [Pi.add_apply]
  rw [Real.norm_of_nonneg (sq_nonneg _)]
  nlinarith [sq_nonneg (labelGrad k f (D ω) c ^ 2 - labelGrad k f' (D' ω) c' ^ 2),
    sq_nonneg (labelGrad k f (D ω) c ^ 2), sq_nonneg (labelGrad k f' (D' ω) c' ^ 2)]

/-- Number of outer products per datum, and the derivatives of the predictions they are formed with. -/
def formCount (cfg : KfacCfg) (l : KLayer) : Nat := match cfg.approx with | .expand => l.S | .reduce => 1

noncomputable def formCoeff (cfg : KfacCfg) (l : KLayer) (d : KDatum) (q o t c : Nat) : ℝ := match cfg.approx with
  | .expand => d.jac l.name q o t c
  | .reduce => ∑ s ∈ Finset.range l.S, d.jac l.name s o t c

/-- The gradient factor with one sample as a function of the labels. -/
noncomputable def oneSample (cfg : KfacCfg) (l : KLayer) (data : List (RandDatum Ω k C)) (i j : Nat)
    (u : Fin data.length × Fin cfg.T → TermDraw k C) : ℝ :=
  specGradScale { cfg with mcSamples := 1 } * ∑ x : Fin data.length, ∑ q ∈ Finset.range (formCount cfg l),
    (∑ t : Fin cfg.T, ∑ c : Fin C, formCoeff cfg l (data.get x).base q i t c *
        labelGrad k ((data.get x).term t).f (u (x, t)) c) *
      ∑ t : Fin cfg.T, ∑ c : Fin C, formCoeff cfg l (data.get x).base q j t c *
        labelGrad k ((data.get x).term t).f (u (x, t)) c

omit [MeasurableSpace Ω] in
theorem oneSample_eq {cfg : KfacCfg} (hf : cfg.fisher = .mc) (hC : cfg.C = C) (l : KLayer) (data : List (RandDatum Ω k C))
    (i j m : Nat) (ω : Ω) :
    specGradFactor { cfg with mcSamples := 1 } l ((data.map fun d => (d.fix ω).toKDatum).map (KDatum.sample m)) i j =
      oneSample cfg l data i j (sampleVec cfg.T data m ω) := by
  have hvec : ∀ (d : RandDatum Ω k C) (a : Nat → Nat → ℝ),
      ∑ t ∈ Finset.range cfg.T, ∑ c ∈ Finset.range cfg.C, a t c * (d.fix ω).toKDatum.lossGrad m t c =
      ∑ t : Fin cfg.T, ∑ c : Fin C, a t c * labelGrad k (d.term t).f (d.draw m t ω) c := by
    intro d a
    rw [Finset.sum_range]
    refine Finset.sum_congr rfl fun t _ => ?_
    rw [hC, Finset.sum_range]
    refine Finset.sum_congr rfl fun c _ => ?_
    simp [McDatum.toKDatum, RandDatum.fix, labelGrad]
  unfold specGradFactor oneSample formCount formCoeff
  simp only [hf]
  cases happ : cfg.approx with
  | expand =>
    simp only [specCotangents, List.map_map, List.range_one, List.map_cons, List.map_nil, List.sum_cons, List.sum_nil,
      add_zero]
    congr 1
    rw [← Fin.sum_univ_fun_getElem]
    refine Finset.sum_congr rfl fun x _ => Finset.sum_congr rfl fun s _ => ?_
    exact congrArg₂ (· * ·) (hvec _ fun t c => (data.get x).base.jac l.name s i t c)
      (hvec _ fun t c => (data.get x).base.jac l.name s j t c)
  | reduce =>
    simp only [specCotangents, List.map_map, List.range_one, List.map_cons, List.map_nil, List.sum_cons, List.sum_nil,
      add_zero, Finset.sum_range_one]
    congr 1
    rw [← Fin.sum_univ_fun_getElem]
    have hred : ∀ (d : RandDatum Ω k C) (o : Nat), ∑ s ∈ Finset.range l.S,
        specGradVec { cfg with mcSamples := 1 } l (KDatum.sample m (d.fix ω).toKDatum)
          ((KDatum.sample m (d.fix ω).toKDatum).lossGrad 0) s o =
        ∑ t : Fin cfg.T, ∑ c : Fin C, (∑ s ∈ Finset.range l.S, d.base.jac l.name s o t c) *
          labelGrad k (d.term t).f (d.draw m t ω) c := by
      intro d o
      rw [← hvec d fun t c => ∑ s ∈ Finset.range l.S, d.base.jac l.name s o t c]
      unfold specGradVec
      rw [Finset.sum_comm]
      refine Finset.sum_congr rfl fun t _ => ?_
      rw [Finset.sum_comm]
      refine Finset.sum_congr rfl fun c _ => ?_
      rw [Finset.sum_mul]
      rfl
    refine Finset.sum_congr rfl fun x _ => ?_
    exact congrArg₂ (· * ·) (hred _ i) (hred _ j)

omit [MeasurableSpace Ω] in
theorem oneSample_measurable (cfg : KfacCfg) (l : KLayer) (data : List (RandDatum Ω k C)) (i j : Nat) :
    Measurable (oneSample cfg l data i j) := by
  have hv : ∀ (x : Fin data.length) (q o : Nat), Measurable fun u : Fin data.length × Fin cfg.T → TermDraw k C =>
      ∑ t : Fin cfg.T, ∑ c : Fin C, formCoeff cfg l (data.get x).base q o t c *
        labelGrad k ((data.get x).term t).f (u (x, t)) c := fun x q o =>
    Finset.measurable_fun_sum _ fun t _ => Finset.measurable_fun_sum _ fun c _ =>
      ((labelGrad_measurable _ c).comp (measurable_pi_apply (x, t))).const_mul _
  exact (Finset.measurable_fun_sum _ fun x _ => Finset.measurable_fun_sum _ fun q _ =>
    (hv x q i).mul (hv x q j)).const_mul _

theorem sampleVec_measurable {S T : Nat} {data : List (RandDatum Ω k C)} (h : SamplesIid P S T data) (m : Nat) (hm : m < S) :
    AEMeasurable (sampleVec T data m) P :=
  aemeasurable_pi_lambda _ fun x => h.meas _ (List.get_mem _ _) m hm x.2 x.2.2

theorem formProduct_memLp {T : Nat} (d : RandDatum Ω k C) (m : Nat)
    (hmeas : ∀ t < T, AEMeasurable (d.draw m t) P) (hlaw : ∀ t < T, P.map (d.draw m t) = drawLaw k (d.term t).f)
    (a b : Nat → Nat → ℝ) :
    MemLp (fun ω => (∑ t : Fin T, ∑ c : Fin C, a t c * labelGrad k (d.term t).f (d.draw m t ω) c) *
      ∑ t : Fin T, ∑ c : Fin C, b t c * labelGrad k (d.term t).f (d.draw m t ω) c) 2 P := by
  simp only [Finset.sum_mul_sum]
  refine memLp_finsetSum _ fun t _ => memLp_finsetSum _ fun t' _ => memLp_finsetSum _ fun c _ => memLp_finsetSum _ fun c' _ => ?_
  simp only [mul_mul_mul_comm]
  exact (labelGrad_memLp (P := P) (d.term t).f (d.term t').f (d.draw m t) (d.draw m t') (hmeas t t.2) (hmeas t' t'.2)
    (hlaw t t.2) (hlaw t' t'.2) c c').const_mul _

theorem oneSample_memLp {cfg : KfacCfg} {S : Nat} {data : List (RandDatum Ω k C)} (h : SamplesIid P S cfg.T data) (l : KLayer)
    (i j m : Nat) (hm : m < S) : MemLp (fun ω => oneSample cfg l data i j (sampleVec cfg.T data m ω)) 2 P := by
  have hx : ∀ (x : Fin data.length) (q : Nat), MemLp (fun ω =>
      (∑ t : Fin cfg.T, ∑ c : Fin C, formCoeff cfg l (data.get x).base q i t c *
          labelGrad k ((data.get x).term t).f (sampleVec cfg.T data m ω (x, t)) c) *
        ∑ t : Fin cfg.T, ∑ c : Fin C, formCoeff cfg l (data.get x).base q j t c *
          labelGrad k ((data.get x).term t).f (sampleVec cfg.T data m ω (x, t)) c) 2 P := by
    intro x q
    have hd : data.get x ∈ data := List.get_mem _ _
    exact formProduct_memLp (data.get x) m (h.meas _ hd m hm) (h.law _ hd m hm)
      (fun t c => formCoeff cfg l (data.get x).base q i t c) (fun t c => formCoeff cfg l (data.get x).base q j t c)
  have hs := memLp_finsetSum (μ := P) (p := 2) (Finset.univ : Finset (Fin data.length)) fun x _ =>
    memLp_finsetSum (μ := P) (p := 2) (Finset.range (formCount cfg l)) fun q _ => hx x q
  exact hs.const_mul (specGradScale { cfg with mcSamples := 1 })

/-- C90: the variance of each entry of the gradient factor that Monte-Carlo KFAC computes with `mc_samples` independent
samples is `1 / mc_samples` times that with one sample. -/
theorem kfac_mc_variance {cfg : KfacCfg} (hf : cfg.fisher = .mc) (hC : cfg.C = C) (hC0 : C ≠ 0) (hmc : cfg.mcSamples ≠ 0)
    (hT : cfg.T ≠ 0) (klayers : List KLayer) (hnd : (klayers.map KLayer.name).Nodup)
    (batches : List (List (RandDatum Ω k C))) (hne : batches ≠ []) (h : SamplesIid P cfg.mcSamples cfg.T batches.flatten)
    (l : KLayer) (hl : l ∈ klayers) :
    ∃ B B1 : Ω → Factor ℝ,
      (∀ ω, (kfacFactors cfg klayers (batches.map (·.map fun d => (d.fix ω).toKDatum))).2.get l.name = some (B ω)) ∧
      (∀ ω, (kfacFactors { cfg with mcSamples := 1 } klayers
        (batches.map (·.map fun d => (d.fix ω).toKDatum))).2.get l.name = some (B1 ω)) ∧
      ∀ i j, Var[fun ω => (B ω).mat i j; P] = Var[fun ω => (B1 ω).mat i j; P] / cfg.mcSamples := by
  have hflat : ∀ ω, (batches.map (·.map fun d => (d.fix ω).toKDatum)).flatten =
      batches.flatten.map fun d => (d.fix ω).toKDatum := fun ω => by rw [List.map_flatten]
  refine ⟨fun ω => ⟨l.dout, specGradFactor cfg l (batches.flatten.map fun d => (d.fix ω).toKDatum)⟩,
    fun ω => ⟨l.dout, specGradFactor { cfg with mcSamples := 1 } l (batches.flatten.map fun d => (d.fix ω).toKDatum)⟩,
    fun ω => ?_, fun ω => ?_, fun i j => ?_⟩
  · rw [kfac_grad_factor cfg klayers hnd _ (by simpa using hne) hT (by rw [hC]; exact hC0) hmc l hl, hflat]
  · rw [kfac_grad_factor { cfg with mcSamples := 1 } klayers hnd _ (by simpa using hne) hT (by simpa [hC] using hC0)
      one_ne_zero l hl, hflat]
  set data := batches.flatten
  have hS0 : 0 < cfg.mcSamples := Nat.pos_of_ne_zero hmc
  have e1 : ∀ ω, specGradFactor { cfg with mcSamples := 1 } l (data.map fun d => (d.fix ω).toKDatum) i j =
      oneSample cfg l data i j (sampleVec cfg.T data 0 ω) := by
    intro ω
    have h1 := specGradFactor_average (cfg := { cfg with mcSamples := 1 }) hf l (data.map fun d => (d.fix ω).toKDatum) i j
    simp only [Finset.sum_range_one, Nat.cast_one, div_one] at h1
    rw [h1]
    exact oneSample_eq hf hC l data i j 0 ω
  have eS : ∀ ω, specGradFactor cfg l (data.map fun d => (d.fix ω).toKDatum) i j =
      (cfg.mcSamples : ℝ)⁻¹ * ∑ m : Fin cfg.mcSamples, oneSample cfg l data i j (sampleVec cfg.T data m ω) := by
    intro ω
    rw [specGradFactor_average hf, div_eq_inv_mul, Finset.sum_range]
    congr 1
    exact Finset.sum_congr rfl fun m _ => oneSample_eq hf hC l data i j m ω
  have hm := oneSample_measurable cfg l data i j
  have hvar : ∀ m : Fin cfg.mcSamples, Var[fun ω => oneSample cfg l data i j (sampleVec cfg.T data m ω); P] =
      Var[fun ω => oneSample cfg l data i j (sampleVec cfg.T data 0 ω); P] := by
    intro m
    have q : ∀ m < cfg.mcSamples, Var[fun ω => oneSample cfg l data i j (sampleVec cfg.T data m ω); P] =
        Var[oneSample cfg l data i j; P.map (sampleVec cfg.T data m)] := fun m hlt =>
      (variance_map hm.aemeasurable (sampleVec_measurable h m hlt)).symm
    rw [q m m.2, q 0 hS0, h.ident m m.2]
  simp only [e1, eS]
  rw [variance_const_mul]
  have hsum := IndepFun.variance_sum (μ := P) (s := (Finset.univ : Finset (Fin cfg.mcSamples)))
    (X := fun (m : Fin cfg.mcSamples) ω => oneSample cfg l data i j (sampleVec cfg.T data m ω))
    (fun m _ => oneSample_memLp h l i j m m.2) (by
      intro m _ m' _ hmm
      exact (h.indep m m.2 m' m'.2 fun e => hmm (Fin.ext e)).comp hm hm)
  have e2 : (∑ m : Fin cfg.mcSamples, fun ω => oneSample cfg l data i j (sampleVec cfg.T data m ω)) =
      fun ω => ∑ m : Fin cfg.mcSamples, oneSample cfg l data i j (sampleVec cfg.T data m ω) := by
    funext ω
    simp
  rw [e2] at hsum
  rw [hsum]
  simp only [hvar, Finset.sum_const, Finset.card_univ, Fintype.card_fin, nsmul_eq_mul]
  have : (cfg.mcSamples : ℝ) ≠ 0 := by exact_mod_cast hmc
  field_simp

end

/-- Independent samples exist for all data. -/
theorem samplesIid_exists (hC : k = .ce → 0 < C) (S T : Nat) (base : List (KDatum × (Nat → Term k C))) :
    ∃ (Ω : Type) (_ : MeasurableSpace Ω) (P : Measure Ω) (data : List (RandDatum Ω k C)),
      IsProbabilityMeasure P ∧ data.map (fun d => (d.base, d.term)) = base ∧ SamplesIid P S T data := by
  let f : Nat × Nat → Fin C → ℝ := fun i => (base[i.1]?.map fun p => (p.2 i.2).f).getD fun _ => 0
  have hp : ∀ i, IsProbabilityMeasure (drawLaw k (f i)) := fun i => drawLaw_probability (f i) hC
  let Q : Measure (Nat × Nat → TermDraw k C) := Measure.infinitePi fun i => drawLaw k (f i)
  let data : List (RandDatum (Nat → Nat × Nat → TermDraw k C) k C) :=
    base.mapIdx fun x p => ⟨p.1, p.2, fun m t ω => ω m (x, t)⟩
  have hlen : data.length = base.length := List.length_mapIdx
  have hget : ∀ x (hx : x < data.length), (data[x].term = (base[x]'(hlen ▸ hx)).2) ∧
      data[x].draw = fun m t ω => ω m (x, t) := by
    intro x hx
    simp [data]
  have hvec : ∀ m, sampleVec T data m = (fun (u : Nat × Nat → TermDraw k C) (x : Fin data.length × Fin T) =>
      u (x.1, x.2)) ∘ fun ω => ω m := by
    intro m
    funext ω x
    unfold sampleVec
    rw [List.get_eq_getElem, (hget x.1 x.1.2).2]
    rfl
  have hgm : Measurable fun (u : Nat × Nat → TermDraw k C) (x : Fin data.length × Fin T) => u (x.1, x.2) :=
    measurable_pi_lambda _ fun x => measurable_pi_apply _
  refine ⟨Nat → Nat × Nat → TermDraw k C, inferInstance, Measure.infinitePi fun _ : Nat => Q, data, inferInstance, ?_,
    ⟨fun d hd m _ t _ => ?_, fun d hd m _ t _ => ?_, fun m _ m' _ hmm => ?_, fun m _ => ?_⟩⟩
  · apply List.ext_getElem <;> simp [data]
  · obtain ⟨x, hx, rfl⟩ := List.mem_iff_getElem.1 hd
    rw [(hget x hx).2]
    exact ((measurable_pi_apply (x, t)).comp (measurable_pi_apply m)).aemeasurable
  · obtain ⟨x, hx, rfl⟩ := List.mem_iff_getElem.1 hd
    rw [(hget x hx).1, (hget x hx).2]
    have e : (fun ω : Nat → Nat × Nat → TermDraw k C => ω m (x, t)) = (fun u => u (x, t)) ∘ fun ω => ω m := rfl
    dsimp only
    rw [e, ← Measure.map_map (measurable_pi_apply _) (measurable_pi_apply _),
      Measure.infinitePi_map_eval (μ := fun _ : Nat => Q), Measure.infinitePi_map_eval (μ := fun i => drawLaw k (f i))]
    simp only [f]
    rw [List.getElem?_eq_getElem (hlen ▸ hx)]
    rfl
  · rw [hvec, hvec]
    have h := iIndepFun_infinitePi (P := fun _ : Nat => Q) (X := fun _ d => d) fun _ => measurable_id
    exact (h.indepFun hmm).comp hgm hgm
  · rw [hvec, hvec, ← Measure.map_map hgm (measurable_pi_apply _), ← Measure.map_map hgm (measurable_pi_apply _),
      Measure.infinitePi_map_eval (μ := fun _ : Nat => Q), Measure.infinitePi_map_eval (μ := fun _ : Nat => Q)]

/-! ### Example -/

/-- A layer with one output, which is the prediction of the square loss `(θ - y)²`. -/
noncomputable def squareDatum : KDatum × (Nat → Term .mse 1) :=
  (⟨fun _ _ _ => 1, fun _ _ _ _ _ => 1, fun _ _ _ => 0, fun _ _ _ => 0⟩, fun _ => squareTerm)

/-- With 4 samples, the variance of the gradient factor on one such datum is `8 / 4`. -/
example : ∃ (Ω : Type) (_ : MeasurableSpace Ω) (P : Measure Ω) (d : RandDatum Ω .mse 1) (B : Ω → Factor ℝ),
    (d.base, d.term) = squareDatum ∧
    (∀ ω, (kfacFactors ⟨.mc, .expand, .mse, true, 4, 1, 1, 1, true⟩ [⟨"l", [("weight", 0)], 1, 1, 1⟩]
      [[(d.fix ω).toKDatum]]).2.get "l" = some (B ω)) ∧
    Var[fun ω => (B ω).mat 0 0; P] = 2 := by
  obtain ⟨Ω, mΩ, P, data, hP, hb, hI⟩ := samplesIid_exists (k := .mse) (C := 1) (by simp) 4 1 [squareDatum]
  obtain ⟨d, rfl⟩ : ∃ d, data = [d] := by
    have := congrArg List.length hb
    simp only [List.length_map, List.length_singleton] at this
    exact List.length_eq_one_iff.1 this
  have hd : (d.base, d.term) = squareDatum := by simpa using hb
  obtain ⟨B, B1, h1, h2, h3⟩ := kfac_mc_variance (P := P) (cfg := ⟨.mc, .expand, .mse, true, 4, 1, 1, 1, true⟩) rfl rfl
    (by decide) (by decide) (by decide) [⟨"l", [("weight", 0)], 1, 1, 1⟩] (by simp) [[d]] (by simp) (by simpa using hI)
    ⟨"l", [("weight", 0)], 1, 1, 1⟩ (by simp)
  refine ⟨Ω, mΩ, P, d, B, hd, h1, ?_⟩
  have hval : ∀ ω, (B1 ω).mat 0 0 = drawForm 1 (fun _ _ => 1) squareTerm (d.draw 0 0 ω) := by
    intro ω
    have h := kfac_grad_factor ⟨.mc, .expand, .mse, true, 1, 1, 1, 1, true⟩ [⟨"l", [("weight", 0)], 1, 1, 1⟩] (by simp)
      [[(d.fix ω).toKDatum]] (by simp) (by decide) (by decide) (by decide) ⟨"l", [("weight", 0)], 1, 1, 1⟩ (by simp)
    have e := (h2 ω).symm.trans h
    rw [Option.some.injEq] at e
    rw [e]
    have hbase : d.base = squareDatum.1 := congrArg Prod.fst hd
    have hterm : d.term = squareDatum.2 := congrArg Prod.snd hd
    simp [specGradFactor, specGradScale, specCotangents, specGradVec, McDatum.toKDatum, RandDatum.fix, hbase, hterm,
      squareDatum, drawForm, drawGrad, squareTerm, pderiv_mse, drawLabel, wouldBeGrad]
  rw [h3 0 0]
  simp only [hval]
  have hlaw := hI.law d (by simp) 0 (by decide) 0 (by decide)
  have hv : Var[fun ω => drawForm 1 (fun _ _ => 1) squareTerm (d.draw 0 0 ω); P] = 8 := by
    rw [← squareTerm_var, labelVar]
    have hterm : d.term 0 = squareTerm := congrFun (congrArg Prod.snd hd) 0
    rw [hterm] at hlaw
    rw [← hlaw, variance_map (drawForm_measurable 1 _ _).aemeasurable (hI.meas d (by simp) 0 (by decide) 0 (by decide))]
    rfl
  rw [hv]
  norm_num

end Curvlinops
