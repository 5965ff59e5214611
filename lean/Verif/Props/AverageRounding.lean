import Verif.Model.AverageRounding
import Verif.Props.EstimatorAverages
import Verif.Props.ExportRounding

/-!
# C141: averages of samples computed in floating point
-/

namespace Curvlinops

open MeasureTheory ProbabilityTheory Filter Topology
open scoped _root_.Matrix

variable {ρ : Rounding} {W : Type _} {Ω : Type _} [MeasurableSpace Ω] {P : Measure Ω} {n : Nat}

/-- Specification: `mean m` is a computed average of `m` numbers, and `X` are these numbers, with accuracy `G` relative to `S`: the errors are the statistical
ones, for the variance `v` of one sample, and rounding errors. -/
structure GoodComputed (P : Measure Ω) (X : Nat → Ω → Fl ρ) (mean : Nat → Ω → Fl ρ) (t v G S : ℝ) : Prop where
  tail : ∀ m : Nat, 0 < m → ρ.rnd m = m → ∀ ε, 0 < ε →
    P.real {ω | ε + (G * (1 + ρ.u) ^ m - 1) * S ≤ |(mean m ω).val - t|} ≤ v / (m * ε ^ 2)
  limit : ∀ᵐ ω ∂P, ∀ δ, 0 < δ → ∀ᶠ m in atTop, |average (fun i ω => (X i ω).val) m ω - t| ≤ (G - 1) * S + δ

omit [MeasurableSpace Ω] in
theorem average_close {X Y : Nat → Ω → ℝ} {e : ℝ} (ω : Ω) (h : ∀ i, |X i ω - Y i ω| ≤ e) (m : Nat) (hm : 0 < m) :
    |average X m ω - average Y m ω| ≤ e := by
  have hp : (0 : ℝ) < m := by exact_mod_cast hm
  unfold average
  rw [← sub_div, ← Finset.sum_sub_distrib, abs_div, abs_of_pos hp, div_le_iff₀ hp]
  refine (Finset.abs_sum_le_sum_abs _ _).trans ((Finset.sum_le_sum fun i _ => h i).trans (le_of_eq ?_))
  rw [Finset.sum_const, Finset.card_range, nsmul_eq_mul, mul_comm]

omit [MeasurableSpace Ω] in
/-- The computed mean of numbers with errors. -/
theorem mean_within (τ : FlSum ρ) {G S : ℝ} {X : Nat → Ω → Fl ρ} {Y : Nat → Ω → ℝ} (ω : Ω)
    (h : ∀ i, Within G (X i ω) (Y i ω) S) (m : Nat) (hm : 0 < m) (hr : ρ.rnd m = m) :
    Within (G * (1 + ρ.u) ^ m) (τ.sum (List.ofFn fun i : Fin m => X i ω) / (m : Fl ρ)) (average Y m ω) S := by
  have h1 := Within.sum τ (List.range m) (fun i => X i ω) (fun i => Y i ω) (fun _ => S) fun i _ => h i
  have h2 := h1.div hr hm.ne'
  have e1 : List.ofFn (fun i : Fin m => X i ω) = (List.range m).map fun i => X i ω :=
    List.ext_getElem (by simp) fun i h1 h2 => by simp
  have hp : (m : ℝ) ≠ 0 := by exact_mod_cast hm.ne'
  have e2 : ((List.range m).map fun i => Y i ω).sum / m = average Y m ω := by rw [average, finset_range_list]
  have e3 : ((List.range m).map fun _ => S).sum / m = S := by simp [hp]
  rw [e2, e3, List.length_range, mul_assoc, ← pow_succ, Nat.sub_add_cancel hm] at h2
  rw [e1]
  exact h2

/-- **C141**: from the averages of the exact samples to those of the computed ones. -/
theorem computed_averages [IsProbabilityMeasure P] (τ : FlSum ρ) {G S t v : ℝ} {X : Nat → Ω → Fl ρ} {Y : Nat → Ω → ℝ}
    (h : ∀ i ω, Within G (X i ω) (Y i ω) S) (hY : GoodAverages P Y t v) :
    GoodComputed P X (fun m ω => τ.sum (List.ofFn fun i : Fin m => X i ω) / (m : Fl ρ)) t v G S := by
  refine ⟨fun m hm hr ε hε => ?_, ?_⟩
  · refine (measureReal_mono ?_).trans (hY.tail m hm ε hε)
    intro ω hω
    have h1 := (mean_within τ ω (fun i => h i ω) m hm hr).2
    simp only [Set.mem_ofPred_eq] at hω ⊢
    have h2 := abs_sub_le (τ.sum (List.ofFn fun i : Fin m => X i ω) / (m : Fl ρ)).val (average Y m ω) t
    linarith
  · filter_upwards [hY.limit] with ω hω δ hδ
    have h1 := (Metric.tendsto_atTop.mp hω) δ hδ
    obtain ⟨N, hN⟩ := h1
    filter_upwards [eventually_ge_atTop N, eventually_gt_atTop 0] with m hm hm0
    have h2 := average_close (X := fun i ω => (X i ω).val) (Y := Y) ω (fun i => (h i ω).2) m hm0
    have h3 := hN m hm
    rw [Real.dist_eq] at h3
    have h4 := abs_sub_le (average (fun i ω => (X i ω).val) m ω) (average Y m ω) t
    linarith

/-- C141: the number of samples that suffices. -/
theorem GoodComputed.enough {X : Nat → Ω → Fl ρ} {mean : Nat → Ω → Fl ρ} {t v G S : ℝ} (h : GoodComputed P X mean t v G S) (ε δ : ℝ)
    (hε : 0 < ε) (hδ : 0 < δ) (m : Nat) (hm : 0 < m) (hr : ρ.rnd m = m) (hmv : v / (δ * ε ^ 2) ≤ m) :
    P.real {ω | ε + (G * (1 + ρ.u) ^ m - 1) * S ≤ |(mean m ω).val - t|} ≤ δ := by
  refine (h.tail m hm hr ε hε).trans ?_
  have hm' : (0 : ℝ) < m := by exact_mod_cast hm
  rw [div_le_iff₀ (by positivity)] at hmv ⊢
  linarith

/-- In the worlds `world 0, world 1, …` the generator returns bits that are fair and, for different worlds, independent, as `FairDraws`. -/
structure FairDrawsFl (P : Measure Ω) (E : Ext (Fl ρ) W) (n : Nat) (world : Nat → Ω → W) (b : Nat → Ω → Fin n → Bool) : Prop where
  drawn : ∀ i ω, (E.bits n (world i ω)).1 = List.ofFn (b i ω)
  meas : ∀ i, Measurable (b i)
  fair : ∀ i x, P.real {ω | b i ω = x} = 1 / 2 ^ n
  indep : Pairwise fun i j => IndepFun (b i) (b j) P

theorem FairDrawsFl.iid [IsProbabilityMeasure P] {E : Ext (Fl ρ) W} {world : Nat → Ω → W} {b : Nat → Ω → Fin n → Bool}
    (hb : FairDrawsFl P E n world b) : IidVectors P 1 fun i ω a => sgn (b i ω a) := by
  let E' : Ext ℝ W := { bits := E.bits, randn := fun _ w => ([], w), mul := fun v w => (.ok v, w), qr := id }
  have : FairDraws P E' n world b := ⟨hb.drawn, hb.meas, hb.fair, hb.indep⟩
  exact this.iid

theorem pyMapM_id_ok {β : Type _} {m : Nat} (x : Fin m → β) : pyMapM id (List.ofFn fun i => (.ok (x i) : Py β)) = .ok (List.ofFn x) := by
  induction m with
  | zero => rfl
  | succ m ih => rw [List.ofFn_succ, pyMapM, ih, List.ofFn_succ]; rfl

section

variable [IsProbabilityMeasure P] (hρ : SignsExact ρ) (σ τ : FlSum ρ) {E : Ext (Fl ρ) W} {g : ℝ} (hg : 1 ≤ g) (w : Ω → W) (b : Nat → Ω → Fin n → Bool)

theorem meanFl_ok {m : Nat} (x : Fin m → Fl ρ) : meanFl τ (List.ofFn fun i => .ok (x i)) = .ok (τ.sum (List.ofFn x) / (m : Fl ρ)) := by
  rw [meanFl, pyMapM_id_ok]
  simp

theorem meanRowsFl_ok {m : Nat} (x : Fin m → Fin n → Fl ρ) :
    meanRowsFl τ n (List.ofFn fun i => .ok (List.ofFn (x i))) = .ok (List.ofFn fun a => τ.sum (List.ofFn fun i => x i a) / (m : Fl ρ)) := by
  rw [meanRowsFl, pyMapM_id_ok fun i => List.ofFn (x i)]
  simp only [List.length_ofFn, List.map_ofFn]
  congr 1
  refine List.ext_getElem (by simp) fun a h1 h2 => ?_
  simp only [List.getElem_map, List.getElem_range, List.getElem_ofFn]
  congr 3
  funext i
  have : a < n := by simpa using h1
  simp [List.getD_eq_getElem?_getD, this]

include hρ hg in
/-- **C141** (trace): `mean([estimator.sample() for _ in range(m)])` in floating point. -/
theorem hutchTraceFl_average (M M' : Matrix (Fin n) (Fin n) ℝ) (hM : MultipliesWithin g E M M')
    (hb : FairDrawsFl P E n (fun i ω => stateBefore (hutchTraceFl σ E n (.str "rademacher")) i (w ω)) b) :
    ∃ X mean : Nat → Ω → Fl ρ,
      (∀ m ω, (repeatCalls (hutchTraceFl σ E n (.str "rademacher")) m (w ω)).1 = List.ofFn fun i : Fin m => .ok (X i ω)) ∧
      (∀ m ω, meanFl τ (repeatCalls (hutchTraceFl σ E n (.str "rademacher")) m (w ω)).1 = .ok (mean m ω)) ∧
      GoodComputed P X mean M.trace (∑ i, ∑ j, if i = j then 0 else M i j * (M i j + M j i)) (g * (1 + ρ.u) ^ n) (∑ i, ∑ j, M' i j) := by
  choose v hv hs using fun i ω => rademacherFl_ofFn hρ E (b i ω) _ (hb.drawn i ω)
  choose X hX hw using fun i ω => ((samplesFl_within (m := n) σ E hg (.str "rademacher") _ (v i ω) (hv i ω)).1 M M' hM).1
  have h1 : ∀ m ω, (repeatCalls (hutchTraceFl σ E n (.str "rademacher")) m (w ω)).1 = List.ofFn fun i : Fin m => .ok (X i ω) := fun m ω => by
    rw [repeatCalls_eq]
    congr 1
    funext i
    exact hX i ω
  refine ⟨X, fun m ω => τ.sum (List.ofFn fun i : Fin m => X i ω) / (m : Fl ρ), h1, fun m ω => by rw [h1, meanFl_ok], ?_⟩
  refine computed_averages (Y := fun i ω => (fun a => sgn (b i ω a)) ⬝ᵥ (M *ᵥ fun a => sgn (b i ω a))) τ (fun i ω => ?_) ?_
  · have := hw i ω
    simp only [hs, abs_sgn, mul_one, one_mul] at this
    exact this
  · rw [← quadVar_one]
    exact quadDev_good_const hb.iid M _ _ fun i ω => by rw [quadDev_eq]; ring

include hρ hg in
/-- **C141** (diagonal): `mean(samples, axis=0)` in floating point, entry by entry. -/
theorem hutchDiagFl_average (M M' : Matrix (Fin n) (Fin n) ℝ) (hM : MultipliesWithin g E M M')
    (hb : FairDrawsFl P E n (fun i ω => stateBefore (hutchDiagFl E n (.str "rademacher")) i (w ω)) b) :
    ∃ X mean : Nat → Ω → Fin n → Fl ρ,
      (∀ m ω, (repeatCalls (hutchDiagFl E n (.str "rademacher")) m (w ω)).1 = List.ofFn fun i : Fin m => .ok (List.ofFn (X i ω))) ∧
      (∀ m ω, meanRowsFl τ n (repeatCalls (hutchDiagFl E n (.str "rademacher")) m (w ω)).1 = .ok (List.ofFn (mean m ω))) ∧
      ∀ a, GoodComputed P (fun i ω => X i ω a) (fun i ω => mean i ω a) (M a a) (∑ j, if j = a then 0 else M a j ^ 2) (g * (1 + ρ.u)) (∑ j, M' a j) := by
  choose v hv hs using fun i ω => rademacherFl_ofFn hρ E (b i ω) _ (hb.drawn i ω)
  choose X hX hw using fun i ω => ((samplesFl_within (m := n) τ E hg (.str "rademacher") _ (v i ω) (hv i ω)).1 M M' hM).2
  have h1 : ∀ m ω, (repeatCalls (hutchDiagFl E n (.str "rademacher")) m (w ω)).1 = List.ofFn fun i : Fin m => .ok (List.ofFn (X i ω)) := fun m ω => by
    rw [repeatCalls_eq]
    congr 1
    funext i
    exact hX i ω
  refine ⟨X, fun m ω a => τ.sum (List.ofFn fun i : Fin m => X i ω a) / (m : Fl ρ), h1, fun m ω => by rw [h1, meanRowsFl_ok], fun a => ?_⟩
  refine computed_averages (Y := fun i ω => sgn (b i ω a) * (M *ᵥ fun c => sgn (b i ω c)) a) τ (fun i ω => ?_) ?_
  · have := hw i ω a
    simp only [hs, abs_sgn, mul_one, one_mul] at this
    exact this
  · have h := quadDev_good_const hb.iid (onlyRow M a) (fun i ω => sgn (b i ω a) * (M *ᵥ fun c => sgn (b i ω c)) a)
      (M a a) fun i ω => by
        rw [quadDev_eq, (quad_onlyRow M a _).1, (quad_onlyRow M a (fun _ => 0)).2]; ring
    rw [quadVar_onlyRow] at h
    have hs : (∑ j, if j = a then 0 else M a j ^ 2) = ∑ j, M a j ^ 2 + (1 - 2) * M a a ^ 2 := by
      have : ∀ j, (if j = a then 0 else M a j ^ 2) = M a j ^ 2 + if j = a then -(M a a ^ 2) else 0 := by
        intro j
        split_ifs with hj
        · rw [hj]; ring
        · ring
      simp only [this, Finset.sum_add_distrib, Finset.sum_ite_eq', Finset.mem_univ, if_true]
      ring
    rwa [hs]

include hρ hg in
/-- **C141** (squared Frobenius norm). -/
theorem hutchNormFl_average {r : Nat} (M M' : Matrix (Fin r) (Fin n) ℝ) (hM : MultipliesWithin g E M M')
    (hb : FairDrawsFl P E n (fun i ω => stateBefore (hutchNormFl σ E n (.str "rademacher")) i (w ω)) b) :
    ∃ X mean : Nat → Ω → Fl ρ,
      (∀ m ω, (repeatCalls (hutchNormFl σ E n (.str "rademacher")) m (w ω)).1 = List.ofFn fun i : Fin m => .ok (X i ω)) ∧
      (∀ m ω, meanFl τ (repeatCalls (hutchNormFl σ E n (.str "rademacher")) m (w ω)).1 = .ok (mean m ω)) ∧
      GoodComputed P X mean (∑ i, ∑ j, M i j ^ 2) (2 * ∑ i, ∑ j, if i = j then 0 else (∑ k, M k i * M k j) ^ 2) (g ^ 2 * (1 + ρ.u) ^ r)
        (∑ i, (∑ j, M' i j) ^ 2) := by
  choose v hv hs using fun i ω => rademacherFl_ofFn hρ E (b i ω) _ (hb.drawn i ω)
  choose X hX hw using fun i ω => (samplesFl_within σ E hg (.str "rademacher") _ (v i ω) (hv i ω)).2 M M' hM
  have h1 : ∀ m ω, (repeatCalls (hutchNormFl σ E n (.str "rademacher")) m (w ω)).1 = List.ofFn fun i : Fin m => .ok (X i ω) := fun m ω => by
    rw [repeatCalls_eq]
    congr 1
    funext i
    exact hX i ω
  refine ⟨X, fun m ω => τ.sum (List.ofFn fun i : Fin m => X i ω) / (m : Fl ρ), h1, fun m ω => by rw [h1, meanFl_ok], ?_⟩
  refine computed_averages (Y := fun i ω => (M *ᵥ fun a => sgn (b i ω a)) ⬝ᵥ (M *ᵥ fun a => sgn (b i ω a))) τ (fun i ω => ?_) ?_
  · have := hw i ω
    simp only [hs, abs_sgn, mul_one] at this
    simpa only [dotProduct, Matrix.mulVec, ← pow_two] using this
  · have h := quadDev_good_const hb.iid (Mᵀ * M) _ _ fun i ω => (sub_eq_iff_eq_add'.1 (quadDev_eq _ _).symm)
    rw [trace_gram, quadVar_one] at h
    simpa only [quad_gram, gram_symm, Finset.mul_sum, mul_ite, mul_zero] using h

end

/-- **C141** (exceptions): the first exception of a sample is raised by the mean. -/
theorem mean_raises (τ : FlSum ρ) (e : PyErr) :
    (∀ (xs : List (Fl ρ)) rest, meanFl τ (xs.map .ok ++ .error e :: rest) = .error e) ∧
    ∀ (xs : List (List (Fl ρ))) rest, meanRowsFl τ n (xs.map .ok ++ .error e :: rest) = .error e := by
  have h : ∀ {β : Type} (xs : List β) (rest : List (Py β)), pyMapM id (xs.map (fun x => (.ok x : Py β)) ++ .error e :: rest) = .error e := by
    intro β xs rest
    induction xs with
    | nil => rfl
    | cons x xs ih => rw [List.map_cons, List.cons_append, pyMapM, ih]; rfl
  exact ⟨fun xs rest => by rw [meanFl, h], fun xs rest => by rw [meanRowsFl, h]⟩

/-- **C141** (exported operators): the average of `m` estimates of the trace of an exported operator: statistical errors and the rounding errors of the
products, of the casts, of the inner products and of the mean. -/
theorem exported_average {σ : Rounding} [IsProbabilityMeasure P] (hσ : SignsExact σ) (τ τ' : FlSum σ) {g c₁ c₂ : ℝ} {A : LinOp (Fl ρ)}
    {M M' : Matrix (Fin n) (Fin n) ℝ} (hg : 1 ≤ g) (hc₁ : 0 ≤ c₁) (hc₂ : 0 ≤ c₂) (hA : OpWithin g A M M')
    (hM : ∀ i j, |M i j| ≤ M' i j) (h₁ : ∀ x : Fl σ, |(flCast ρ x).val - x.val| ≤ c₁ * |x.val|)
    (h₂ : ∀ x : Fl ρ, |(flCast σ x).val - x.val| ≤ c₂ * |x.val|) (dt : DType) (dtype : Option DType) (E : Ext (Fl σ) W) (w : Ω → W)
    (b : Nat → Ω → Fin n → Bool) (L : SciOp (Fl σ)) (hL : L = (exportCast (flCast ρ) (flCast σ) A dt dtype).toSci)
    (hb : FairDrawsFl P (E.withOp L) n (fun i ω => stateBefore (hutchTraceFl τ (E.withOp L) n (.str "rademacher")) i (w ω)) b) :
    ∃ X mean : Nat → Ω → Fl σ,
      (∀ m ω, (repeatCalls (hutchTraceFl τ (E.withOp L) n (.str "rademacher")) m (w ω)).1 = List.ofFn fun i : Fin m => .ok (X i ω)) ∧
      (∀ m ω, meanFl τ' (repeatCalls (hutchTraceFl τ (E.withOp L) n (.str "rademacher")) m (w ω)).1 = .ok (mean m ω)) ∧
      GoodComputed P X mean M.trace (∑ i, ∑ j, if i = j then 0 else M i j * (M i j + M j i)) ((1 + c₂) * g * (1 + c₁) * (1 + σ.u) ^ n) (∑ i, ∑ j, M' i j) := by
  subst hL
  have hG : 1 ≤ (1 + c₂) * g * (1 + c₁) :=
    one_le_mul_of_one_le_of_one_le (one_le_mul_of_one_le_of_one_le (by linarith) hg) (by linarith)
  exact hutchTraceFl_average hσ τ τ' hG w b M M' ((export_within hg hc₂ hA hM h₁ h₂ dt dtype).multiplies E) hb

/-! ## Example: 1000 samples of the trace of the matrix with rows `(1, 1)` and `(0, 1)`, in `float64` -/

/-- The world holds the bits of all later calls. -/
noncomputable def triStream : Ext (Fl (binaryFloat 52)) (Nat → Fin 2 → Bool) where
  bits _ w := (List.ofFn (w 0), fun i => w (i + 1))
  randn n w := (List.replicate n 0, w)
  mul v w := (.ok [v.getD 0 0 + v.getD 1 0, v.getD 1 0], w)
  qr Q := Q

theorem triStream_within : MultipliesWithin (1 + (binaryFloat 52).u) triStream triMat triMat := fun v _ => triExt_within v []

theorem triStream_fair (σ : FlSum (binaryFloat 52)) : ∃ P : Measure (Nat → Fin 2 → Bool), IsProbabilityMeasure P ∧
    FairDrawsFl P triStream 2 (fun i ω => stateBefore (hutchTraceFl σ triStream 2 (.str "rademacher")) i ω) fun i ω => ω i := by
  have hst : ∀ i ω, stateBefore (hutchTraceFl σ triStream 2 (.str "rademacher")) i ω = fun j => ω (j + i) := by
    intro i
    induction i with
    | zero => intro ω; rfl
    | succ i ih =>
      intro ω
      rw [stateBefore, ih]
      have : (hutchTraceFl σ triStream 2 (.str "rademacher") ω).2 = fun j => ω (j + 1) := by
        simp [hutchTraceFl, drawAndMulFl, randomVectorFl, rademacherFl, triStream]
      rw [this]
      funext j
      exact congrArg ω (by omega)
  refine ⟨Measure.infinitePi fun _ : Nat => uniformOn (Set.univ : Set (Fin 2 → Bool)), inferInstance, fun i ω => ?_, fun i => measurable_pi_apply i,
    fun i x => ?_, fun i j hij => ?_⟩
  · rw [hst]
    simp [triStream]
  · have h := congrArg (fun μ : Measure (Fin 2 → Bool) => μ.real {x})
      (Measure.infinitePi_map_eval (fun _ : Nat => uniformOn (Set.univ : Set (Fin 2 → Bool))) i)
    simp only [fair_uniform] at h
    rw [map_measureReal_apply (measurable_pi_apply i) (measurableSet_singleton x)] at h
    exact h
  · exact (iIndepFun_infinitePi (P := fun _ : Nat => uniformOn (Set.univ : Set (Fin 2 → Bool)))
      (X := fun _ d => d) fun _ => measurable_id).indepFun hij

theorem pow_three_parts (u : ℝ) (k : Nat) : (1 + u) * (1 + u) ^ 2 * (1 + u) ^ k = (1 + u) ^ (k + 3) := by ring

theorem pow_le_small {u : ℝ} (hu : 0 ≤ u) (k : Nat) (h : k * u ≤ 1) : (1 + u) ^ k ≤ 1 + 2 * (k * u) := by
  have h0 : 0 ≤ k * u := by positivity
  have h1 : (1 + u) ^ k ≤ Real.exp (k * u) := by
    rw [Real.exp_nat_mul]
    exact pow_le_pow_left₀ (by linarith) (by linarith [Real.add_one_le_exp u]) k
  have h2 := Real.abs_exp_sub_one_le (x := k * u) (by rwa [abs_of_nonneg h0])
  rw [abs_of_nonneg h0] at h2
  linarith [(abs_le.mp h2).2]

/-- For 1000 to 2000 samples, errors above `0.25` have a probability of at most 1.6 %. -/
example (σ τ : FlSum (binaryFloat 52)) (m : Nat) (h0 : 1000 ≤ m) (h1 : m ≤ 2000) : ∃ P : Measure (Nat → Fin 2 → Bool), IsProbabilityMeasure P ∧
    ∃ mean : (Nat → Fin 2 → Bool) → Fl (binaryFloat 52),
      (∀ ω, meanFl τ (repeatCalls (hutchTraceFl σ triStream 2 (.str "rademacher")) m ω).1 = .ok (mean ω)) ∧
      P.real {ω | 0.25 + 1 / 10 ^ 10 ≤ |(mean ω).val - 2|} ≤ 0.016 := by
  obtain ⟨P, hP, hb⟩ := triStream_fair σ
  have hg : 1 ≤ 1 + (binaryFloat 52).u := by linarith [(binaryFloat 52).nonneg]
  obtain ⟨X, mean, -, h2, h3⟩ := hutchTraceFl_average (P := P) (signsExact_binary 52) σ τ hg (fun ω => ω) _ triMat triMat triStream_within hb
  refine ⟨P, hP, mean m, h2 m, ?_⟩
  have ht : triMat.trace = 2 := by norm_num [triMat, Matrix.trace, Fin.sum_univ_two]
  have hv : (∑ i, ∑ j, if i = j then 0 else triMat i j * (triMat i j + triMat j i)) = 1 := by norm_num [triMat, Fin.sum_univ_two]
  have hS : ∑ i, ∑ j, triMat i j = 3 := by norm_num [triMat, Fin.sum_univ_two]
  have h0' : (1000 : ℝ) ≤ m := by exact_mod_cast h0
  have h1' : (m : ℝ) ≤ 2000 := by exact_mod_cast h1
  rw [ht, hv, hS] at h3
  have h4 := h3.enough 0.25 0.016 (by norm_num) (by norm_num) m (by omega) (binary_natCast 52 m (h1.trans (by norm_num))) (by norm_num; linarith)
  refine (measureReal_mono ?_).trans h4
  intro ω hω
  simp only [Set.mem_ofPred_eq] at hω ⊢
  refine le_trans ?_ hω
  have hu : (binaryFloat 52).u ≤ 1 / 10 ^ 15 := by norm_num [binaryFloat]
  have hu0 := (binaryFloat 52).nonneg
  have h5 : ((m + 3 : Nat) : ℝ) * (binaryFloat 52).u ≤ 2003 * (1 / 10 ^ 15) := by
    refine mul_le_mul ?_ hu hu0 (by norm_num)
    push_cast
    linarith
  have hp := pow_le_small hu0 (m + 3) (h5.trans (by norm_num))
  rw [pow_three_parts]
  linarith

end Curvlinops
