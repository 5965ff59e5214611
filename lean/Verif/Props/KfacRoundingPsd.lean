import Verif.Props.KfacRounding
import Verif.Props.KfacPsd
import Mathlib.Algebra.Order.BigOperators.Ring.Finset

/-!
# C131: symmetry and definiteness of KFAC's factors in floating point arithmetic
-/

namespace Curvlinops

/-! ## Symmetry -/

section symmetry

variable {ρ : Rounding}

theorem fl_mul_comm (a b : Fl ρ) : a * b = b * a := Fl.ext (by rw [Fl.val_mul, Fl.val_mul, mul_comm])

theorem gramFl_symm (σ : FlSum ρ) (rows : List (Nat → Fl ρ)) (i j : Nat) : gramFl σ rows i j = gramFl σ rows j i := by
  simp only [gramFl, fl_mul_comm]

/-- All factors of a dictionary are symmetric. -/
def DictSymm (d : Dict (Factor (Fl ρ))) : Prop := ∀ name F, d.get name = some F → ∀ i j, F.mat i j = F.mat j i

theorem dictSymm_set {d : Dict (Factor (Fl ρ))} (hd : DictSymm d) (name : String) {c : Factor (Fl ρ)}
    (hc : ∀ i j, c.mat i j = c.mat j i) : DictSymm (d.set name c) := by
  intro n F h
  rw [Dict.get_set] at h
  split_ifs at h with hn
  · obtain rfl := Option.some.inj h
    exact hc
  · exact hd n F h

theorem dictSymm_add {d : Dict (Factor (Fl ρ))} (hd : DictSymm d) (name : String) {c : Factor (Fl ρ)}
    (hc : ∀ i j, c.mat i j = c.mat j i) : DictSymm (addCovFl d name c) := by
  unfold addCovFl
  cases h : d.get name with
  | none => exact dictSymm_set hd name hc
  | some f => exact dictSymm_set hd name fun i j => by simp only [hd name f h i j, hc i j]

theorem dictSymm_foldl {β : Type _} (bs : List β) (f : Dict (Factor (Fl ρ)) → β → Dict (Factor (Fl ρ)))
    (hf : ∀ d b, DictSymm d → DictSymm (f d b)) {d : Dict (Factor (Fl ρ))} (hd : DictSymm d) : DictSymm (bs.foldl f d) := by
  induction bs generalizing d with
  | nil => exact hd
  | cons b bs ih => exact ih (hf d b hd)

/-- **C131** (symmetry): the computed factors are exactly symmetric, whatever the rounding, the order of the additions, and the numbers
that the hooks see. -/
theorem kfac_rounding_symmetric (π : Rounding) (σ : FlSum ρ) (cfg : KfacCfg) (layers : List KLayer)
    (batches : List (List (FlDatum ρ))) :
    DictSymm (kfacFactorsFl π σ cfg layers batches).1 ∧ DictSymm (kfacFactorsFl π σ cfg layers batches).2 := by
  unfold kfacFactorsFl
  have h0 : DictSymm ([] : Dict (Factor (Fl ρ))) := by
    intro name F h
    cases h
  have step : ∀ (st : Dict (Factor (Fl ρ)) × Dict (Factor (Fl ρ))), DictSymm st.1 → DictSymm st.2 →
      ∀ bs : List (List (FlDatum ρ)),
      DictSymm (bs.foldl (fun st b => (forwardFl σ cfg layers b st.1, backwardFl π σ cfg layers b st.2)) st).1 ∧
      DictSymm (bs.foldl (fun st b => (forwardFl σ cfg layers b st.1, backwardFl π σ cfg layers b st.2)) st).2 := by
    intro st h1 h2 bs
    induction bs generalizing st with
    | nil => exact ⟨h1, h2⟩
    | cons b bs ih =>
      refine ih _ ?_ ?_
      · exact dictSymm_foldl _ _ (fun d l hd => dictSymm_add hd _ fun i j => by
          simp only [inputCovarianceFl, gramFl_symm σ _ i j]) h1
      · have hp : DictSymm ((List.range (numPasses cfg)).foldl (fun G k =>
            layers.reverse.foldl (fun G l => addCovFl G l.name (gradCovarianceFl π σ cfg l b k)) G) st.2) :=
          dictSymm_foldl _ _ (fun d k hd => dictSymm_foldl _ _ (fun d l hd => dictSymm_add hd _ fun i j => by
            simp only [gradCovarianceFl, gramFl_symm σ _ i j]) hd) h2
        unfold backwardFl
        cases cfg.fisher with
        | forwardOnly =>
          exact dictSymm_foldl _ _ (fun d l hd => dictSymm_set hd _ fun i j => by simp only [eq_comm]) h2
        | type2 => exact hp
        | mc => exact hp
        | empirical => exact hp
  exact step ([], []) h0 h0 batches

/-- **C131** (`FORWARD_ONLY`): the gradient factors are exact identity matrices. -/
theorem kfac_rounding_forward_only (π : Rounding) (σ : FlSum ρ) (cfg : KfacCfg) (hf : cfg.fisher = .forwardOnly)
    (layers : List KLayer) (hnd : (layers.map KLayer.name).Nodup) (batches : List (List (FlDatum ρ))) (hne : batches ≠ [])
    (l : KLayer) (hl : l ∈ layers) :
    ∃ F, (kfacFactorsFl π σ cfg layers batches).2.get l.name = some F ∧ F.dim = l.dout ∧
      ∀ i j, (F.mat i j).val = if i = j then 1 else 0 := by
  refine ⟨⟨l.dout, fun i j => if i = j then 1 else 0⟩, ?_, rfl, fun i j => ?_⟩
  · have layer : ∀ (ls : List KLayer) (_ : l ∈ ls) (_ : (ls.map KLayer.name).Nodup) (G : Dict (Factor (Fl ρ))),
        (ls.foldl (fun G l => G.set l.name (⟨l.dout, fun i j => if i = j then 1 else 0⟩ : Factor (Fl ρ))) G).get l.name =
          some ⟨l.dout, fun i j => if i = j then 1 else 0⟩ := by
      intro ls hl hnd G
      induction ls generalizing G with
      | nil => simp at hl
      | cons m ms ih =>
        rw [List.map_cons, List.nodup_cons] at hnd
        rcases List.mem_cons.mp hl with rfl | hl
        · have : ∀ (ms : List KLayer), (∀ m ∈ ms, m.name ≠ l.name) → ∀ G : Dict (Factor (Fl ρ)),
              (ms.foldl (fun G l => G.set l.name (⟨l.dout, fun i j => if i = j then 1 else 0⟩ : Factor (Fl ρ))) G).get l.name =
                G.get l.name := by
            intro ms
            induction ms with
            | nil => intro _ G; rfl
            | cons m ms ih =>
              intro h G
              rw [List.foldl_cons, ih (fun m' h' => h m' (by simp [h'])), Dict.get_set, if_neg (Ne.symm (h m (by simp)))]
          rw [List.foldl_cons, this ms fun m hm e => hnd.1 (List.mem_map.mpr ⟨m, hm, e⟩), Dict.get_set, if_pos rfl]
        · exact ih hl hnd.2 _
    have loop : ∀ (bs : List (List (FlDatum ρ))) (_ : bs ≠ []) (st : Dict (Factor (Fl ρ)) × Dict (Factor (Fl ρ))),
        (bs.foldl (fun st b => (forwardFl σ cfg layers b st.1, backwardFl π σ cfg layers b st.2)) st).2.get l.name =
          some ⟨l.dout, fun i j => if i = j then 1 else 0⟩ := by
      intro bs
      induction bs with
      | nil => intro h; exact absurd rfl h
      | cons b bs ih =>
        intro _ st
        rw [List.foldl_cons]
        by_cases hb : bs = []
        · subst hb
          simp only [List.foldl_nil, backwardFl, hf]
          exact layer layers hl hnd _
        · exact ih hb _
    exact loop batches hne _
  · by_cases h : i = j <;> simp [h]

end symmetry

/-! ## Definiteness -/

section definiteness

/-- `xᵀ F x`, for the leading `n × n` part. -/
def quadForm (n : Nat) (F : Mat ℝ) (x : Nat → ℝ) : ℝ := ∑ i ∈ Finset.range n, ∑ j ∈ Finset.range n, x i * F i j * x j

theorem quadForm_gram {n : Nat} {F : Mat ℝ} {rows : List (Nat → ℝ)}
    (h : ∀ i < n, ∀ j < n, F i j = (rows.map fun r => r i * r j).sum) (x : Nat → ℝ) :
    quadForm n F x = (rows.map fun r => (∑ i ∈ Finset.range n, x i * r i) ^ 2).sum := by
  have e : ∀ r : Nat → ℝ, (∑ i ∈ Finset.range n, x i * r i) ^ 2 =
      ∑ i ∈ Finset.range n, ∑ j ∈ Finset.range n, x i * (r i * r j) * x j := by
    intro r
    rw [sq, Finset.sum_mul_sum]
    refine Finset.sum_congr rfl fun i _ => Finset.sum_congr rfl fun j _ => by ring
  simp only [e]
  rw [← finset_list_sum_comm]
  refine Finset.sum_congr rfl fun i hi => ?_
  rw [← finset_list_sum_comm]
  refine Finset.sum_congr rfl fun j hj => ?_
  rw [h i (Finset.mem_range.mp hi) j (Finset.mem_range.mp hj)]
  rw [show (fun r : Nat → ℝ => x i * (r i * r j) * x j) = fun r => (x i * x j) * (r i * r j) by funext r; ring,
    list_sum_map_mul_left]
  ring

/-- Rounding errors shift the eigenvalues of a factor by at most the accuracy times the trace of the bounds. -/
theorem quadForm_lower {n : Nat} {F E Bd : Mat ℝ} {e : ℝ} (he : 0 ≤ e) (hE : IsGram n E) (hB : IsGram n Bd)
    (h : ∀ i < n, ∀ j < n, |F i j - E i j| ≤ e * Bd i j) (x : Nat → ℝ) :
    -(e * (∑ i ∈ Finset.range n, Bd i i) * ∑ i ∈ Finset.range n, x i ^ 2) ≤ quadForm n F x := by
  obtain ⟨rE, hrE⟩ := hE
  obtain ⟨rB, hrB⟩ := hB
  have h1 : 0 ≤ quadForm n E x := by
    rw [quadForm_gram hrE]
    exact List.sum_nonneg fun a ha => by
      obtain ⟨r, _, rfl⟩ := List.mem_map.mp ha
      exact sq_nonneg _
  have h2 : quadForm n E x - e * quadForm n Bd (fun i => |x i|) ≤ quadForm n F x := by
    unfold quadForm
    rw [Finset.mul_sum, ← Finset.sum_sub_distrib]
    refine Finset.sum_le_sum fun i hi => ?_
    rw [Finset.mul_sum, ← Finset.sum_sub_distrib]
    refine Finset.sum_le_sum fun j hj => ?_
    have h3 := h i (Finset.mem_range.mp hi) j (Finset.mem_range.mp hj)
    have h4 : |x i * (F i j - E i j) * x j| ≤ |x i| * (e * Bd i j) * |x j| := by
      rw [abs_mul, abs_mul]
      exact mul_le_mul_of_nonneg_right (mul_le_mul_of_nonneg_left h3 (abs_nonneg _)) (abs_nonneg _)
    have h5 := (abs_le.mp h4).1
    have e1 : x i * (F i j - E i j) * x j = x i * F i j * x j - x i * E i j * x j := by ring
    rw [e1] at h5
    have e2 : e * (|x i| * Bd i j * |x j|) = |x i| * (e * Bd i j) * |x j| := by ring
    linarith
  have h6 : quadForm n Bd (fun i => |x i|) ≤ (∑ i ∈ Finset.range n, Bd i i) * ∑ i ∈ Finset.range n, x i ^ 2 := by
    rw [quadForm_gram hrB]
    have tr : (∑ i ∈ Finset.range n, Bd i i) = (rB.map fun r => ∑ i ∈ Finset.range n, r i ^ 2).sum := by
      rw [← finset_list_sum_comm]
      refine Finset.sum_congr rfl fun i hi => ?_
      rw [hrB i (Finset.mem_range.mp hi) i (Finset.mem_range.mp hi)]
      simp only [sq]
    rw [tr, mul_comm, ← list_sum_map_mul_left]
    refine List.sum_le_sum fun r _ => ?_
    have := Finset.sum_mul_sq_le_sq_mul_sq (Finset.range n) (fun i => |x i|) r
    simpa only [sq_abs] using this
  have h7 := mul_le_mul_of_nonneg_left h6 he
  linarith

/-- A matrix that is close to a Gram matrix is positive definite after sufficient damping. -/
theorem damped_pos {n : Nat} {F E Bd : Mat ℝ} {e δ : ℝ} (he : 0 ≤ e) (hE : IsGram n E) (hB : IsGram n Bd)
    (h : ∀ i < n, ∀ j < n, |F i j - E i j| ≤ e * Bd i j) (hδ : e * (∑ i ∈ Finset.range n, Bd i i) < δ) (x : Nat → ℝ)
    (hx : ∃ i < n, x i ≠ 0) : 0 < quadForm n F x + δ * ∑ i ∈ Finset.range n, x i ^ 2 := by
  have h1 := quadForm_lower he hE hB h x
  obtain ⟨i, hi, hxi⟩ := hx
  have h2 : 0 < ∑ i ∈ Finset.range n, x i ^ 2 :=
    Finset.sum_pos' (fun j _ => sq_nonneg _) ⟨i, Finset.mem_range.mpr hi, by positivity⟩
  nlinarith

variable {ρ : Rounding}

theorem inputFactor_isGram (cfg : KfacCfg) (l : KLayer) (hw : l.pos.has "weight" = true) (data : List KDatum) :
    IsGram (l.din + if l.joint cfg then 1 else 0) (specInputFactor cfg l data) := by
  have h := kfac_input_factor cfg [l] (by simp) [data] (by simp) l (by simp) hw
  have := (kfacFactors_gram cfg [l] [data]).1 _ _ h
  simpa using this

theorem gradFactor_isGram (cfg : KfacCfg) (l : KLayer) (hT : cfg.T ≠ 0) (hC : cfg.C ≠ 0) (hmc : cfg.mcSamples ≠ 0)
    (data : List KDatum) : IsGram l.dout (specGradFactor cfg l data) := by
  have h := kfac_grad_factor cfg [l] (by simp) [data] (by simp) hT hC hmc l (by simp)
  have := (kfacFactors_gram cfg [l] [data]).2 _ _ h
  simpa using this

theorem boundGradFactor_gram (cfg : KfacCfg) (l : KLayer) (data : List (Computed ρ)) (n : Nat) :
    IsGram n (boundGradFactor cfg l data) := by
  have e : boundGradFactor cfg l data = fun i j => gram (data.flatMap fun d => (List.range (numPasses cfg)).flatMap fun k =>
      (List.range (rowCount cfg l)).map fun s => gradRow cfg l (d.ag l.name k) s) i j * specGradScale cfg := by
    funext i j
    rw [boundGradFactor, mul_comm, gram_flatMap]
    congr 2
    refine List.map_congr_left fun d _ => ?_
    rw [gram_flatMap, sum_range_list]
    refine Finset.sum_congr rfl fun k _ => ?_
    rw [gram, List.map_map, ← sum_range_list]
    rfl
  rw [e]
  exact isGram_scaled_gram n _ _ (specGradScale_nonneg cfg)

theorem inputAccuracy_nonneg {η : ℝ} (hη : 0 ≤ η) (cfg : KfacCfg) (l : KLayer) (B n : Nat) : 0 ≤ inputAccuracy ρ η cfg l B n := by
  have h1 : 1 ≤ (1 + η) ^ 2 := one_le_pow₀ (by linarith)
  have := one_le_mul_of_one_le_of_one_le h1 (one_le_pow_u (ρ := ρ) (2 * inputRowRoundings cfg l + B * rowCount cfg l + n))
  unfold inputAccuracy
  linarith

theorem gradAccuracy_nonneg (π : Rounding) {η : ℝ} (hη : 0 ≤ η) (cfg : KfacCfg) (l : KLayer) (B n : Nat) :
    0 ≤ gradAccuracy ρ π η cfg l B n := by
  have h1 : 1 ≤ (1 + η) ^ 2 := one_le_pow₀ (by linarith)
  have h2 : 1 ≤ (1 + η) ^ 2 * (1 + π.u) := one_le_mul_of_one_le_of_one_le h1 (by linarith [π.nonneg])
  have := one_le_mul_of_one_le_of_one_le h2
    (one_le_pow_u (ρ := ρ) (2 * gradRowRoundings cfg l + B * rowCount cfg l + 1 + n * numPasses cfg))
  unfold gradAccuracy
  linarith

/-- **C131** (definiteness of the input factor): with damping larger than the accuracy times the trace of the factor of the bounds, the
damped computed factor is positive definite. -/
theorem kfac_input_rounding_damped (π : Rounding) (σ : FlSum ρ) {η : ℝ} (hη : 0 ≤ η) (cfg : KfacCfg) (layers : List KLayer)
    (hnd : (layers.map KLayer.name).Nodup) (batches : List (List (Computed ρ))) (hne : batches ≠ [])
    {B : Nat} (hB : ∀ b ∈ batches, b ≠ [] ∧ b.length ≤ B) (l : KLayer) (hl : l ∈ layers) (hw : l.pos.has "weight" = true) (hN : cfg.N ≠ 0)
    (hS : l.S ≠ 0) (hSr : ρ.rnd l.S = l.S) (hNr : ρ.rnd (cfg.N * rowCount cfg l : Nat) = (cfg.N * rowCount cfg l : Nat))
    (hx : InputsWithin η l batches) {δ : ℝ}
    (hδ : inputAccuracy ρ η cfg l B batches.length * (∑ i ∈ Finset.range (l.din + if l.joint cfg then 1 else 0),
      specInputFactor cfg l (batches.flatten.map Computed.bound) i i) < δ) :
    ∃ F, (kfacFactorsFl π σ cfg layers (batches.map fun b => b.map Computed.fl)).1.get l.name = some F ∧
      ∀ x : Nat → ℝ, (∃ i < F.dim, x i ≠ 0) →
        0 < quadForm F.dim (fun i j => (F.mat i j).val) x + δ * ∑ i ∈ Finset.range F.dim, x i ^ 2 := by
  obtain ⟨F, h1, h2, h3⟩ := kfac_input_rounding π σ hη cfg layers hnd batches hne hB l hl hw hN hS hSr hNr hx
  refine ⟨F, h1, fun x hx' => ?_⟩
  refine damped_pos (inputAccuracy_nonneg hη cfg l B batches.length) ?_ ?_ h3 (by rw [h2]; exact hδ) x hx'
  · rw [h2]; exact inputFactor_isGram cfg l hw _
  · rw [h2]; exact inputFactor_isGram cfg l hw _

/-- **C131** (definiteness of the gradient factor). -/
theorem kfac_grad_rounding_damped (π : Rounding) (σ : FlSum ρ) {η : ℝ} (hη : 0 ≤ η) (cfg : KfacCfg) (hf : cfg.fisher ≠ .forwardOnly)
    (layers : List KLayer) (hnd : (layers.map KLayer.name).Nodup) (batches : List (List (Computed ρ))) (hne : batches ≠ [])
    {B : Nat} (hB : ∀ b ∈ batches, b ≠ [] ∧ b.length ≤ B) (l : KLayer) (hl : l ∈ layers) (hT : cfg.T ≠ 0) (hC : cfg.C ≠ 0)
    (hmc : cfg.mcSamples ≠ 0) (hS : l.S ≠ 0) (hg : GradsWithin η cfg l batches) {δ : ℝ}
    (hδ : gradAccuracy ρ π η cfg l B batches.length * (∑ i ∈ Finset.range l.dout, boundGradFactor cfg l batches.flatten i i) < δ) :
    ∃ F, (kfacFactorsFl π σ cfg layers (batches.map fun b => b.map Computed.fl)).2.get l.name = some F ∧
      ∀ x : Nat → ℝ, (∃ i < F.dim, x i ≠ 0) →
        0 < quadForm F.dim (fun i j => (F.mat i j).val) x + δ * ∑ i ∈ Finset.range F.dim, x i ^ 2 := by
  obtain ⟨F, h1, h2, h3⟩ := kfac_grad_rounding π σ hη cfg hf layers hnd batches hne hB l hl hT hC hmc hS hg
  refine ⟨F, h1, fun x hx' => ?_⟩
  refine damped_pos (gradAccuracy_nonneg π hη cfg l B batches.length) ?_ (boundGradFactor_gram cfg l _ _) h3 (by rw [h2]; exact hδ) x hx'
  rw [h2]; exact gradFactor_isGram cfg l hT hC hmc _

end definiteness

/-! ## Blocks -/

section blocks

variable {ρ : Rounding}

/-- **C131** (blocks): the entries of the Kronecker products of the computed factors. -/
theorem kfac_block_rounding (π : Rounding) (σ : FlSum ρ) {η : ℝ} (hη : 0 ≤ η) (cfg : KfacCfg) (hf : cfg.fisher ≠ .forwardOnly)
    (layers : List KLayer) (hnd : (layers.map KLayer.name).Nodup) (batches : List (List (Computed ρ))) (hne : batches ≠ [])
    {B : Nat} (hB : ∀ b ∈ batches, b ≠ [] ∧ b.length ≤ B) (l : KLayer) (hl : l ∈ layers) (hw : l.pos.has "weight" = true)
    (hN : cfg.N ≠ 0) (hT : cfg.T ≠ 0) (hC : cfg.C ≠ 0) (hmc : cfg.mcSamples ≠ 0) (hS : l.S ≠ 0) (hSr : ρ.rnd l.S = l.S)
    (hNr : ρ.rnd (cfg.N * rowCount cfg l : Nat) = (cfg.N * rowCount cfg l : Nat)) (hx : InputsWithin η l batches)
    (hg : GradsWithin η cfg l batches) :
    ∃ A G, (kfacFactorsFl π σ cfg layers (batches.map fun b => b.map Computed.fl)).1.get l.name = some A ∧
      (kfacFactorsFl π σ cfg layers (batches.map fun b => b.map Computed.fl)).2.get l.name = some G ∧
      A.dim = l.din + (if l.joint cfg then 1 else 0) ∧ G.dim = l.dout ∧
      ∀ o < G.dim, ∀ o' < G.dim, ∀ i < A.dim, ∀ i' < A.dim,
        |(G.mat o o').val * (A.mat i i').val -
          specGradFactor cfg l (batches.flatten.map Computed.exact) o o' *
            specInputFactor cfg l (batches.flatten.map Computed.exact) i i'| ≤
          ((1 + gradAccuracy ρ π η cfg l B batches.length) * (1 + inputAccuracy ρ η cfg l B batches.length) - 1) *
            (boundGradFactor cfg l batches.flatten o o' * specInputFactor cfg l (batches.flatten.map Computed.bound) i i') := by
  obtain ⟨A, a1, a2, a3⟩ := kfac_input_rounding_within π σ hη cfg layers hnd batches hne hB l hl hw hN hS hSr hNr hx
  obtain ⟨G, g1, g2, g3⟩ := kfac_grad_rounding_within π σ hη cfg hf layers hnd batches hne hB l hl hT hC hmc hS hg
  refine ⟨A, G, a1, g1, a2, g2, fun o ho o' ho' i hi i' hi' => ?_⟩
  obtain ⟨h1, h2⟩ := g3 o ho o' ho'
  obtain ⟨h3, h4⟩ := a3 i hi i' hi'
  rw [add_sub_cancel_left] at h2 h4
  generalize specGradFactor cfg l (batches.flatten.map Computed.exact) o o' = g at *
  generalize specInputFactor cfg l (batches.flatten.map Computed.exact) i i' = a at *
  generalize boundGradFactor cfg l batches.flatten o o' = g' at *
  generalize specInputFactor cfg l (batches.flatten.map Computed.bound) i i' = a' at *
  generalize (G.mat o o').val = y at *
  generalize (A.mat i i').val = z at *
  generalize gradAccuracy ρ π η cfg l B batches.length = eg at *
  generalize inputAccuracy ρ η cfg l B batches.length = ea at *
  have hg0 : 0 ≤ g' := (abs_nonneg _).trans h1
  have e : y * z - g * a = (y - g) * (z - a) + (y - g) * a + g * (z - a) := by ring
  have t1 : |(y - g) * (z - a)| ≤ (eg * g') * (ea * a') := by
    rw [abs_mul]
    exact mul_le_mul h2 h4 (abs_nonneg _) ((abs_nonneg _).trans h2)
  have t2 : |(y - g) * a| ≤ (eg * g') * a' := by
    rw [abs_mul]
    exact mul_le_mul h2 h3 (abs_nonneg _) ((abs_nonneg _).trans h2)
  have t3 : |g * (z - a)| ≤ g' * (ea * a') := by
    rw [abs_mul]
    exact mul_le_mul h1 h4 (abs_nonneg _) hg0
  rw [e]
  refine (abs_add_le _ _).trans ((add_le_add ((abs_add_le _ _).trans (add_le_add t1 t2)) t3).trans (le_of_eq ?_))
  ring

end blocks

/-! ## Examples -/

/-- Additions from the first to the last number. -/
noncomputable def seqSum (ρ : Rounding) : FlSum ρ where
  sum l := foldEntry id l 0
  close l := by
    have := foldEntry_zero_within (ρ := ρ) id Fl.val (fun x => |x.val|) 1 le_rfl l fun b _ => ⟨le_rfl, by simp⟩
    simpa using this

/-- A sum of one number is exact, whatever the order. -/
theorem flSum_singleton {ρ : Rounding} (σ : FlSum ρ) (x : Fl ρ) : σ.sum [x] = x := by
  have := σ.close [x]
  simp only [List.map_cons, List.map_nil, List.sum_cons, List.sum_nil, add_zero, List.length_cons, List.length_nil, zero_add,
    Nat.sub_self, pow_zero, sub_self, zero_mul] at this
  exact Fl.ext (by linarith [abs_nonpos_iff.mp this])

/-- `(1 + 2⁻²³)²` is rounded to `1 + 2⁻²²`. -/
theorem binary_square : binaryRnd 23 ((1 + (2 : ℝ)⁻¹ ^ 23) * (1 + 2⁻¹ ^ 23)) = 1 + 2⁻¹ ^ 22 := by
  have hl : Int.log 2 |(1 + (2 : ℝ)⁻¹ ^ 23) * (1 + 2⁻¹ ^ 23)| = 0 := by
    rw [abs_of_pos (by positivity)]
    have h1 : (0 : ℤ) ≤ Int.log 2 ((1 + (2 : ℝ)⁻¹ ^ 23) * (1 + 2⁻¹ ^ 23)) :=
      (Int.zpow_le_iff_le_log (by norm_num) (by positivity)).mp (by norm_num)
    have h2 : Int.log 2 ((1 + (2 : ℝ)⁻¹ ^ 23) * (1 + 2⁻¹ ^ 23)) < 1 :=
      (Int.lt_zpow_iff_log_lt (by norm_num) (by positivity)).mp (by norm_num)
    omega
  unfold binaryRnd
  rw [hl]
  have : round ((1 + (2 : ℝ)⁻¹ ^ 23) * (1 + 2⁻¹ ^ 23) / 2 ^ ((0 : ℤ) - (23 : ℕ))) = 2 ^ 23 + 2 := by
    rw [round_eq, Int.floor_eq_iff]
    norm_num
  rw [this]
  norm_num

theorem binary_next : binaryRnd 23 (1 + (2 : ℝ)⁻¹ ^ 23) = 1 + 2⁻¹ ^ 23 := by
  have := binary_exact 23 (2 ^ 23 + 1) (by norm_num) (-23)
  have e : (((2 ^ 23 + 1 : ℤ) : ℝ)) * 2 ^ (-23 : ℤ) = 1 + (2 : ℝ)⁻¹ ^ 23 := by norm_num
  rwa [e] at this

/-- A linear layer without bias. -/
def roundLayer : KLayer := ⟨"l", [("weight", 0)], 2, 1, 1⟩

/-- One datum, KFAC-expand. -/
def roundCfg : KfacCfg := ⟨.empirical, .expand, .mse, false, 1, 1, 1, 1, true⟩

/-- The input of the layer is `(1, 1 + 2⁻²³)`; both numbers are representable in `float32`. -/
noncomputable def roundDatum : FlDatum (binaryFloat 23) :=
  ⟨fun _ _ i => if i = 0 then 1 else Fl.of _ (1 + 2⁻¹ ^ 23), fun _ _ _ _ => 1⟩

/-- **C131** (without damping): the computed factors need not be positive semi-definite, although they are in exact arithmetic (C34).
For one datum with representable inputs, the input factor that is computed in `float32` has a negative eigenvalue. -/
theorem float32_factor_indefinite (π : Rounding) (σ : FlSum (binaryFloat 23)) :
    ∃ F, (kfacFactorsFl π σ roundCfg [roundLayer] [[roundDatum]]).1.get "l" = some F ∧ F.dim = 2 ∧
      ∃ x : Nat → ℝ, quadForm F.dim (fun i j => (F.mat i j).val) x < 0 := by
  refine ⟨inputCovarianceFl σ roundCfg roundLayer [roundDatum], ?_, rfl, fun i => if i = 0 then 1 + 2⁻¹ ^ 23 else -1, ?_⟩
  · have := kfacFactorsFl_fst π σ roundCfg [roundLayer] [[roundDatum]] roundLayer (by simp) (by simp) rfl ([], [])
    exact this
  · have hx1 : (Fl.of (binaryFloat 23) (1 + (2 : ℝ)⁻¹ ^ 23)).val = 1 + 2⁻¹ ^ 23 := binary_next
    have hent : ∀ i j, ((inputCovarianceFl σ roundCfg roundLayer [roundDatum]).mat i j).val =
        binaryRnd 23 ((roundDatum.x "l" 0 i).val * (roundDatum.x "l" 0 j).val) := by
      intro i j
      have e : (inputCovarianceFl σ roundCfg roundLayer [roundDatum]).mat i j =
          σ.sum [roundDatum.x "l" 0 i * roundDatum.x "l" 0 j] / ((1 : Nat) : Fl (binaryFloat 23)) := by
        simp [inputCovarianceFl, gramFl, inputRowsFl, roundCfg, roundLayer, KLayer.joint]
      rw [e, flSum_singleton, Fl.val_div, Fl.val_natCast, Nat.cast_one, (binaryFloat 23).one, div_one, Fl.rnd_val]
      rfl
    have hdim : (inputCovarianceFl σ roundCfg roundLayer [roundDatum]).dim = 2 := rfl
    have h00 : (roundDatum.x "l" 0 0).val = 1 := rfl
    have h01 : (roundDatum.x "l" 0 1).val = 1 + 2⁻¹ ^ 23 := hx1
    have hone : binaryRnd 23 1 = 1 := (binaryFloat 23).one
    simp only [quadForm, hdim, Finset.sum_range_succ, Finset.sum_range_zero, hent, h00, h01, mul_one, one_mul, hone, binary_next,
      binary_square, if_true, one_ne_zero, if_false, zero_add]
    norm_num

/-- A datum whose numbers in the hooks are exact. -/
noncomputable def takenExact {ρ : Rounding} (d : FlDatum ρ) : Computed ρ :=
  ⟨⟨fun n s i => (d.x n s i).val, fun n s o _ _ => (d.g n 0 s o).val, fun _ _ _ => 0, fun _ _ _ => 1⟩, d,
    fun n s i => |(d.x n s i).val|, fun n _ s o => |(d.g n 0 s o).val|⟩

theorem takenExact_inputs {ρ : Rounding} (l : KLayer) (batches : List (List (FlDatum ρ))) :
    InputsWithin 0 l (batches.map fun b => b.map takenExact) := by
  intro b hb d hd s _ i _
  obtain ⟨b', _, rfl⟩ := List.mem_map.mp hb
  obtain ⟨d', _, rfl⟩ := List.mem_map.mp hd
  exact ⟨le_rfl, by simp [takenExact]⟩

/-- Two mini-batches in `float32`, KFAC-reduce with two positions and a bias, three data. -/
def roundCfg' : KfacCfg := ⟨.empirical, .reduce, .mse, false, 1, 3, 1, 1, false⟩

/-- A linear layer with bias and two positions. -/
def roundLayer' : KLayer := ⟨"l", [("weight", 0), ("bias", 1)], 2, 3, 2⟩

theorem takenExact_grads {ρ : Rounding} (batches : List (List (FlDatum ρ))) :
    GradsWithin 0 roundCfg' roundLayer' (batches.map fun b => b.map takenExact) := by
  intro b hb d hd k hk s _ o _
  obtain ⟨b', _, rfl⟩ := List.mem_map.mp hb
  obtain ⟨d', _, rfl⟩ := List.mem_map.mp hd
  have hk0 : k = 0 := Nat.lt_one_iff.mp hk
  subst hk0
  have e : outputGrad roundCfg' roundLayer' (b'.map takenExact).length (takenExact d').exact 0 s o =
      (d'.g roundLayer'.name 0 s o).val := by
    simp [outputGrad, roundCfg', cotangent, takenExact]
  have e2 : cotScale roundCfg' (b'.map (takenExact (ρ := ρ))).length = 1 := by simp [cotScale, roundCfg']
  rw [e, e2, one_mul]
  exact ⟨le_rfl, by simp [takenExact]⟩

/-- The hypotheses of the bound on the blocks hold for all data sets of three data, in two mini-batches. -/
example (σ : FlSum (binaryFloat 23)) (d₁ d₂ d₃ : FlDatum (binaryFloat 23)) :=
  kfac_block_rounding (binaryFloat 52) σ le_rfl roundCfg' (by decide) [roundLayer'] (by simp) ([[d₁, d₂], [d₃]].map fun b => b.map takenExact)
    (by simp) (B := 2) (by simp) roundLayer' (by simp) rfl (by decide) (by decide) (by decide) (by decide) (by decide)
    (binary_natCast 23 2 (by norm_num)) (binary_natCast 23 3 (by norm_num)) (takenExact_inputs _ _) (takenExact_grads _)

/-- The bound on the error of the input factor: `k = 2 · 2 + 2 + 2 = 8` roundings. -/
example : inputAccuracy (binaryFloat 23) 0 roundCfg' roundLayer' 2 2 ≤ 2 * (8 * 2⁻¹ ^ 24) := by
  have h := inputAccuracy_le (binaryFloat 23) roundCfg' roundLayer' 2 2 (by
    simp only [inputRowRoundings, rowCount, roundCfg', roundLayer', binaryFloat]
    norm_num)
  simp only [inputRowRoundings, rowCount, roundCfg', roundLayer', binaryFloat] at h ⊢
  norm_num at h ⊢
  linarith

/-- The input factor of the indefinite example has trace `2` (rounded); with a damping of `10⁻⁵` the damped computed factor is positive
definite. -/
example (π : Rounding) (σ : FlSum (binaryFloat 23)) (x : Nat → ℝ) (hx : ∃ i < 2, x i ≠ 0) :
    ∃ F, (kfacFactorsFl π σ roundCfg [roundLayer] [[roundDatum]]).1.get "l" = some F ∧
      0 < quadForm 2 (fun i j => (F.mat i j).val) x + 10⁻¹ ^ 5 * ∑ i ∈ Finset.range 2, x i ^ 2 := by
  have hx1 : (Fl.of (binaryFloat 23) (1 + (2 : ℝ)⁻¹ ^ 23)).val = 1 + 2⁻¹ ^ 23 := binary_next
  obtain ⟨F, h1, h2⟩ := kfac_input_rounding_damped π σ le_rfl roundCfg [roundLayer] (by simp)
    ([[roundDatum]].map fun b => b.map takenExact) (by simp) (B := 1) (by simp) roundLayer (by simp) rfl (by decide) (by decide)
    (binary_natCast 23 1 (by norm_num)) (binary_natCast 23 1 (by norm_num)) (takenExact_inputs _ _) (δ := 10⁻¹ ^ 5) (by
      have h := inputAccuracy_le (binaryFloat 23) roundCfg roundLayer 1 1 (by
        simp only [inputRowRoundings, rowCount, roundCfg, roundLayer, binaryFloat]
        norm_num)
      have htr : (∑ i ∈ Finset.range (roundLayer.din + if roundLayer.joint roundCfg then 1 else 0),
          specInputFactor roundCfg roundLayer
            (([[roundDatum]].map fun b => b.map takenExact).flatten.map Computed.bound) i i) ≤ 3 := by
        have ent : ∀ i, specInputFactor roundCfg roundLayer (([[roundDatum]].map fun b => b.map takenExact).flatten.map Computed.bound) i i =
            (roundDatum.x "l" 0 i).val ^ 2 := by
          intro i
          simp [specInputFactor, roundCfg, roundLayer, specInputVec, KLayer.joint, Computed.bound, takenExact, sq]
        have h0 : (roundDatum.x "l" 0 0).val = 1 := rfl
        have h1 : (roundDatum.x "l" 0 1).val = 1 + 2⁻¹ ^ 23 := hx1
        simp only [ent]
        change ∑ i ∈ Finset.range 2, _ ≤ _
        rw [Finset.sum_range_succ, Finset.sum_range_one, h0, h1]
        norm_num
      simp only [inputRowRoundings, rowCount, roundCfg, roundLayer, binaryFloat] at h
      have h0 := inputAccuracy_nonneg (ρ := binaryFloat 23) le_rfl roundCfg roundLayer 1 1
      refine lt_of_le_of_lt (mul_le_mul_of_nonneg_left htr h0) ?_
      norm_num at h ⊢
      simp only [roundCfg, roundLayer, binaryFloat]
      linarith)
  have hF := (kfacFactorsFl_fst π σ roundCfg [roundLayer] [[roundDatum]] roundLayer (by simp) (by simp) rfl ([], [])).symm.trans h1
  have hd : F.dim = 2 := by
    obtain rfl := Option.some.inj hF
    rfl
  rw [hd] at h2
  exact ⟨F, h1, h2 x hx⟩

end Curvlinops
