import Verif.Model.KfacRounding
import Verif.Props.Rounding
import Verif.Props.KfacFactors

/-!
# C131: rounding errors of KFAC's factors
-/

namespace Curvlinops

section sums

variable {ρ : Rounding} {β : Type _}

/-- A number that was computed with accuracy `g`: relative to the bound `A` on the exact value `a`. -/
def Within (g : ℝ) (x : Fl ρ) (a A : ℝ) : Prop := |a| ≤ A ∧ |x.val - a| ≤ (g - 1) * A

theorem Within.nonneg {g : ℝ} {x : Fl ρ} {a A : ℝ} (h : Within g x a A) : 0 ≤ A := (abs_nonneg _).trans h.1

theorem Within.mono {g h : ℝ} {x : Fl ρ} {a A : ℝ} (hx : Within g x a A) (hgh : g ≤ h) : Within h x a A :=
  ⟨hx.1, hx.2.trans (mul_le_mul_of_nonneg_right (by linarith) hx.nonneg)⟩

theorem within_one {g : ℝ} (hg : 1 ≤ g) : Within g (1 : Fl ρ) 1 1 := ⟨by simp, by simpa using hg⟩

theorem list_sum_abs_le (L : List β) (a A : β → ℝ) (h : ∀ t ∈ L, |a t| ≤ A t) : |(L.map a).sum| ≤ (L.map A).sum := by
  induction L with
  | nil => simp
  | cons t L ih =>
    rw [List.map_cons, List.map_cons, List.sum_cons, List.sum_cons]
    exact (abs_add_le _ _).trans (add_le_add (h t (by simp)) (ih fun t' h' => h t' (by simp [h'])))

theorem one_le_pow_u (n : Nat) : 1 ≤ (1 + ρ.u) ^ n := one_le_pow₀ (by linarith [ρ.nonneg])

/-- Sums in any order. -/
theorem Within.sum (σ : FlSum ρ) {g : ℝ} (L : List β) (p : β → Fl ρ) (a A : β → ℝ)
    (h : ∀ t ∈ L, Within g (p t) (a t) (A t)) :
    Within (g * (1 + ρ.u) ^ (L.length - 1)) (σ.sum (L.map p)) (L.map a).sum (L.map A).sum := by
  refine ⟨list_sum_abs_le L a A fun t ht => (h t ht).1, ?_⟩
  have h1 := σ.close (L.map p)
  rw [List.map_map, List.map_map, List.length_map] at h1
  have h2 : (L.map ((fun x : Fl ρ => |x.val|) ∘ p)).sum ≤ g * (L.map A).sum := by
    rw [← list_sum_map_mul_left]
    refine List.sum_le_sum fun t ht => ?_
    obtain ⟨h3, h4⟩ := h t ht
    have := abs_sub_abs_le_abs_sub (p t).val (a t)
    simp only [Function.comp_apply]
    linarith
  have h3 : |(L.map (Fl.val ∘ p)).sum - (L.map a).sum| ≤ (g - 1) * (L.map A).sum := by
    have e : (L.map (Fl.val ∘ p)).sum - (L.map a).sum = (L.map fun t => (p t).val - a t).sum := by
      clear h h1 h2
      induction L with
      | nil => simp
      | cons t L ih => simp only [List.map_cons, List.sum_cons, Function.comp_apply, ← ih]; ring
    rw [e, ← list_sum_map_mul_left]
    exact list_sum_abs_le L _ _ fun t ht => (h t ht).2
  have h4 := one_le_pow_u (ρ := ρ) (L.length - 1)
  have h5 := mul_le_mul_of_nonneg_left h2 (sub_nonneg.mpr h4)
  have h6 : |(σ.sum (L.map p)).val - (L.map a).sum| ≤
      |(σ.sum (L.map p)).val - (L.map (Fl.val ∘ p)).sum| + |(L.map (Fl.val ∘ p)).sum - (L.map a).sum| := abs_sub_le _ _ _
  linarith

theorem Within.mul {g h : ℝ} (hg : 1 ≤ g) {x y : Fl ρ} {a b A B : ℝ} (hx : Within g x a A) (hy : Within h y b B) :
    Within (g * h * (1 + ρ.u)) (x * y) (a * b) (A * B) :=
  ⟨by rw [abs_mul]; exact mul_le_mul hx.1 hy.1 (abs_nonneg _) hx.nonneg,
    mul_within x y a b A B g h hg hx.1 hy.1 hx.2 hy.2⟩

/-- Division by a representable positive integer. -/
theorem Within.div {g : ℝ} {x : Fl ρ} {a A : ℝ} (hx : Within g x a A) {n : Nat} (hn : ρ.rnd n = n) (h0 : n ≠ 0) :
    Within (g * (1 + ρ.u)) (x / (n : Fl ρ)) (a / n) (A / n) := by
  have hp : (0 : ℝ) < n := by exact_mod_cast Nat.pos_of_ne_zero h0
  have h1 : |a / n| ≤ A / n := by
    rw [abs_div, abs_of_pos hp]
    exact div_le_div_of_nonneg_right hx.1 hp.le
  refine ⟨h1, ?_⟩
  rw [Fl.val_div, Fl.val_natCast, hn]
  refine rnd_within _ _ _ _ h1 ?_
  rw [← sub_div, abs_div, abs_of_pos hp, ← mul_div_assoc]
  exact div_le_div_of_nonneg_right hx.2 hp.le

/-- Gram matrices. -/
theorem Within.gram (σ : FlSum ρ) {g : ℝ} (hg : 1 ≤ g) (L : List β) (p q : β → Fl ρ) (a A b B : β → ℝ)
    (hp : ∀ t ∈ L, Within g (p t) (a t) (A t)) (hq : ∀ t ∈ L, Within g (q t) (b t) (B t)) :
    Within (g * g * (1 + ρ.u) ^ (L.length - 1 + 1)) (σ.sum (L.map fun t => p t * q t)) (L.map fun t => a t * b t).sum
      (L.map fun t => A t * B t).sum := by
  have := Within.sum σ L (fun t => p t * q t) (fun t => a t * b t) (fun t => A t * B t)
    fun t ht => (hp t ht).mul hg (hq t ht)
  rwa [mul_assoc (g * g), ← pow_succ'] at this

/-- Accumulation in a dictionary: the first value is stored, the others are added. -/
theorem Within.accumulate {g : ℝ} (hg : 1 ≤ g) (L : List β) (p : β → Fl ρ) (a A : β → ℝ)
    (h : ∀ t ∈ L, Within g (p t) (a t) (A t)) :
    Within (g * (1 + ρ.u) ^ (L.length - 1)) (foldEntry p L 0) (L.map a).sum (L.map A).sum :=
  ⟨list_sum_abs_le L a A fun t ht => (h t ht).1, foldEntry_zero_within p a A g hg L h⟩

end sums

/-! ## The dictionaries -/

section dictionaries

variable {ρ : Rounding}

/-- Effect on an entry of the dictionary. -/
noncomputable def accOne (o : Option (Factor (Fl ρ))) (c : Factor (Fl ρ)) : Option (Factor (Fl ρ)) :=
  match o with
  | none => some c
  | some f => some ⟨f.dim, fun i j => f.mat i j + c.mat i j⟩

theorem addCovFl_get (d : Dict (Factor (Fl ρ))) (n name : String) (c : Factor (Fl ρ)) :
    (addCovFl d n c).get name = if name = n then accOne (d.get n) c else d.get name := by
  unfold addCovFl accOne
  cases h : d.get n <;> simp [Dict.get_set]

theorem foldl_addCovFl_notMem (ls : List KLayer) (c : KLayer → Factor (Fl ρ)) (name : String) (h : ∀ m ∈ ls, m.name ≠ name)
    (d : Dict (Factor (Fl ρ))) : (ls.foldl (fun d m => addCovFl d m.name (c m)) d).get name = d.get name := by
  induction ls generalizing d with
  | nil => rfl
  | cons m ms ih =>
    rw [List.foldl_cons, ih (fun m' h' => h m' (by simp [h'])), addCovFl_get, if_neg (Ne.symm (h m (by simp)))]

theorem foldl_addCovFl (ls : List KLayer) (c : KLayer → Factor (Fl ρ)) (l : KLayer) (hl : l ∈ ls)
    (hnd : (ls.map KLayer.name).Nodup) (d : Dict (Factor (Fl ρ))) :
    (ls.foldl (fun d m => addCovFl d m.name (c m)) d).get l.name = accOne (d.get l.name) (c l) := by
  induction ls generalizing d with
  | nil => simp at hl
  | cons m ms ih =>
    rw [List.map_cons, List.nodup_cons] at hnd
    rw [List.foldl_cons]
    rcases List.mem_cons.mp hl with rfl | hl
    · rw [foldl_addCovFl_notMem ms c l.name fun m' h' e => hnd.1 (List.mem_map.mpr ⟨m', h', e⟩), addCovFl_get, if_pos rfl]
    · rw [ih hl hnd.2, addCovFl_get, if_neg]
      exact fun e => hnd.1 (List.mem_map.mpr ⟨l, hl, e⟩)

theorem foldl_accOne_some (cs : List (Factor (Fl ρ))) (f : Factor (Fl ρ)) :
    cs.foldl accOne (some f) = some ⟨f.dim, fun i j => foldEntry (fun c : Factor (Fl ρ) => c.mat i j) cs (f.mat i j)⟩ := by
  induction cs generalizing f with
  | nil => rfl
  | cons c cs ih => rw [List.foldl_cons, accOne, ih]; rfl

/-- A non-empty list of covariances accumulates entry by entry. -/
theorem foldl_accOne_none (cs : List (Factor (Fl ρ))) (n : Nat) (hne : cs ≠ []) (hdim : ∀ c ∈ cs, c.dim = n) :
    cs.foldl accOne none = some ⟨n, fun i j => foldEntry (fun c : Factor (Fl ρ) => c.mat i j) cs 0⟩ := by
  cases cs with
  | nil => exact absurd rfl hne
  | cons c cs =>
    rw [List.foldl_cons, accOne, foldl_accOne_some, hdim c (by simp)]
    simp only [foldEntry_cons, Fl.zero_add']

theorem kfacFactorsFl_fst (π : Rounding) (σ : FlSum ρ) (cfg : KfacCfg) (layers : List KLayer)
    (batches : List (List (FlDatum ρ))) (l : KLayer) (hl : l ∈ layers) (hnd : (layers.map KLayer.name).Nodup)
    (hw : l.pos.has "weight" = true) (st : Dict (Factor (Fl ρ)) × Dict (Factor (Fl ρ))) :
    (batches.foldl (fun st b => (forwardFl σ cfg layers b st.1, backwardFl π σ cfg layers b st.2)) st).1.get l.name =
      (batches.map (inputCovarianceFl σ cfg l)).foldl accOne (st.1.get l.name) := by
  induction batches generalizing st with
  | nil => rfl
  | cons b bs ih =>
    rw [List.foldl_cons, ih, List.map_cons, List.foldl_cons]
    congr 1
    exact foldl_addCovFl _ _ l (List.mem_filter.mpr ⟨hl, hw⟩) (hnd.sublist (List.filter_sublist.map _)) _

theorem passes_get (π : Rounding) (σ : FlSum ρ) (cfg : KfacCfg) (layers : List KLayer) (b : List (FlDatum ρ)) (l : KLayer)
    (hl : l ∈ layers) (hnd : (layers.map KLayer.name).Nodup) (ks : List Nat) (G : Dict (Factor (Fl ρ))) :
    (ks.foldl (fun G k => layers.reverse.foldl (fun G l => addCovFl G l.name (gradCovarianceFl π σ cfg l b k)) G) G).get l.name =
      (ks.map (gradCovarianceFl π σ cfg l b)).foldl accOne (G.get l.name) := by
  induction ks generalizing G with
  | nil => rfl
  | cons k ks ih =>
    rw [List.foldl_cons, ih, List.map_cons, List.foldl_cons]
    congr 1
    exact foldl_addCovFl _ _ l (List.mem_reverse.mpr hl) (by rw [List.map_reverse, List.nodup_reverse]; exact hnd) _

theorem kfacFactorsFl_snd (π : Rounding) (σ : FlSum ρ) (cfg : KfacCfg) (hf : cfg.fisher ≠ .forwardOnly) (layers : List KLayer)
    (batches : List (List (FlDatum ρ))) (l : KLayer) (hl : l ∈ layers) (hnd : (layers.map KLayer.name).Nodup)
    (st : Dict (Factor (Fl ρ)) × Dict (Factor (Fl ρ))) :
    (batches.foldl (fun st b => (forwardFl σ cfg layers b st.1, backwardFl π σ cfg layers b st.2)) st).2.get l.name =
      (batches.flatMap fun b => (List.range (numPasses cfg)).map (gradCovarianceFl π σ cfg l b)).foldl accOne
        (st.2.get l.name) := by
  induction batches generalizing st with
  | nil => rfl
  | cons b bs ih =>
    rw [List.foldl_cons, ih, List.flatMap_cons, List.foldl_append]
    congr 1
    rw [← passes_get π σ cfg layers b l hl hnd]
    unfold backwardFl
    cases hf' : cfg.fisher <;> first | rfl | exact absurd hf' hf

end dictionaries

/-! ## The factors -/

section factors

variable {ρ : Rounding}

/-- One datum: in exact arithmetic, as computed, and bounds on the absolute values: `ax` of the layers' inputs, `ag` of the gradients
of the unreduced loss with respect to the layers' outputs. -/
structure Computed (ρ : Rounding) where
  exact : KDatum
  fl : FlDatum ρ
  ax : String → Nat → Nat → ℝ
  ag : String → Nat → Nat → Nat → ℝ

/-- The datum whose layer inputs are the bounds. -/
def Computed.bound (d : Computed ρ) : KDatum := ⟨d.ax, fun _ _ _ _ _ => 0, fun _ _ _ => 0, fun _ _ _ => 0⟩

/-- The layer's inputs were computed with the accuracy `η`. -/
def InputsWithin (η : ℝ) (l : KLayer) (batches : List (List (Computed ρ))) : Prop :=
  ∀ b ∈ batches, ∀ d ∈ b, ∀ s < l.S, ∀ i < l.din, Within (1 + η) (d.fl.x l.name s i) (d.exact.x l.name s i) (d.ax l.name s i)

/-- Number of rows per datum. -/
def rowCount (cfg : KfacCfg) (l : KLayer) : Nat :=
  match cfg.approx with
  | .expand => l.S
  | .reduce => 1

/-- Row `s` of a datum in exact arithmetic. -/
noncomputable def exactRow (cfg : KfacCfg) (l : KLayer) (d : KDatum) (s : Nat) : Nat → ℝ :=
  match cfg.approx with
  | .expand => specInputVec cfg l d s
  | .reduce => specMeanInput cfg l d

/-- Row `s` of a datum as computed. -/
noncomputable def flRow (σ : FlSum ρ) (cfg : KfacCfg) (l : KLayer) (d : FlDatum ρ) (s : Nat) : Nat → Fl ρ := fun i =>
  if l.joint cfg = true ∧ i = l.din then 1 else
    match cfg.approx with
    | .expand => d.x l.name s i
    | .reduce => σ.sum ((List.range l.S).map fun s => d.x l.name s i) / (l.S : Fl ρ)

/-- The rows of a batch. -/
def rowIndex (cfg : KfacCfg) (l : KLayer) {δ : Type _} (b : List δ) : List (δ × Nat) :=
  b.flatMap fun d => (List.range (rowCount cfg l)).map fun s => (d, s)

theorem rowIndex_length (cfg : KfacCfg) (l : KLayer) {δ : Type _} (b : List δ) :
    (rowIndex cfg l b).length = b.length * rowCount cfg l := by
  unfold rowIndex
  induction b with
  | nil => simp
  | cons d b ih => rw [List.flatMap_cons, List.length_append, ih]; simp; ring

theorem mem_rowIndex {cfg : KfacCfg} {l : KLayer} {δ : Type _} {b : List δ} {t : δ × Nat} (h : t ∈ rowIndex cfg l b) :
    t.1 ∈ b ∧ t.2 < rowCount cfg l := by
  obtain ⟨d, hd, h⟩ := List.mem_flatMap.mp h
  obtain ⟨s, hs, rfl⟩ := List.mem_map.mp h
  exact ⟨hd, List.mem_range.mp hs⟩

theorem flatMap_map' {α β γ : Type _} (b : List α) (f : α → β) (g : β → List γ) :
    (b.map f).flatMap g = b.flatMap fun d => g (f d) := by
  induction b with
  | nil => rfl
  | cons d b ih => simp [ih]

theorem inputRowsFl_eq (σ : FlSum ρ) (cfg : KfacCfg) (l : KLayer) {δ : Type _} (f : δ → FlDatum ρ) (b : List δ) :
    (b.map f).flatMap (inputRowsFl σ cfg l) = (rowIndex cfg l b).map fun t => flRow σ cfg l (f t.1) t.2 := by
  rw [flatMap_map', rowIndex, List.map_flatMap]
  refine List.flatMap_congr fun d _ => ?_
  rw [List.map_map]
  unfold inputRowsFl rowCount
  cases ha : cfg.approx with
  | expand =>
    simp only
    refine List.map_congr_left fun s _ => ?_
    funext i
    simp only [Function.comp_apply, flRow, ha]
  | reduce =>
    simp only [List.range_one, List.map_cons, List.map_nil, List.cons.injEq, and_true]
    funext i
    simp only [Function.comp_apply, flRow, ha]

/-- Roundings in a row of the input matrix. -/
def inputRowRoundings (cfg : KfacCfg) (l : KLayer) : Nat :=
  match cfg.approx with
  | .expand => 0
  | .reduce => l.S

theorem finset_range_list (n : Nat) (f : Nat → ℝ) : ∑ s ∈ Finset.range n, f s = ((List.range n).map f).sum :=
  (sum_range_list n f).symm

theorem flRow_within (σ : FlSum ρ) {η : ℝ} (hη : 0 ≤ η) (cfg : KfacCfg) (l : KLayer) (hS : l.S ≠ 0) (hSr : ρ.rnd l.S = l.S)
    (d : Computed ρ)
    (hd : ∀ s < l.S, ∀ i < l.din, Within (1 + η) (d.fl.x l.name s i) (d.exact.x l.name s i) (d.ax l.name s i))
    {s i : Nat} (hs : s < rowCount cfg l) (hi : i < l.din + if l.joint cfg then 1 else 0) :
    Within ((1 + η) * (1 + ρ.u) ^ inputRowRoundings cfg l) (flRow σ cfg l d.fl s i) (exactRow cfg l d.exact s i)
      (exactRow cfg l d.bound s i) := by
  have h1 : 1 ≤ (1 + η) * (1 + ρ.u) ^ inputRowRoundings cfg l :=
    one_le_mul_of_one_le_of_one_le (by linarith) (one_le_pow_u _)
  by_cases hj : l.joint cfg = true ∧ i = l.din
  · have e1 : flRow σ cfg l d.fl s i = 1 := by rw [flRow, if_pos hj]
    have e2 : ∀ k : KDatum, exactRow cfg l k s i = 1 := by
      intro k
      unfold exactRow
      cases cfg.approx <;> simp [specInputVec, specMeanInput, hj]
    rw [e1, e2, e2]
    exact within_one h1
  · have hi' : i < l.din := by
      by_cases hjt : l.joint cfg = true
      · rw [if_pos hjt] at hi
        have : i ≠ l.din := fun e => hj ⟨hjt, e⟩
        omega
      · rw [if_neg hjt] at hi; exact hi
    unfold flRow
    rw [if_neg hj]
    unfold exactRow inputRowRoundings
    unfold rowCount at hs
    cases ha : cfg.approx with
    | expand =>
      simp only [ha] at hs
      simp only [specInputVec, if_neg hj, pow_zero, mul_one]
      exact hd s hs i hi'
    | reduce =>
      simp only [specMeanInput, if_neg hj]
      rw [finset_range_list, finset_range_list]
      have := (Within.sum σ (List.range l.S) (fun s => d.fl.x l.name s i) (fun s => d.exact.x l.name s i)
        (fun s => d.bound.x l.name s i) fun s hs => hd s (List.mem_range.mp hs) i hi').div hSr hS
      rw [List.length_range, mul_assoc, ← pow_succ, Nat.sub_add_cancel (Nat.one_le_iff_ne_zero.mpr hS)] at this
      exact this

/-- The specification as a sum over batches and rows. -/
theorem specInputFactor_rows (cfg : KfacCfg) (l : KLayer) {δ : Type _} (f : δ → KDatum) (batches : List (List δ)) (i j : Nat) :
    specInputFactor cfg l (batches.flatten.map f) i j = (batches.map fun b =>
      ((rowIndex cfg l b).map fun t => exactRow cfg l (f t.1) t.2 i * exactRow cfg l (f t.1) t.2 j).sum /
        ((cfg.N * rowCount cfg l : Nat) : ℝ)).sum := by
  have key : ∀ b : List δ, ((rowIndex cfg l b).map fun t => exactRow cfg l (f t.1) t.2 i * exactRow cfg l (f t.1) t.2 j).sum =
      (b.map fun d => ∑ s ∈ Finset.range (rowCount cfg l), exactRow cfg l (f d) s i * exactRow cfg l (f d) s j).sum := by
    intro b
    unfold rowIndex
    induction b with
    | nil => rfl
    | cons d b ih =>
      rw [List.flatMap_cons, List.map_append, List.sum_append, ih, List.map_cons, List.sum_cons, List.map_map,
        finset_range_list]
      rfl
  have key2 : (fun b : List δ => ((rowIndex cfg l b).map fun t => exactRow cfg l (f t.1) t.2 i * exactRow cfg l (f t.1) t.2 j).sum /
      ((cfg.N * rowCount cfg l : Nat) : ℝ)) = fun b => 1 / ((cfg.N * rowCount cfg l : Nat) : ℝ) *
      (b.map fun d => ∑ s ∈ Finset.range (rowCount cfg l), exactRow cfg l (f d) s i * exactRow cfg l (f d) s j).sum := by
    funext b
    rw [key, div_eq_mul_one_div, mul_comm]
  rw [key2, list_sum_map_mul_left, ← list_sum_map_flatten]
  unfold specInputFactor rowCount exactRow
  rw [List.map_map]
  cases ha : cfg.approx <;> simp [Function.comp_def]

/-- The accuracy of the input factor for `n` batches of at most `B` data. -/
noncomputable def inputAccuracy (ρ : Rounding) (η : ℝ) (cfg : KfacCfg) (l : KLayer) (B n : Nat) : ℝ :=
  (1 + η) ^ 2 * (1 + ρ.u) ^ (2 * inputRowRoundings cfg l + B * rowCount cfg l + n) - 1

theorem rowCount_pos {cfg : KfacCfg} {l : KLayer} (hS : l.S ≠ 0) : 0 < rowCount cfg l := by
  unfold rowCount
  cases cfg.approx with
  | expand => exact Nat.pos_of_ne_zero hS
  | reduce => exact Nat.one_pos

theorem kfac_input_rounding_within (π : Rounding) (σ : FlSum ρ) {η : ℝ} (hη : 0 ≤ η) (cfg : KfacCfg) (layers : List KLayer)
    (hnd : (layers.map KLayer.name).Nodup) (batches : List (List (Computed ρ))) (hne : batches ≠ [])
    {B : Nat} (hB : ∀ b ∈ batches, b ≠ [] ∧ b.length ≤ B) (l : KLayer) (hl : l ∈ layers) (hw : l.pos.has "weight" = true) (hN : cfg.N ≠ 0)
    (hS : l.S ≠ 0) (hSr : ρ.rnd l.S = l.S) (hNr : ρ.rnd (cfg.N * rowCount cfg l : Nat) = (cfg.N * rowCount cfg l : Nat))
    (hx : InputsWithin η l batches) :
    ∃ F, (kfacFactorsFl π σ cfg layers (batches.map fun b => b.map Computed.fl)).1.get l.name = some F ∧
      F.dim = l.din + (if l.joint cfg then 1 else 0) ∧
      ∀ i < F.dim, ∀ j < F.dim,
        Within (1 + inputAccuracy ρ η cfg l B batches.length) (F.mat i j)
          (specInputFactor cfg l (batches.flatten.map Computed.exact) i j)
          (specInputFactor cfg l (batches.flatten.map Computed.bound) i j) := by
  refine ⟨⟨_, fun i j => foldEntry (fun c : Factor (Fl ρ) => c.mat i j)
    ((batches.map fun b => b.map Computed.fl).map (inputCovarianceFl σ cfg l)) 0⟩, ?_, rfl, fun i hi j hj => ?_⟩
  · rw [kfacFactorsFl, kfacFactorsFl_fst π σ cfg layers _ l hl hnd hw]
    exact foldl_accOne_none _ _ (by simpa using hne) fun c hc => by
      obtain ⟨b, _, rfl⟩ := List.mem_map.mp hc
      rfl
  · set g := (1 + η) * (1 + ρ.u) ^ inputRowRoundings cfg l with hg
    have hg1 : 1 ≤ g := one_le_mul_of_one_le_of_one_le (by linarith) (one_le_pow_u _)
    have hrc := rowCount_pos (cfg := cfg) hS
    have step : ∀ b ∈ batches, Within (g * g * (1 + ρ.u) ^ (B * rowCount cfg l + 1))
        ((inputCovarianceFl σ cfg l (b.map Computed.fl)).mat i j)
        (((rowIndex cfg l b).map fun t => exactRow cfg l t.1.exact t.2 i * exactRow cfg l t.1.exact t.2 j).sum /
          ((cfg.N * rowCount cfg l : Nat) : ℝ))
        (((rowIndex cfg l b).map fun t => exactRow cfg l t.1.bound t.2 i * exactRow cfg l t.1.bound t.2 j).sum /
          ((cfg.N * rowCount cfg l : Nat) : ℝ)) := by
      intro b hb
      have hrow : ∀ (i : Nat), i < l.din + (if l.joint cfg then 1 else 0) → ∀ t ∈ rowIndex cfg l b, Within g (flRow σ cfg l t.1.fl t.2 i)
          (exactRow cfg l t.1.exact t.2 i) (exactRow cfg l t.1.bound t.2 i) := by
        intro i hi t ht
        obtain ⟨h1, h2⟩ := mem_rowIndex ht
        exact flRow_within σ hη cfg l hS hSr t.1 (hx b hb t.1 h1) h2 hi
      have h1 := (Within.gram σ hg1 (rowIndex cfg l b) _ _ _ _ _ _ (hrow i hi) (hrow j hj)).div hNr
        (Nat.mul_ne_zero hN hrc.ne')
      simp only [inputCovarianceFl, gramFl, inputRowsFl_eq, List.map_map]
      refine h1.mono ?_
      rw [mul_assoc, ← pow_succ]
      refine mul_le_mul_of_nonneg_left (pow_le_pow_right₀ (by linarith [ρ.nonneg]) ?_) (by nlinarith)
      rw [rowIndex_length]
      have h2 : b.length * rowCount cfg l ≤ B * rowCount cfg l := Nat.mul_le_mul_right _ (hB b hb).2
      have h3 : 1 ≤ b.length * rowCount cfg l :=
        Nat.mul_pos (List.length_pos_iff.mpr (hB b hb).1) hrc
      omega
    have hacc := Within.accumulate (one_le_mul_of_one_le_of_one_le (one_le_mul_of_one_le_of_one_le hg1 hg1) (one_le_pow_u _))
      batches (fun b => (inputCovarianceFl σ cfg l (b.map Computed.fl)).mat i j) _ _ step
    rw [← specInputFactor_rows cfg l Computed.exact, ← specInputFactor_rows cfg l Computed.bound] at hacc
    have e : foldEntry (fun c : Factor (Fl ρ) => c.mat i j)
        ((batches.map fun b => b.map Computed.fl).map (inputCovarianceFl σ cfg l)) 0 =
        foldEntry (fun b => (inputCovarianceFl σ cfg l (b.map Computed.fl)).mat i j) batches 0 := by
      rw [List.map_map]
      simp only [foldEntry, List.foldl_map, Function.comp_apply]
    have hn : 1 ≤ batches.length := List.length_pos_iff.mpr hne
    have hexp : g * g * (1 + ρ.u) ^ (B * rowCount cfg l + 1) * (1 + ρ.u) ^ (batches.length - 1) - 1 =
        1 + inputAccuracy ρ η cfg l B batches.length - 1 := by
      rw [inputAccuracy, hg, show 2 * inputRowRoundings cfg l + B * rowCount cfg l + batches.length =
        inputRowRoundings cfg l + inputRowRoundings cfg l + (B * rowCount cfg l + 1) + (batches.length - 1) by omega, pow_add,
        pow_add, pow_add]
      ring
    refine ⟨hacc.1, ?_⟩
    rw [← hexp]
    simpa only [e] using hacc.2

/-- **C131** (input factor): in floating point arithmetic with unit round-off `u`, for `n` mini-batches with at most `B` data each, if the
layer's inputs were computed with the accuracy `η` relative to bounds, the computed input factor differs from the exact one by at most
`(1 + η)² (1 + u)^k - 1` times the input factor of the bounds, entry by entry. Here `k = B S + n` for KFAC-expand and
`k = 2 S + B + n` for KFAC-reduce, with `S` the number of positions. The sums inside torch can be in any order. -/
theorem kfac_input_rounding (π : Rounding) (σ : FlSum ρ) {η : ℝ} (hη : 0 ≤ η) (cfg : KfacCfg) (layers : List KLayer)
    (hnd : (layers.map KLayer.name).Nodup) (batches : List (List (Computed ρ))) (hne : batches ≠ [])
    {B : Nat} (hB : ∀ b ∈ batches, b ≠ [] ∧ b.length ≤ B) (l : KLayer) (hl : l ∈ layers) (hw : l.pos.has "weight" = true) (hN : cfg.N ≠ 0)
    (hS : l.S ≠ 0) (hSr : ρ.rnd l.S = l.S) (hNr : ρ.rnd (cfg.N * rowCount cfg l : Nat) = (cfg.N * rowCount cfg l : Nat))
    (hx : InputsWithin η l batches) :
    ∃ F, (kfacFactorsFl π σ cfg layers (batches.map fun b => b.map Computed.fl)).1.get l.name = some F ∧
      F.dim = l.din + (if l.joint cfg then 1 else 0) ∧
      ∀ i < F.dim, ∀ j < F.dim,
        |(F.mat i j).val - specInputFactor cfg l (batches.flatten.map Computed.exact) i j| ≤
          inputAccuracy ρ η cfg l B batches.length * specInputFactor cfg l (batches.flatten.map Computed.bound) i j := by
  obtain ⟨F, h1, h2, h3⟩ := kfac_input_rounding_within π σ hη cfg layers hnd batches hne hB l hl hw hN hS hSr hNr hx
  exact ⟨F, h1, h2, fun i hi j hj => by simpa using (h3 i hi j hj).2⟩

/-! ## Gradient factors -/

/-- The gradients with respect to the layer's outputs were computed with the accuracy `η`. In a batch with `b` data they are the
gradients of the unreduced loss times `cotScale cfg b`. -/
def GradsWithin (η : ℝ) (cfg : KfacCfg) (l : KLayer) (batches : List (List (Computed ρ))) : Prop :=
  ∀ b ∈ batches, ∀ d ∈ b, ∀ k < numPasses cfg, ∀ s < l.S, ∀ o < l.dout, Within (1 + η) (d.fl.g l.name k s o)
    (outputGrad cfg l b.length d.exact k s o) (cotScale cfg b.length * d.ag l.name k s o)

/-- Row `s` of a matrix of gradients. -/
noncomputable def gradRow (cfg : KfacCfg) (l : KLayer) (g : Nat → Nat → ℝ) (s : Nat) : Nat → ℝ := fun o =>
  match cfg.approx with
  | .expand => g s o
  | .reduce => ∑ s ∈ Finset.range l.S, g s o

/-- Row `s` as computed. -/
noncomputable def flGradRow (σ : FlSum ρ) (cfg : KfacCfg) (l : KLayer) (k : Nat) (d : FlDatum ρ) (s : Nat) : Nat → Fl ρ := fun o =>
  match cfg.approx with
  | .expand => d.g l.name k s o
  | .reduce => σ.sum ((List.range l.S).map fun s => d.g l.name k s o)

/-- The gradient factor of the bounds: scaled sum of outer products over data, backward passes and positions (expand), or of sums over
positions (reduce). -/
noncomputable def boundGradFactor (cfg : KfacCfg) (l : KLayer) (data : List (Computed ρ)) : Mat ℝ := fun i j =>
  specGradScale cfg * (data.map fun d => ∑ k ∈ Finset.range (numPasses cfg), ∑ s ∈ Finset.range (rowCount cfg l),
    gradRow cfg l (d.ag l.name k) s i * gradRow cfg l (d.ag l.name k) s j).sum

theorem gradRow_mul (cfg : KfacCfg) (l : KLayer) (c : ℝ) (g : Nat → Nat → ℝ) (s o : Nat) :
    gradRow cfg l (fun s o => c * g s o) s o = c * gradRow cfg l g s o := by
  unfold gradRow
  cases cfg.approx with
  | expand => rfl
  | reduce => exact (Finset.mul_sum _ _ _).symm

theorem gradRowsFl_eq (σ : FlSum ρ) (cfg : KfacCfg) (l : KLayer) (k : Nat) {δ : Type _} (f : δ → FlDatum ρ) (b : List δ) :
    (b.map f).flatMap (gradRowsFl σ cfg l k) = (rowIndex cfg l b).map fun t => flGradRow σ cfg l k (f t.1) t.2 := by
  rw [flatMap_map', rowIndex, List.map_flatMap]
  refine List.flatMap_congr fun d _ => ?_
  rw [List.map_map]
  unfold gradRowsFl rowCount
  cases ha : cfg.approx with
  | expand =>
    simp only
    refine List.map_congr_left fun s _ => ?_
    funext i
    simp only [Function.comp_apply, flGradRow, ha]
  | reduce =>
    simp only [List.range_one, List.map_cons, List.map_nil, List.cons.injEq, and_true]
    funext i
    simp only [Function.comp_apply, flGradRow, ha]

theorem gradRows_eq (cfg : KfacCfg) (l : KLayer) (n k : Nat) {δ : Type _} (f : δ → KDatum) (b : List δ) :
    (b.map f).flatMap (gradRows cfg l n k) =
      (rowIndex cfg l b).map fun t => gradRow cfg l (fun s o => outputGrad cfg l n (f t.1) k s o) t.2 := by
  rw [flatMap_map', rowIndex, List.map_flatMap]
  refine List.flatMap_congr fun d _ => ?_
  rw [List.map_map]
  unfold gradRows rowCount
  cases ha : cfg.approx with
  | expand =>
    simp only
    refine List.map_congr_left fun s _ => ?_
    funext i
    simp only [Function.comp_apply, gradRow, ha]
  | reduce =>
    simp only [List.range_one, List.map_cons, List.map_nil, List.cons.injEq, and_true]
    funext i
    simp only [Function.comp_apply, gradRow, ha]

/-- Roundings in a row of the gradient matrix. -/
def gradRowRoundings (cfg : KfacCfg) (l : KLayer) : Nat :=
  match cfg.approx with
  | .expand => 0
  | .reduce => l.S - 1

theorem flGradRow_within (σ : FlSum ρ) {η : ℝ} (cfg : KfacCfg) (l : KLayer) (k : Nat) (d : FlDatum ρ) (g a : Nat → Nat → ℝ) {o : Nat}
    (hd : ∀ s < l.S, Within (1 + η) (d.g l.name k s o) (g s o) (a s o)) {s : Nat} (hs : s < rowCount cfg l) :
    Within ((1 + η) * (1 + ρ.u) ^ gradRowRoundings cfg l) (flGradRow σ cfg l k d s o) (gradRow cfg l g s o)
      (gradRow cfg l a s o) := by
  unfold flGradRow gradRow gradRowRoundings
  unfold rowCount at hs
  cases ha : cfg.approx with
  | expand =>
    simp only [ha] at hs
    simpa using hd s hs
  | reduce =>
    simp only
    rw [finset_range_list, finset_range_list]
    have := Within.sum σ (List.range l.S) (fun s => d.g l.name k s o) (fun s => g s o) (fun s => a s o)
      fun s hs => hd s (List.mem_range.mp hs)
    rwa [List.length_range] at this

theorem correction_nonneg (cfg : KfacCfg) (b : Nat) : 0 ≤ correction cfg b := by
  unfold correction
  split_ifs <;> positivity

theorem correctionFl_within (π : Rounding) (cfg : KfacCfg) (b : Nat) :
    Within ((1 + π.u) * (1 + ρ.u)) (correctionFl ρ π cfg b) (correction cfg b) (correction cfg b) := by
  have h0 := correction_nonneg cfg b
  refine ⟨(abs_of_nonneg h0).le, ?_⟩
  change |ρ.rnd (π.rnd (correction cfg b)) - correction cfg b| ≤ _
  refine rnd_within _ _ _ _ (abs_of_nonneg h0).le ?_
  have := π.close (correction cfg b)
  rw [abs_of_nonneg h0] at this
  simpa using this

/-- The accuracy of the gradient factor for `n` batches of at most `B` data. -/
noncomputable def gradAccuracy (ρ π : Rounding) (η : ℝ) (cfg : KfacCfg) (l : KLayer) (B n : Nat) : ℝ :=
  (1 + η) ^ 2 * (1 + π.u) * (1 + ρ.u) ^ (2 * gradRowRoundings cfg l + B * rowCount cfg l + 1 + n * numPasses cfg) - 1

/-- Batches and backward passes, in the order of the updates. -/
def passIndex (cfg : KfacCfg) {δ : Type _} (batches : List (List δ)) : List (List δ × Nat) :=
  batches.flatMap fun b => (List.range (numPasses cfg)).map fun k => (b, k)

theorem passIndex_length (cfg : KfacCfg) {δ : Type _} (batches : List (List δ)) :
    (passIndex cfg batches).length = batches.length * numPasses cfg := by
  unfold passIndex
  induction batches with
  | nil => simp
  | cons d b ih => rw [List.flatMap_cons, List.length_append, ih]; simp; ring

theorem mem_passIndex {cfg : KfacCfg} {δ : Type _} {batches : List (List δ)} {t : List δ × Nat} (h : t ∈ passIndex cfg batches) :
    t.1 ∈ batches ∧ t.2 < numPasses cfg := by
  obtain ⟨d, hd, h⟩ := List.mem_flatMap.mp h
  obtain ⟨s, hs, rfl⟩ := List.mem_map.mp h
  exact ⟨hd, List.mem_range.mp hs⟩

/-- The exact gradient factor as a sum over batches, backward passes and rows. -/
theorem specGradFactor_rows (cfg : KfacCfg) (hf : cfg.fisher ≠ .forwardOnly) (hT : cfg.T ≠ 0) (hC : cfg.C ≠ 0)
    (hmc : cfg.mcSamples ≠ 0) (l : KLayer) {δ : Type _} (f : δ → KDatum) (batches : List (List δ)) (hne : batches ≠ []) (i j : Nat) :
    specGradFactor cfg l (batches.flatten.map f) i j = ((passIndex cfg batches).map fun p =>
      ((rowIndex cfg l p.1).map fun t => gradRow cfg l (fun s o => outputGrad cfg l p.1.length (f t.1) p.2 s o) t.2 i *
        gradRow cfg l (fun s o => outputGrad cfg l p.1.length (f t.1) p.2 s o) t.2 j).sum * correction cfg p.1.length).sum := by
  have hne' : (batches.map fun b => b.map f) ≠ [] := by simpa using hne
  have hnd : ([l].map KLayer.name).Nodup := by simp
  have h1 := kfac_grad_factor cfg [l] hnd (batches.map fun b => b.map f) hne' hT hC hmc l (by simp)
  have hP : numPasses cfg ≠ 0 := by
    unfold numPasses
    cases hf' : cfg.fisher <;> simp_all
  rw [kfacFactors, foldl_batches, foldl_grad_get, kfacFactors_gradUpd cfg hf [l] hnd _ l (by simp)] at h1
  have h0 : Dict.get ([] : Dict (Factor ℝ)) l.name = none := rfl
  simp only [h0] at h1
  rw [foldl_add_upd_none _ l.dout (by
      obtain ⟨b, bs, rfl⟩ := List.exists_cons_of_ne_nil hne
      simp [hP]) (by
      intro c hc
      obtain ⟨b, _, hc⟩ := List.mem_flatMap.mp hc
      obtain ⟨k, _, rfl⟩ := List.mem_map.mp hc
      rfl)] at h1
  have h2 := congrFun (congrFun (Factor.mk.inj (Option.some.inj h1)).2 i) j
  rw [← List.map_flatten] at h2
  rw [← h2, passIndex, List.map_flatMap, List.map_flatMap, flatMap_map']
  congr 1
  refine List.flatMap_congr fun b _ => ?_
  rw [List.map_map, List.map_map]
  refine List.map_congr_left fun k _ => ?_
  simp only [Function.comp_apply, gradCovariance, gram, List.length_map, gradRows_eq, List.map_map]
  rfl

theorem specGradScale_nonneg (cfg : KfacCfg) : 0 ≤ specGradScale cfg := by
  unfold specGradScale
  split_ifs <;> positivity

/-- The factor of the bounds as such a sum. -/
theorem boundGradFactor_rows (cfg : KfacCfg) (hT : cfg.T ≠ 0) (l : KLayer) (batches : List (List (Computed ρ)))
    (hB : ∀ b ∈ batches, b ≠ []) (i j : Nat) :
    boundGradFactor cfg l batches.flatten i j = ((passIndex cfg batches).map fun p =>
      ((rowIndex cfg l p.1).map fun t => gradRow cfg l (fun s o => cotScale cfg p.1.length * t.1.ag l.name p.2 s o) t.2 i *
        gradRow cfg l (fun s o => cotScale cfg p.1.length * t.1.ag l.name p.2 s o) t.2 j).sum * correction cfg p.1.length).sum := by
  unfold boundGradFactor passIndex
  induction batches with
  | nil => simp
  | cons b bs ih =>
    rw [List.flatten_cons, List.map_append, List.sum_append, mul_add, ih fun b' h' => hB b' (by simp [h']), List.flatMap_cons,
      List.map_append, List.sum_append]
    congr 1
    have hb : b.length ≠ 0 := by simpa using hB b (by simp)
    rw [List.map_map]
    have e : ∀ k, ((rowIndex cfg l b).map fun t => gradRow cfg l (fun s o => cotScale cfg b.length * t.1.ag l.name k s o) t.2 i *
        gradRow cfg l (fun s o => cotScale cfg b.length * t.1.ag l.name k s o) t.2 j).sum * correction cfg b.length =
        specGradScale cfg * (b.map fun d => ∑ s ∈ Finset.range (rowCount cfg l),
          gradRow cfg l (d.ag l.name k) s i * gradRow cfg l (d.ag l.name k) s j).sum := by
      intro k
      rw [← scale_correction cfg b.length hb hT, mul_comm _ (correction cfg b.length), mul_comm _ (correction cfg b.length), mul_assoc]
      congr 1
      rw [← list_sum_map_mul_left]
      unfold rowIndex
      generalize cotScale cfg b.length = c
      clear ih hb hB
      induction b with
      | nil => rfl
      | cons d b ih =>
        rw [List.flatMap_cons, List.map_append, List.sum_append, ih, List.map_cons, List.sum_cons, List.map_map, finset_range_list,
          ← list_sum_map_mul_left]
        congr 2
        refine List.map_congr_left fun s _ => ?_
        simp only [Function.comp_apply, gradRow_mul]
        ring
    simp only [Function.comp_def, e]
    rw [list_sum_map_mul_left, list_sum_comm_range]
    congr 2

theorem kfac_grad_rounding_within (π : Rounding) (σ : FlSum ρ) {η : ℝ} (hη : 0 ≤ η) (cfg : KfacCfg) (hf : cfg.fisher ≠ .forwardOnly)
    (layers : List KLayer) (hnd : (layers.map KLayer.name).Nodup) (batches : List (List (Computed ρ))) (hne : batches ≠ [])
    {B : Nat} (hB : ∀ b ∈ batches, b ≠ [] ∧ b.length ≤ B) (l : KLayer) (hl : l ∈ layers) (hT : cfg.T ≠ 0) (hC : cfg.C ≠ 0)
    (hmc : cfg.mcSamples ≠ 0) (hS : l.S ≠ 0) (hg : GradsWithin η cfg l batches) :
    ∃ F, (kfacFactorsFl π σ cfg layers (batches.map fun b => b.map Computed.fl)).2.get l.name = some F ∧ F.dim = l.dout ∧
      ∀ i < F.dim, ∀ j < F.dim,
        Within (1 + gradAccuracy ρ π η cfg l B batches.length) (F.mat i j)
          (specGradFactor cfg l (batches.flatten.map Computed.exact) i j) (boundGradFactor cfg l batches.flatten i j) := by
  have hP : numPasses cfg ≠ 0 := by
    unfold numPasses
    cases hf' : cfg.fisher <;> simp_all
  have hflat : ((batches.map fun b => b.map Computed.fl).flatMap fun b =>
      (List.range (numPasses cfg)).map (gradCovarianceFl π σ cfg l b)) =
      (passIndex cfg batches).map fun p => gradCovarianceFl π σ cfg l (p.1.map Computed.fl) p.2 := by
    rw [passIndex, List.map_flatMap, flatMap_map']
    refine List.flatMap_congr fun b _ => ?_
    rw [List.map_map]
    rfl
  refine ⟨⟨_, fun i j => foldEntry (fun c : Factor (Fl ρ) => c.mat i j)
    ((passIndex cfg batches).map fun p => gradCovarianceFl π σ cfg l (p.1.map Computed.fl) p.2) 0⟩, ?_, rfl, fun i hi j hj => ?_⟩
  · rw [kfacFactorsFl, kfacFactorsFl_snd π σ cfg hf layers _ l hl hnd, hflat]
    refine foldl_accOne_none _ _ ?_ fun c hc => ?_
    · intro e
      have := congrArg List.length e
      rw [List.length_map, passIndex_length] at this
      have h2 := List.length_pos_iff.mpr hne
      simp only [List.length_nil, mul_eq_zero] at this
      omega
    · obtain ⟨b, _, rfl⟩ := List.mem_map.mp hc
      rfl
  · set g := (1 + η) * (1 + ρ.u) ^ gradRowRoundings cfg l with hgd
    have hg1 : 1 ≤ g := one_le_mul_of_one_le_of_one_le (by linarith) (one_le_pow_u _)
    have hrc := rowCount_pos (cfg := cfg) hS
    have hπ : 1 ≤ 1 + π.u := by linarith [π.nonneg]
    have step : ∀ p ∈ passIndex cfg batches, Within (g * g * (1 + π.u) * (1 + ρ.u) ^ (B * rowCount cfg l + 2))
        ((gradCovarianceFl π σ cfg l (p.1.map Computed.fl) p.2).mat i j)
        (((rowIndex cfg l p.1).map fun t => gradRow cfg l (fun s o => outputGrad cfg l p.1.length t.1.exact p.2 s o) t.2 i *
          gradRow cfg l (fun s o => outputGrad cfg l p.1.length t.1.exact p.2 s o) t.2 j).sum * correction cfg p.1.length)
        (((rowIndex cfg l p.1).map fun t => gradRow cfg l (fun s o => cotScale cfg p.1.length * t.1.ag l.name p.2 s o) t.2 i *
          gradRow cfg l (fun s o => cotScale cfg p.1.length * t.1.ag l.name p.2 s o) t.2 j).sum * correction cfg p.1.length) := by
      intro p hp
      obtain ⟨hb, hk⟩ := mem_passIndex hp
      have hrow : ∀ i < l.dout, ∀ t ∈ rowIndex cfg l p.1, Within g (flGradRow σ cfg l p.2 t.1.fl t.2 i)
          (gradRow cfg l (fun s o => outputGrad cfg l p.1.length t.1.exact p.2 s o) t.2 i)
          (gradRow cfg l (fun s o => cotScale cfg p.1.length * t.1.ag l.name p.2 s o) t.2 i) := by
        intro i hi t ht
        obtain ⟨h1, h2⟩ := mem_rowIndex ht
        exact flGradRow_within σ cfg l p.2 t.1.fl _ _ (fun s hs => hg p.1 hb t.1 h1 p.2 hk s hs i hi) h2
      have h1 := (Within.gram σ hg1 (rowIndex cfg l p.1) _ _ _ _ _ _ (hrow i hi) (hrow j hj)).mul
        (one_le_mul_of_one_le_of_one_le (one_le_mul_of_one_le_of_one_le hg1 hg1) (one_le_pow_u _))
        (correctionFl_within (ρ := ρ) π cfg p.1.length)
      simp only [gradCovarianceFl, gramFl, gradRowsFl_eq, List.map_map, List.length_map]
      refine h1.mono ?_
      have e : g * g * (1 + ρ.u) ^ ((rowIndex cfg l p.1).length - 1 + 1) * ((1 + π.u) * (1 + ρ.u)) * (1 + ρ.u) =
          g * g * (1 + π.u) * (1 + ρ.u) ^ ((rowIndex cfg l p.1).length - 1 + 1 + 2) := by rw [pow_add]; ring
      rw [e]
      refine mul_le_mul_of_nonneg_left (pow_le_pow_right₀ (by linarith [ρ.nonneg]) ?_) (by positivity)
      rw [rowIndex_length]
      have h2 : p.1.length * rowCount cfg l ≤ B * rowCount cfg l := Nat.mul_le_mul_right _ (hB p.1 hb).2
      have h3 : 1 ≤ p.1.length * rowCount cfg l :=
        Nat.mul_pos (List.length_pos_iff.mpr (hB p.1 hb).1) hrc
      omega
    have hacc := Within.accumulate (one_le_mul_of_one_le_of_one_le
      (one_le_mul_of_one_le_of_one_le (one_le_mul_of_one_le_of_one_le hg1 hg1) hπ) (one_le_pow_u _))
      (passIndex cfg batches) (fun p => (gradCovarianceFl π σ cfg l (p.1.map Computed.fl) p.2).mat i j) _ _ step
    rw [← specGradFactor_rows cfg hf hT hC hmc l Computed.exact batches hne,
      ← boundGradFactor_rows cfg hT l batches (fun b hb => (hB b hb).1)] at hacc
    have e : foldEntry (fun c : Factor (Fl ρ) => c.mat i j)
        ((passIndex cfg batches).map fun p => gradCovarianceFl π σ cfg l (p.1.map Computed.fl) p.2) 0 =
        foldEntry (fun p => (gradCovarianceFl π σ cfg l (p.1.map Computed.fl) p.2).mat i j) (passIndex cfg batches) 0 := by
      simp only [foldEntry, List.foldl_map]
    have hn : 1 ≤ batches.length * numPasses cfg :=
      Nat.mul_pos (List.length_pos_iff.mpr hne) (Nat.pos_of_ne_zero hP)
    have hexp : g * g * (1 + π.u) * (1 + ρ.u) ^ (B * rowCount cfg l + 2) * (1 + ρ.u) ^ ((passIndex cfg batches).length - 1) - 1 =
        1 + gradAccuracy ρ π η cfg l B batches.length - 1 := by
      rw [passIndex_length, gradAccuracy, hgd, show 2 * gradRowRoundings cfg l + B * rowCount cfg l + 1 + batches.length * numPasses cfg =
        gradRowRoundings cfg l + gradRowRoundings cfg l + (B * rowCount cfg l + 2) + (batches.length * numPasses cfg - 1) by omega, pow_add,
        pow_add, pow_add]
      ring
    refine ⟨hacc.1, ?_⟩
    rw [← hexp]
    simpa only [e] using hacc.2

/-- **C131** (gradient factor): if the gradients with respect to the layer's outputs were computed with the accuracy `η`, the computed
gradient factor differs from the exact one by at most `(1 + η)² (1 + u') (1 + u)^k - 1` times the gradient factor of the bounds. Here
`u'` is the unit round-off of Python's numbers, `P` the number of backward passes per mini-batch, `k = B S + 1 + n P` for KFAC-expand
and `k = 2 (S - 1) + B + 1 + n P` for KFAC-reduce. -/
theorem kfac_grad_rounding (π : Rounding) (σ : FlSum ρ) {η : ℝ} (hη : 0 ≤ η) (cfg : KfacCfg) (hf : cfg.fisher ≠ .forwardOnly)
    (layers : List KLayer) (hnd : (layers.map KLayer.name).Nodup) (batches : List (List (Computed ρ))) (hne : batches ≠ [])
    {B : Nat} (hB : ∀ b ∈ batches, b ≠ [] ∧ b.length ≤ B) (l : KLayer) (hl : l ∈ layers) (hT : cfg.T ≠ 0) (hC : cfg.C ≠ 0)
    (hmc : cfg.mcSamples ≠ 0) (hS : l.S ≠ 0) (hg : GradsWithin η cfg l batches) :
    ∃ F, (kfacFactorsFl π σ cfg layers (batches.map fun b => b.map Computed.fl)).2.get l.name = some F ∧ F.dim = l.dout ∧
      ∀ i < F.dim, ∀ j < F.dim,
        |(F.mat i j).val - specGradFactor cfg l (batches.flatten.map Computed.exact) i j| ≤
          gradAccuracy ρ π η cfg l B batches.length * boundGradFactor cfg l batches.flatten i j := by
  obtain ⟨F, h1, h2, h3⟩ := kfac_grad_rounding_within π σ hη cfg hf layers hnd batches hne hB l hl hT hC hmc hS hg
  exact ⟨F, h1, h2, fun i hi j hj => by simpa using (h3 i hi j hj).2⟩

theorem pow_u_le (ρ : Rounding) (k : Nat) (hk : k * ρ.u ≤ 1 / 2) : (1 + ρ.u) ^ k - 1 ≤ 2 * (k * ρ.u) := by
  have hu := ρ.nonneg
  induction k with
  | zero => simp
  | succ k ih =>
    push_cast at hk ⊢
    have hk' : (k : ℝ) * ρ.u ≤ 1 / 2 := by nlinarith
    have h1 := ih hk'
    rw [pow_succ]
    have h2 : (1 + ρ.u) ^ k ≤ 1 + 2 * (k * ρ.u) := by linarith
    have h3 : (1 + ρ.u) ^ k * ρ.u ≤ (1 + 2 * (k * ρ.u)) * ρ.u := mul_le_mul_of_nonneg_right h2 hu
    nlinarith

/-- **C131** (size of the error): for exact inputs and `k u ≤ 1/2`, the relative error of the input factor is at most `2 k u`. -/
theorem inputAccuracy_le (ρ : Rounding) (cfg : KfacCfg) (l : KLayer) (B n : Nat)
    (hk : (2 * inputRowRoundings cfg l + B * rowCount cfg l + n : Nat) * ρ.u ≤ 1 / 2) :
    inputAccuracy ρ 0 cfg l B n ≤ 2 * ((2 * inputRowRoundings cfg l + B * rowCount cfg l + n : Nat) * ρ.u) := by
  have := pow_u_le ρ _ hk
  unfold inputAccuracy
  simpa using this

end factors

end Curvlinops
