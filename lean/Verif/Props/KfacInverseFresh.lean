import Verif.Props.KfacInverse
import Verif.Props.KfacInverseState

/-!
# The inverse of a KFAC operator (C41, C42), and its effect on the argument (C06)

The assumptions of `kfacInverse_damped` and `kfacInverse_exact` hold for every KFAC operator with positive damping.
-/

namespace Curvlinops

variable {Θ B G : Type}

/-- Factors of KFAC are positive semi-definite. -/
theorem IsGram.posSemidef {F : Factor ℝ} (h : IsGram F.dim F.mat) : F.PosSemidef := by
  obtain ⟨rows, hr⟩ := h
  constructor
  · intro i hi j hj
    rw [hr i hi j hj, hr j hj i hi]
    congr 1
    exact List.map_congr_left fun r _ => mul_comm _ _
  · intro x
    have : ∑ i ∈ Finset.range F.dim, ∑ j ∈ Finset.range F.dim, x i * F.mat i j * x j =
        (rows.map fun r => (∑ i ∈ Finset.range F.dim, x i * r i) ^ 2).sum := by
      rw [Finset.sum_congr rfl fun i hi => Finset.sum_congr rfl fun j hj => by
        rw [hr i (Finset.mem_range.mp hi) j (Finset.mem_range.mp hj)]]
      clear hr
      induction rows with
      | nil => simp
      | cons r rows ih =>
        simp only [List.map_cons, List.sum_cons, mul_add, add_mul, Finset.sum_add_distrib]
        rw [ih, sq, Finset.sum_mul_sum]
        congr 1
        exact Finset.sum_congr rfl fun i _ => Finset.sum_congr rfl fun j _ => by ring
    rw [this]
    refine List.sum_nonneg fun y hy => ?_
    obtain ⟨r, -, rfl⟩ := List.mem_map.mp hy
    positivity

/-- Eigenvalues of positive semi-definite factors are not negative. -/
theorem Factor.IsEigen.nonneg {M : Factor ℝ} {e : Eigen} (h : M.IsEigen e) (hM : M.PosSemidef) (p : Nat) (hp : p < M.dim) :
    0 ≤ e.vals p := by
  have h0 := hM.2 fun i => e.vecs i p
  have : ∑ i ∈ Finset.range M.dim, ∑ j ∈ Finset.range M.dim, e.vecs i p * M.mat i j * e.vecs j p = e.vals p := by
    have h1 : ∀ i ∈ Finset.range M.dim, ∑ j ∈ Finset.range M.dim, e.vecs i p * M.mat i j * e.vecs j p =
        e.vecs i p * (e.vecs i p * e.vals p) := by
      intro i hi
      have h2 : ∀ j ∈ Finset.range M.dim, e.vecs i p * M.mat i j * e.vecs j p =
          ∑ q ∈ Finset.range M.dim, e.vecs i p * (e.vecs i q * e.vals q * (e.vecs j q * e.vecs j p)) := by
        intro j hj
        rw [← h.decomp i (Finset.mem_range.mp hi) j (Finset.mem_range.mp hj), Finset.mul_sum, Finset.sum_mul]
        exact Finset.sum_congr rfl fun q _ => by ring
      rw [Finset.sum_congr rfl h2, Finset.sum_comm]
      have h3 : ∀ q ∈ Finset.range M.dim, ∑ j ∈ Finset.range M.dim,
          e.vecs i p * (e.vecs i q * e.vals q * (e.vecs j q * e.vecs j p)) =
            if q = p then e.vecs i p * (e.vecs i q * e.vals q) else 0 := by
        intro q hq
        rw [← Finset.mul_sum, ← Finset.mul_sum, h.orthonormal q (Finset.mem_range.mp hq) p hp]
        split_ifs <;> simp
      rw [Finset.sum_congr rfl h3, Finset.sum_ite_eq' , if_pos (Finset.mem_range.mpr hp)]
    rw [Finset.sum_congr rfl h1]
    have h4 := h.orthonormal p hp p hp
    rw [if_pos rfl] at h4
    calc _ = (∑ i ∈ Finset.range M.dim, e.vecs i p * e.vecs i p) * e.vals p := by
          rw [Finset.sum_mul]
          exact Finset.sum_congr rfl fun i _ => by ring
      _ = _ := by rw [h4, one_mul]
  rw [this] at h0
  exact h0

theorem LayerPos.dict_has_weight (p : LayerPos) : p.dict.has "weight" = p.hasWeight := by
  cases p <;> simp [LayerPos.dict, LayerPos.hasWeight, Dict.has]

theorem dict_get_none_of_not_mem {β : Type _} (d : Dict β) (k : String) (h : k ∉ d.keyList) : d.get k = none := by
  induction d with
  | nil => rfl
  | cons e d ih =>
    obtain ⟨n, v⟩ := e
    simp only [Dict.keyList, List.map_cons, List.mem_cons, not_or] at h
    have : (k == n) = false := by simpa using h.1
    simp only [Dict.get, List.lookup, this]
    exact ih h.2

/-- There is no input covariance for a layer without weight. -/
theorem factors_bias_none (w : KWorld Θ B G) (s : KState Θ) (hg : w.Good s.cfg) (layers : List (Layer ℝ))
    (hm : w.mapping = layers.map fun l => (l.name, l.pos.dict)) (l : Layer ℝ) (hl : l ∈ layers)
    (hw : l.pos.hasWeight = false) : (w.factors s).1.get l.name = none := by
  refine dict_get_none_of_not_mem _ _ fun hk => ?_
  obtain ⟨kl, hkl, hkw, hn⟩ := (factors_keys w s hg l.name).1.1 hk
  have h1 : (l.name, l.pos.dict) ∈ w.mapping := by
    rw [hm]
    exact List.mem_map_of_mem hl
  obtain ⟨kl', hkl', he⟩ := List.mem_map.mp h1
  simp only [Prod.mk.injEq] at he
  have : kl' = kl := List.inj_on_of_nodup_map hg.names hkl' hkl (he.1.trans hn.symm)
  subst this
  rw [he.2, LayerPos.dict_has_weight, hw] at hkw
  cases hkw

theorem factors_psd (w : KWorld Θ B G) (s : KState Θ) (sep : Bool) (shapes : List (List Nat)) (layers : List (Layer ℝ))
    (hK : KfacLayers sep shapes w.mapping (w.factors s).1 (w.factors s).2 layers) (l : Layer ℝ) (hl : l ∈ layers) :
    (l.pos.hasWeight = true → l.A.PosSemidef) ∧ l.B.PosSemidef := by
  have hg := kfacFactors_gram s.cfg w.layers (w.batches s.model s.cfg (w.seeded s.seed) w.data)
  exact ⟨fun hw => IsGram.posSemidef (hg.1 _ _ (hK.inCov_get l hl hw)), IsGram.posSemidef (hg.2 _ _ (hK.gradCov_get l hl))⟩

/-- C41 for every KFAC operator (with new state) and positive dampings, of whatever origin: the operator multiplies with
the inverse of the KFAC matrix with damped factors. -/
theorem kfacInverse_fresh_damped (w : KWorld Θ B G) (s₀ : KState Θ) (hf : s₀.IsFresh) (hg : w.Good s₀.cfg) (la : LinAlg)
    (hla : la.Correct) (dt : FloatType) (shapes : List (List Nat)) (layers : List (Layer ℝ))
    (hK : KfacLayers s₀.cfg.sep shapes w.mapping (w.factors s₀).1 (w.factors s₀).2 layers) (cfg : InvCfg)
    (hex : cfg.exact = false) (a b : Layer ℝ → ℝ)
    (hd : ∀ l ∈ layers, computeDamping cfg ((w.factors s₀).1.get l.name) ((w.factors s₀).2.get l.name) =
      .ok (.fin (a l), .fin (b l)))
    (ha : ∀ l ∈ layers, 0 < a l) (hb : ∀ l ∈ layers, 0 < b l) (D : Mat ℝ)
    (hD : IsKron (kfacBlocks s₀.cfg.sep shapes (layers.map fun l => l.damped (a l) (b l))) D) :
    ∃ E, Represents (KInvState.op w la dt shapes ⟨s₀, cfg, []⟩) E ∧ MatInv (shapes.map List.prod).sum D E :=
  kfacInverse_damped w la hla dt shapes ⟨s₀, cfg, []⟩ (s₀.computed w) (ensureKfac_fresh w s₀ hf) layers hK
    (factors_bias_none w s₀ hg layers hK.mapping_eq) (CacheOk.nil _ _ _ _ _) hex a b hd
    (fun l hl hw => ((factors_psd w s₀ _ shapes layers hK l hl).1 hw).addDiag (ha l hl))
    (fun l hl => (factors_psd w s₀ _ shapes layers hK l hl).2.addDiag (hb l hl)) D hD

/-- C42 for every KFAC operator (with new state) and positive damping. -/
theorem kfacInverse_fresh_exact (w : KWorld Θ B G) (s₀ : KState Θ) (hf : s₀.IsFresh) (hg : w.Good s₀.cfg) (la : LinAlg)
    (hla : la.Correct) (dt : FloatType) (shapes : List (List Nat)) (layers : List (Layer ℝ))
    (hK : KfacLayers s₀.cfg.sep shapes w.mapping (w.factors s₀).1 (w.factors s₀).2 layers) (cfg : InvCfg)
    (hex : cfg.exact = true) (δ : ℝ) (hδ : cfg.damping = .value δ) (hpos : 0 < δ) (M : Mat ℝ)
    (hM : IsKron (kfacBlocks s₀.cfg.sep shapes layers) M) :
    ∃ E, Represents (KInvState.op w la dt shapes ⟨s₀, cfg, []⟩) E ∧
      MatInv (shapes.map List.prod).sum (fun r c => M r c + if r = c then δ else 0) E := by
  have hp := factors_psd w s₀ _ shapes layers hK
  have heig : ∀ (F : Factor ℝ) e, F.PosSemidef → la.eigh F = .ok e → ∀ p < F.dim, 0 ≤ e.vals p := by
    intro F e hF he p hpd
    obtain ⟨e', he', hI⟩ := hla.eigh F hF.1
    rw [he] at he'
    cases he'
    exact hI.nonneg hF p hpd
  refine kfacInverse_exact w la hla dt shapes ⟨s₀, cfg, []⟩ (s₀.computed w) (ensureKfac_fresh w s₀ hf) layers hK
    (factors_bias_none w s₀ hg layers hK.mapping_eq) (CacheOk.nil _ _ _ _ _) hex δ hδ
    (fun l hl hw => ((hp l hl).1 hw).1) (fun l hl => (hp l hl).2.1) ?_ ?_ M hM
  · intro l hl hw eA eB hA hB p hpd q hq
    have h1 := heig l.A eA ((hp l hl).1 hw) hA q hq
    have h2 := heig l.B eB (hp l hl).2 hB p hpd
    have := mul_nonneg h2 h1
    linarith
  · intro l hl _ eB hB p hpd
    have h2 := heig l.B eB (hp l hl).2 hB p hpd
    linarith

/-- Damped factors. -/
def dampedDict (d : ℝ) (c : Dict (Factor ℝ)) : Dict (Factor ℝ) := c.map fun e => (e.1, e.2.addDiag d)

theorem dampedDict_get (d : ℝ) (c : Dict (Factor ℝ)) (k : String) :
    (dampedDict d c).get k = (c.get k).map fun F => F.addDiag d := by
  induction c with
  | nil => rfl
  | cons e c ih =>
    obtain ⟨n, F⟩ := e
    simp only [dampedDict, Dict.get, List.map_cons, List.lookup]
    split
    · rfl
    · exact ih

theorem KfacLayers.damped {sep : Bool} {shapes : List (List Nat)} {mapping : Dict (Dict Nat)}
    {inCov gradCov : Dict (Factor ℝ)} {layers : List (Layer ℝ)} (h : KfacLayers sep shapes mapping inCov gradCov layers)
    (a b : ℝ) : KfacLayers sep shapes mapping (dampedDict a inCov) (dampedDict b gradCov)
      (layers.map fun l => l.damped a b) := by
  refine ⟨?_, ?_, ?_, ?_, ?_⟩
  · rw [h.mapping_eq, List.map_map]
    rfl
  · rw [List.flatMap_map]
    exact h.perm
  · intro l hl hw
    obtain ⟨l, hl', rfl⟩ := List.mem_map.mp hl
    rw [dampedDict_get]
    show (inCov.get l.name).map _ = _
    rw [h.inCov_get l hl' hw]
    rfl
  · intro l hl
    obtain ⟨l, hl', rfl⟩ := List.mem_map.mp hl
    rw [dampedDict_get]
    show (gradCov.get l.name).map _ = _
    rw [h.gradCov_get l hl']
    rfl
  · intro l hl
    obtain ⟨l, hl', rfl⟩ := List.mem_map.mp hl
    have := h.fits l hl'
    obtain ⟨n, pos, A, B⟩ := l
    cases pos <;> exact this

/-- C41 as cancellation: with positive damping `a`, `b` (a number or a tuple), multiplying with the inverse and then with
the KFAC operator that has the factors `A + a I`, `B + b I` gives back the argument, and so does the opposite order. -/
theorem kfacInverse_cancels (w : KWorld Θ B G) (s₀ : KState Θ) (hf : s₀.IsFresh) (hg : w.Good s₀.cfg) (la : LinAlg)
    (hla : la.Correct) (dt : FloatType) (shapes : List (List Nat)) (layers : List (Layer ℝ))
    (hK : KfacLayers s₀.cfg.sep shapes w.mapping (w.factors s₀).1 (w.factors s₀).2 layers) (cfg : InvCfg)
    (hex : cfg.exact = false) (hh : cfg.heuristic = false) (a b : ℝ) (ha : 0 < a) (hb : 0 < b)
    (hd : (cfg.damping = .value a ∧ b = a) ∨ cfg.damping = .pair a b) (K : Nat) (Xs : List (Tensor ℝ))
    (hX : HasShapes Xs shapes K) :
    let inv := KInvState.op w la dt shapes ⟨s₀, cfg, []⟩
    let kfac := kfacOp shapes s₀.cfg.sep w.mapping (dampedDict a (w.factors s₀).1) (dampedDict b (w.factors s₀).2)
    (∃ Ys Zs, (inv.matmat Xs).1 = .ok Ys ∧ (kfac.matmat Ys).1 = .ok Zs ∧ HasShapes Zs shapes K ∧ flatData Zs = flatData Xs) ∧
    ∃ Ys Zs, (kfac.matmat Xs).1 = .ok Ys ∧ (inv.matmat Ys).1 = .ok Zs ∧ HasShapes Zs shapes K ∧ flatData Zs = flatData Xs := by
  intro inv kfac
  have hK' := hK.damped a b
  obtain ⟨D, hD⟩ := (kfac_matrix_exists _ _ _ _ _ _ hK').1
  have hcd : ∀ l ∈ layers, computeDamping cfg ((w.factors s₀).1.get l.name) ((w.factors s₀).2.get l.name) =
      .ok (.fin a, .fin b) := by
    intro l _
    rcases hd with ⟨hd, rfl⟩ | hd
    · exact (plainDamping cfg hh _ _).1 _ hd
    · exact (plainDamping cfg hh _ _).2 _ _ hd
  obtain ⟨E, hE, hI⟩ := kfacInverse_fresh_damped w s₀ hf hg la hla dt shapes layers hK cfg hex (fun _ => a) (fun _ => b) hcd
    (fun _ _ => ha) (fun _ _ => hb) D hD
  have hD' : Represents kfac D := kfac_represents _ _ _ _ _ _ hK' D hD
  exact ⟨represents_cancel inv kfac shapes rfl rfl rfl rfl D E hE hD' (fun r hr c hc => (hI r hr c hc).1) K Xs hX,
    represents_cancel kfac inv shapes rfl rfl rfl rfl E D hD' hE (fun r hr c hc => (hI r hr c hc).2) K Xs hX⟩

/-! ## The unit example -/

/-- The only layer of the example. -/
noncomputable def unitLayer : Layer ℝ := ⟨"lin", .weight 0, ⟨1, fun _ _ => 1⟩, ⟨1, fun _ _ => 2⟩⟩

theorem unit_factors : unitWorld.factors unitState =
    ([("lin", ⟨1, fun _ _ => 1⟩)], [("lin", ⟨1, fun _ _ => 2⟩)]) := by
  rw [← events_one]
  have he := unitWorld_events 1 (unitWorld.seeded unitState.seed)
  have h : unitWorld.events unitState.model unitState.cfg 1 (unitWorld.seeded unitState.seed) =
    unitWorld.events () stateCfg 1 (unitWorld.seeded unitState.seed) := rfl
  rw [h, he]
  simp [applyEvent, addCov, Dict.get, Dict.set, List.lookup]
  constructor <;> funext i j <;> norm_num

theorem unit_layers : KfacLayers unitState.cfg.sep [[1, 1]] unitWorld.mapping (unitWorld.factors unitState).1
    (unitWorld.factors unitState).2 [unitLayer] := by
  rw [unit_factors]
  refine ⟨rfl, by simp [unitLayer, LayerPos.positions], ?_, ?_, ?_⟩
  · intro l hl _
    rw [List.mem_singleton.mp hl]
    rfl
  · intro l hl
    rw [List.mem_singleton.mp hl]
    rfl
  · intro l hl
    rw [List.mem_singleton.mp hl]
    exact ⟨rfl, rfl⟩

/-- Damping 1: the inverse of `(1 + 1) (2 + 1) = 6`. -/
theorem unit_inverse (la : LinAlg) (hla : la.Correct) (dt : FloatType) (c : Bool) :
    ∃ E, Represents (KInvState.op unitWorld la dt [[1, 1]] ⟨unitState, ⟨.value 1, false, 0, false, c, true⟩, []⟩) E ∧
      E 0 0 = 1 / 6 := by
  have hD : IsKron (kfacBlocks unitState.cfg.sep [[1, 1]] ([unitLayer].map fun l => l.damped 1 1))
      fun _ _ => (6 : ℝ) := by
    have : kfacBlocks unitState.cfg.sep [[1, 1]] ([unitLayer].map fun l => l.damped 1 1) =
      [(unitLayer.damped 1 1).wBlock [[1, 1]] 0] := rfl
    rw [this]
    rintro ⟨⟨i, hi⟩, a, b⟩ ⟨⟨j, hj⟩, c, d⟩
    obtain rfl : i = 0 := by simpa using hi
    obtain rfl : j = 0 := by simpa using hj
    simp only [KIdx.entry, if_true, Fin.getElem_fin, List.getElem_cons_zero]
    have ha : (a : Nat) = 0 := Nat.lt_one_iff.mp a.2
    have hb : (b : Nat) = 0 := Nat.lt_one_iff.mp b.2
    have hc : (c : Nat) = 0 := Nat.lt_one_iff.mp c.2
    have hd : (d : Nat) = 0 := Nat.lt_one_iff.mp d.2
    rw [ha, hb, hc, hd]
    show (6 : ℝ) = (2 + if (0 : Nat) = 0 then 1 else 0) * (1 + if (0 : Nat) = 0 then 1 else 0)
    norm_num
  obtain ⟨E, hE, hI⟩ := kfacInverse_fresh_damped unitWorld unitState unitState_fresh unitWorld_good la hla dt [[1, 1]]
    [unitLayer] unit_layers ⟨.value 1, false, 0, false, c, true⟩ rfl (fun _ => 1) (fun _ => 1)
    (fun l _ => (plainDamping _ rfl _ _).1 1 rfl) (fun _ _ => one_pos) (fun _ _ => one_pos) _ hD
  refine ⟨E, hE, ?_⟩
  have := (hI 0 (by simp) 0 (by simp)).1
  simp at this
  linarith

/-- C41, C42 in the unit example, with routines that exist. -/
example : ∃ la : LinAlg, la.Correct ∧ ∃ E, Represents
    (KInvState.op unitWorld la .lower [[1, 1]] ⟨unitState, ⟨.value 1, false, 0, false, true, true⟩, []⟩) E ∧ E 0 0 = 1 / 6 := by
  obtain ⟨la, hla⟩ := linAlg_correct_exists
  exact ⟨la, hla, unit_inverse la hla .lower true⟩

example (la : LinAlg) (hla : la.Correct) (M : Mat ℝ)
    (hM : IsKron (kfacBlocks unitState.cfg.sep [[1, 1]] [unitLayer]) M) :
    ∃ E, Represents (KInvState.op unitWorld la .lower [[1, 1]] ⟨unitState, ⟨.value 1, false, 0, true, true, true⟩, []⟩) E ∧
      MatInv 1 (fun r c => M r c + if r = c then 1 else 0) E :=
  kfacInverse_fresh_exact unitWorld unitState unitState_fresh unitWorld_good la hla .lower [[1, 1]] [unitLayer] unit_layers
    _ rfl 1 rfl one_pos M hM

/-! ## C06: the argument -/

/-- C06 is violated: after a successful product with a list of matrices (the same number of columns everywhere, and not
also readable as a list of vectors), the caller's list holds the result. -/
theorem kfacInverse_overwrites_argument (w : KWorld Θ B G) (la : LinAlg) (dt : FloatType) (shapes : List (List Nat))
    (st : KInvState Θ) (Xs Ys : List (Tensor ℝ)) (K : Nat)
    (hpre : (st.op w la dt shapes).pre (.list Xs) = .ok (Xs, true, false, K))
    (hok : ((st.op w la dt shapes).matmul (.list Xs)).1 = .ok (.list Ys)) :
    ((st.op w la dt shapes).matmul (.list Xs)).2 = .list Ys := by
  have hm : ∀ Z, ((st.op w la dt shapes).matmat Xs).1 = .ok Z → ((st.op w la dt shapes).matmat Xs).2 = Z := by
    intro Z
    simp only [KInvState.op, KInvState.matmat]
    rcases ensureKfac w none st.A with ⟨_ | _, A⟩
    · exact fun hZ => by cases hZ
    · simp only
      rcases invLoop la st.cfg dt A.cfg.sep A.inCov A.gradCov w.mapping Xs st.cache with ⟨_ | _, X', k⟩
      · exact fun hZ => by cases hZ
      · exact fun hZ => Except.ok.inj hZ
  unfold LinOp.matmul at hok ⊢
  rw [hpre] at hok ⊢
  simp only [Bool.not_false, Bool.and_true, if_true] at hok ⊢
  rcases hr : ((st.op w la dt shapes).matmat Xs).1 with e | Z
  · rw [hr] at hok
    cases hok
  · rw [hr] at hok
    simp only at hok ⊢
    rw [hm Z hr]
    unfold LinOp.post at hok
    split at hok
    · cases hok
    · split at hok
      · cases hok
      · simp only [if_true, Bool.false_eq_true, if_false, Except.ok.injEq] at hok
        exact hok

/-- C06 is violated, concretely: the caller passes a list with the `1 × 1 × 1` tensor 6, and it holds 1 afterwards. -/
theorem kfacInverse_overwrites_argument_witness (la : LinAlg) (hla : la.Correct) :
    let op := KInvState.op unitWorld la .lower [[1, 1]] ⟨unitState, ⟨.value 1, false, 0, false, true, true⟩, []⟩
    (op.matmul (.list [⟨[1, 1, 1], [6]⟩])).2 = .list [⟨[1, 1, 1], [1]⟩] := by
  intro op
  obtain ⟨E, hE, hE0⟩ := unit_inverse la hla .lower true
  obtain ⟨Ys, hY, hYs, hl, hYe⟩ := hE 1 [⟨[1, 1, 1], [6]⟩] (by
    refine ⟨rfl, fun t ht => ?_⟩
    rw [List.mem_singleton.mp ht]
    rfl)
  have hY0 := hYe 0 (by show 0 < 1; norm_num) 0 (by norm_num)
  have hYs' : Ys = [⟨[1, 1, 1], [1]⟩] := by
    have h1 : Ys.map Tensor.shape = [[1, 1, 1]] := hYs.1
    match Ys, h1, hYs, hY0 with
    | [], h1, _, _ => exact absurd (congrArg List.length h1) (by simp)
    | _ :: _ :: _, h1, _, _ => exact absurd (congrArg List.length h1) (by simp)
    | [t], h1, hYs, hY0 =>
      have hs : t.shape = [1, 1, 1] := by simpa using h1
      have hwf := hYs.2 t (by simp)
      obtain ⟨sh, data⟩ := t
      simp only at hs
      subst hs
      have hlen : data.length = 1 := by simpa [Tensor.WF] using hwf
      obtain ⟨x, rfl⟩ := List.length_eq_one_iff.mp hlen
      have : (KInvState.op unitWorld la .lower [[1, 1]] ⟨unitState, ⟨.value 1, false, 0, false, true, true⟩, []⟩).ncols = 1 := rfl
      rw [this] at hY0
      simp [flatData, hE0] at hY0
      rw [hY0]
  subst hYs'
  have hpre : op.pre (.list [⟨[1, 1, 1], [6]⟩]) = .ok ([⟨[1, 1, 1], [6]⟩], true, false, 1) := rfl
  refine kfacInverse_overwrites_argument unitWorld la .lower [[1, 1]] _ _ _ 1 hpre ?_
  have hm : (op.matmat [⟨[1, 1, 1], [6]⟩]).1 = .ok [⟨[1, 1, 1], [1]⟩] := hY
  show (op.matmul _).1 = _
  unfold LinOp.matmul
  rw [hpre]
  simp only [hm]
  rfl

end Curvlinops
