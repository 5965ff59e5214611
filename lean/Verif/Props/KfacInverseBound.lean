import Verif.Props.KfacInverseFresh

/-!
# C98: the inverse of KFAC is positive definite, and bounded through the damping
-/

namespace Curvlinops

variable {Θ B G : Type}

/-! ## Lower bounds for KFAC matrices -/

theorem isGram_diag (n : Nat) {c : ℝ} (hc : 0 ≤ c) : IsGram n fun i j => if i = j then c else 0 := by
  obtain ⟨rows, hr⟩ := isGram_one n
  obtain ⟨rows', hr'⟩ := isGram_scaled_gram n rows c hc
  refine ⟨rows', fun i hi j hj => ?_⟩
  rw [← hr' i hi j hj]
  show _ = (rows.map fun r => r i * r j).sum * c
  rw [← hr i hi j hj]
  simp only
  split <;> simp

theorem isGram_of_sub {n : Nat} {F : Mat ℝ} {c : ℝ} (hc : 0 ≤ c) (h : IsGram n fun i j => F i j - if i = j then c else 0) :
    IsGram n F := by
  obtain ⟨r, hr⟩ := h.add (isGram_diag n hc)
  exact ⟨r, fun i hi j hj => by rw [← hr i hi j hj]; ring⟩

theorem block_quad_ge (b : KBlock ℝ) (a g : ℝ) (ha : 0 ≤ a) (hg : 0 ≤ g)
    (hA : IsGram b.cols fun i j => b.A i j - if i = j then a else 0)
    (hB : IsGram b.rows fun i j => b.B i j - if i = j then g else 0) (v : Nat → ℝ) :
    a * g * ∑ i : Fin b.rows, ∑ j : Fin b.cols, v (b.idx i j) * v (b.idx i j) ≤
      ∑ i : Fin b.rows, ∑ j : Fin b.cols, v (b.idx i j) *
        ∑ i' ∈ Finset.range b.rows, ∑ j' ∈ Finset.range b.cols, b.B i i' * b.A j' j * v (b.idx i' j') := by
  have hB' : IsGram b.rows b.B := isGram_of_sub hg hB
  have h1 := block_quad_nonneg { b with A := fun i j => b.A i j - if i = j then a else 0 } hA hB' v
  have h2 := block_quad_nonneg { b with A := fun i j => if i = j then a else 0, B := fun i j => b.B i j - if i = j then g else 0 }
    (isGram_diag _ ha) hB v
  simp only at h1 h2
  have h3 : ∑ i : Fin b.rows, ∑ j : Fin b.cols, v (b.idx i j) *
        ∑ i' ∈ Finset.range b.rows, ∑ j' ∈ Finset.range b.cols,
          (if (i : Nat) = i' then g else 0) * (if j' = (j : Nat) then a else 0) * v (b.idx i' j') =
      a * g * ∑ i : Fin b.rows, ∑ j : Fin b.cols, v (b.idx i j) * v (b.idx i j) := by
    rw [Finset.mul_sum]
    refine Finset.sum_congr rfl fun i _ => ?_
    rw [Finset.mul_sum]
    refine Finset.sum_congr rfl fun j _ => ?_
    rw [Finset.sum_eq_single (i : Nat), Finset.sum_eq_single (j : Nat)]
    · simp; ring
    · intro k _ hk
      simp [hk]
    · exact fun h => absurd (Finset.mem_range.mpr j.2) h
    · intro k _ hk
      simp [Ne.symm hk]
    · exact fun h => absurd (Finset.mem_range.mpr i.2) h
  have h4 := add_nonneg h1 h2
  rw [← sub_nonneg, ← h3]
  refine h4.trans (le_of_eq ?_)
  rw [← Finset.sum_add_distrib, ← Finset.sum_sub_distrib]
  refine Finset.sum_congr rfl fun i _ => ?_
  rw [← Finset.sum_add_distrib, ← Finset.sum_sub_distrib]
  refine Finset.sum_congr rfl fun j _ => ?_
  rw [← mul_add, ← mul_sub, ← Finset.sum_add_distrib, ← Finset.sum_sub_distrib]
  congr 1
  refine Finset.sum_congr rfl fun i' _ => ?_
  rw [← Finset.sum_add_distrib, ← Finset.sum_sub_distrib]
  exact Finset.sum_congr rfl fun j' _ => by ring

/-- A block-diagonal matrix of Kronecker products of factors with eigenvalues at least `a`, `g` has eigenvalues at least
`a g`, as quadratic form. -/
theorem kron_ge (bs : List (KBlock ℝ)) (N : Nat) (h : Tiles bs N) (M : Mat ℝ) (hM : IsKron bs M) (c : ℝ)
    (hg : ∀ b ∈ bs, ∃ a g : ℝ, 0 ≤ a ∧ 0 ≤ g ∧ c ≤ a * g ∧ (IsGram b.cols fun i j => b.A i j - if i = j then a else 0) ∧
      IsGram b.rows fun i j => b.B i j - if i = j then g else 0) (v : Nat → ℝ) :
    c * ∑ r ∈ Finset.range N, v r * v r ≤ ∑ r ∈ Finset.range N, ∑ k ∈ Finset.range N, v r * M r k * v k := by
  rw [h.sum_eq, h.sum_eq]
  simp only [h.sum_eq (bs := bs)]
  have hterm : ∀ x : KIdx bs, ∑ y : KIdx bs, v x.pos * M x.pos y.pos * v y.pos =
      v x.pos * ∑ i ∈ Finset.range (bs[x.1]).rows, ∑ j ∈ Finset.range (bs[x.1]).cols,
        (bs[x.1]).B x.2.1 i * (bs[x.1]).A j x.2.2 * v ((bs[x.1]).idx i j) := by
    intro x
    rw [← KIdx.sum_entry, Finset.mul_sum]
    exact Finset.sum_congr rfl fun y _ => by rw [hM]; ring
  simp only [hterm]
  rw [Fintype.sum_sigma, Fintype.sum_sigma, Finset.mul_sum]
  refine Finset.sum_le_sum fun l _ => ?_
  rw [Fintype.sum_prod_type, Fintype.sum_prod_type]
  obtain ⟨a, g, ha, hg', hc, hA, hB⟩ := hg bs[l] (List.getElem_mem _)
  refine le_trans ?_ (block_quad_ge bs[l] a g ha hg' hA hB v)
  exact mul_le_mul_of_nonneg_right hc (Finset.sum_nonneg fun i _ => Finset.sum_nonneg fun j _ => mul_self_nonneg _)

/-- Specification: the leading `N × N` part of `E` is symmetric, positive definite, and bounded by `1 / c`. -/
structure BoundedInverse (N : Nat) (c : ℝ) (E : Mat ℝ) : Prop where
  symm : ∀ r < N, ∀ k < N, E r k = E k r
  /-- Multiplying is at most division by `c`, in the Euclidean norm. -/
  norm_le : ∀ v : Nat → ℝ, c ^ 2 * ∑ r ∈ Finset.range N, (∑ k ∈ Finset.range N, E r k * v k) ^ 2 ≤
    ∑ r ∈ Finset.range N, v r ^ 2
  /-- The product with a non-zero vector has a positive inner product with it. -/
  pos : ∀ v : Nat → ℝ, (∃ r < N, v r ≠ 0) → 0 < ∑ r ∈ Finset.range N, v r * ∑ k ∈ Finset.range N, E r k * v k
  /-- The inner product is at most the squared norm, divided by `c`. -/
  quad_le : ∀ v : Nat → ℝ, c * ∑ r ∈ Finset.range N, v r * ∑ k ∈ Finset.range N, E r k * v k ≤ ∑ r ∈ Finset.range N, v r ^ 2

theorem matInv_bounded (N : Nat) (c : ℝ) (hc : 0 < c) (D E : Mat ℝ) (hD : ∀ r < N, ∀ k < N, D r k = D k r)
    (hq : ∀ v : Nat → ℝ, c * ∑ r ∈ Finset.range N, v r * v r ≤ ∑ r ∈ Finset.range N, ∑ k ∈ Finset.range N, v r * D r k * v k)
    (h : MatInv N D E) : BoundedInverse N c E := by
  -- D (E v) = v
  have hDE : ∀ v : Nat → ℝ, ∀ r < N, ∑ m ∈ Finset.range N, D r m * (∑ k ∈ Finset.range N, E m k * v k) = v r := by
    intro v r hr
    simp only [Finset.mul_sum]
    rw [Finset.sum_comm]
    have : ∀ k ∈ Finset.range N, ∑ m ∈ Finset.range N, D r m * (E m k * v k) = (if r = k then 1 else 0) * v k := by
      intro k hk
      rw [← (h r hr k (Finset.mem_range.mp hk)).1, Finset.sum_mul]
      exact Finset.sum_congr rfl fun m _ => by ring
    rw [Finset.sum_congr rfl this, Finset.sum_eq_single r]
    · simp
    · intro k _ hk
      simp [Ne.symm hk]
    · exact fun hn => absurd (Finset.mem_range.mpr hr) hn
  have hsym : ∀ r < N, ∀ k < N, E r k = E k r := by
    intro r hr k hk
    -- E r k = Σ_m Σ_p E r m D m p E k p = E k r
    have e1 : ∑ m ∈ Finset.range N, ∑ p ∈ Finset.range N, E r m * D m p * E k p = E k r := by
      rw [Finset.sum_comm]
      have : ∀ p ∈ Finset.range N, ∑ m ∈ Finset.range N, E r m * D m p * E k p = (if r = p then 1 else 0) * E k p := by
        intro p hp
        rw [← (h r hr p (Finset.mem_range.mp hp)).2, Finset.sum_mul]
      rw [Finset.sum_congr rfl this, Finset.sum_eq_single r]
      · simp
      · intro p _ hp
        simp [Ne.symm hp]
      · exact fun hn => absurd (Finset.mem_range.mpr hr) hn
    have e2 : ∑ m ∈ Finset.range N, ∑ p ∈ Finset.range N, E r m * D m p * E k p = E r k := by
      have : ∀ m ∈ Finset.range N, ∑ p ∈ Finset.range N, E r m * D m p * E k p = E r m * if k = m then 1 else 0 := by
        intro m hm
        rw [← (h k hk m (Finset.mem_range.mp hm)).2, Finset.mul_sum]
        refine Finset.sum_congr rfl fun p hp => ?_
        rw [hD m (Finset.mem_range.mp hm) p (Finset.mem_range.mp hp)]
        ring
      rw [Finset.sum_congr rfl this, Finset.sum_eq_single k]
      · simp
      · intro m _ hm
        simp [Ne.symm hm]
      · exact fun hn => absurd (Finset.mem_range.mpr hk) hn
    rw [← e2, e1]
  -- c ‖E v‖² ≤ v · E v
  have hquad : ∀ v : Nat → ℝ, c * ∑ r ∈ Finset.range N, (∑ k ∈ Finset.range N, E r k * v k) ^ 2 ≤
      ∑ r ∈ Finset.range N, v r * ∑ k ∈ Finset.range N, E r k * v k := by
    intro v
    have := hq fun r => ∑ k ∈ Finset.range N, E r k * v k
    simp only [← pow_two] at this
    refine this.trans (le_of_eq ?_)
    refine Finset.sum_congr rfl fun r hr => ?_
    have e := hDE v r (Finset.mem_range.mp hr)
    have e' : v r * ∑ k ∈ Finset.range N, E r k * v k =
        (∑ m ∈ Finset.range N, D r m * ∑ k ∈ Finset.range N, E m k * v k) * ∑ k ∈ Finset.range N, E r k * v k := by rw [e]
    rw [e', Finset.sum_mul]
    exact Finset.sum_congr rfl fun m _ => by ring
  have hsq : ∀ v : Nat → ℝ, 0 ≤ ∑ r ∈ Finset.range N, v r ^ 2 -
      2 * c * ∑ r ∈ Finset.range N, v r * ∑ k ∈ Finset.range N, E r k * v k +
        c ^ 2 * ∑ r ∈ Finset.range N, (∑ k ∈ Finset.range N, E r k * v k) ^ 2 := by
    intro v
    refine le_trans (Finset.sum_nonneg (s := Finset.range N) fun r _ =>
      sq_nonneg (v r - c * ∑ k ∈ Finset.range N, E r k * v k)) (le_of_eq ?_)
    rw [Finset.mul_sum, Finset.mul_sum, ← Finset.sum_sub_distrib, ← Finset.sum_add_distrib]
    exact Finset.sum_congr rfl fun r _ => by ring
  have hn : ∀ v : Nat → ℝ, c ^ 2 * ∑ r ∈ Finset.range N, (∑ k ∈ Finset.range N, E r k * v k) ^ 2 ≤
      ∑ r ∈ Finset.range N, v r ^ 2 := by
    intro v
    have h1 := mul_le_mul_of_nonneg_left (hquad v) hc.le
    have h2 := hsq v
    nlinarith
  refine ⟨hsym, hn, fun v hv => ?_, fun v => ?_⟩
  · refine lt_of_lt_of_le ?_ (hquad v)
    refine mul_pos hc ?_
    refine lt_of_le_of_ne (Finset.sum_nonneg fun _ _ => sq_nonneg _) fun h0 => ?_
    obtain ⟨r, hr, hv⟩ := hv
    have hz := (Finset.sum_eq_zero_iff_of_nonneg fun _ _ => sq_nonneg _).mp h0.symm
    apply hv
    rw [← hDE v r hr]
    refine Finset.sum_eq_zero fun m hm => ?_
    rw [pow_eq_zero_iff two_ne_zero |>.mp (hz m hm), mul_zero]
  · have h1 := hn v
    have h2 := hsq v
    linarith

/-! ## The inverse of KFAC -/

theorem damped_blocks_ge {sep : Bool} {shapes : List (List Nat)} {mapping : Dict (Dict Nat)}
    {inCov gradCov : Dict (Factor ℝ)} {layers : List (Layer ℝ)} (h : KfacLayers sep shapes mapping inCov gradCov layers)
    (hi : DictGram inCov) (hg : DictGram gradCov) (a b : Layer ℝ → ℝ) (ha : ∀ l ∈ layers, 0 ≤ a l) (hb : ∀ l ∈ layers, 0 ≤ b l)
    (c : ℝ) (hw : ∀ l ∈ layers, l.pos.hasWeight = true → c ≤ a l * b l)
    (hbias : ∀ l ∈ layers, l.pos.ownBias sep = true → c ≤ b l) :
    ∀ k ∈ kfacBlocks sep shapes (layers.map fun l => l.damped (a l) (b l)), ∃ x y : ℝ, 0 ≤ x ∧ 0 ≤ y ∧ c ≤ x * y ∧
      (IsGram k.cols fun i j => k.A i j - if i = j then x else 0) ∧ IsGram k.rows fun i j => k.B i j - if i = j then y else 0 := by
  intro k hk
  obtain ⟨l', hl', hk⟩ := List.mem_flatMap.mp hk
  obtain ⟨l, hl, rfl⟩ := List.mem_map.mp hl'
  have hB : IsGram l.B.dim l.B.mat := hg _ _ (h.gradCov_get l hl)
  have hA : l.pos.hasWeight = true → IsGram l.A.dim l.A.mat := fun hw => hi _ _ (h.inCov_get l hl hw)
  have hfit := h.fits l hl
  have hw := hw l hl
  have hbias := hbias l hl
  have ha := ha l hl
  have hb := hb l hl
  have hdB : IsGram l.B.dim fun i j => (l.B.addDiag (b l)).mat i j - if i = j then b l else 0 := by
    simpa [Factor.addDiag] using hB
  have hone : IsGram 1 fun i j => (1 : ℝ) - if i = j then 1 else 0 := ⟨[], fun i hi j hj => by
    obtain rfl : i = 0 := by omega
    obtain rfl : j = 0 := by omega
    simp⟩
  unfold Layer.Fits at hfit
  unfold Layer.blocks at hk
  unfold LayerPos.ownBias at hbias
  simp only [Layer.damped] at hk
  cases hp : l.pos with
  | both w b' =>
    simp only [hp, LayerPos.hasWeight, forall_const] at hA hfit hk hw hbias
    have hdA : IsGram l.A.dim fun i j => (l.A.addDiag (a l)).mat i j - if i = j then a l else 0 := by
      simpa [Factor.addDiag] using hA
    cases sep with
    | true =>
      simp only [if_true, add_zero, forall_const] at hfit hk hbias
      simp only [List.mem_cons, List.not_mem_nil, or_false] at hk
      rcases hk with rfl | rfl
      · rw [hfit.2.2] at hdA
        exact ⟨a l, b l, ha, hb, hw, hdA, hdB⟩
      · exact ⟨1, b l, zero_le_one, hb, by linarith, hone, hdB⟩
    | false =>
      simp only [Bool.false_eq_true, if_false] at hfit hk
      simp only [List.mem_singleton] at hk
      subst hk
      rw [hfit.2.2] at hdA
      exact ⟨a l, b l, ha, hb, hw, hdA, hdB⟩
  | weight w =>
    simp only [hp, LayerPos.hasWeight, forall_const] at hA hfit hk hw
    have hdA : IsGram l.A.dim fun i j => (l.A.addDiag (a l)).mat i j - if i = j then a l else 0 := by
      simpa [Factor.addDiag] using hA
    simp only [List.mem_singleton] at hk
    subst hk
    rw [hfit.2] at hdA
    exact ⟨a l, b l, ha, hb, hw, hdA, hdB⟩
  | bias b' =>
    simp only [hp, forall_const] at hk hbias
    simp only [List.mem_singleton] at hk
    subst hk
    exact ⟨1, b l, zero_le_one, hb, by linarith, hone, hdB⟩

theorem damped_tiles {sep : Bool} {shapes : List (List Nat)} {mapping : Dict (Dict Nat)} {inCov gradCov : Dict (Factor ℝ)}
    {layers : List (Layer ℝ)} (h : KfacLayers sep shapes mapping inCov gradCov layers) (a b : Layer ℝ → ℝ) :
    Tiles (kfacBlocks sep shapes (layers.map fun l => l.damped (a l) (b l))) (shapes.map List.prod).sum := by
  refine tiles_of_perm _ _ ?_
  rw [← range_flatMap_posCoords, kfacBlocks, List.flatMap_assoc, List.flatMap_map]
  refine (perm_flatMap_of_forall _ _ layers fun l hl => Layer.blocks_coords sep shapes (l.damped (a l) (b l)) ?_).trans ?_
  · have := h.fits l hl
    obtain ⟨n, pos, A, B⟩ := l
    cases pos <;> exact this
  · show (layers.flatMap fun l => l.pos.positions.flatMap (posCoords shapes)).Perm _
    rw [← List.flatMap_assoc]
    exact h.perm.flatMap_right _

/-- C98 for damped factors (dampings of whatever origin): the inverse is symmetric and positive definite, and is at most
division by `c`, for every `c` below the products of the two dampings (and below the damping of the gradient covariance,
if biases have blocks of their own). -/
theorem kfacInverse_damped_bounded (w : KWorld Θ B G) (s₀ : KState Θ) (hf : s₀.IsFresh) (hg : w.Good s₀.cfg) (la : LinAlg)
    (hla : la.Correct) (dt : FloatType) (shapes : List (List Nat)) (layers : List (Layer ℝ))
    (hK : KfacLayers s₀.cfg.sep shapes w.mapping (w.factors s₀).1 (w.factors s₀).2 layers) (cfg : InvCfg)
    (hex : cfg.exact = false) (a b : Layer ℝ → ℝ)
    (hd : ∀ l ∈ layers, computeDamping cfg ((w.factors s₀).1.get l.name) ((w.factors s₀).2.get l.name) =
      .ok (.fin (a l), .fin (b l)))
    (ha : ∀ l ∈ layers, 0 < a l) (hb : ∀ l ∈ layers, 0 < b l) (c : ℝ) (hc : 0 < c)
    (hw : ∀ l ∈ layers, l.pos.hasWeight = true → c ≤ a l * b l)
    (hbias : ∀ l ∈ layers, l.pos.ownBias s₀.cfg.sep = true → c ≤ b l) :
    ∃ E, Represents (KInvState.op w la dt shapes ⟨s₀, cfg, []⟩) E ∧ BoundedInverse (shapes.map List.prod).sum c E := by
  have hgram := kfacFactors_gram s₀.cfg w.layers (w.batches s₀.model s₀.cfg (w.seeded s₀.seed) w.data)
  have hblk := damped_blocks_ge hK hgram.1 hgram.2 a b (fun l hl => (ha l hl).le) (fun l hl => (hb l hl).le) c hw hbias
  have ht := damped_tiles hK a b
  obtain ⟨E, hE, hI⟩ := kfacInverse_fresh_damped w s₀ hf hg la hla dt shapes layers hK cfg hex a b hd ha hb _
    (scatter_isKron _ _ ht)
  refine ⟨E, hE, matInv_bounded _ c hc _ E ?_ (kron_ge _ _ ht _ (scatter_isKron _ _ ht) c hblk) hI⟩
  refine (kron_psd _ _ ht _ (scatter_isKron _ _ ht) fun k hk => ?_).1
  obtain ⟨x, y, hx, hy, -, hA, hB⟩ := hblk k hk
  exact ⟨isGram_of_sub hx hA, isGram_of_sub hy hB⟩

/-- C98 for exact damping `δ`: the bound is `1 / δ`. -/
theorem kfacInverse_exact_bounded (w : KWorld Θ B G) (s₀ : KState Θ) (hf : s₀.IsFresh) (hg : w.Good s₀.cfg) (la : LinAlg)
    (hla : la.Correct) (dt : FloatType) (shapes : List (List Nat)) (layers : List (Layer ℝ))
    (hK : KfacLayers s₀.cfg.sep shapes w.mapping (w.factors s₀).1 (w.factors s₀).2 layers) (cfg : InvCfg)
    (hex : cfg.exact = true) (δ : ℝ) (hδ : cfg.damping = .value δ) (hpos : 0 < δ) :
    ∃ E, Represents (KInvState.op w la dt shapes ⟨s₀, cfg, []⟩) E ∧ BoundedInverse (shapes.map List.prod).sum δ E := by
  obtain ⟨M, hM⟩ := (kfac_matrix_exists _ _ _ _ _ _ hK).1
  obtain ⟨E, hE, hI⟩ := kfacInverse_fresh_exact w s₀ hf hg la hla dt shapes layers hK cfg hex δ hδ hpos M hM
  have hgram := kfacFactors_gram s₀.cfg w.layers (w.batches s₀.model s₀.cfg (w.seeded s₀.seed) w.data)
  obtain ⟨hs, hq⟩ := kron_psd _ _ (kfac_tiles _ _ _ _ _ _ hK) M hM (kfacBlocks_gram hK hgram.1 hgram.2)
  refine ⟨E, hE, matInv_bounded _ δ hpos _ E (fun r hr k hk => ?_) (fun v => ?_) hI⟩
  · simp only [hs r hr k hk, eq_comm]
  · have h0 := hq v
    have : ∑ r ∈ Finset.range (shapes.map List.prod).sum, ∑ k ∈ Finset.range (shapes.map List.prod).sum,
        v r * (M r k + if r = k then δ else 0) * v k =
        ∑ r ∈ Finset.range (shapes.map List.prod).sum, ∑ k ∈ Finset.range (shapes.map List.prod).sum, v r * M r k * v k +
          δ * ∑ r ∈ Finset.range (shapes.map List.prod).sum, v r * v r := by
      rw [Finset.mul_sum, ← Finset.sum_add_distrib]
      refine Finset.sum_congr rfl fun r hr => ?_
      simp only [mul_add, add_mul, Finset.sum_add_distrib]
      congr 1
      rw [Finset.sum_eq_single r]
      · simp; ring
      · intro k _ hk
        simp [Ne.symm hk]
      · exact fun h => absurd hr h
    rw [this]
    linarith

/-- C98 for one number `δ` (without heuristic): the bound is `1 / δ²` if all biases are treated jointly with weights, and
`1 / min (δ², δ)` otherwise. -/
theorem kfacInverse_value_bounded (w : KWorld Θ B G) (s₀ : KState Θ) (hf : s₀.IsFresh) (hg : w.Good s₀.cfg) (la : LinAlg)
    (hla : la.Correct) (dt : FloatType) (shapes : List (List Nat)) (layers : List (Layer ℝ))
    (hK : KfacLayers s₀.cfg.sep shapes w.mapping (w.factors s₀).1 (w.factors s₀).2 layers) (cfg : InvCfg)
    (hex : cfg.exact = false) (hh : cfg.heuristic = false) (δ : ℝ) (hδ : cfg.damping = .value δ) (hpos : 0 < δ) (c : ℝ)
    (hc : 0 < c) (hw : c ≤ δ ^ 2) (hbias : ∀ l ∈ layers, l.pos.ownBias s₀.cfg.sep = true → c ≤ δ) :
    ∃ E, Represents (KInvState.op w la dt shapes ⟨s₀, cfg, []⟩) E ∧ BoundedInverse (shapes.map List.prod).sum c E :=
  kfacInverse_damped_bounded w s₀ hf hg la hla dt shapes layers hK cfg hex (fun _ => δ) (fun _ => δ)
    (fun _ _ => (plainDamping cfg hh _ _).1 _ hδ) (fun _ _ => hpos) (fun _ _ => hpos) c hc (fun _ _ _ => by linarith) hbias

/-- C98 with heuristic: if no factor has mean eigenvalue zero and every layer has its bias joint with its weight, then the
bound is `1 / δ`, as for exact damping, whatever `min_damping ≥ 0` is. -/
theorem kfacInverse_heuristic_bounded (w : KWorld Θ B G) (s₀ : KState Θ) (hf : s₀.IsFresh) (hg : w.Good s₀.cfg) (la : LinAlg)
    (hla : la.Correct) (dt : FloatType) (shapes : List (List Nat)) (layers : List (Layer ℝ))
    (hK : KfacLayers s₀.cfg.sep shapes w.mapping (w.factors s₀).1 (w.factors s₀).2 layers) (cfg : InvCfg)
    (hex : cfg.exact = false) (hh : cfg.heuristic = true) (δ : ℝ) (hδ : cfg.damping = .value δ) (hpos : 0 < δ)
    (hl : ∀ l ∈ layers, l.pos.hasWeight = true ∧ l.pos.ownBias s₀.cfg.sep = false)
    (hne : ∀ l ∈ layers, 0 < l.A.eigMean ∧ 0 < l.B.eigMean) :
    ∃ E, Represents (KInvState.op w la dt shapes ⟨s₀, cfg, []⟩) E ∧ BoundedInverse (shapes.map List.prod).sum δ E := by
  have hex' : ∀ l : Layer ℝ, ∃ p : ℝ × ℝ, l ∈ layers → computeDamping cfg ((w.factors s₀).1.get l.name)
      ((w.factors s₀).2.get l.name) = .ok (.fin p.1, .fin p.2) ∧ 0 < p.1 ∧ 0 < p.2 ∧ δ ≤ p.1 * p.2 := by
    intro l
    by_cases hm : l ∈ layers
    · obtain ⟨a, b, h1, ha, hb, -⟩ := heuristicDamping_partial cfg δ hh hδ hpos.le l.A l.B (hne l hm).1 (hne l hm).2
      have hA := (hne l hm).1
      have hB := (hne l hm).2
      have pa : 0 < Real.sqrt (δ * (l.A.eigMean / l.B.eigMean)) := Real.sqrt_pos.mpr (by positivity)
      have pb : 0 < Real.sqrt (δ * (l.B.eigMean / l.A.eigMean)) := Real.sqrt_pos.mpr (by positivity)
      have la' := le_max_left (Real.sqrt (δ * (l.A.eigMean / l.B.eigMean))) cfg.minDamping
      have lb' := le_max_left (Real.sqrt (δ * (l.B.eigMean / l.A.eigMean))) cfg.minDamping
      rw [← ha] at la'
      rw [← hb] at lb'
      refine ⟨(a, b), fun _ => ⟨?_, lt_of_lt_of_le pa la', lt_of_lt_of_le pb lb', ?_⟩⟩
      · rw [hK.inCov_get l hm (hl l hm).1, hK.gradCov_get l hm]
        exact h1
      · refine le_trans (le_of_eq ?_) (mul_le_mul la' lb' pb.le (pa.le.trans la'))
        rw [← Real.sqrt_mul (by positivity)]
        have : δ * (l.A.eigMean / l.B.eigMean) * (δ * (l.B.eigMean / l.A.eigMean)) = δ ^ 2 := by
          field_simp
        rw [this, Real.sqrt_sq hpos.le]
    · exact ⟨(0, 0), fun h => absurd h hm⟩
  choose p hp using hex'
  exact kfacInverse_damped_bounded w s₀ hf hg la hla dt shapes layers hK cfg hex (fun l => (p l).1) (fun l => (p l).2)
    (fun l h => (hp l h).1) (fun l h => (hp l h).2.1) (fun l h => (hp l h).2.2.1) δ hpos (fun l h _ => (hp l h).2.2.2)
    fun l h ho => by rw [(hl l h).2] at ho; cases ho

/-! ## Examples, and sharpness -/

/-- One linear layer with one weight, one datum with input and gradient zero. -/
def zeroWorld : KWorld Unit (List KDatum) Unit :=
  ⟨[⟨"lin", [("weight", 0)], 1, 1, 1⟩], [[⟨fun _ _ _ => 0, fun _ _ _ _ _ => 0, fun _ _ _ => 0, fun _ _ _ => 0⟩]],
    fun _ => (), fun _ _ g b => (b, g)⟩

theorem zeroWorld_good : zeroWorld.Good stateCfg :=
  ⟨by simp [zeroWorld], by simp [zeroWorld], by simp [zeroWorld], by simp [stateCfg], by simp [stateCfg], by simp [stateCfg]⟩

/-- Its only layer. -/
noncomputable def zeroLayer : Layer ℝ := ⟨"lin", .weight 0, ⟨1, fun _ _ => 0⟩, ⟨1, fun _ _ => 0⟩⟩

theorem zero_factors : zeroWorld.factors unitState =
    ([("lin", ⟨1, fun _ _ => 0⟩)], [("lin", ⟨1, fun _ _ => 0⟩)]) := by
  have h1 : inputCovariance stateCfg ⟨"lin", [("weight", 0)], 1, 1, 1⟩
      [⟨fun _ _ _ => 0, fun _ _ _ _ _ => 0, fun _ _ _ => 0, fun _ _ _ => 0⟩] = ⟨1, fun _ _ => 0⟩ := by
    refine congrArg (Factor.mk 1) ?_
    funext i j
    simp [gram, inputRows, stateCfg, KLayer.joint, Dict.has]
  have h2 : gradCovariance stateCfg ⟨"lin", [("weight", 0)], 1, 1, 1⟩
      [⟨fun _ _ _ => 0, fun _ _ _ _ _ => 0, fun _ _ _ => 0, fun _ _ _ => 0⟩] 0 = ⟨1, fun _ _ => 0⟩ := by
    refine congrArg (Factor.mk 1) ?_
    funext i j
    simp [gram, gradRows, stateCfg, outputGrad, cotangent, correction]
  have h3 : zeroWorld.factors unitState = ([KEvent.input "lin" (inputCovariance stateCfg ⟨"lin", [("weight", 0)], 1, 1, 1⟩
      [⟨fun _ _ _ => 0, fun _ _ _ _ _ => 0, fun _ _ _ => 0, fun _ _ _ => 0⟩]),
      .grad "lin" (gradCovariance stateCfg ⟨"lin", [("weight", 0)], 1, 1, 1⟩
      [⟨fun _ _ _ => 0, fun _ _ _ _ _ => 0, fun _ _ _ => 0, fun _ _ _ => 0⟩] 0)]).foldl applyEvent ([], []) := rfl
  rw [h3, h1, h2]
  rfl

theorem zero_layers : KfacLayers unitState.cfg.sep [[1, 1]] zeroWorld.mapping (zeroWorld.factors unitState).1
    (zeroWorld.factors unitState).2 [zeroLayer] := by
  rw [zero_factors]
  refine ⟨rfl, by simp [zeroLayer, LayerPos.positions], ?_, ?_, ?_⟩
  · intro l hl _
    rw [List.mem_singleton.mp hl]
    rfl
  · intro l hl
    rw [List.mem_singleton.mp hl]
    rfl
  · intro l hl
    rw [List.mem_singleton.mp hl]
    exact ⟨rfl, rfl⟩

/-- The bound `1 / δ²` for damped factors is sharp, and for `δ < 1` the bound `1 / δ` of exact damping does not hold. -/
theorem kfacInverse_value_sharp (la : LinAlg) (hla : la.Correct) (dt : FloatType) (c : Bool) (δ : ℝ) (hδ : 0 < δ) :
    ∃ E, Represents (KInvState.op zeroWorld la dt [[1, 1]] ⟨unitState, ⟨.value δ, false, 0, false, c, true⟩, []⟩) E ∧
      E 0 0 = 1 / δ ^ 2 ∧ (δ < 1 → ¬ BoundedInverse 1 δ E) := by
  have hD : IsKron (kfacBlocks unitState.cfg.sep [[1, 1]] ([zeroLayer].map fun l => l.damped δ δ))
      fun _ _ => δ ^ 2 := by
    have : kfacBlocks unitState.cfg.sep [[1, 1]] ([zeroLayer].map fun l => l.damped δ δ) =
      [(zeroLayer.damped δ δ).wBlock [[1, 1]] 0] := rfl
    rw [this]
    rintro ⟨⟨i, hi⟩, a, b⟩ ⟨⟨j, hj⟩, c, d⟩
    obtain rfl : i = 0 := by simpa using hi
    obtain rfl : j = 0 := by simpa using hj
    simp only [KIdx.entry, if_true, Fin.getElem_fin, List.getElem_cons_zero]
    have ha : (a : Nat) = 0 := Nat.lt_one_iff.mp a.2
    have hb : (b : Nat) = 0 := Nat.lt_one_iff.mp b.2
    have hc : (c : Nat) = 0 := Nat.lt_one_iff.mp c.2
    have hd : (d : Nat) = 0 := Nat.lt_one_iff.mp d.2
    rw [ha, hb, hc, hd]
    show δ ^ 2 = (0 + if (0 : Nat) = 0 then δ else 0) * (0 + if (0 : Nat) = 0 then δ else 0)
    simp [pow_two]
  obtain ⟨E, hE, hI⟩ := kfacInverse_fresh_damped zeroWorld unitState unitState_fresh zeroWorld_good la hla dt [[1, 1]]
    [zeroLayer] zero_layers ⟨.value δ, false, 0, false, c, true⟩ rfl (fun _ => δ) (fun _ => δ)
    (fun l _ => (plainDamping _ rfl _ _).1 δ rfl) (fun _ _ => hδ) (fun _ _ => hδ) _ hD
  have h0 : E 0 0 = 1 / δ ^ 2 := by
    have := (hI 0 (by simp) 0 (by simp)).1
    simp at this
    field_simp
    linarith
  refine ⟨E, hE, h0, fun h1 hb => ?_⟩
  have := hb.norm_le fun _ => 1
  simp [h0] at this
  have h2 : δ ^ 2 * (δ ^ 2)⁻¹ ^ 2 = (δ ^ 2)⁻¹ := by field_simp
  have h3 : 1 < (δ ^ 2)⁻¹ := (one_lt_inv₀ (by positivity)).mpr (by nlinarith)
  have h4 : ((δ ^ 2) ^ 2)⁻¹ = (δ ^ 2)⁻¹ ^ 2 := by rw [inv_pow]
  rw [h4, h2] at this
  linarith

/-- The hypotheses of the bounds are satisfiable: exact damping 1, and the heuristic with damping 3, in the unit example. -/
example (la : LinAlg) (hla : la.Correct) : ∃ E, Represents
    (KInvState.op unitWorld la .lower [[1, 1]] ⟨unitState, ⟨.value 1, false, 0, true, true, true⟩, []⟩) E ∧ BoundedInverse 1 1 E :=
  kfacInverse_exact_bounded unitWorld unitState unitState_fresh unitWorld_good la hla .lower [[1, 1]] [unitLayer] unit_layers
    _ rfl 1 rfl one_pos

example (la : LinAlg) (hla : la.Correct) : ∃ E, Represents
    (KInvState.op unitWorld la .lower [[1, 1]] ⟨unitState, ⟨.value 3, true, 1 / 100, false, true, true⟩, []⟩) E ∧
      BoundedInverse 1 3 E := by
  refine kfacInverse_heuristic_bounded unitWorld unitState unitState_fresh unitWorld_good la hla .lower [[1, 1]] [unitLayer]
    unit_layers _ rfl rfl 3 rfl (by norm_num) ?_ ?_ <;> intro l hl <;> rw [List.mem_singleton.mp hl]
  · exact ⟨rfl, rfl⟩
  · constructor <;> simp [Factor.eigMean, unitLayer]

end Curvlinops
