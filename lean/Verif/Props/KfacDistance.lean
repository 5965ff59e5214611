import Verif.Props.KfacError
import Verif.Props.NaturalGradient
import Verif.Props.KfacInverseBound

/-!
# C114: distance of KFAC and its inverse from the block-diagonal GGN

The covariances of C113, summed over all blocks, bound the distance of KFAC from the block-diagonal of the GGN, and through the damping the
distance between gradients that are preconditioned with the inverses.
-/

namespace Curvlinops

variable {k : LossKind} {C D T : Nat}

/-! ## Specification -/

open Classical in
/-- Specification: the matrix inside the blocks, zero between different blocks. -/
noncomputable def SeqNet.blockDiagonal (sep : Bool) (shapes : List (List Nat)) (net : SeqNet D T C) (F : Mat ℝ) : Mat ℝ :=
  fun p q => if net.SameBlock sep shapes p q then F p q else 0

/-- Specification: variances of the curvatures in a layer's outputs times variances of the products of its inputs, summed over all blocks. -/
noncomputable def SeqNet.errorBound (H : Term k C → Fin C → Fin C → ℝ) (cfg : KfacCfg) (shapes : List (List Nat)) (net : SeqNet D T C)
    (θ : Nat → ℝ) (data : List (NetInput D T C k)) : ℝ :=
  (net.stages.map fun st => ((netBlocks cfg.sep shapes st.name st.pos st.dout).map fun nb =>
    (∑ i ∈ Finset.range nb.rows, ∑ i' ∈ Finset.range nb.rows,
        sampleCov (net.samples H cfg shapes θ st nb data) (fun e => e.curv i i') fun e => e.curv i i') *
      ∑ j ∈ Finset.range nb.cols, ∑ j' ∈ Finset.range nb.cols,
        sampleCov (net.samples H cfg shapes θ st nb data) (fun e => e.input j * e.input j') fun e => e.input j * e.input j').sum).sum

/-- Specification: the product of `E` with any vector differs from the solution of the system with the matrix `A` by at most `c` times the
vector's squared norm (squared Euclidean norms), and the solution exists. -/
structure NearInverse (N : Nat) (A E : Mat ℝ) (c : ℝ) : Prop where
  near : ∀ g y : Nat → ℝ, (∀ p < N, ∑ q ∈ Finset.range N, A p q * y q = g p) →
    ∑ p ∈ Finset.range N, (∑ q ∈ Finset.range N, E p q * g q - y p) ^ 2 ≤ c * ∑ p ∈ Finset.range N, g p ^ 2
  solvable : ∀ g : Nat → ℝ, ∃ y : Nat → ℝ, ∀ p < N, ∑ q ∈ Finset.range N, A p q * y q = g p

/-! ## Linear algebra -/

/-- A solution of a system with a positive semi-definite matrix plus damping. -/
theorem damped_norm_le {N : Nat} {G : Mat ℝ} (hG : QuadNonneg N G) {δ : ℝ} (hδ : 0 < δ) {g y : Nat → ℝ}
    (hy : ∀ p < N, ∑ q ∈ Finset.range N, (G p q + if p = q then δ else 0) * y q = g p) :
    δ ^ 2 * ∑ p ∈ Finset.range N, y p ^ 2 ≤ ∑ p ∈ Finset.range N, g p ^ 2 := by
  have h1 : ∑ p ∈ Finset.range N, y p * g p = ∑ p ∈ Finset.range N, ∑ q ∈ Finset.range N, y p * G p q * y q +
      δ * ∑ p ∈ Finset.range N, y p ^ 2 := by
    rw [Finset.mul_sum, ← Finset.sum_add_distrib]
    refine Finset.sum_congr rfl fun p hp => ?_
    rw [← hy p (Finset.mem_range.mp hp)]
    simp only [add_mul, Finset.sum_add_distrib, mul_add, Finset.mul_sum, ite_mul, zero_mul, mul_ite, mul_zero]
    rw [Finset.sum_ite_eq]
    simp only [hp, if_true]
    congr 1
    · exact Finset.sum_congr rfl fun q _ => by ring
    · ring
  have h2 := hG y
  have h3 : δ * ∑ p ∈ Finset.range N, y p ^ 2 ≤ ∑ p ∈ Finset.range N, y p * g p := by rw [h1]; linarith
  have h4 := Finset.sum_mul_sq_le_sq_mul_sq (Finset.range N) y g
  have hy0 : 0 ≤ ∑ p ∈ Finset.range N, y p ^ 2 := Finset.sum_nonneg fun _ _ => sq_nonneg _
  rcases hy0.eq_or_lt with h0 | h0
  · rw [← h0, mul_zero]
    exact Finset.sum_nonneg fun _ _ => sq_nonneg _
  · have h5 : (δ * ∑ p ∈ Finset.range N, y p ^ 2) ^ 2 ≤ (∑ p ∈ Finset.range N, y p * g p) ^ 2 :=
      pow_le_pow_left₀ (mul_nonneg hδ.le hy0) h3 2
    have h6 := h5.trans h4
    have h7 : (∑ p ∈ Finset.range N, y p ^ 2) * (δ ^ 2 * ∑ p ∈ Finset.range N, y p ^ 2) ≤
        (∑ p ∈ Finset.range N, y p ^ 2) * ∑ p ∈ Finset.range N, g p ^ 2 := by
      calc _ = (δ * ∑ p ∈ Finset.range N, y p ^ 2) ^ 2 := by ring
        _ ≤ _ := h6
    exact le_of_mul_le_mul_left h7 h0

/-- Such systems have solutions. -/
theorem damped_solvable {N : Nat} {G : Mat ℝ} (hG : QuadNonneg N G) {δ : ℝ} (hδ : 0 < δ) (g : Nat → ℝ) :
    ∃ y : Nat → ℝ, ∀ p < N, ∑ q ∈ Finset.range N, (G p q + if p = q then δ else 0) * y q = g p := by
  set A : Matrix (Fin N) (Fin N) ℝ := Matrix.of fun i j => G i j + if (i : Nat) = j then δ else 0 with hA
  have hrow : ∀ (u : Fin N → ℝ) (p : Fin N), ∑ q ∈ Finset.range N, (G p q + if (p : Nat) = q then δ else 0) *
      (if h : q < N then u ⟨q, h⟩ else 0) = A.mulVec u p := by
    intro u p
    rw [Finset.sum_range]
    simp [Matrix.mulVec, dotProduct, hA]
  have hinj : Function.Injective A.mulVecLin := by
    rw [← LinearMap.ker_eq_bot, LinearMap.ker_eq_bot']
    intro u hu
    have h := damped_norm_le hG hδ (g := fun _ => 0) (y := fun q => if h : q < N then u ⟨q, h⟩ else 0) (fun p hp => by
      rw [hrow u ⟨p, hp⟩, ← Matrix.mulVecLin_apply, hu]
      rfl)
    rw [Finset.sum_range, Finset.sum_range] at h
    simp only [Fin.is_lt, dite_true, Fin.eta, ne_eq, OfNat.ofNat_ne_zero, not_false_eq_true, zero_pow, Finset.sum_const_zero] at h
    have h0 : ∑ i : Fin N, u i ^ 2 ≤ 0 := by
      by_contra hc
      have := mul_pos (pow_pos hδ 2) (not_le.mp hc)
      linarith
    have h1 := (Finset.sum_eq_zero_iff_of_nonneg fun i _ => sq_nonneg (u i)).mp (le_antisymm h0 (Finset.sum_nonneg fun _ _ => sq_nonneg _))
    funext i
    simpa using h1 i (Finset.mem_univ i)
  obtain ⟨u, hu⟩ := (LinearMap.injective_iff_surjective.mp hinj) fun i => g i
  refine ⟨fun q => if h : q < N then u ⟨q, h⟩ else 0, fun p hp => ?_⟩
  rw [hrow u ⟨p, hp⟩, ← Matrix.mulVecLin_apply, hu]

theorem mat_frobenius {N : Nat} (A : Mat ℝ) (y : Nat → ℝ) :
    ∑ p ∈ Finset.range N, (∑ q ∈ Finset.range N, A p q * y q) ^ 2 ≤
      (∑ p ∈ Finset.range N, ∑ q ∈ Finset.range N, A p q ^ 2) * ∑ q ∈ Finset.range N, y q ^ 2 := by
  rw [Finset.sum_mul]
  exact Finset.sum_le_sum fun p _ => Finset.sum_mul_sq_le_sq_mul_sq _ _ _

/-- Solutions of systems with two matrices plus damping. -/
theorem damped_distance {N : Nat} {K G E : Mat ℝ} (hG : QuadNonneg N G) {δ : ℝ} (hδ : 0 < δ) (hE : BoundedInverse N δ E)
    (hI : MatInv N (fun p q => K p q + if p = q then δ else 0) E) {g y : Nat → ℝ}
    (hy : ∀ p < N, ∑ q ∈ Finset.range N, (G p q + if p = q then δ else 0) * y q = g p) :
    δ ^ 4 * ∑ p ∈ Finset.range N, (∑ q ∈ Finset.range N, E p q * g q - y p) ^ 2 ≤
      (∑ p ∈ Finset.range N, ∑ q ∈ Finset.range N, (G p q - K p q) ^ 2) * ∑ p ∈ Finset.range N, g p ^ 2 := by
  have h1 : ∀ p < N, ∑ q ∈ Finset.range N, E p q * g q - y p =
      ∑ q ∈ Finset.range N, E p q * ∑ r ∈ Finset.range N, (G q r - K q r) * y r := by
    intro p hp
    have h2 : ∀ q < N, g q = ∑ r ∈ Finset.range N, (G q r - K q r) * y r +
        ∑ r ∈ Finset.range N, (K q r + if q = r then δ else 0) * y r := by
      intro q hq
      rw [← hy q hq, ← Finset.sum_add_distrib]
      exact Finset.sum_congr rfl fun r _ => by ring
    have h3 : ∑ q ∈ Finset.range N, E p q * ∑ r ∈ Finset.range N, (K q r + if q = r then δ else 0) * y r = y p := by
      calc _ = ∑ r ∈ Finset.range N, (∑ q ∈ Finset.range N, E p q * (K q r + if q = r then δ else 0)) * y r := by
            simp only [Finset.mul_sum, Finset.sum_mul]
            rw [Finset.sum_comm]
            exact Finset.sum_congr rfl fun _ _ => Finset.sum_congr rfl fun _ _ => by ring
        _ = ∑ r ∈ Finset.range N, (if p = r then 1 else 0) * y r :=
            Finset.sum_congr rfl fun r hr => by rw [(hI p hp r (Finset.mem_range.mp hr)).2]
        _ = y p := by simp [hp]
    rw [Finset.sum_congr rfl fun q hq => by rw [h2 q (Finset.mem_range.mp hq), mul_add], Finset.sum_add_distrib, h3]
    ring
  rw [Finset.sum_congr rfl fun p hp => by rw [h1 p (Finset.mem_range.mp hp)]]
  have h4 := hE.norm_le fun q => ∑ r ∈ Finset.range N, (G q r - K q r) * y r
  have h5 := mat_frobenius (N := N) (fun q r => G q r - K q r) y
  have h6 := damped_norm_le hG hδ hy
  have hF : 0 ≤ ∑ p ∈ Finset.range N, ∑ q ∈ Finset.range N, (G p q - K p q) ^ 2 :=
    Finset.sum_nonneg fun _ _ => Finset.sum_nonneg fun _ _ => sq_nonneg _
  calc _ = δ ^ 2 * (δ ^ 2 * ∑ p ∈ Finset.range N, (∑ q ∈ Finset.range N, E p q * ∑ r ∈ Finset.range N, (G q r - K q r) * y r) ^ 2) := by ring
    _ ≤ δ ^ 2 * ((∑ p ∈ Finset.range N, ∑ q ∈ Finset.range N, (G p q - K p q) ^ 2) * ∑ q ∈ Finset.range N, y q ^ 2) :=
        mul_le_mul_of_nonneg_left (h4.trans h5) (sq_nonneg _)
    _ = (∑ p ∈ Finset.range N, ∑ q ∈ Finset.range N, (G p q - K p q) ^ 2) * (δ ^ 2 * ∑ q ∈ Finset.range N, y q ^ 2) := by ring
    _ ≤ _ := mul_le_mul_of_nonneg_left h6 hF

/-! ## Blocks -/

theorem sameBlock_iff {cfg : KfacCfg} {shapes : List (List Nat)} {net : SeqNet D T C} (hfit : net.Fits shapes)
    (data : List KDatum) (B : Stage D → Mat ℝ) {N : Nat} (ht : Tiles (kfacBlocks cfg.sep shapes (net.layersWith cfg data B)) N)
    (x y : KIdx (kfacBlocks cfg.sep shapes (net.layersWith cfg data B))) :
    net.SameBlock cfg.sep shapes x.pos y.pos ↔ x.1 = y.1 := by
  constructor
  · intro h
    obtain ⟨b, hb, i, hi, j, hj, i', hi', j', hj', e, e'⟩ := h.block hfit data B
    obtain ⟨l, hl, rfl⟩ := List.mem_iff_getElem.mp hb
    have h1 := ht.pos_inj (x := x) (y := ⟨⟨l, hl⟩, ⟨i, hi⟩, ⟨j, hj⟩⟩) e
    have h2 := ht.pos_inj (x := y) (y := ⟨⟨l, hl⟩, ⟨i', hi'⟩, ⟨j', hj'⟩⟩) e'
    rw [h1, h2]
  · intro h
    obtain ⟨l, i, j⟩ := x
    obtain ⟨l', i', j'⟩ := y
    simp only at h
    subst h
    exact SeqNet.sameBlock_of_block hfit data B (List.getElem_mem l.2) i.2 j.2 i'.2 j'.2

open Classical in
theorem blockDiagonal_psd {cfg : KfacCfg} {shapes : List (List Nat)} {net : SeqNet D T C} (hfit : net.Fits shapes)
    (data : List KDatum) (B : Stage D → Mat ℝ) {N : Nat} (ht : Tiles (kfacBlocks cfg.sep shapes (net.layersWith cfg data B)) N)
    {F : Mat ℝ} (hF : QuadNonneg N F) : QuadNonneg N (net.blockDiagonal cfg.sep shapes F) := by
  intro v
  have h : ∑ r ∈ Finset.range N, ∑ c ∈ Finset.range N, v r * net.blockDiagonal cfg.sep shapes F r c * v c =
      ∑ l : Fin (kfacBlocks cfg.sep shapes (net.layersWith cfg data B)).length, ∑ r ∈ Finset.range N, ∑ c ∈ Finset.range N,
        (if ∃ z, KIdx.pos (bs := kfacBlocks cfg.sep shapes (net.layersWith cfg data B)) ⟨l, z⟩ = r then v r else 0) * F r c *
          (if ∃ z, KIdx.pos (bs := kfacBlocks cfg.sep shapes (net.layersWith cfg data B)) ⟨l, z⟩ = c then v c else 0) := by
    have hpos : ∀ (l) (x : KIdx (kfacBlocks cfg.sep shapes (net.layersWith cfg data B))),
        (∃ z, KIdx.pos (bs := kfacBlocks cfg.sep shapes (net.layersWith cfg data B)) ⟨l, z⟩ = x.pos) ↔ l = x.1 := by
      intro l x
      constructor
      · rintro ⟨z, hz⟩
        exact congrArg Sigma.fst (ht.pos_inj hz)
      · rintro rfl
        exact ⟨x.2, rfl⟩
    simp only [ht.sum_eq (β := ℝ), hpos]
    rw [Finset.sum_comm (s := Finset.univ (α := Fin _))]
    refine Finset.sum_congr rfl fun x _ => ?_
    rw [Finset.sum_comm (s := Finset.univ (α := Fin _))]
    refine Finset.sum_congr rfl fun y _ => ?_
    unfold SeqNet.blockDiagonal
    simp only [sameBlock_iff hfit data B ht]
    rw [Finset.sum_eq_single x.1]
    · by_cases hxy : x.1 = y.1
      · simp [hxy]
      · simp [hxy]
    · intro l _ hl
      simp [hl]
    · simp
  rw [h]
  exact Finset.sum_nonneg fun l _ => hF _

/-- The parts of a block that do not depend on factors. -/
theorem netBlocks_blocks {sep : Bool} {shapes : List (List Nat)} (l : Layer ℝ) (f : Nat → Nat → (Nat → Nat → Nat) → ℝ) :
    (l.blocks sep shapes).map (fun b => f b.rows b.cols b.idx) =
      (netBlocks sep shapes l.name l.pos l.B.dim).map fun nb => f nb.rows nb.cols nb.idx := by
  unfold Layer.blocks netBlocks
  cases l.pos with
  | weight w => rfl
  | bias b => rfl
  | both w b => cases sep <;> rfl

/-- The squared Frobenius norm of a difference inside the blocks. -/
theorem blockDiagonal_frobenius {cfg : KfacCfg} {shapes : List (List Nat)} {net : SeqNet D T C} (hfit : net.Fits shapes)
    (data : List KDatum) (B : Stage D → Mat ℝ) {N : Nat} (ht : Tiles (kfacBlocks cfg.sep shapes (net.layersWith cfg data B)) N)
    (F K : Mat ℝ) :
    ∑ p ∈ Finset.range N, ∑ q ∈ Finset.range N, (net.blockDiagonal cfg.sep shapes F p q - net.blockDiagonal cfg.sep shapes K p q) ^ 2 =
      (net.stages.map fun st => ((netBlocks cfg.sep shapes st.name st.pos st.dout).map fun nb =>
        ∑ i ∈ Finset.range nb.rows, ∑ i' ∈ Finset.range nb.rows, ∑ j ∈ Finset.range nb.cols, ∑ j' ∈ Finset.range nb.cols,
          (F (nb.idx i j) (nb.idx i' j') - K (nb.idx i j) (nb.idx i' j')) ^ 2).sum).sum := by
  have h1 : ∑ p ∈ Finset.range N, ∑ q ∈ Finset.range N,
      (net.blockDiagonal cfg.sep shapes F p q - net.blockDiagonal cfg.sep shapes K p q) ^ 2 =
      ((kfacBlocks cfg.sep shapes (net.layersWith cfg data B)).map fun b => ∑ i ∈ Finset.range b.rows, ∑ i' ∈ Finset.range b.rows,
        ∑ j ∈ Finset.range b.cols, ∑ j' ∈ Finset.range b.cols, (F (b.idx i j) (b.idx i' j') - K (b.idx i j) (b.idx i' j')) ^ 2).sum := by
    rw [← Fin.sum_univ_fun_getElem]
    simp only [ht.sum_eq (β := ℝ)]
    rw [Fintype.sum_sigma]
    refine Finset.sum_congr rfl fun l _ => ?_
    rw [Fintype.sum_prod_type, Finset.sum_range]
    refine Finset.sum_congr rfl fun i _ => ?_
    have h2 : ∀ j, ∑ y : KIdx (kfacBlocks cfg.sep shapes (net.layersWith cfg data B)),
        (net.blockDiagonal cfg.sep shapes F (KIdx.pos ⟨l, i, j⟩) y.pos - net.blockDiagonal cfg.sep shapes K (KIdx.pos ⟨l, i, j⟩) y.pos) ^ 2 =
        ∑ i' : Fin ((kfacBlocks cfg.sep shapes (net.layersWith cfg data B))[l]).rows,
          ∑ j' : Fin ((kfacBlocks cfg.sep shapes (net.layersWith cfg data B))[l]).cols,
            (F (KIdx.pos (bs := kfacBlocks cfg.sep shapes (net.layersWith cfg data B)) ⟨l, i, j⟩) (KIdx.pos (bs := kfacBlocks cfg.sep shapes (net.layersWith cfg data B)) ⟨l, i', j'⟩) -
              K (KIdx.pos (bs := kfacBlocks cfg.sep shapes (net.layersWith cfg data B)) ⟨l, i, j⟩) (KIdx.pos (bs := kfacBlocks cfg.sep shapes (net.layersWith cfg data B)) ⟨l, i', j'⟩)) ^ 2 := by
      intro j
      rw [Fintype.sum_sigma, Finset.sum_eq_single l]
      · rw [Fintype.sum_prod_type]
        refine Finset.sum_congr rfl fun i' _ => Finset.sum_congr rfl fun j' _ => ?_
        unfold SeqNet.blockDiagonal
        have : net.SameBlock cfg.sep shapes (KIdx.pos (bs := kfacBlocks cfg.sep shapes (net.layersWith cfg data B)) ⟨l, i, j⟩)
            (KIdx.pos (bs := kfacBlocks cfg.sep shapes (net.layersWith cfg data B)) ⟨l, i', j'⟩) := (sameBlock_iff hfit data B ht _ _).mpr rfl
        rw [if_pos this, if_pos this]
      · intro l' _ hl'
        refine Finset.sum_eq_zero fun z _ => ?_
        unfold SeqNet.blockDiagonal
        have : ¬ net.SameBlock cfg.sep shapes (KIdx.pos (bs := kfacBlocks cfg.sep shapes (net.layersWith cfg data B)) ⟨l, i, j⟩)
            (KIdx.pos (bs := kfacBlocks cfg.sep shapes (net.layersWith cfg data B)) ⟨l', z⟩) :=
          fun h => hl' ((sameBlock_iff hfit data B ht _ _).mp h).symm
        rw [if_neg this, if_neg this]
        ring
      · simp
    simp only [h2]
    rw [Finset.sum_comm, Finset.sum_range]
    refine Finset.sum_congr rfl fun i' _ => ?_
    rw [Finset.sum_range]
    refine Finset.sum_congr rfl fun j _ => ?_
    rw [Finset.sum_range]
    rfl
  rw [h1]
  unfold kfacBlocks
  rw [sum_flatMap_list]
  unfold SeqNet.layersWith
  rw [List.map_map]
  congr 1
  refine List.map_congr_left fun st _ => ?_
  simp only [Function.comp_apply]
  rw [netBlocks_blocks _ fun rows cols idx => ∑ i ∈ Finset.range rows, ∑ i' ∈ Finset.range rows,
        ∑ j ∈ Finset.range cols, ∑ j' ∈ Finset.range cols, (F (idx i j) (idx i' j') - K (idx i j) (idx i' j')) ^ 2]

/-! ## Distances -/

/-- Specification: KFAC's matrix `M` has entries inside the blocks only, and its distance from the block-diagonal of `R` is at most `b`, as
squared Frobenius norm. -/
structure CloseTo (net : SeqNet D T C) (sep : Bool) (shapes : List (List Nat)) (b : ℝ) (R M : Mat ℝ) : Prop where
  block : ∀ p < (shapes.map List.prod).sum, ∀ q < (shapes.map List.prod).sum, M p q = net.blockDiagonal sep shapes M p q
  distance : ∑ p ∈ Finset.range (shapes.map List.prod).sum, ∑ q ∈ Finset.range (shapes.map List.prod).sum,
    (net.blockDiagonal sep shapes R p q - M p q) ^ 2 ≤ b

theorem seqNet_distance {cfg : KfacCfg} {shapes : List (List Nat)} {net : SeqNet D T C} (batches : List (List (NetInput D T C k)))
    (hs : net.Setting cfg shapes batches.flatten.length) {θ : Nat → ℝ} {H : Term k C → Fin C → Fin C → ℝ} {R : Mat ℝ}
    (h : ∃ M, Represents (net.kfac cfg shapes (batches.map (·.map (NetInput.datum shapes net θ)))) M ∧
      ∀ st ∈ net.stages, ∀ nb ∈ netBlocks cfg.sep shapes st.name st.pos st.dout,
        ErrorIsCov M R (net.samples H cfg shapes θ st nb batches.flatten) nb) :
    ∃ M, Represents (net.kfac cfg shapes (batches.map (·.map (NetInput.datum shapes net θ)))) M ∧
      CloseTo net cfg.sep shapes (net.errorBound H cfg shapes θ batches.flatten) R M := by
  obtain ⟨M, hM, he⟩ := h
  have hne : batches.map (·.map (NetInput.datum shapes net θ)) ≠ [] := by
    intro h0
    rw [List.map_eq_nil_iff] at h0
    exact hs.N_ne (by rw [h0]; rfl)
  have hK := seqNet_kfacLayers (cfg := cfg) hs.fit hs.all (batches.map (·.map (NetInput.datum shapes net θ))) hne
    (by rw [hs.terms]; exact hs.T_ne) (by rw [hs.outDim]; exact hs.C_ne) hs.mc
  have ht := kfac_tiles _ _ _ _ _ _ hK
  obtain ⟨⟨M', hM'⟩, -⟩ := kfac_matrix_exists _ _ _ _ _ _ hK
  have hrep := kfac_represents _ _ _ _ _ _ hK M' hM'
  have hblock : ∀ p < (shapes.map List.prod).sum, ∀ q < (shapes.map List.prod).sum, M p q = net.blockDiagonal cfg.sep shapes M p q := by
    intro p hp q hq
    unfold SeqNet.blockDiagonal
    split
    · rfl
    · rename_i h
      rw [represents_unique _ M M' hM hrep p q hp hq]
      exact seqNet_off_block hs.fit _ _ ht hM' hp hq h
  refine ⟨M, hM, hblock, ?_⟩
  rw [Finset.sum_congr rfl fun p hp => Finset.sum_congr rfl fun q hq => by
    rw [hblock p (Finset.mem_range.mp hp) q (Finset.mem_range.mp hq)]]
  rw [blockDiagonal_frobenius hs.fit _ _ ht]
  unfold SeqNet.errorBound
  exact List.sum_le_sum fun st hst => List.sum_le_sum fun nb hnb => (he st hst nb hnb).frobenius

theorem seqNet_inverse_distance {cfg : KfacCfg} {shapes : List (List Nat)} {net : SeqNet D T C} (batches : List (List (NetInput D T C k)))
    (hs : net.Setting cfg shapes batches.flatten.length) (hnet : net.stages ≠ []) {θ : Nat → ℝ} {b : ℝ} {R : Mat ℝ}
    (hR : QuadNonneg (shapes.map List.prod).sum R)
    (h : ∃ M, Represents (net.kfac cfg shapes (batches.map (·.map (NetInput.datum shapes net θ)))) M ∧ CloseTo net cfg.sep shapes b R M)
    (seed : Nat) (shape : Nat × Nat) (progressbar : Bool) (la : LinAlg) (hla : la.Correct) (dt : FloatType) (icfg : InvCfg)
    (hex : icfg.exact = true) (δ : ℝ) (hδ : icfg.damping = .value δ) (hpos : 0 < δ) :
    ∃ E, Represents (KInvState.op (net.world shapes batches) la dt shapes ⟨.fresh θ cfg seed shape progressbar, icfg, []⟩) E ∧
      NearInverse (shapes.map List.prod).sum (net.dampedBlocks cfg.sep shapes R δ) E (b / δ ^ 4) := by
  obtain ⟨M, hM, hc⟩ := h
  have hne : batches.map (·.map (NetInput.datum shapes net θ)) ≠ [] := by
    intro h0
    rw [List.map_eq_nil_iff] at h0
    exact hs.N_ne (by rw [h0]; rfl)
  have hK := seqNet_kfacLayers (cfg := cfg) hs.fit hs.all (batches.map (·.map (NetInput.datum shapes net θ))) hne
    (by rw [hs.terms]; exact hs.T_ne) (by rw [hs.outDim]; exact hs.C_ne) hs.mc
  have ht := kfac_tiles _ _ _ _ _ _ hK
  obtain ⟨⟨M', hM'⟩, -⟩ := kfac_matrix_exists _ _ _ _ _ _ hK
  have hrep := kfac_represents _ _ _ _ _ _ hK M' hM'
  obtain ⟨hsym, hpsd⟩ := kfac_psd _ _ _ _ _ _ hK M' hM'
  have hMM : ∀ p < (shapes.map List.prod).sum, ∀ q < (shapes.map List.prod).sum, M p q = M' p q :=
    fun p hp q hq => represents_unique _ M M' hM hrep p q hp hq
  obtain ⟨E, hE, hI⟩ := seqNet_inverse_exact hs hnet (net.world shapes batches) (.fresh θ cfg seed shape progressbar)
    (KState.fresh_isFresh _ _ _ _ _) rfl rfl (by
      rintro rfl
      exact hs.N_ne rfl) M ⟨M, by
      rw [seqNet_world_batches]
      exact hM, fun _ _ _ => rfl⟩ la hla dt icfg hex δ hδ hpos
  have hI' : MatInv (shapes.map List.prod).sum (fun p q => M p q + if p = q then δ else 0) E := by
    have key : ∀ p < (shapes.map List.prod).sum, ∀ q < (shapes.map List.prod).sum,
        net.dampedBlocks cfg.sep shapes M δ p q = M p q + if p = q then δ else 0 := by
      intro p hp q hq
      conv_rhs => rw [hc.block p hp q hq]
      rfl
    intro r hr c hc'
    obtain ⟨h1, h2⟩ := hI r hr c hc'
    refine ⟨h1 ▸ Finset.sum_congr rfl fun m hm => ?_, h2 ▸ Finset.sum_congr rfl fun m hm => ?_⟩
    · rw [key r hr m (Finset.mem_range.mp hm)]
    · rw [key m (Finset.mem_range.mp hm) c hc']
  have hB : BoundedInverse (shapes.map List.prod).sum δ E := by
    refine matInv_bounded _ δ hpos _ E (fun r hr c hc' => ?_) (fun v => ?_) hI'
    · simp only [hMM r hr c hc', hMM c hc' r hr, hsym r hr c hc', eq_comm]
    · have h0 := hpsd v
      have h1 : ∑ r ∈ Finset.range (shapes.map List.prod).sum, ∑ c ∈ Finset.range (shapes.map List.prod).sum,
          v r * (M r c + if r = c then δ else 0) * v c =
          ∑ r ∈ Finset.range (shapes.map List.prod).sum, ∑ c ∈ Finset.range (shapes.map List.prod).sum, v r * M' r c * v c +
            δ * ∑ r ∈ Finset.range (shapes.map List.prod).sum, v r * v r := by
        rw [Finset.mul_sum, ← Finset.sum_add_distrib]
        refine Finset.sum_congr rfl fun r hr => ?_
        rw [Finset.sum_congr rfl fun c hc' => by rw [hMM r (Finset.mem_range.mp hr) c (Finset.mem_range.mp hc'), mul_add, add_mul],
          Finset.sum_add_distrib]
        congr 1
        simp only [mul_ite, mul_zero, ite_mul, zero_mul]
        rw [Finset.sum_ite_eq]
        simp only [hr, if_true]
        ring
      rw [h1]
      linarith
  have hpsd' := blockDiagonal_psd hs.fit _ _ ht hR
  refine ⟨E, hE, fun g y hy => ?_, damped_solvable hpsd' hpos⟩
  rw [div_mul_eq_mul_div, le_div_iff₀ (pow_pos hpos 4), mul_comm]
  have hd := damped_distance hpsd' hpos hB hI' (g := g) (y := y) hy
  refine hd.trans (mul_le_mul_of_nonneg_right hc.distance (Finset.sum_nonneg fun _ _ => sq_nonneg _))

/-- **C114** (type-2): the distance of KFAC from the block-diagonal of the GGN, and of preconditioned vectors. -/
theorem kfac_distance_type2 {cfg : KfacCfg} {shapes : List (List Nat)} {net : SeqNet D T C} (batches : List (List (NetInput D T C k)))
    (hs : net.Setting cfg shapes batches.flatten.length) (hnet : net.stages ≠ []) (hf : cfg.fisher = .type2) (hmc : cfg.mcSamples = 1)
    (hk : k = .ce → C ≠ 1) {θ : Nat → ℝ} (hd : ∀ x ∈ batches.flatten, net.DiffAt shapes θ x.h)
    (hsh : ∀ x ∈ batches.flatten, ∀ st ∈ net.stages, SharedAfter cfg st.name st.dout st.S (x.datum shapes net θ))
    (hx : ∀ x ∈ batches.flatten, x.SqrtOk shapes net θ cfg.mean) :
    (∃ M, Represents (net.kfac cfg shapes (batches.map (·.map (NetInput.datum shapes net θ)))) M ∧
      CloseTo net cfg.sep shapes (net.errorBound lossHessian cfg shapes θ batches.flatten)
        (riskMatrix (redOf cfg.mean) (datumMatrix cfg.mean T lossHessian) (batches.flatten.map (NetInput.terms shapes net θ))) M) ∧
    ∀ (seed : Nat) (shape : Nat × Nat) (progressbar : Bool) (la : LinAlg), la.Correct → ∀ (dt : FloatType) (icfg : InvCfg),
      icfg.exact = true → ∀ δ : ℝ, icfg.damping = .value δ → 0 < δ →
      ∃ E, Represents (KInvState.op (net.world shapes batches) la dt shapes ⟨.fresh θ cfg seed shape progressbar, icfg, []⟩) E ∧
        NearInverse (shapes.map List.prod).sum (net.dampedBlocks cfg.sep shapes (riskMatrix (redOf cfg.mean)
          (datumMatrix cfg.mean T lossHessian) (batches.flatten.map (NetInput.terms shapes net θ))) δ) E
          (net.errorBound lossHessian cfg shapes θ batches.flatten / δ ^ 4) := by
  have h := seqNet_distance batches hs (seqNet_type2_error batches hs hf hmc hk hd hsh hx)
  exact ⟨h, fun seed shape progressbar la hla dt icfg hex δ hδ hpos => seqNet_inverse_distance batches hs hnet
    (ggnLoss_symm_psd _ _ _ _).2 h seed shape progressbar la hla dt icfg hex δ hδ hpos⟩

/-- **C114** (empirical): the same with the empirical Fisher. -/
theorem kfac_distance_empirical {cfg : KfacCfg} {shapes : List (List Nat)} {net : SeqNet D T C} (batches : List (List (NetInput D T C k)))
    (hs : net.Setting cfg shapes batches.flatten.length) (hnet : net.stages ≠ []) (hf : cfg.fisher = .empirical) (hmc : cfg.mcSamples = 1)
    (hloss : cfg.loss = k) {θ : Nat → ℝ} (hd : ∀ x ∈ batches.flatten, net.DiffAt shapes θ x.h)
    (hsh : ∀ x ∈ batches.flatten, ∀ st ∈ net.stages, SharedAfter cfg st.name st.dout st.S (x.datum shapes net θ))
    (hx : ∀ x ∈ batches.flatten, x.GradOk shapes net θ) :
    (∃ M, Represents (net.kfac cfg shapes (batches.map (·.map (NetInput.datum shapes net θ)))) M ∧
      CloseTo net cfg.sep shapes (net.errorBound lossGradOuter cfg shapes θ batches.flatten)
        (riskMatrix (redOf cfg.mean) (datumMatrix cfg.mean T lossGradOuter) (batches.flatten.map (NetInput.terms shapes net θ))) M) ∧
    ∀ (seed : Nat) (shape : Nat × Nat) (progressbar : Bool) (la : LinAlg), la.Correct → ∀ (dt : FloatType) (icfg : InvCfg),
      icfg.exact = true → ∀ δ : ℝ, icfg.damping = .value δ → 0 < δ →
      ∃ E, Represents (KInvState.op (net.world shapes batches) la dt shapes ⟨.fresh θ cfg seed shape progressbar, icfg, []⟩) E ∧
        NearInverse (shapes.map List.prod).sum (net.dampedBlocks cfg.sep shapes (riskMatrix (redOf cfg.mean)
          (datumMatrix cfg.mean T lossGradOuter) (batches.flatten.map (NetInput.terms shapes net θ))) δ) E
          (net.errorBound lossGradOuter cfg shapes θ batches.flatten / δ ^ 4) := by
  have h := seqNet_distance batches hs (seqNet_empirical_error batches hs hf hmc hloss hd hsh hx)
  exact ⟨h, fun seed shape progressbar la hla dt icfg hex δ hδ hpos => seqNet_inverse_distance batches hs hnet
    (ef_symm_psd _ _ _ _).2 h seed shape progressbar la hla dt icfg hex δ hδ hpos⟩

/-! ## Example -/

theorem squareNet_errorBound (θ : Nat → ℝ) (x x' y y' : ℝ) :
    squareNet.errorBound lossHessian squareCfg [[1, 1]] θ [squareInput x y, squareInput x' y'] = (θ 0 ^ 2 * (x' ^ 2 - x ^ 2) ^ 2) ^ 2 := by
  unfold SeqNet.errorBound
  have hst : squareNet.stages = [⟨"0", .weight 0, 1, 1, 1, fun _ _ => 0, fun _ => 0, fun h x => h x.2, fun hz _ => hz.2 (0, 0) ^ 2 / 2⟩] := rfl
  rw [hst]
  simp only [netBlocks, List.map_cons, List.map_nil, List.sum_cons, List.sum_nil, wCols, List.getD_cons_zero, List.tail_cons, List.prod_cons,
    List.prod_nil, mul_one, Finset.sum_range_one, SeqNet.samples, layerSamples, squareCfg, List.flatMap_cons, List.flatMap_nil, List.range_one,
    List.append_nil, List.cons_append, List.nil_append, squareNet_x, square_curv, termScale, termWeight, sampleMean, sampleCov, List.length_cons, List.length_nil]
  simp
  ring

/-- Data `x`, `x'`: the bound is attained. -/
theorem kfac_distance_sharp (θ : Nat → ℝ) (x x' y y' : ℝ) :
    ∃ M, Represents (squareNet.kfac squareCfg [[1, 1]] [[(squareInput x y).datum [[1, 1]] squareNet θ], [(squareInput x' y').datum [[1, 1]] squareNet θ]]) M ∧
      (riskMatrix .sum (datumMatrix false 1 lossHessian) [(squareInput x y).terms [[1, 1]] squareNet θ,
        (squareInput x' y').terms [[1, 1]] squareNet θ] 0 0 - M 0 0) ^ 2 =
        squareNet.errorBound lossHessian squareCfg [[1, 1]] θ [squareInput x y, squareInput x' y'] := by
  obtain ⟨M, hM, h1, h2⟩ := kfac_error_witness θ x x' y y'
  refine ⟨M, hM, ?_⟩
  rw [h1, h2, squareNet_errorBound]
  ring

/-- Data `1` and `2`, `θ = 1`, damping `10`: the product of the inverse with a vector differs from the GGN's solution by at most `81 / 10⁴` times
its squared length. -/
example (y y' : ℝ) (la : LinAlg) (hla : la.Correct) (cache retry : Bool) :
    ∃ E, Represents (KInvState.op (squareNet.world [[1, 1]] [[squareInput 1 y, squareInput 2 y']]) la .lower [[1, 1]]
        ⟨.fresh (fun _ => 1) squareCfg 0 (1, 1) false, ⟨.value 10, false, 0, true, cache, retry⟩, []⟩) E ∧
      NearInverse 1 (squareNet.dampedBlocks false [[1, 1]] (riskMatrix .sum (datumMatrix false 1 lossHessian)
        [(squareInput 1 y).terms [[1, 1]] squareNet fun _ => 1, (squareInput 2 y').terms [[1, 1]] squareNet fun _ => 1]) 10) E (81 / 10 ^ 4) := by
  obtain ⟨E, hE, h⟩ := (kfac_distance_type2 [[squareInput 1 y, squareInput 2 y']] squareNet_setting (by simp [squareNet]) rfl rfl (by simp)
    (θ := fun _ => 1) (fun _ _ => squareNet_diff _ _) (fun _ _ st hst => by
      simp only [squareNet, List.mem_singleton] at hst
      subst hst
      exact sharedAfter_single rfl _ _ _)
    (fun z hz => by
      simp only [List.flatten_cons, List.flatten_nil, List.append_nil, List.mem_cons, List.not_mem_nil, or_false] at hz
      rcases hz with rfl | rfl <;> exact squareInput_sqrtOk _ _ _)).2 0 (1, 1) false la hla .lower ⟨.value 10, false, 0, true, cache, retry⟩
    rfl 10 rfl (by norm_num)
  refine ⟨E, hE, ?_⟩
  have hb : squareNet.errorBound lossHessian squareCfg [[1, 1]] (fun _ => 1) [squareInput 1 y, squareInput 2 y'] = 81 := by
    rw [squareNet_errorBound]
    norm_num
  rw [← hb]
  exact h

end Curvlinops
